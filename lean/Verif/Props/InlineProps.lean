import Verif.Props.InterpProps
import Verif.Interp.InlineEval

/-!
# C27: jitting a sub-function is transparent, anywhere in a program
-/

namespace Folx

open Folx.Interp

section
variable {F : Type} [Zero F]

theorem Inlines.outs {reg : String → Option (Prim F)} {d : ℕ} {j j' : Jaxpr (Op d F) (PArr F)} (h : Inlines reg j j') :
    j'.outvars.length = j.outvars.length := by
  cases h <;> simp [inlineAt]

theorem evalRC_eq_evalSpec {O : Type} (ev : O → List (PVal F) → Except Err (List (PVal F))) (j : Jaxpr O (PArr F))
    (h : j.ReadsOk) (cs args : List (PVal F)) :
    evalRC ev (j.map PVal.ofPlain) cs args = evalSpec ev (j.map PVal.ofPlain) cs args :=
  C06_refcount_never_loses_values _ _ _ _ fun v hv => by
    rw [readsOf_map]; exact h v (mem_map_var _ _ v hv)

/-- **C27.** Inlining a call of an unregistered jitted function — at the top level, inside other jitted functions or inside
loop bodies, at any depth — changes neither the ordinary outcome nor the outcome of the interpreter: same results (values,
Jacobians, Laplacians, sparsity) or same exception, for all constants and all arguments. -/
theorem C27_anywhere (reg : String → Option (Prim F)) (junk : List (PVal F) → PVal F) (T : ℕ) {d : ℕ}
    (j j' : Jaxpr (Op d F) (PArr F)) (h : Inlines reg j j') :
    (∀ cs args, evalLapl reg junk T d j cs args = evalLapl reg junk T d j' cs args) ∧
    ∀ cs args, evalPlain d j cs args = evalPlain d j' cs args := by
  induction h with
  | @here d constvars invars pre name sub consts as os post outs N hreg hval hsub hN hlc hli hlo hr1 hr2 hr3 =>
    constructor
    · intro cs args
      unfold evalLapl
      rw [evalRC_eq_evalSpec _ _ hr1, evalRC_eq_evalSpec _ _ hr3, inlineAt_map]
      have e : Jaxpr.map PVal.ofPlain (⟨constvars, invars, pre ++ ⟨OpStep.pjit name sub consts, as, os⟩ :: post, outs⟩ :
          Jaxpr (Op (d + 1) F) (PArr F)) =
          (⟨constvars, invars, pre.map (Eqn.map PVal.ofPlain) ++
            ⟨(OpStep.pjit name sub consts : Op (d + 1) F), as.map (Atom.map PVal.ofPlain), os⟩ ::
              post.map (Eqn.map PVal.ofPlain), outs.map (Atom.map PVal.ofPlain)⟩ :
            Jaxpr (Op (d + 1) F) (PVal F)) := by
        unfold Jaxpr.map
        dsimp only
        rw [List.map_append, List.map_cons]
        rfl
      have hval' := valid_map PVal.ofPlain _ hval
      rw [e] at hval' ⊢
      refine evalSpec_inlineAt _ (evLapl reg junk T d) (liftOp d) (fun o xs => ?_) N _ _ _ _ (sub.map PVal.ofPlain)
        (consts.map PVal.ofPlain) _ os _ _ (fun xs => ?_) hval' (valid_map _ _ hsub) ?_ (by simpa [Jaxpr.map] using hlc)
        (by simpa [Jaxpr.map] using hli) (by simpa [Jaxpr.map] using hlo) _ _
      · rw [evLapl_liftOp]
      · rw [C27_inline reg junk T d name sub consts xs hreg hr2]
        unfold evalLapl
        rw [evalRC_eq_evalSpec _ _ hr2]
      · have hb : ∀ es : List (Eqn (Op (d + 1) F) (PArr F)), boundBy (es.map (Eqn.map PVal.ofPlain)) = boundBy es := by
          intro es
          unfold boundBy
          rw [List.flatMap_map]
          rfl
        intro v hv
        apply hN v
        have := hb (pre ++ ⟨OpStep.pjit name sub consts, as, os⟩ :: post)
        rw [List.map_append, List.map_cons] at this
        rw [← this]
        exact hv
    · intro cs args
      unfold evalPlain
      exact evalSpec_inlineAt _ (evPlain d) (liftOp d) (fun o xs => by rw [evPlain_liftOp]) N _ _ _ _ sub
        consts _ os _ _ (fun xs => rfl) hval hsub hN hlc hli hlo _ _
  | @inJit d constvars invars pre name sub sub' consts as os post outs h ih =>
    have hp : evPlain (F := F) (d + 1) (OpStep.pjit name sub consts) = evPlain (d + 1) (OpStep.pjit name sub' consts) :=
      funext fun xs => ih.2 consts xs
    constructor
    · intro cs args
      unfold evalLapl Jaxpr.map
      dsimp only
      rw [List.map_append, List.map_cons, List.map_append, List.map_cons]
      refine evalRC_replace _ _ _ _ _ _ _ _ _ _ ?_ _ _
      funext xs
      rw [evLapl_pjit, evLapl_pjit, ih.2, ih.1]
    · intro cs args
      exact evalSpec_replace _ _ _ _ _ _ _ _ _ _ hp _ _
  | @inScan d constvars invars pre nConsts nCarry length reverse body body' as os post outs h ih =>
    have hp : evPlain (F := F) (d + 1) (OpStep.scan ⟨nConsts, nCarry, length, reverse, body⟩) =
        evPlain (d + 1) (OpStep.scan ⟨nConsts, nCarry, length, reverse, body'⟩) := by
      funext xs
      have hb : (fun args => evalSpec (evPlain d) body [] args) = fun args => evalSpec (evPlain d) body' [] args :=
        funext fun xs => ih.2 [] xs
      show scanPlain ⟨nConsts, nCarry, length, reverse, body⟩ _ xs = scanPlain ⟨nConsts, nCarry, length, reverse, body'⟩ _ xs
      rw [hb]
      unfold scanPlain
      dsimp only
      rw [h.outs]
    constructor
    · intro cs args
      unfold evalLapl Jaxpr.map
      dsimp only
      rw [List.map_append, List.map_cons, List.map_append, List.map_cons]
      refine evalRC_replace _ _ _ _ _ _ _ _ _ _ ?_ _ _
      funext xs
      have hb : (fun args => evalRC (evLapl reg junk T d) (body.map PVal.ofPlain) [] args) =
          fun args => evalRC (evLapl reg junk T d) (body'.map PVal.ofPlain) [] args :=
        funext fun xs => ih.1 [] xs
      have hs : scanLapl junk ⟨nConsts, nCarry, length, reverse, body⟩
            (fun args => evalRC (evLapl reg junk T d) (body.map PVal.ofPlain) [] args) xs =
          scanLapl junk ⟨nConsts, nCarry, length, reverse, body'⟩
            (fun args => evalRC (evLapl reg junk T d) (body'.map PVal.ofPlain) [] args) xs := by
        rw [hb]
        unfold scanLapl
        dsimp only
        rw [h.outs]
      unfold evLapl
      rw [hp]
      split
      · rfl
      · exact hs
    · intro cs args
      exact evalSpec_replace _ _ _ _ _ _ _ _ _ _ hp _ _

/-- **C27**, for `forward_laplacian`. -/
theorem C27_forward [One F] (reg : String → Option (Prim F)) (junk : List (PVal F) → PVal F) (t : ℚ) {d : ℕ}
    (j j' : Jaxpr (Op d F) (PArr F)) (h : Inlines reg j j') (consts : List (PArr F)) (weights : Weights F)
    (args : List (PVal F)) :
    forwardLaplacian reg junk t d j consts weights args = forwardLaplacian reg junk t d j' consts weights args := by
  unfold forwardLaplacian
  dsimp only
  cases initState (decide (0 < threshold t (args.map fun v => v.1).sum)) weights args with
  | error e => rfl
  | ok st => exact (C27_anywhere reg junk _ j j' h).1 consts st

end

namespace Demo

/-- `lambda a: jit(lambda b: sin(b))(sin(a)) * a`: the call is in the middle of the program. -/
noncomputable def jitMid : Jaxpr (Op 2 ℝ) (PArr ℝ) := ⟨[], [0], [⟨OpStep.prim sinP, [.var 0], [1]⟩] ++
  ⟨OpStep.pjit "wave" sinProg [], [.var 1], [2]⟩ :: [⟨OpStep.prim mulP, [.var 2, .var 0], [3]⟩], [.var 3]⟩

/-- `lambda a: sin(sin(a)) * a`. -/
noncomputable def noJitMid : Jaxpr (Op 2 ℝ) (PArr ℝ) := ⟨[], [0], [⟨OpStep.prim sinP, [.var 0], [1]⟩,
  ⟨OpStep.prim sinP, [.var 1], [5]⟩, ⟨OpStep.prim mulP, [.var 5, .var 0], [3]⟩], [.var 3]⟩

theorem jitMid_inlines : Inlines reg jitMid noJitMid :=
  Inlines.here (reg := reg) [] [0] [⟨OpStep.prim sinP, [.var 0], [1]⟩] "wave" sinProg [] [.var 1] [2]
    [⟨OpStep.prim mulP, [.var 2, .var 0], [3]⟩] [.var 3] 4 rfl ⟨by simp, by simp [Scoped]⟩
    ⟨by simp [sinProg], by simp [Scoped, sinProg]⟩ (by simp [boundBy]) rfl rfl rfl
    (fun v _ => le_trans (List.count_le_length ..) (by decide))
    (fun v _ => le_trans (List.count_le_length ..) (by decide))
    (fun v _ => le_trans (List.count_le_length ..) (by decide))

/-- The two functions have the same forward Laplacian for all arguments, weights and thresholds. -/
example (junk : List (PVal ℝ) → PVal ℝ) (t : ℚ) (weights : Weights ℝ) (args : List (PVal ℝ)) :
    forwardLaplacian reg junk t 2 jitMid [] weights args = forwardLaplacian reg junk t 2 noJitMid [] weights args :=
  C27_forward reg junk t _ _ jitMid_inlines [] weights args

/-- Also when both are jitted once more, or are the body of a loop. -/
example : Inlines reg (d := 3) (⟨[], [0], [] ++ ⟨OpStep.pjit "outer" jitMid [], [.var 0], [1]⟩ :: [], [.var 1]⟩)
    ⟨[], [0], [] ++ ⟨OpStep.pjit "outer" noJitMid [], [.var 0], [1]⟩ :: [], [.var 1]⟩ :=
  Inlines.inJit _ _ _ _ _ _ _ _ _ _ _ jitMid_inlines

example : Inlines reg (d := 3) (⟨[], [0], [] ++ ⟨OpStep.scan ⟨0, 1, 7, false, jitMid⟩, [.var 0], [1]⟩ :: [], [.var 1]⟩)
    ⟨[], [0], [] ++ ⟨OpStep.scan ⟨0, 1, 7, false, noJitMid⟩, [.var 0], [1]⟩ :: [], [.var 1]⟩ :=
  Inlines.inScan _ _ _ _ _ _ _ _ _ _ _ _ _ jitMid_inlines

end Demo

end Folx

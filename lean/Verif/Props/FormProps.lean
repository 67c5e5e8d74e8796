import Verif.Form.Scan
import Verif.Form.Init
import Verif.Props.ReturnProps
import Verif.Props.ScanProps

/-!
# C63, C64: the form of results is static

C63: whether `forward_laplacian` raises, which error it raises, and the form of the results (sizes, which results carry
derivatives, sparse or dense, number of Jacobian rows, masks: everything that is not a traced array) do not depend on the values
of the inputs.  Indices that select entries of masks are constants of the trace.

C64: `eval_scan` checks the carry once and restores masks that `jax.lax.scan` does not carry; that has the same effect as
checking the masks and types of the carry in every iteration.
-/

namespace Folx

open Folx.Interp

section
variable {F : Type}

theorem Prim.FormStable.mono {p : Prim F} {T : ℕ} {fixed fixed' : Fin p.nIn → Bool} (h : p.FormStable T fixed)
    (hf : ∀ i, fixed i = true → fixed' i = true) : p.FormStable T fixed' :=
  fun o o' ho he => h o o' ho fun i hi => he i (hf i hi)

/-- **C63**, any program over rules of static form.  Two runs on arguments of the same form (equal where `bs` says so) raise the
same error or return values of the same form. -/
theorem C63_program [Zero F] (reg : String → Option (Prim F)) (junk : List (PVal F) → PVal F) (hj : JunkStable junk) (T d : ℕ)
    (j : Jaxpr (Op d F) (PArr F)) (consts : List (PArr F)) (bs : List Bool) (h : JaxprStable (OpStable reg T d) j bs)
    (args args' : List (PVal F)) (ha : Match PVal.Same bs args args') :
    ExRel (List.Forall₂ PVal.Same) (evalLapl reg junk T d j consts args) (evalLapl reg junk T d j consts args') :=
  JaxprStable.evalRC (fun op bs => evLapl_same reg hj T d op bs) h _ ha

/-- **C63**, the entry point: `forward_laplacian(fn)` at two inputs of the same shapes. -/
theorem C63_forward [Zero F] [One F] (reg : String → Option (Prim F)) (junk : List (PVal F) → PVal F) (hj : JunkStable junk) (t : ℚ)
    (d : ℕ) (j : Jaxpr (Op d F) (PArr F)) (consts : List (PArr F)) (weights : Weights F) (args args' : List (PVal F))
    (ha : List.Forall₂ PVal.Same args args')
    (h : ∀ T, JaxprStable (OpStable reg T d) j (j.invars.map fun _ => false)) :
    ExRel (List.Forall₂ PVal.Same) (forwardLaplacian reg junk t d j consts weights args)
      (forwardLaplacian reg junk t d j consts weights args') := by
  unfold forwardLaplacian
  dsimp only
  have hs : (args.map fun v => v.1) = args'.map fun v => v.1 := by
    induction ha with
    | nil => rfl
    | cons h1 _ ih => rw [List.map_cons, List.map_cons, ih, h1.size]
  rw [hs]
  obtain ⟨e, k1, k2⟩ | ⟨ys, ys', k1, k2, hy⟩ :=
    (initState_same (decide (0 < threshold t (args'.map fun v => v.1).sum)) weights ha).elim
  · rw [k1, k2]; exact .error e
  rw [k1, k2]
  dsimp only
  refine C63_program reg junk hj _ d j consts (ys.map fun _ => false) ?_ ys ys' (Match.loose hy)
  obtain ⟨fx, hm, he⟩ := h (threshold t (args'.map fun v => v.1).sum).toNat
  refine ⟨fx, ⟨fun p hp hfx => ?_, hm.eqns⟩, he⟩
  have h1 := (List.of_mem_zip hp).1
  obtain ⟨i, hi, hpi⟩ := List.mem_iff_getElem.mp h1
  have := hm.inputs (p.1, false) (List.mem_iff_getElem.mpr ⟨i, by simpa using hi, by simp [hpi]⟩) hfx
  cases this

end

/-! ### The functions in the registry -/

/-- **C63**, the registry: two calls of a registered function on operands of the same form, with the same indices, raise the
same error or return values of the same form. -/
theorem C63_builtIn {name : String} {p : Prim ℝ} {dom : ((i : Fin p.nIn) → Fin (p.size i) → ℝ) → Prop} {index : Fin p.nIn → Bool}
    {sp : Prop} (h : BuiltIn name p dom index sp) (T : ℕ) (o o' : (i : Fin p.nIn) → Opd ℝ (p.size i))
    (ho : ∀ i, (o i).Same (o' i)) (hi : ∀ i, index i = true → o i = o' i) :
    ExRel (fun r r' => ∀ j, (r j).Same (r' j)) (p.rule T o) (p.rule T o') := h.formStable T o o' ho hi

/-- Every primitive is in the registry, and its index operands are among the operands `bs` that do not change; the same in
nested programs, for which `Inner` says it. -/
def UsesBuiltIns (reg : String → Option (Prim ℝ)) : (d : ℕ) → Op d ℝ → List Bool → Prop
  | 0, op, _ => nomatch op
  | _ + 1, .prim p, bs => ∃ name dom index sp, BuiltIn name p dom index sp ∧ ∀ i, index i = true → flagsAt bs i = true
  | d + 1, .pjit name j _, bs =>
    match reg name with
    | some p => ∃ name dom index sp, BuiltIn name p dom index sp ∧ ∀ i, index i = true → flagsAt bs i = true
    | none => JaxprStable (UsesBuiltIns reg d) j bs
  | d + 1, .scan s, bs => JaxprStable (UsesBuiltIns reg d) s.body (bs.take s.numConsts ++
      ((bs.drop s.numConsts).take s.numCarry).map (fun _ => false) ++ (bs.drop s.numConsts).drop s.numCarry)

theorem JaxprStable.imp {F O : Type} {P P' : O → List Bool → Prop} (h : ∀ op bs, P op bs → P' op bs) {j : Jaxpr O (PArr F)}
    {bs : List Bool} (hj : JaxprStable P j bs) : JaxprStable P' j bs := by
  obtain ⟨fx, hm, he⟩ := hj
  exact ⟨fx, hm, fun e he' => h _ _ (he e he')⟩

theorem UsesBuiltIns.stable {reg : String → Option (Prim ℝ)} (T : ℕ) : ∀ (d : ℕ) (op : Op d ℝ) (bs : List Bool),
    UsesBuiltIns reg d op bs → OpStable reg T d op bs
  | 0, op, _, _ => nomatch op
  | _ + 1, .prim p, bs, h => by
    obtain ⟨_, _, _, _, hb, hi⟩ := h
    exact (hb.formStable T).mono hi
  | d + 1, .pjit name j c, bs, h => by
    replace h : match reg name with
      | some p => ∃ name dom index sp, BuiltIn name p dom index sp ∧ ∀ i, index i = true → flagsAt bs i = true
      | none => JaxprStable (UsesBuiltIns reg d) j bs := h
    cases hr : reg name with
    | some p =>
      rw [hr] at h
      obtain ⟨_, _, _, _, hb, hi⟩ := h
      exact (OpStable.pjit_some hr j c bs).mpr ((hb.formStable T).mono hi)
    | none =>
      rw [hr] at h
      exact (OpStable.pjit_none hr j c bs).mpr (JaxprStable.imp (UsesBuiltIns.stable T d) h)
  | d + 1, .scan s, bs, h => JaxprStable.imp (UsesBuiltIns.stable T d) h

/-- **C63.**  For a function over the registered functions whose indices do not depend on its inputs, at any two inputs of the
same shapes: `forward_laplacian` raises the same error, or returns values of the same form. -/
theorem C63_correct (reg : String → Option (Prim ℝ)) (junk : List (PVal ℝ) → PVal ℝ) (hj : JunkStable junk) (t : ℚ) (d : ℕ)
    (j : Jaxpr (Op d ℝ) (PArr ℝ)) (consts : List (PArr ℝ)) (weights : Weights ℝ)
    (h : JaxprStable (UsesBuiltIns reg d) j (j.invars.map fun _ => false)) (xs xs' : List (PArr ℝ))
    (hx : (xs.map fun a => a.1) = xs'.map fun a => a.1) :
    ExRel (List.Forall₂ PVal.Same) (forwardLaplacian reg junk t d j consts weights (xs.map PVal.ofPlain))
      (forwardLaplacian reg junk t d j consts weights (xs'.map PVal.ofPlain)) := by
  refine C63_forward reg junk hj t d j consts weights _ _ ?_ fun T => JaxprStable.imp (UsesBuiltIns.stable T d) h
  have : List.Forall₂ PArr.Same xs xs' := by
    induction xs generalizing xs' with
    | nil =>
      cases xs' with
      | nil => exact .nil
      | cons a l => simp at hx
    | cons a l ih =>
      cases xs' with
      | nil => simp at hx
      | cons a' l' =>
        simp only [List.map_cons, List.cons.injEq] at hx
        exact .cons hx.1 (ih l' hx.2)
  exact forall₂_map_same (f := PVal.ofPlain) (fun _ _ h => PVal.same_ofPlain h) this

/-! ### Scans -/

/-- **C64.**  If the form of what the bodies of scans return does not depend on the values of carries and slices (C63: only
their constants may be used as indices), a program evaluated with `eval_scan` as written, whatever `jax.lax.scan` does to the
masks it does not carry, returns or raises what it returns or raises when the carry is checked in every iteration. -/
theorem C64_correct {F : Type} [Zero F] (σ : List (PVal F) → List (PVal F)) (hσ : KeepsData σ) (reg : String → Option (Prim F))
    (junk : List (PVal F) → PVal F) (hj : JunkStable junk) (T d : ℕ) (j : Jaxpr (Op d F) (PArr F)) (consts : List (PArr F))
    (h : ∀ e ∈ j.eqns, ScansStable reg T d e.op) (args : List (PVal F)) :
    evalRC (evOnce σ reg junk T d) (j.map PVal.ofPlain) (consts.map PVal.ofPlain) args =
      evalLapl reg junk T d j consts args := by
  refine evalRC_congr _ (fun e he => ?_) _ _
  obtain ⟨e0, he0, rfl⟩ := List.mem_map.mp he
  exact evOnce_eq hσ reg hj T d e0.op (h e0 he0)

/-! ### Examples -/

namespace Demo

/-- What a scan makes of its per-step outputs (`stackedY`, C29) has a form that depends only on theirs. -/
theorem stackedY_stable {F : Type} [Zero F] (other : List (PVal F) → PVal F) (h : JunkStable other) : JunkStable (stackedY other) := by
  intro l l' hl
  have h1 : (l.map fun v => v.sig) = l'.map fun v => v.sig := by
    induction hl with
    | nil => rfl
    | cons h1 _ ih => rw [List.map_cons, List.map_cons, ih, show _ = _ from h1]
  have hall : l.all (fun v => v.2.isLapl && !v.2.trip.jac.weak && v.2.trip.jac.nrows == l.length) =
      l'.all (fun v => v.2.isLapl && !v.2.trip.jac.weak && v.2.trip.jac.nrows == l'.length) := by
    rw [hl.length_eq]
    generalize l'.length = n
    clear h1
    induction hl with
    | nil => rfl
    | cons h1 _ ih =>
      obtain ⟨m, o, o', rfl, rfl, ho⟩ := PVal.same_iff.mp h1
      rw [List.all_cons, List.all_cons, ih]
      obtain ⟨x, y, rfl, rfl⟩ | ⟨t, t', rfl, rfl, ht⟩ := ho.both
      · rfl
      · have hn : t.jac.nrows = t'.jac.nrows := by
          rcases ht.cases with ⟨r, r', e, e', hl⟩ | ⟨r, r', e, e', hl⟩
          · rw [e, e']; exact hl
          · rw [e, e']
            have hlen : r.length = r'.length := by simpa using congrArg List.length hl
            exact hlen
        simp only [Opd.isLapl, Opd.trip, ht.1, hn]
  unfold stackedY
  dsimp only
  rw [hall]
  split
  · refine PVal.same_iff.mpr ?_
    have hs : PArr.Same (stackArrs (l.map fun v => (⟨v.1, v.2.x⟩ : PArr F))) (stackArrs (l'.map fun v => ⟨v.1, v.2.x⟩)) :=
      stackArrs_same (forall₂_map_same (f := fun v : PVal F => (⟨v.1, v.2.x⟩ : PArr F)) (fun _ _ h => val_same h) hl)
    revert hs
    generalize stackArrs (l.map fun v => (⟨v.1, v.2.x⟩ : PArr F)) = a
    generalize stackArrs (l'.map fun v => (⟨v.1, v.2.x⟩ : PArr F)) = a'
    obtain ⟨m, a⟩ := a
    obtain ⟨m', a'⟩ := a'
    intro hs
    obtain rfl : m = m' := hs
    refine ⟨m, _, _, rfl, rfl, ?_⟩
    exact Jac.same_dense.mpr (by simp only [List.length_map]; exact hl.length_eq)
  · exact h l l' hl

/-- Nothing among the inputs is fixed: no variable is marked. -/
theorem unmarked {O V : Type} (invars : List Var) (eqns : List (Eqn O V)) (bs : List Bool) : Marked (fun _ => false) invars eqns bs :=
  ⟨fun _ _ h => (by simp at h), fun _ _ _ _ h => (by simp at h)⟩

/-- At any two inputs, with any threshold and weights, the program `tanh(y @ y.T).sum()` gives results of the same form. -/
example (t : ℚ) (weights : Weights ℝ) (x x' : Fin 4 → ℝ) :
    ExRel (List.Forall₂ PVal.Same) (forwardLaplacian reg (stackedY fun _ => ⟨0, .plain fun _ => 0⟩) t 1 gram [] weights [⟨4, .plain x⟩])
      (forwardLaplacian reg (stackedY fun _ => ⟨0, .plain fun _ => 0⟩) t 1 gram [] weights [⟨4, .plain x'⟩]) := by
  refine C63_correct reg _ ?_ t 1 gram [] weights ⟨fun _ => false, unmarked _ _ _, fun e he => ?_⟩ [⟨4, x⟩] [⟨4, x'⟩] rfl
  · exact stackedY_stable _ fun _ _ _ => rfl
  · obtain ⟨p, hp, name, dom, index, sp, hb, -, -, hi⟩ := gram_ok e he
    rw [hp]
    exact ⟨name, dom, index, sp, hb, fun i h => absurd ((hi i).symm.trans h) (by simp)⟩

/-- `lax.dynamic_slice(x, (1,), (2,))` with literal index, then `sin`: the index operand is marked. -/
noncomputable def window : Jaxpr (Op 1 ℝ) (PArr ℝ) where
  constvars := []
  invars := [0]
  eqns := [
    ⟨OpStep.prim ((dynamicSliceOp [4] [2] (by decide)).prim ℝ true true), [.var 0, .lit ⟨1, fun _ => 1⟩], [1]⟩,
    ⟨OpStep.prim sinP, [.var 1], [2]⟩]
  outvars := [.var 2]

theorem sinP_stable (T : ℕ) (fixed : Fin 1 → Bool) : sinP.FormStable T fixed :=
  (elem_fixed (F := ℝ) (size := fun _ => 2) (φ := fun z => Real.sin (z 0)) (flags := Flags.GENERAL) (π := fun _ q => q)
    (same := fun _ => some (Equiv.refl _)) (custom := fun _ _ _ => none) fixed fun _ _ _ _ => trivial).stable T

example (junk : List (PVal ℝ) → PVal ℝ) (hj : JunkStable junk) (t : ℚ) (weights : Weights ℝ) (x x' : Fin 4 → ℝ) :
    ExRel (List.Forall₂ PVal.Same) (forwardLaplacian reg junk t 1 window [] weights [⟨4, .plain x⟩])
      (forwardLaplacian reg junk t 1 window [] weights [⟨4, .plain x'⟩]) := by
  refine C63_forward reg junk hj t 1 window [] weights _ _ (.cons rfl .nil) fun T =>
    ⟨fun _ => false, unmarked _ _ _, fun e he => ?_⟩
  simp only [window, List.mem_cons, List.not_mem_nil, or_false] at he
  rcases he with rfl | rfl
  · exact ((BuiltIn.dynamicSlice [4] [2] (by decide) rfl (by decide) true true).formStable T).mono fun i hi => by
      revert i
      intro (i : Fin 2) hi
      fin_cases i
      · simp at hi
      · rfl
  · exact sinP_stable T _

/-- What `jax.lax.scan` could do at worst: forget all masks. -/
def forgetMasks {F : Type} (c : List (PVal F)) : List (PVal F) := c.map fun v =>
  match v with
  | ⟨m, .plain x⟩ => ⟨m, .plain x⟩
  | ⟨m, .lapl t⟩ => ⟨m, .lapl ⟨t.x, .dense t.jac.values, t.lapl⟩⟩

theorem forgetMasks_keeps {F : Type} : KeepsData (forgetMasks (F := F)) := by
  intro c
  unfold forgetMasks
  rw [List.forall₂_map_left_iff]
  refine List.forall₂_same.mpr fun v _ => ?_
  obtain ⟨m, o⟩ := v
  cases o with
  | plain x => exact .plain m x
  | lapl t => exact .lapl m t.x t.lapl _ t.jac rfl

/-- `for _ in range(L): a = sin(a)` on any arguments, sparse or dense, forgetting the masks between the iterations. -/
example (junk : List (PVal ℝ) → PVal ℝ) (hj : JunkStable junk) (T L : ℕ) (rev : Bool) (args : List (PVal ℝ)) :
    evalRC (evOnce forgetMasks reg junk T 2) ((loopProg (sinLoop L rev)).map PVal.ofPlain) [] args =
      evalLapl reg junk T 2 (loopProg (sinLoop L rev)) [] args := by
  refine C64_correct forgetMasks forgetMasks_keeps reg junk hj T 2 (loopProg (sinLoop L rev)) [] (fun e he => ?_) args
  simp only [loopProg, List.mem_cons, List.not_mem_nil, or_false] at he
  subst he
  refine ⟨⟨fun _ => false, unmarked _ _ _, fun e he => ?_⟩, fun e he => ?_⟩
  · simp only [sinLoop, sinProg, List.mem_cons, List.not_mem_nil, or_false] at he
    subst he
    exact sinP_stable T _
  · simp only [sinLoop, sinProg, List.mem_cons, List.not_mem_nil, or_false] at he
    subst he
    trivial

end Demo

end Folx

import Verif.ND.ArrGood
import Verif.Props.ArrProgProps
import Verif.Props.DotProps

/-!
# C70: `dot_general` on arrays

The rule of `dot_general` with the code's array-level operators: rearrangements, multiplication and sum, and the wrapped dot product of the last axes, for every layout of the operands'
Jacobians.  `contraction` (`Verif/ND/DotSpec.lean`) is the specification.
-/

namespace Folx
open Filter Topology
open Folx.Interp Folx.Layout Folx.Vmap Folx.Dot

section
variable {F : Type} [RCLike F]

attribute [local instance] instInhabitedScalar

/-- **C70 (rule, sparsity disabled).**  For operands of every shape (with elements) and all well-formed dimension numbers, whenever the rule returns, it returns value, Jacobian
and Laplacian of the contraction. -/
theorem C70_rule_dense (T n : ℕ) (hn : 0 < n) (dd : DotDims) (ls rs : List ℕ) (h : dd.Ok ls rs) (hl : 0 ∉ ls) (hr : 0 ∉ rs) (x : (i : Fin 2) → Fin (two ls rs i).prod → F) :
    (dotArrPrim dd ls rs).ExactRule false T n x :=
  exactRule_of_sound _ _ _ _ _ (dotArr_sound (arrSound_dense T n hn) (fun _ _ _ hJ => hJ.1) h hl hr (fun h => absurd h (by decide)) x)

/-- **C70 (rule, sparsity enabled).**  The same for every threshold and every layout of the Jacobians, on both paths, if the result has no axis of size 1 (B9) and outside of the
cases in which the fast path computes something else (B20, `C31_counterexample_*`). -/
theorem C70_rule_sparse (T n : ℕ) (hn : 0 < n) (dd : DotDims) (ls rs : List ℕ) (h : dd.Ok ls rs) (hl : 0 ∉ ls) (hr : 0 ∉ rs) (h1 : 1 ∉ outShape dd ls rs)
    (hs : interEqIn (leftShape dd ls rs) (rightShape dd ls rs) = true → noTranspose dd ls.length rs.length = true →
      freeOf rs.length dd.rc dd.rb = [] ∧ (freeOf ls.length dd.lc dd.lb = [] ∨ dd.lb = []))
    (w : Fin n → ℝ) (x : Fin n → ℝ) (o : (i : Fin 2) → Opd F (two ls rs i).prod) (u : (i : Fin 2) → (Fin n → ℝ) → Fin (two ls rs i).prod → F)
    (ho : ∀ i, Holds (arrInv T n) w x (o i) (u i)) (hd : ∃ i, (o i).isLapl = true) (r : (j : Fin 1) → Opd F (outShape dd ls rs).prod)
    (hr : (dotArrPrim dd ls rs).rule T o = .ok r) (j : Fin 1) :
    Holds (arrInv T n) w x (r j) fun z => vecOf (contraction dd (toND ls (u 0 z)) (toND rs (u 1 z))) _ :=
  (holds_iff _ w x _ _).mpr (dotArr_sound (arrSound_sparse T n hn) (fun h => absurd h (by decide)) h hl ‹0 ∉ rs› (fun _ => ⟨h1, fun h2 h3 => ⟨(hs h2 h3).1, (hs h2 h3).2⟩⟩)
    (fun i => u i x) (Fin n → ℝ) (inputBase w x) o u r rfl (fun _ => rfl) (fun i => (holds_iff _ w x _ _).mp (ho i)) hd hr j)

/-- **C70 (rule, sparsity disabled).**  It does return. -/
theorem C70_returns (T n : ℕ) (hn : 0 < n) (dd : DotDims) (ls rs : List ℕ) (h : dd.Ok ls rs) (hl : 0 ∉ ls) (hr : 0 ∉ rs) (x : (i : Fin 2) → Fin (two ls rs i).prod → F) :
    (dotArrPrim dd ls rs).TotalAt T n x := dotArr_total hn h hl hr x

/-- **C70 (programs).**  `dot_general` is a function of array programs (C59), with sparsity disabled for every shape and all well-formed dimension numbers. -/
theorem C70_good [Inhabited F] (sp : Bool) (n : ℕ) (dd : DotDims) (ls rs : List ℕ) (h : dd.Ok ls rs) (hl : 0 ∉ ls) (hr : 0 ∉ rs)
    (hs : sp = true → 1 ∉ outShape dd ls rs ∧ (interEqIn (leftShape dd ls rs) (rightShape dd ls rs) = true → noTranspose dd ls.length rs.length = true →
      freeOf rs.length dd.rc dd.rb = [] ∧ (freeOf ls.length dd.lc dd.lb = [] ∨ dd.lb = [])))
    (x : (i : Fin 2) → Fin (two ls rs i).prod → F) : ArrGood sp n (dotArrPrim dd ls rs) x :=
  .dot dd ls rs h hl hr (fun hp => ⟨(hs hp).1, fun h2 h3 => ⟨((hs hp).2 h2 h3).1, ((hs hp).2 h2 h3).2⟩⟩) x

end

/-! ### A program: `jnp.exp(x) @ x` for a (2, 2) array -/

namespace DotArrDemo
open ArrDemo

noncomputable def expA : ArrFn ℝ (k := 1) (fun _ => [2, 2]) [2, 2] :=
  ewFn (k := 1) Flags.GENERAL true (fun _ => [2, 2]) [2, 2] (fun z : Fin 1 → ℝ => Real.exp (z 0)) (fun z => Real.exp (z 0) • LinearMap.proj 0)
    fun z => Real.exp (z 0) • (LinearMap.mul ℝ ℝ).compl₁₂ (LinearMap.proj 0) (LinearMap.proj 0)

noncomputable def expP : Prim ℝ := expA.prim fun _ => none

/-- `lhs @ rhs`. -/
def mm : DotDims := ⟨[1], [0], [], []⟩

noncomputable def dotP : Prim ℝ := dotArrPrim mm [2, 2] [2, 2]

theorem mm_ok : mm.Ok [2, 2] [2, 2] := ⟨by decide, by decide, by decide, by decide, by decide, by decide⟩

theorem exp_true (x : (i : Fin 1) → Fin ([2, 2] : List ℕ).prod → ℝ) : expA.Truthful (m := 0) (fun _ => none) [2, 2] (fun _ z _ => Real.exp (onlyMap (fun _ : Fin 1 => [2, 2]) z 0)) x :=
  ew_truthful (m := 0) (fun _ => by decide) (by decide) (broadcastShapes_iff.mp (by decide +kernel)) (by decide) (fun p _ => by
      set z : Fin 1 → ℝ := numsAt (m := 0) _ _ x p
      obtain ⟨H, g1, g2⟩ := exp_exact (ContinuousLinearMap.proj (R := ℝ) (φ := fun _ : Fin 1 => ℝ) 0) z
      exact ⟨_, H, g1, fun t => rfl, fun s t => g2 s t⟩) fun h => absurd h (by decide)

theorem exp_good (sp : Bool) (n : ℕ) (x : (i : Fin 1) → Fin ([2, 2] : List ℕ).prod → ℝ) : ArrGood sp n expP x :=
  .array expA _ _ _ x (exp_true x) fun _ => ew_safe (m := 0) (by decide) (by decide) (by decide) (by decide)

theorem exp_bind (a : Fin 4 → ℝ) : expP.bind [⟨4, a⟩] = .ok [⟨4, fun q => Real.exp (a q)⟩] := by
  have h : expA.fwd (fun _ => a) = fun q : Fin 4 => Real.exp (a q) := by
    funext q
    exact congrArg (fun z : Fin 1 → ℝ => Real.exp (z 0)) (pick_same (k := 1) (s := [2, 2]) (broadcastShapes_iff.mp (by decide +kernel)) (fun _ => a) q)
  have h2 : expP.bind [⟨4, a⟩] = .ok [⟨4, expA.fwd (fun _ => a)⟩] := bind_of expP _ (fun _ => a) rfl
  rw [h2]
  exact congrArg (fun r => Except.ok [(⟨4, r⟩ : PArr ℝ)]) h

/-- The product of two matrices. -/
noncomputable def matmul (a b : Fin 4 → ℝ) : Fin 4 → ℝ := ![a 0 * b 0 + a 1 * b 2, a 0 * b 1 + a 1 * b 3, a 2 * b 0 + a 3 * b 2, a 2 * b 1 + a 3 * b 3]

theorem dot_bind (a b : Fin 4 → ℝ) : dotP.bind [⟨4, a⟩, ⟨4, b⟩] = .ok [⟨4, matmul a b⟩] := by
  have h : (vecOf (contraction mm (toND [2, 2] a) (toND [2, 2] b)) 4 : Fin 4 → ℝ) = matmul a b := by
    have hv : ∀ i j : ℕ, i < 2 → j < 2 → (contraction mm (toND [2, 2] a) (toND [2, 2] b)).data.getD (2 * i + j) default =
        (toND [2, 2] a).get [i, 0] * (toND [2, 2] b).get [0, j] + (toND [2, 2] a).get [i, 1] * (toND [2, 2] b).get [1, j] := fun i j hi hj => by
      have e := contraction_matmul (x := toND [2, 2] a) (y := toND [2, 2] b) (m := 2) (k := 2) (n := 2) rfl rfl i j hi hj
      have e2 : (contraction mm (toND [2, 2] a) (toND [2, 2] b)).get [i, j] = (contraction mm (toND [2, 2] a) (toND [2, 2] b)).data.getD (2 * i + j) default := by
        have : ravelIdx [2, 2] [i, j] = 2 * i + j := by simp [ravelIdx]; omega
        rw [← this]
        rfl
      rw [← e2]
      refine e.trans ?_
      simp [List.range_succ]
    funext q
    fin_cases q
    · exact hv 0 0 (by decide) (by decide)
    · exact hv 0 1 (by decide) (by decide)
    · exact hv 1 0 (by decide) (by decide)
    · exact hv 1 1 (by decide) (by decide)
  have h2 : dotP.bind [⟨4, a⟩, ⟨4, b⟩] = .ok [⟨4, vecOf (contraction mm (toND [2, 2] a) (toND [2, 2] b)) 4⟩] :=
    bind_of dotP _ (pairVec (s := [2, 2]) (t := [2, 2]) a b) rfl
  rw [h2]
  exact congrArg (fun r => Except.ok [(⟨4, r⟩ : PArr ℝ)]) h

theorem unflat_four (x : Fin 4 → ℝ) : unflat [4] x = [(⟨4, x⟩ : PArr ℝ)] := by
  unfold unflat
  simp only [blocks, List.cons.injEq, Sigma.mk.injEq, heq_eq_eq, true_and, and_true]
  funext p
  have : 0 + p.1 < 4 := by omega
  unfold coord
  rw [dif_pos this]
  simp

noncomputable def prog : Jaxpr (Op 1 ℝ) (PArr ℝ) where
  constvars := []
  invars := [0]
  eqns := [⟨OpStep.prim expP, [.var 0], [1]⟩, ⟨OpStep.prim dotP, [.var 1, .var 0], [2]⟩]
  outvars := [.var 2]

theorem dot_good (sp : Bool) (n : ℕ) (x : (i : Fin 2) → Fin (two [2, 2] [2, 2] i).prod → ℝ) : ArrGood sp n dotP x :=
  C70_good sp n mm [2, 2] [2, 2] mm_ok (by decide) (by decide) (fun _ => ⟨by decide, fun h => absurd h (by decide)⟩) x

theorem prog_dom (good : (p : Prim ℝ) → ((i : Fin p.nIn) → Fin (p.size i) → ℝ) → Prop) (h1 : ∀ x, good expP x) (h2 : ∀ x, good dotP x) (x : Fin 4 → ℝ) :
    DomProg (evPlain 1) (DomP Demo.reg good 1) prog [] (unflat [4] x) := by
  rw [unflat_four]
  intro s hs
  obtain rfl := Except.ok.inj hs
  refine Demo.domRun_step _ _ rfl (fun x _ => h1 x) (exp_bind x) _ rfl ?_
  exact Demo.domRun_step _ _ rfl (fun x _ => h2 x) (dot_bind _ x) _ rfl trivial

/-- With and without sparsity, everywhere. -/
theorem prog_ok (sp : Bool) (x : Fin 4 → ℝ) : ArrayProgramOk sp Demo.reg 1 prog [] [4] x := prog_dom _ (exp_good sp 4) (dot_good sp 4) x

theorem prog_eval (x : Fin 4 → ℝ) : evalPlain 1 prog [] (unflat [4] x) = .ok [⟨4, matmul (fun q => Real.exp (x q)) x⟩] := by
  rw [unflat_four]
  have h1 : evPlain 1 (OpStep.prim expP) [⟨4, x⟩] = .ok [⟨4, fun q => Real.exp (x q)⟩] := exp_bind x
  exact eval_of (ev := evPlain 1) (j := prog) rfl (run_step _ _ rfl h1 _ rfl (run_step _ _ rfl (dot_bind (fun q => Real.exp (x q)) x) _ rfl rfl)) rfl

end DotArrDemo

open DotArrDemo in
/-- Every threshold: whenever the forward Laplacian returns, it returns the derivatives of `exp(x) @ x`. -/
example (junk : List (PVal ℝ) → PVal ℝ) (t : ℚ) (x : Fin 4 → ℝ) (ys : List (PVal ℝ)) (h : forwardLaplacian Demo.reg junk t 1 DotArrDemo.prog [] .absent (plainArgs [4] x) = .ok ys) :
    List.Forall₂ (Correct x) ys [⟨4, fun z => matmul (fun q => Real.exp (z q)) z⟩] := by
  obtain ⟨f, f1, f2⟩ := C59_correct Demo.reg junk t (n := 4) (by decide) [4] rfl 1 DotArrDemo.prog [] x (DotArrDemo.prog_ok _ x) ys h
  have hf := fun z => (f1 z).symm.trans (DotArrDemo.prog_eval z)
  rw [farr_ext f [⟨4, fun z => matmul (fun q => Real.exp (z q)) z⟩] fun z => Except.ok.inj (hf z)] at f2
  exact f2

open DotArrDemo in
/-- With sparsity disabled it returns. -/
example (junk : List (PVal ℝ) → PVal ℝ) (x : Fin 4 → ℝ) : ∃ ys, forwardLaplacian Demo.reg junk 0 1 DotArrDemo.prog [] .absent (plainArgs [4] x) = .ok ys :=
  C59_total Demo.reg junk 0 (n := 4) (by decide) [4] rfl (by decide) 1 DotArrDemo.prog [] x
    (DotArrDemo.prog_dom _ (fun v => ⟨DotArrDemo.exp_good _ _ v, fun _ => prim_total (by decide) (DotArrDemo.exp_true v)⟩)
      (fun v => ⟨DotArrDemo.dot_good _ _ v, fun _ => dotArr_total (by decide) mm_ok (by decide) (by decide) v⟩) x)
    (by
      intro e he
      simp only [DotArrDemo.prog, List.mem_cons, List.not_mem_nil, or_false] at he
      rcases he with rfl | rfl <;> trivial)
    (fun v _ => le_trans (List.count_le_length ..) (by decide)) _ (DotArrDemo.prog_eval x)

/-- `einsum('ik,k->i')` with sparse operands: the fast path without transpositions. -/
example (n : ℕ) (x : (i : Fin 2) → Fin (two [3, 2] [2] i).prod → ℝ) : ArrGood true n (dotArrPrim (F := ℝ) ⟨[1], [0], [], []⟩ [3, 2] [2]) x ∧
    interEqIn (leftShape ⟨[1], [0], [], []⟩ [3, 2] [2]) (rightShape ⟨[1], [0], [], []⟩ [3, 2] [2]) = true ∧ noTranspose ⟨[1], [0], [], []⟩ 2 1 = true :=
  ⟨C70_good true n _ _ _ ⟨by decide, by decide, by decide, by decide, by decide, by decide⟩ (by decide) (by decide) (fun _ => ⟨by decide, fun _ _ => by decide⟩) x, by decide, by decide⟩

/-- A batched product with transpositions, `einsum('bik,kbj->bij')`. -/
example (n : ℕ) (x : (i : Fin 2) → Fin (two [2, 3, 2] [2, 2, 4] i).prod → ℝ) : ArrGood true n (dotArrPrim (F := ℝ) DotDemo.dd1 [2, 3, 2] [2, 2, 4]) x :=
  C70_good true n _ _ _ ⟨by decide, by decide, by decide, by decide, by decide, by decide⟩ (by decide) (by decide) (fun _ => ⟨by decide, fun _ h => absurd h (by decide)⟩) x

end Folx

import Verif.ND.CallReturns
import Verif.Props.ElemArrProps

/-!
# C62: `forward_laplacian` of array programs returns, with every threshold

C59 says what a run returns; here, for programs of elementwise functions, sums and indexing of arrays (`ArrTotal`, `Verif/ND/CallReturns.lean`), that the run does return:
with sparse Jacobians too, in every program, whatever masks come up on the way.
-/

namespace Folx
open Filter Topology
open Folx.Interp Folx.Layout Folx.Vmap

section
variable {F : Type} [RCLike F] [Inhabited F]

/-- **C62.**  If the program runs at `x` and meets only such functions, `forward_laplacian` returns, for every threshold, and returns the value, the gradient and the
Laplacian at `x` of the function that the program computes. -/
theorem C62_correct (reg : String → Option (Prim F)) (junk : List (PVal F) → PVal F) (t : ℚ) {n : ℕ}
    (hn : 0 < n) (sizes : List ℕ) (hs : sizes.sum = n) (d : ℕ) (j : Jaxpr (Op d F) (PArr F)) (consts : List (PArr F)) (x : Fin n → ℝ)
    (hd : DomProg (evPlain d) (DomP reg (ArrTotal (decide (0 < threshold t n)) n) d) j consts (unflat sizes x))
    (hns : ∀ e ∈ j.eqns, NoScan reg d e.op)
    (hbound : ∀ v, Atom.var v ∈ j.outvars → (readsOf j.eqns j.outvars).count v ≤ 2147483647)
    (zs : List (PArr F)) (he : evalPlain d j consts (unflat sizes x) = .ok zs) :
    ∃ ys, forwardLaplacian reg junk t d j consts .absent (plainArgs sizes x) = .ok ys ∧
      ∃ f : List (FArr (Fin n → ℝ) F), (∀ z, evalPlain d j consts (unflat sizes z) = .ok (f.map fun g => g.at z)) ∧ List.Forall₂ (Correct x) ys f := by
  have hne : sizes ≠ [] := by
    rintro rfl
    simp at hs
    omega
  obtain ⟨ys, hys⟩ : ∃ ys, forwardLaplacian reg junk t d j consts .absent (plainArgs sizes x) = .ok ys := by
    unfold forwardLaplacian
    rw [sizes_plainArgs, hs]
    dsimp only
    generalize hsp : decide (0 < threshold t n) = sp at hd ⊢
    unfold plainArgs
    rw [initState_eq sp .absent sizes hne hs (fun _ => 1) x (weights_absent sizes hs)]
    dsimp only
    refine evalLapl_returnsInv (inputBase (fun _ => 1) x) (if sp then arrInv (threshold t n).toNat n else denseInv n) reg junk _ (ArrTotal sp n)
      (fun p v hv => ?_) (fun p v hv => hv.returns _ hn) d j hns hbound consts _ (inputFns n 0 sizes) zs ?_ ?_ ?_
    · cases sp with
      | true => exact arrGood_sparse _ n hn p v hv.good
      | false => exact arrGood_dense _ n hn p v hv.good
    · apply initSpec_represents' _ sp _ x _ sizes 0 (by omega)
      cases sp with
      | true => exact fun _ rows h => ⟨fun _ => List.length_pos_of_ne_nil h, trivial⟩
      | false => exact fun _ rows hr => ⟨rfl, hr⟩
    · rw [inputFns_unflat]; exact hd
    · rw [inputFns_unflat]; exact he
  refine ⟨ys, hys, C59_correct reg junk t hn sizes hs d j consts x ?_ ys hys⟩
  exact fun s hs => domRun_mono _ _ _ (DomP.mono reg _ _ (fun p v => ArrTotal.good) d) _ _ (hd s hs)

/-- **C62 (indexing).**  Any indexing of one array (slices, `reshape`, `transpose`, `broadcast_in_dim`, constant padding …). -/
theorem C62_indexing (sp : Bool) (n : ℕ) {s out : List ℕ} (fil : Bool) (src : Fin out.prod → Option (Fin s.prod)) (c : Fin out.prod → F) (hs : 0 ∉ s) (h0 : 0 ∉ out)
    (x : (i : Fin 1) → Fin s.prod → F) :
    ArrTotal sp n ((takeArr (F := F) (m := 0) (shape := fun _ => s) fil (fun w => (src w).map fun p => ⟨0, p⟩) c).prim
      fun acts => some (takeIdx (m := 0) (shape := fun _ => s) (fun w => (src w).map fun p => ⟨0, p⟩) acts)) x :=
  .array _ _ _ _ x (takeArr_truthful (fun _ => hs) h0) fun _ => ⟨takeArr_safe (by decide), takeArr_never⟩

/-- **C62 (sums).** -/
theorem C62_sum (sp : Bool) (n : ℕ) (fil : Bool) {s dims : List ℕ} (h0 : 0 ∉ s) (hd : dims.Nodup) (hr : ∀ d ∈ dims, d < s.length) (x : (i : Fin 1) → Fin s.prod → F) :
    ArrTotal sp n ((sumArr (F := F) fil s dims).prim fun _ => none) x :=
  .array _ _ _ _ x (sumArr_truthful h0 hd hr) fun _ => ⟨sumArr_safe, sumArr_never⟩

end

/-- **C62 (elementwise).**  The elementwise functions of the registry; those that are not linear in each operand (`div`, `pow`, `atan2` …): of operands that have the shape
of the result, up to leading axes of size 1 (a smaller operand without derivatives is fine in the other functions; here it may raise: B34). -/
theorem C62_elementwise (sp : Bool) (n : ℕ) {k : ℤ} {e : ElemEntry} {shape : Fin e.arity → List ℕ} {out : List ℕ} (he : e ∈ elemTable k) (fil : Bool) (junk : ℝ) (hs : ∀ i, 0 ∉ shape i) (h0 : 0 ∉ out)
    (hb : Broadcasts (List.ofFn shape) out) {x : (i : Fin e.arity) → Fin (shape i).prod → ℝ} (hdom : e.InDomain shape out x)
    (hext : e.flags.has Flags.LINEAR_IN_ONE = true ∨ ∀ i, ∃ j, out = List.replicate j 1 ++ shape i) :
    ArrTotal sp n ((e.arr fil junk shape out).prim fun _ => none) x := by
  have hT := elemTable_arr k e he fil junk shape out hs h0 hb _ hdom
  have hfl := elemTable_arity k e he
  obtain ⟨nm, a, fn, flags, d, dom⟩ := e
  cases a with
  | zero => exact absurd hT id
  | succ m =>
    obtain ⟨b, φ, h1, h2⟩ := hT
    have ho : ∀ i, otherShape (shape i) ((InAxes.axes []).second (shape i).length) = shape i := fun i => otherShape_nil _
    obtain rfl : out = b := broadcasts_unique hb h1.batch.argShape fun s => by
      show _ ↔ s ∈ List.ofFn fun a => otherShape (shape a) ((InAxes.axes []).second (shape a).length)
      rw [show (fun a => otherShape (shape a) ((InAxes.axes []).second (shape a).length)) = shape from funext ho]
    refine .array _ _ out φ x h1 fun _ => ⟨h2, Or.inr ⟨by have := hfl.1; dsimp only at this; omega, Or.inr rfl⟩, hfl.2, Or.inr fun _ => rfl, hext.imp id fun h i => ?_⟩
    exact (h i).imp fun j hj => hj.trans (congrArg (fun s => List.replicate j 1 ++ s) (ho i).symm)

/-! ### The program of C59, with every threshold -/

open ArrDemo in
/-- `x ↦ jnp.sum(x * jnp.exp(x), axis=1)` for a (2, 3) array of inputs: with every threshold the run returns, and is right. -/
example (junk : List (PVal ℝ) → PVal ℝ) (t : ℚ) (x : Fin 6 → ℝ) :
    ∃ ys, forwardLaplacian Demo.reg junk t 1 prog [] .absent (plainArgs [6] x) = .ok ys ∧
      List.Forall₂ (Correct x) ys [⟨2, fun z q => ∑ c : Fin 3, z ⟨3 * q + c, by omega⟩ * Real.exp (z ⟨3 * q + c, by omega⟩)⟩] := by
  obtain ⟨ys, h, f, f1, f2⟩ := C62_correct Demo.reg junk t (n := 6) (by decide) [6] rfl 1 prog [] x
    (prog_dom _ (fun v => .array expA _ _ _ v (exp_true v) fun _ => ⟨ew_safe (m := 0) (by decide) (by decide) (by decide) (by decide), ew_never (m := 0) (by decide) (by decide) (Or.inr fun _ => ⟨0, rfl⟩)⟩)
      (fun v => .array (mulArr (F := ℝ) true (fun _ => [2, 3]) [2, 3]) _ _ _ v (mulArr_truthful (fun _ => by decide) (by decide) (broadcastShapes_iff.mp (by decide +kernel)))
        fun _ => ⟨mulArr_safe, ew_never (m := 1) (by decide) (by decide) (Or.inl (by decide))⟩)
      (fun v => C62_sum _ 6 true (by decide) (by decide) (by decide) v) x)
    (by
      intro e he
      simp only [prog, List.mem_cons, List.not_mem_nil, or_false] at he
      rcases he with rfl | rfl | rfl <;> trivial)
    (fun v _ => le_trans (List.count_le_length ..) (by decide)) _ (prog_eval x)
  refine ⟨ys, h, ?_⟩
  have hf := fun z => (f1 z).symm.trans (prog_eval z)
  rw [farr_ext f [⟨2, fun z q => ∑ c : Fin 3, z ⟨3 * q + c, by omega⟩ * Real.exp (z ⟨3 * q + c, by omega⟩)⟩] fun z => Except.ok.inj (hf z)] at f2
  exact f2

/-- Dividing a (2, 3) array by a (1, 2, 3) array. -/
example (sp : Bool) (x : (i : Fin 2) → Fin ((Fin.cons [2, 3] fun _ => [1, 2, 3] : Fin 2 → List ℕ) i).prod → ℝ) (hx : divEntry.InDomain (Fin.cons [2, 3] fun _ => [1, 2, 3]) [1, 2, 3] x) :
    ArrTotal sp 12 ((divEntry.arr true 0 (Fin.cons [2, 3] fun _ => [1, 2, 3]) [1, 2, 3]).prim fun _ => none) x :=
  C62_elementwise sp 12 (k := 0) (by simp [elemTable, divEntry]) true 0 (show ∀ i : Fin 2, 0 ∉ (Fin.cons [2, 3] fun _ => [1, 2, 3] : Fin 2 → List ℕ) i by decide) (by decide)
    (broadcastShapes_iff.mp (by decide +kernel)) hx (Or.inr fun i => by
      have h : ∀ i : Fin 2, ∃ j, [1, 2, 3] = List.replicate j 1 ++ (Fin.cons [2, 3] fun _ => [1, 2, 3] : Fin 2 → List ℕ) i := by
        intro i
        fin_cases i
        · exact ⟨1, rfl⟩
        · exact ⟨0, rfl⟩
      exact h i)

end Folx

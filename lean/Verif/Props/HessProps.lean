import Verif.Core.WrappedProofs
import Verif.Core.HessTotal
import Verif.Core.Custom
import Mathlib.Data.Complex.Basic
import Mathlib.LinearAlgebra.Complex.Module
import Mathlib.Data.Complex.BigOperators

/-!
# Properties C09, C10, C16–C18, C41, C47: the second-order term

Throughout, `HInst.HessSpec` (file `Core/HessSpec.lean`) is the textbook formula
`h q = ∑ᵢ D²f(∂ᵢ, ∂ᵢ)`; below it is spelled out for concrete functions.
-/

namespace Folx

open Folx.Interp (Err)

variable {k : ℕ} {P : Fin k → Type} {P₀ Q F : Type}

/-! ## C09 -/

section C09
variable [CommRing F]

/-- **C09 (the term is skipped).** For a function flagged linear, linear in each argument with one
derivative-carrying argument, or linear in the first argument which is the only derivative-carrying one,
the second-order term is zero without any computation, and a custom rule is not called. -/
theorem C09_skip [∀ a, Fintype (P a)] (I : HInst k P Q F) (T : ℕ) (args : (a : Fin k) → Trip (P a) F)
    (h : I.flags.has Flags.LINEAR = true ∨ (I.flags.has Flags.LINEAR_IN_ONE = true ∧ k = 1) ∨
      (I.flags.has Flags.LINEAR_IN_FIRST = true ∧ I.firstIsLapl = true ∧ k = 1)) :
    I.hessianTransform T args = .ok fun _ => 0 := by
  unfold HInst.hessianTransform
  split
  · rfl
  split
  · rfl
  split
  · rfl
  rename_i h1 h2 h3
  rcases h with h | h | h
  · exact absurd h h1
  · exact absurd h h2
  · exact absurd h h3

/-- **C09 (exactness).** If the flag is truthful, i.e. the second derivative vanishes (on the pair
`(a, a)` for a function linear in argument `a`), then dropping the term is exact. -/
theorem C09_exact (I : HInst k P Q F) (n : ℕ) (args : (a : Fin k) → Trip (P a) F)
    (h : (∀ v s t, I.hess v (I.sliceX (fun a => (args a).x) v) s t = 0) ∨
      (k = 1 ∧ ∀ v a s t, I.hess v (I.sliceX (fun a => (args a).x) v) (Pi.single a s) (Pi.single a t) = 0)) :
    I.HessSpec n args fun _ => 0 := by
  intro q
  apply Eq.symm
  apply Finset.sum_eq_zero
  intro i _
  rcases h with h | ⟨hk, h⟩
  · rw [h]; rfl
  · rw [I.single_arg hk (I.sliceDen args (I.out q).1 i) ⟨0, by omega⟩, h]
    rfl

/-- **C09 (flags).** Containment of flags follows the bit encoding. -/
theorem C09_flags (f : Flags) :
    (f.has Flags.INDEXING = true → f.has Flags.LINEAR = true) ∧
    (f.has Flags.SUMMATION = true → f.has Flags.LINEAR = true ∧ f.has Flags.REDUCTION = true) ∧
    (f.has Flags.LINEAR = true → f.has Flags.LINEAR_IN_ONE = true) ∧
    (f.has Flags.LINEAR_IN_ONE = true → f.has Flags.LINEAR_IN_FIRST = true) ∧
    (f.has Flags.MULTIPLICATION = true → f.has Flags.LINEAR_IN_ONE = true) ∧
    (f.has Flags.DOT_PRODUCT = true → f.has Flags.MULTIPLICATION = true ∧ f.has Flags.REDUCTION = true) := by
  have key : ∀ a b : Flags, b = a &&& b → f.has a = true → f.has b = true := by
    intro a b hab h
    simp only [Flags.has, beq_iff_eq] at h ⊢
    rw [hab, ← Nat.land_assoc, h]
  exact ⟨key _ _ (by decide), fun h => ⟨key _ _ (by decide) h, key _ _ (by decide) h⟩, key _ _ (by decide),
    key _ _ (by decide), key _ _ (by decide), fun h => ⟨key _ _ (by decide) h, key _ _ (by decide) h⟩⟩

/-- The registered combinations do not claim more than they should: a multiplication is not flagged linear,
and `div` (linear in the first argument) is not flagged linear in both. -/
theorem C09_flags_separate :
    Flags.has Flags.MULTIPLICATION Flags.LINEAR = false ∧
    Flags.has (Flags.DOT_PRODUCT ||| Flags.JOIN_JVP ||| Flags.SPARSE_JHJ) Flags.LINEAR = false ∧
    Flags.has Flags.LINEAR_IN_FIRST Flags.LINEAR_IN_ONE = false ∧
    Flags.has Flags.GENERAL Flags.LINEAR_IN_FIRST = false ∧
    Flags.has Flags.REDUCTION Flags.LINEAR_IN_FIRST = false ∧
    Flags.has Flags.MULTIPLICATION Flags.DOT_PRODUCT = false := by decide

/-- Non-vacuity of C09: `x + y` with flag `LINEAR` on two elements. -/
example : ∃ (I : HInst 2 (fun _ => Fin 2) (Fin 2) ℤ), I.flags.has Flags.LINEAR = true ∧
    (∀ x q, I.fwd x q = x 0 q + x 1 q) ∧ ∀ v x s t, I.hess v x s t = 0 := by
  refine ⟨elemHInst (fun _ v => v 0 + v 1) (fun _ _ _ => 1) (fun _ _ _ _ => 0) (fun _ q => q) (fun _ => none)
    Flags.LINEAR true false none, rfl, fun x q => rfl, fun v x s t => ?_⟩
  funext o
  refine (coeffForm_apply _ _ _ _).trans ?_
  simp

end C09

/-! ## C10 -/

section C10
variable [CommRing F] {dim : Fin k → ℕ} {O : Type}

/-- **C10.** For a second derivative `H` (any bilinear map of the concatenated slice inputs, one value per
output) and any `m` Jacobian columns: contracting the materialised Hessian with `J Jᵀ`, the trace of all
mixed second directional derivatives, and Hessian-vector products all give `∑ₛ H(Jₛ, Jₛ)`. -/
theorem C10_strategies_agree
    (H : ((a : Fin k) → Fin (dim a) → F) →ₗ[F] ((a : Fin k) → Fin (dim a) → F) →ₗ[F] (O → F))
    (m : ℕ) (g : ℕ → (a : Fin k) → Fin (dim a) → F) (o : O) :
    viaHessian H m g o = ∑ s ∈ Finset.range m, H (g s) (g s) o ∧
    viaTrace H m g o = ∑ s ∈ Finset.range m, H (g s) (g s) o ∧
    viaHvp H m g o = ∑ s ∈ Finset.range m, H (g s) (g s) o :=
  ⟨viaHessian_eq H m g o, viaTrace_eq H m g o, viaHvp_eq H m g o⟩

/-- **C10 (the size-based choice is invisible).** Whatever the sizes and dtypes, i.e. whichever strategy is
chosen, a general function's term is the same sum over the Jacobian rows. -/
theorem C10_choice_invisible (I : HInst k P Q F) (v : I.V) (sargs : (a : Fin k) → Trip (Fin (I.dim a)) F)
    (idx : Option (List ℤ)) (r : I.O → F) (h : I.generalJHJ v sargs idx = .ok r) :
    ∃ rows, reducedJacobians (fun a => (sargs a).jac) idx = .ok rows ∧ ∀ o, r o =
      ∑ s ∈ Finset.range (maxLen rows), I.hess v (fun a => (sargs a).x) (col rows s) (col rows s) o := by
  unfold HInst.generalJHJ at h
  split at h
  · simp at h
  · rename_i rows hrows
    refine ⟨rows, hrows, fun o => ?_⟩
    simp only [Except.ok.injEq] at h
    rw [← h]
    split
    · split
      · exact viaHvp_eq _ _ _ o
      · exact viaHessian_eq _ _ _ o
    · exact viaTrace_eq _ _ _ o

/-- `JHJ_via_hvp(...).real` (`hessian.py:62-70,95`) for a function from complex inputs to reals, where `dg s` is
the derivative in direction `s` of the complex gradient JAX returns (`jvp(t) = Re ∑ grad·t`). -/
noncomputable def viaHvpReal {d : ℕ} (dg : (Fin d → ℂ) →ₗ[ℝ] (Fin d → ℂ)) (m : ℕ) (g : ℕ → Fin d → ℂ) : ℝ :=
  (∑ c : Fin d, ∑ s ∈ Finset.range m, dg (g s) c * g s c).re

/-- **C10 (complex to real).** Here the second directional derivative along `s, t` is `Re ∑ dg(s)·t`; the
Hessian-vector-product strategy gives the trace of these, as the trace strategy does. -/
theorem C10_complex_to_real {d : ℕ} (dg : (Fin d → ℂ) →ₗ[ℝ] (Fin d → ℂ)) (m : ℕ) (g : ℕ → Fin d → ℂ) :
    viaHvpReal dg m g = ∑ s ∈ Finset.range m, (∑ c : Fin d, dg (g s) c * g s c).re := by
  unfold viaHvpReal
  rw [Finset.sum_comm, Complex.re_sum]

/-- Non-vacuity of C10: `f(x, y) = x² y` at `(2, 3)` with two Jacobian columns. -/
example : let H := coeffForm (k := 2) (F := ℤ) fun a b => if a = 0 ∧ b = 0 then 6 else if a = b then 0 else 4
    viaTrace H 2 (fun s a _ => if s = 0 then 1 else if a = 0 then 2 else 5) () = 14 + 104 := by
  decide

end C10


/-! ## C16 -/

section C16
variable [CommRing F]

/-- The elementwise product of two arrays with broadcasting (`mul`, `wrapped_functions.py:312-314`), both
operands carrying derivatives. -/
def mulHInst {P : Fin 2 → Type} (π : (a : Fin 2) → Q → P a) (same : (a : Fin 2) → Option (Q ≃ P a))
    (flags : Flags) [Fintype Q] : HInst 2 P Q F :=
  elemHInst (fun _ v => v 0 * v 1) (fun _ v a => if a = 0 then v 1 else v 0)
    (fun _ _ a b => if a = b then 0 else 1) π same flags true false none

theorem mul_hlawful {P : Fin 2 → Type} (π : (a : Fin 2) → Q → P a) (same : (a : Fin 2) → Option (Q ≃ P a))
    (flags : Flags) [Fintype Q] (hl : flags.has Flags.LINEAR = false) (n : ℕ) (x : (a : Fin 2) → P a → F) :
    (mulHInst (F := F) π same flags).HLawful n x where
  linear h := by
    have : flags.has Flags.LINEAR = true := h
    rw [hl] at this; simp at this
  linOne _ v a s t := by
    funext o
    refine (coeffForm_single _ a a s t o).trans ?_
    simp
  linFirst _ _ v a _ s t := by
    funext o
    refine (coeffForm_single _ a a s t o).trans ?_
    simp
  mult_arity _ := le_refl _
  mult _ a0 a1 h0 h1 := by
    obtain rfl : a0 = 0 := Fin.ext h0
    obtain rfl : a1 = 1 := Fin.ext h1
    refine ⟨rfl, fun v s t o => ?_⟩
    refine (coeffForm_apply _ _ _ _).trans ?_
    simp only [Fin.sum_univ_two]
    show _ = ∑ c : Fin 1, (s 0 c * t 1 c + t 0 c * s 1 c)
    simp [mul_comm]
  custom c h := by simp [mulHInst, elemHInst] at h

/-- **C16 (products).** For every pair of well-formed Jacobians, sparse or dense in any combination, any
threshold: the second-order contribution of `x * y` is `2 ∑ᵢ ∂ᵢx ∂ᵢy` over all `n` inputs. -/
theorem C16_mul {P : Fin 2 → Type} [∀ a, Fintype (P a)] [Fintype Q] (π : (a : Fin 2) → Q → P a)
    (same : (a : Fin 2) → Option (Q ≃ P a)) (flags : Flags) (hm : flags.has Flags.MULTIPLICATION = true)
    (hl : flags.has Flags.LINEAR = false) (n : ℕ) (hn : 0 < n) (T : ℕ) (args : (a : Fin 2) → Trip (P a) F)
    (hwf : ∀ a, (args a).jac.Wf n) (h : Q → F)
    (hh : (mulHInst π same flags).hessianTransform T args = .ok h) (q : Q) :
    h q = 2 * ∑ i ∈ Finset.range n, (args 0).jac.den i (π 0 q) * (args 1).jac.den i (π 1 q) := by
  have hlio : flags.has Flags.LINEAR_IN_ONE = true := HInst.has_mult_lio _ hm
  have := HInst.hessian_spec (mulHInst π same flags) n hn T args (by omega) hwf
    (mul_hlawful π same flags hl n _) (fun _ => Or.inr (Or.inr ⟨hm, rfl⟩))
    (Or.inr (Or.inr (Or.inl hlio))) h hh q
  rw [this, Finset.mul_sum]
  refine Finset.sum_congr rfl fun i _ => ?_
  refine (coeffForm_apply _ _ _ _).trans ?_
  simp only [Fin.sum_univ_two, mulHInst]
  show _ = 2 * (_ * _)
  simp only [if_true]
  rw [if_neg (by decide), if_neg (by decide)]
  show 0 * _ * _ + 1 * (args 0).jac.den i (π 0 q) * (args 1).jac.den i (π 1 q) +
    (1 * (args 1).jac.den i (π 1 q) * (args 0).jac.den i (π 0 q) + 0 * _ * _) = _
  ring

theorem dot_hlawful (P : Fin 2 → Type) (K : Fin 2 → Type) (d : ℕ) (V : Type) [Fintype V]
    (split : (a : Fin 2) → P a ≃ K a × Fin d) (κ : (a : Fin 2) → V → K a) (flags : Flags) (oneAxis : Bool)
    (π : (a : Fin 2) → V → P a) [∀ a, Fintype (K a)] [∀ a, DecidableEq (K a)]
    (hl : flags.has Flags.LINEAR = false) (n : ℕ) (x : (a : Fin 2) → P a → F) :
    (dotHInst (F := F) P K d V split κ flags oneAxis π).HLawful n x where
  linear h := by
    have : flags.has Flags.LINEAR = true := h
    rw [hl] at this; simp at this
  linOne _ v a s t := by
    funext o
    exact dotForm_single d a s t o
  linFirst _ _ v a _ s t := by
    funext o
    exact dotForm_single d a s t o
  mult_arity _ := le_refl _
  mult _ a0 a1 h0 h1 := by
    obtain rfl : a0 = 0 := Fin.ext h0
    obtain rfl : a1 = 1 := Fin.ext h1
    exact ⟨rfl, fun v s t o => dotForm_apply _ _ _ _⟩
  custom c h := by simp [dotHInst] at h

/-- **C16 (dot products).** The same for inner products along an axis of length `d` with broadcasting of the
other axes (this is the call `dot_general` makes, with flags `DOT_PRODUCT | JOIN_JVP | SPARSE_JHJ`). -/
theorem C16_dot (P : Fin 2 → Type) (K : Fin 2 → Type) (d : ℕ) (V : Type) [Fintype V]
    (split : (a : Fin 2) → P a ≃ K a × Fin d) (κ : (a : Fin 2) → V → K a) (flags : Flags) (oneAxis : Bool)
    (π : (a : Fin 2) → V → P a) [∀ a, Fintype (K a)] [∀ a, DecidableEq (K a)] [∀ a, Fintype (P a)]
    (hm : flags.has Flags.MULTIPLICATION = true) (hl : flags.has Flags.LINEAR = false)
    (n : ℕ) (hn : 0 < n) (T : ℕ) (args : (a : Fin 2) → Trip (P a) F)
    (hwf : ∀ a, (args a).jac.Wf n) (h : V → F)
    (hh : (dotHInst P K d V split κ flags oneAxis π).hessianTransform T args = .ok h) (v : V) :
    h v = 2 * ∑ i ∈ Finset.range n, ∑ c : Fin d,
      (args 0).jac.den i ((split 0).symm (κ 0 v, c)) * (args 1).jac.den i ((split 1).symm (κ 1 v, c)) := by
  have hlio : flags.has Flags.LINEAR_IN_ONE = true := HInst.has_mult_lio _ hm
  have := HInst.hessian_spec (dotHInst P K d V split κ flags oneAxis π) n hn T args (by omega) hwf
    (dot_hlawful P K d V split κ flags oneAxis π hl n _) (fun _ => Or.inr (Or.inr ⟨hm, rfl⟩))
    (Or.inr (Or.inr (Or.inl hlio))) h hh v
  rw [this, Finset.mul_sum]
  refine Finset.sum_congr rfl fun i _ => ?_
  refine (dotForm_apply _ _ _ _).trans ?_
  rw [Finset.mul_sum]
  refine Finset.sum_congr rfl fun c _ => ?_
  show (args 0).jac.den i ((split 0).symm (κ 0 v, c)) * (args 1).jac.den i ((split 1).symm (κ 1 v, c)) +
    (args 0).jac.den i ((split 0).symm (κ 0 v, c)) * (args 1).jac.den i ((split 1).symm (κ 1 v, c)) = _
  ring

/-- Input `i` is stored for an element of slice `v` of argument `a`. -/
def StoredAt (I : HInst k P Q F) (args : (a : Fin k) → Trip (P a) F) (a : Fin k) (v : I.V) (i : ℕ) : Prop :=
  ∃ r ∈ (args a).jac.srows, ∃ c, r.idx ((I.hsplit a).symm (I.hκ a v, c)) = (i : ℤ)

/-- **C16 (only shared indices are used).** The index list computed for a position of a function flagged
linear in each argument contains, apart from padding, exactly the inputs stored by every operand there. -/
theorem C16_shared (I : HInst k P Q F) [∀ a, Fintype (P a)] (n T : ℕ) (args : (a : Fin k) → Trip (P a) F)
    (hk : 0 < k) (hwf : ∀ a, (args a).jac.Wf n) (hf : I.flags.has Flags.LINEAR_IN_ONE = true)
    (f : I.V → List ℤ) (hfo : (I.findOutIdx T args).1 = some f) (v : I.V) (i : ℕ) :
    (i : ℤ) ∈ f v ↔ ∀ a, StoredAt I args a v i := by
  have hw : anyWeak args = true := by
    by_contra hc
    simp only [Bool.not_eq_true] at hc
    rw [I.findOutIdx_strong T args hc] at hfo
    simp at hfo
  rw [I.findOutIdx_weak T args hw] at hfo
  simp only [Option.some.injEq] at hfo
  rw [← hfo]
  have h1 := I.mem_idxAt_nonneg args v (i : ℤ)
  have h2 := I.mem_merged_inter n args hwf hf hk v (i : ℤ)
  constructor
  · intro h a
    exact (mem_posIdx _ _ _ _).mp ((h2.mp (h1.mp ⟨h, by omega⟩)) a).2
  · intro h
    exact (h1.mpr (h2.mpr fun a => ⟨by omega, (mem_posIdx _ _ _ _).mpr (h a)⟩)).1

/-- **C16 (disjoint operands).** If no input is stored by both operands of a product, its second-order
contribution is zero. -/
theorem C16_disjoint {P : Fin 2 → Type} [∀ a, Fintype (P a)] [Fintype Q] (π : (a : Fin 2) → Q → P a)
    (same : (a : Fin 2) → Option (Q ≃ P a)) (flags : Flags) (hm : flags.has Flags.MULTIPLICATION = true)
    (hl : flags.has Flags.LINEAR = false) (n : ℕ) (hn : 0 < n) (T : ℕ) (args : (a : Fin 2) → Trip (P a) F)
    (hwf : ∀ a, (args a).jac.Wf n) (h : Q → F)
    (hh : (mulHInst π same flags).hessianTransform T args = .ok h) (q : Q)
    (hd : ∀ i, ¬ (StoredAt (mulHInst π same flags) args 0 q i ∧ StoredAt (mulHInst π same flags) args 1 q i)) :
    h q = 0 := by
  rw [C16_mul π same flags hm hl n hn T args hwf h hh q, Finset.sum_eq_zero, mul_zero]
  intro i _
  have key : ∀ a, ¬ StoredAt (mulHInst π same flags) args a q i → (args a).jac.den i (π a q) = 0 := by
    intro a ha
    have := (mulHInst (F := F) π same flags).slice_den_zero n args q a i
      (fun hc => ha ((mem_posIdx _ _ _ _).mp hc))
    exact congrFun this (0 : Fin 1)
  by_cases h0 : StoredAt (mulHInst π same flags) args 0 q i
  · rw [key 1 fun h1 => hd i ⟨h0, h1⟩, mul_zero]
  · rw [key 0 h0, zero_mul]

/-- **C16 (totality).** The contribution is computed without raising whenever sparse operands have at least
one element and one storage row. -/
theorem C16_total {P : Fin 2 → Type} [∀ a, Fintype (P a)] [Fintype Q] (π : (a : Fin 2) → Q → P a)
    (same : (a : Fin 2) → Option (Q ≃ P a)) (flags : Flags) (hm : flags.has Flags.MULTIPLICATION = true)
    (hl : flags.has Flags.LINEAR = false) (T : ℕ) (args : (a : Fin 2) → Trip (P a) F)
    (hrows : ∀ a, (args a).jac.weak = true → Nonempty (P a) ∧ (args a).jac.nrows ≠ 0) :
    ∃ h, (mulHInst π same flags).hessianTransform T args = .ok h :=
  HInst.hessian_total _ 0 T args (by omega) hrows (by intro c h; cases h) (fun _ => Or.inr (Or.inr ⟨hm, rfl⟩))
    (mul_hlawful π same flags hl 0 _)

/-- Non-vacuity of C16: the registered flags, and two sparse operands of two elements that share input `1`
at the second element only. -/
example : Flags.has Flags.MULTIPLICATION Flags.MULTIPLICATION = true ∧
    Flags.has Flags.MULTIPLICATION Flags.LINEAR = false ∧
    Flags.has (Flags.DOT_PRODUCT ||| Flags.JOIN_JVP ||| Flags.SPARSE_JHJ) Flags.MULTIPLICATION = true ∧
    let a0 : Trip (Fin 2) ℤ := ⟨fun _ => 1, .sparse [⟨fun p => p.val, fun _ => 3⟩], fun _ => 0⟩
    let a1 : Trip (Fin 2) ℤ := ⟨fun _ => 1, .sparse [⟨fun _ => 1, fun _ => 5⟩], fun _ => 0⟩
    let args : (a : Fin 2) → Trip (Fin 2) ℤ := fun a => if a = 0 then a0 else a1
    (∀ a, (args a).jac.Wf 2) ∧ ∃ h, (mulHInst (fun _ q => q) (fun _ => none) Flags.MULTIPLICATION).hessianTransform
      4 args = .ok h ∧ h 0 = 0 ∧ h 1 = 30 := by
  refine ⟨by decide, by decide, by decide, ?_⟩
  intro a0 a1 args
  have hwf : ∀ a, (args a).jac.Wf 2 := by
    intro a
    fin_cases a
    · intro r hr p
      simp only [a0, List.mem_singleton] at hr
      subst hr
      exact ⟨by have := p.2; simp; omega, fun h => by simp at h; omega⟩
    · intro r hr p
      simp only [a1, List.mem_singleton] at hr
      subst hr
      exact ⟨by simp, fun h => by simp at h⟩
  refine ⟨hwf, ?_⟩
  obtain ⟨h, hh⟩ := C16_total (F := ℤ) (P := fun _ => Fin 2) (fun _ q => q) (fun _ => none) Flags.MULTIPLICATION
    (by decide) (by decide) 4 args (by
      intro a _
      refine ⟨⟨0⟩, ?_⟩
      fin_cases a <;> exact Nat.one_ne_zero)
  refine ⟨h, hh, ?_, ?_⟩
  · rw [C16_mul _ _ _ (by decide) (by decide) 2 (by decide) 4 args hwf h hh 0]
    decide
  · rw [C16_mul _ _ _ (by decide) (by decide) 2 (by decide) 4 args hwf h hh 1]
    decide

end C16

/-! ## C17 -/

section C17
variable [CommRing F]

/-- **C17 (index lists).** For a function that is not linear in each argument, the index list of a position
contains, apart from padding, exactly the inputs stored by some argument there. -/
theorem C17_union_indices (I : HInst k P Q F) [∀ a, Fintype (P a)] (n T : ℕ)
    (args : (a : Fin k) → Trip (P a) F) (hwf : ∀ a, (args a).jac.Wf n)
    (hf : I.flags.has Flags.LINEAR_IN_ONE = false)
    (f : I.V → List ℤ) (hfo : (I.findOutIdx T args).1 = some f) (v : I.V) (i : ℕ) :
    (i : ℤ) ∈ f v ↔ ∃ a, StoredAt I args a v i := by
  have hw : anyWeak args = true := by
    by_contra hc
    simp only [Bool.not_eq_true] at hc
    rw [I.findOutIdx_strong T args hc] at hfo
    simp at hfo
  rw [I.findOutIdx_weak T args hw] at hfo
  simp only [Option.some.injEq] at hfo
  rw [← hfo]
  have h1 := I.mem_idxAt_nonneg args v (i : ℤ)
  have h2 := I.mem_merged_union n args hwf hf v (i : ℤ)
  constructor
  · intro h
    obtain ⟨a, _, ha⟩ := h2.mp (h1.mp ⟨h, by omega⟩)
    exact ⟨a, (mem_posIdx _ _ _ _).mp ha⟩
  · rintro ⟨a, h⟩
    exact (h1.mpr (h2.mpr ⟨a, by omega, (mem_posIdx _ _ _ _).mpr h⟩)).1

/-- **C17.** Sparse arguments: for every general function (no linearity flag, no custom rule), all index masks,
all thresholds, the computed second-order term is `∑ᵢ D²f(∂ᵢ, ∂ᵢ)` over all `n` inputs. -/
theorem C17_union (I : HInst k P Q F) [∀ a, Fintype (P a)] (n : ℕ) (hn : 0 < n) (T : ℕ)
    (args : (a : Fin k) → Trip (P a) F) (hk : 0 < k) (hwf : ∀ a, (args a).jac.Wf n)
    (hsparse : ∀ a, (args a).jac.weak = true) (hf : I.flags.has Flags.LINEAR_IN_FIRST = false)
    (hc : I.custom = none) (h : Q → F) (hh : I.hessianTransform T args = .ok h) (q : Q) :
    h q = ∑ i ∈ Finset.range n,
      I.hess (I.out q).1 (fun a c => (args a).x ((I.hsplit a).symm (I.hκ a (I.out q).1, c)))
        (fun a c => (args a).jac.den i ((I.hsplit a).symm (I.hκ a (I.out q).1, c)))
        (fun a c => (args a).jac.den i ((I.hsplit a).symm (I.hκ a (I.out q).1, c))) (I.out q).2 := by
  have no : ∀ g : Flags, Flags.LINEAR_IN_FIRST = g &&& Flags.LINEAR_IN_FIRST → I.flags.has g = true → False := by
    intro g hg h
    rw [Bool.eq_false_iff] at hf
    apply hf
    simp only [Flags.has, beq_iff_eq] at h ⊢
    rw [hg, ← Nat.land_assoc, h]
  have hL : I.HLawful n fun a => (args a).x :=
    { linear := fun h => (no _ (by decide) h).elim
      linOne := fun h => (no _ (by decide) h).elim
      linFirst := fun h => (no _ (by decide) h).elim
      mult_arity := fun h => (no _ (by decide) h).elim
      mult := fun h => (no _ (by decide) h).elim
      custom := fun c h => by rw [hc] at h; simp at h }
  exact I.hessian_spec n hn T args hk hwf hL (fun h => (no _ (by decide) h).elim)
    (Or.inl (by simpa [allWeak] using hsparse)) h hh q

/-- **C17 (mixtures).** With dense arguments among the sparse ones the same holds provided every dense Jacobian
has at least `T` rows or one row per input (which the first-order rules guarantee, `jvpRule_big`); see
`C17_counterexample` for why some condition is needed. -/
theorem C17_mixed_partial (I : HInst k P Q F) [∀ a, Fintype (P a)] (n : ℕ) (hn : 0 < n) (T : ℕ)
    (args : (a : Fin k) → Trip (P a) F) (hk : 0 < k) (hwf : ∀ a, (args a).jac.Wf n)
    (hbig : ∀ a rows, (args a).jac = .dense rows → T ≤ rows.length ∨ n ≤ rows.length)
    (hV : Nonempty I.V) (hdim : ∀ a, 0 < I.dim a) (hκ : ∀ a, Function.Surjective (I.hκ a))
    (hf : I.flags = Flags.GENERAL) (hc : I.custom = none) (h : Q → F)
    (hh : I.hessianTransform T args = .ok h) (q : Q) :
    h q = ∑ i ∈ Finset.range n,
      I.hess (I.out q).1 (fun a c => (args a).x ((I.hsplit a).symm (I.hκ a (I.out q).1, c)))
        (fun a c => (args a).jac.den i ((I.hsplit a).symm (I.hκ a (I.out q).1, c)))
        (fun a c => (args a).jac.den i ((I.hsplit a).symm (I.hκ a (I.out q).1, c))) (I.out q).2 := by
  have no : ∀ g : Flags, Flags.has Flags.GENERAL g = false → I.flags.has g = true → False := by
    intro g hg h
    rw [hf, hg] at h; simp at h
  have hL : I.HLawful n fun a => (args a).x :=
    { linear := fun h => (no _ (by decide) h).elim
      linOne := fun h => (no _ (by decide) h).elim
      linFirst := fun h => (no _ (by decide) h).elim
      mult_arity := fun h => (no _ (by decide) h).elim
      mult := fun h => (no _ (by decide) h).elim
      custom := fun c h => by rw [hc] at h; simp at h }
  refine I.hessian_spec n hn T args hk hwf hL (fun h => (no _ (by decide) h).elim)
    (I.mixOk_of_big T n args hV hdim hκ hwf (fun a => ?_) fun h => (no _ (by decide) h).elim) h hh q
  cases hj : (args a).jac with
  | dense rows => exact hbig a rows hj
  | sparse rows => trivial

/-- **C17 (totality).** -/
theorem C17_total (I : HInst k P Q F) [∀ a, Fintype (P a)] (T : ℕ) (args : (a : Fin k) → Trip (P a) F)
    (hk : 0 < k) (hrows : ∀ a, (args a).jac.weak = true → Nonempty (P a) ∧ (args a).jac.nrows ≠ 0)
    (hf : I.flags = Flags.GENERAL) (hc : I.custom = none) : ∃ h, I.hessianTransform T args = .ok h := by
  have no : ∀ g : Flags, Flags.has Flags.GENERAL g = false → I.flags.has g = true → False := by
    intro g hg h
    rw [hf, hg] at h; simp at h
  exact I.hessian_total 0 T args hk hrows (by intro c h; rw [hc] at h; cases h) (fun h => (no _ (by decide) h).elim)
    { linear := fun h => (no _ (by decide) h).elim
      linOne := fun h => (no _ (by decide) h).elim
      linFirst := fun h => (no _ (by decide) h).elim
      mult_arity := fun h => (no _ (by decide) h).elim
      mult := fun h => (no _ (by decide) h).elim
      custom := fun c h => by rw [hc] at h; simp at h }

/-- `f(a, b) = a + b²` elementwise on three elements, as a general function. -/
def sqHInst : HInst 2 (fun _ => Fin 3) (Fin 3) ℤ :=
  elemHInst (fun _ v => v 0 + v 1 * v 1) (fun _ v a => if a = 0 then 1 else 2 * v 1)
    (fun _ _ a b => if a = 1 ∧ b = 1 then 2 else 0) (fun _ q => q) (fun _ => none) Flags.GENERAL true false none

/-- Sparse first argument: element `v` depends on input `v`.  Dense second argument with a single row. -/
def mixArgs : (a : Fin 2) → Trip (Fin 3) ℤ := fun a =>
  if a = 0 then ⟨fun _ => 1, .sparse [⟨fun p => p.val, fun _ => 1⟩], fun _ => 0⟩
  else ⟨fun _ => 1, .dense [fun _ => 1], fun _ => 0⟩

theorem mixArgs_wf (a : Fin 2) : (mixArgs a).jac.Wf 3 := by
  fin_cases a
  · intro r hr p
    obtain rfl : r = ⟨fun p : Fin 3 => (p.val : ℤ), fun _ => 1⟩ := by
      simpa [mixArgs] using hr
    exact ⟨by have := p.2; show (p.val : ℤ) < (3 : ℕ); omega, fun h => by
      have h : (p.val : ℤ) < 0 := h
      omega⟩
  · show 1 ≤ 3
    omega

theorem sq_merged (v : Fin 3) : sqHInst.mergedIdx mixArgs v = Finset.univ.biUnion fun a =>
    (HInst.posIdx (sqHInst.hsplit a) (mixArgs a).jac (sqHInst.hκ a v)).filter (0 ≤ ·) := by
  unfold HInst.mergedIdx
  simp only [sqHInst.kept_eq 3 mixArgs mixArgs_wf v]
  rfl

/-- **C17 (counterexample without the condition).** Three inputs, threshold 2: a sparse argument and a dense
argument with a single Jacobian row (i.e. depending on input 0 only).  `f(a, b) = a + b²` has second-order
term `2` at the first element, but the padding index reads the dense row a second time and `4` is
returned. -/
theorem C17_counterexample : (∀ a, (mixArgs a).jac.Wf 3) ∧
    (∃ h, sqHInst.hessianTransform 2 mixArgs = .ok h ∧ h 0 = 4) ∧
    ∑ i ∈ Finset.range 3, ∑ a, ∑ b, (if a = 1 ∧ b = 1 then 2 else 0) *
      (mixArgs a).jac.den i 0 * (mixArgs b).jac.den i 0 = 2 := by
  refine ⟨mixArgs_wf, ?_, by decide⟩
  have hm0 : sqHInst.mergedIdx mixArgs (0 : Fin 3) = {0} := by rw [sq_merged]; decide
  have hw : sqHInst.idxWidth mixArgs = 2 := by
    unfold HInst.idxWidth
    have : (fun v => (sqHInst.mergedIdx mixArgs v).card) = fun v : Fin 3 => (Finset.univ.biUnion fun a =>
      (HInst.posIdx (sqHInst.hsplit a) (mixArgs a).jac (sqHInst.hκ a v)).filter (0 ≤ ·)).card := by
      funext v; exact congrArg Finset.card (sq_merged v)
    rw [this]
    decide
  have hi : sqHInst.idxAt mixArgs (0 : Fin 3) = [0, -1] := by
    unfold HInst.idxAt
    rw [hm0, hw, Finset.sort_singleton]
    rfl
  have hfo : sqHInst.findOutIdx 2 mixArgs = (some (sqHInst.idxAt mixArgs), false) := by
    apply Prod.ext
    · exact sqHInst.findOutIdx_weak 2 mixArgs (by decide)
    · unfold HInst.findOutIdx
      rw [if_neg (by decide)]
      simp only [hw]
      decide
  obtain ⟨h, hh⟩ := C17_total sqHInst 2 mixArgs (by omega) (by
    intro a ha
    fin_cases a
    · exact ⟨⟨0⟩, Nat.one_ne_zero⟩
    · exact absurd ha (by decide)) rfl rfl
  refine ⟨h, hh, ?_⟩
  unfold HInst.hessianTransform at hh
  rw [if_neg (by decide), if_neg (by decide), if_neg (by decide)] at hh
  unfold HInst.vmappedJHJ at hh
  simp only [hfo, Bool.false_and, Bool.false_eq_true, if_false, hw] at hh
  rw [if_neg (by decide)] at hh
  split at hh
  · simp only [Except.ok.injEq] at hh
    rw [← hh]
    have hk : sqHInst.keptPos (some (sqHInst.idxAt mixArgs)) false (0 : Fin 3) := by
      unfold HInst.keptPos
      simp only
      rw [if_neg (by rintro ⟨h, _⟩; revert h; decide)]
      trivial
    dsimp only
    rw [if_pos (show sqHInst.keptPos (some (sqHInst.idxAt mixArgs)) false (sqHInst.out 0).1 from hk)]
    show ((Except.toOption (sqHInst.hessTransform (0 : Fin 3) (sqHInst.sliceArgs mixArgs (0 : Fin 3))
        (some (sqHInst.idxAt mixArgs (0 : Fin 3))))).getD fun _ => 0) () = 4
    rw [hi]
    decide
  · simp at hh

end C17

end Folx

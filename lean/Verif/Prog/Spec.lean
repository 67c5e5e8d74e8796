import Mathlib.Analysis.Calculus.LineDeriv.Basic
import Verif.Prog.Rep

/-!
# Specification of the forward Laplacian

Independent of the model's rules: textbook partial derivatives of a function of `n` real variables.
-/

namespace Folx

open Filter Topology

variable {F : Type} [RCLike F]

/-- `∂g/∂xᵢ` at `x`: the ordinary derivative of `t ↦ g (x + t eᵢ)` at `0`. -/
noncomputable def partialD {n : ℕ} (i : Fin n) (g : (Fin n → ℝ) → F) (x : Fin n → ℝ) : F :=
  lineDeriv ℝ g x (Pi.single i 1)

/-- `g` is differentiable near `x` and its derivative is differentiable at `x` (so that the partial derivatives
below exist). -/
def TwiceDiff {n : ℕ} (g : (Fin n → ℝ) → F) (x : Fin n → ℝ) : Prop :=
  (∀ᶠ z in 𝓝 x, DifferentiableAt ℝ g z) ∧ DifferentiableAt ℝ (fderiv ℝ g) x

/-- The triple holds value, (weighted) Jacobian and (weighted) Laplacian of `g` at `x`:
row `i` of the Jacobian is `wᵢ ∂ᵢg`, rows beyond the number of inputs are absent, the Laplacian is `∑ wᵢ² ∂ᵢ∂ᵢg`. -/
structure Exact {n m : ℕ} (w x : Fin n → ℝ) (t : Trip (Fin m) F) (g : (Fin n → ℝ) → Fin m → F) : Prop where
  smooth : ∀ p, TwiceDiff (fun z => g z p) x
  value : ∀ p, t.x p = g x p
  jacobian : ∀ (i : Fin n) p, t.jac.den i p = (w i : F) * partialD i (fun z => g z p) x
  rows : ∀ i, n ≤ i → ∀ p, t.jac.den i p = 0
  laplacian : ∀ p, t.lapl p = ∑ i, ((w i) ^ 2 : ℝ) * partialD i (partialD i fun z => g z p) x

/-- The output of the transformed program for `g`: an exact triple, or a plain array if `g` is constant near
`x`. -/
def ExactVal {n : ℕ} (w x : Fin n → ℝ) (v : PVal F) (g : FArr (Fin n → ℝ) F) : Prop :=
  ∃ u : (Fin n → ℝ) → Fin v.1 → F, g = ⟨v.1, u⟩ ∧
    match v.2 with
    | .plain a => ∀ᶠ z in 𝓝 x, u z = a
    | .lapl t => Exact w x t u

/-- Cut the values `f 0, f 1, …` into consecutive blocks of the given sizes, starting at `off`. -/
def blocks {E : Type} (f : ℕ → E) : ℕ → List ℕ → List (PArr E)
  | _, [] => []
  | off, m :: ms => ⟨m, fun p => f (off + p)⟩ :: blocks f (off + m) ms

/-- Coordinate `i` of a point, as a scalar. -/
noncomputable def coord {n : ℕ} (z : Fin n → ℝ) (i : ℕ) : F := if h : i < n then ((z ⟨i, h⟩ : ℝ) : F) else 0

/-- The arguments (arrays of the given sizes) with flattening `z`. -/
noncomputable def unflat {n : ℕ} (sizes : List ℕ) (z : Fin n → ℝ) : List (PArr F) := blocks (coord z) 0 sizes

/-- The directions of the derivatives: `wᵢ eᵢ`. -/
noncomputable def inputBase {n : ℕ} (w x : Fin n → ℝ) : Base (Fin n → ℝ) := ⟨n, x, fun i => Pi.single i (w i)⟩

/-- The arguments as functions of the flattened input. -/
noncomputable def inputFns (n : ℕ) : ℕ → List ℕ → List (FArr (Fin n → ℝ) F)
  | _, [] => []
  | off, m :: ms => ⟨m, fun z p => coord z (off + p)⟩ :: inputFns n (off + m) ms

theorem inputFns_at (n : ℕ) : ∀ (sizes : List ℕ) (off : ℕ) (z : Fin n → ℝ),
    ((inputFns n off sizes : List (FArr _ F)).map fun g => g.at z) = blocks (coord z) off sizes
  | [], _, _ => rfl
  | m :: ms, off, z => by
    rw [inputFns, List.map_cons, inputFns_at n ms, blocks]
    rfl

/-- Representation at the input base is exactness. -/
theorem exact_of_tripRep {n m : ℕ} (w x : Fin n → ℝ) (t : Trip (Fin m) F) (g : (Fin n → ℝ) → Fin m → F)
    (h : TripRep (inputBase w x) t g) : Exact w x t g := by
  obtain ⟨h1, h2, D, H, h3, h4, h5⟩ := h
  have key : ∀ p : Fin m, ∃ H', HasFDeriv2At (fun z => g z p) ((ContinuousLinearMap.proj p).comp D) H' x ∧
      ∀ s t, H' s t = H s t p := fun p => h3.proj p
  have hsingle : ∀ i : Fin n, (Pi.single i (w i) : Fin n → ℝ) = w i • Pi.single i (1 : ℝ) := by
    intro i
    rw [← Pi.single_smul]
    simp
  have h4' : ∀ i : Fin n, t.jac.den i = D (Pi.single i (w i)) := h4
  refine ⟨fun p => ?_, fun p => congrFun h1 p, fun i p => ?_, fun i hi p => ?_, fun p => ?_⟩
  · obtain ⟨H', ⟨f', k1, k2, k3⟩, -⟩ := key p
    refine ⟨k1.mono fun z hz => hz.differentiableAt, ?_⟩
    exact (k3.congr_of_eventuallyEq (k1.mono fun z hz => hz.fderiv)).differentiableAt
  · obtain ⟨H', k1, -⟩ := key p
    rw [h4' i, hsingle, map_smul]
    unfold partialD
    rw [k1.hasFDerivAt.differentiableAt.lineDeriv_eq_fderiv, k1.hasFDerivAt.fderiv]
    simp [RCLike.real_smul_eq_coe_mul]
  · have hw : t.jac.Wf n := h2
    cases hj : t.jac with
    | dense rows =>
      rw [hj] at hw
      have : rows.length ≤ i := le_trans hw hi
      simp only [Jac.den]
      rw [List.getD_eq_default _ _ this]
    | sparse rows =>
      rw [hj] at hw
      simp only [Jac.den]
      apply List.sum_eq_zero
      intro a ha
      obtain ⟨r, hr, rfl⟩ := List.mem_map.mp ha
      rw [if_neg]
      have := (hw r hr p).1
      omega
  · have h5' : t.lapl = ∑ i : Fin n, H (Pi.single i (w i)) (Pi.single i (w i)) := h5
    rw [h5', Finset.sum_apply]
    refine Finset.sum_congr rfl fun i _ => ?_
    obtain ⟨H', ⟨f', k1, k2, k3⟩, k4⟩ := key p
    have hH : H (Pi.single i (w i)) (Pi.single i (w i)) p =
        ((w i) ^ 2 : ℝ) * H (Pi.single i 1) (Pi.single i 1) p := by
      rw [hsingle]
      simp only [map_smul, ContinuousLinearMap.smul_apply, Pi.smul_apply, RCLike.real_smul_eq_coe_mul]
      push_cast
      ring
    rw [hH]
    congr 1
    unfold partialD
    have he : (fun z => lineDeriv ℝ (fun z => g z p) z (Pi.single i 1)) =ᶠ[𝓝 x]
        fun z => f' z (Pi.single i 1) := by
      filter_upwards [k1] with z hz
      rw [hz.differentiableAt.lineDeriv_eq_fderiv, hz.fderiv]
    have hd : HasFDerivAt (fun z => f' z (Pi.single i 1)) (H'.flip (Pi.single i 1)) x := by
      have := k3.clm_apply (hasFDerivAt_const (Pi.single i (1 : ℝ)) x)
      rw [ContinuousLinearMap.comp_zero, zero_add] at this
      exact this
    have hd' := hd.congr_of_eventuallyEq he
    rw [hd'.differentiableAt.lineDeriv_eq_fderiv, hd'.fderiv, ← k4]
    rfl

theorem exactVal_of_represents {n : ℕ} (w x : Fin n → ℝ) (inv : ∀ m, Jac (Fin m) F → Prop) (v : PVal F)
    (g : FArr (Fin n → ℝ) F) (h : Represents (inputBase w x) inv v g) : ExactVal w x v g := by
  obtain ⟨u, rfl, h⟩ := h
  refine ⟨u, rfl, ?_⟩
  obtain ⟨m, o⟩ := v
  cases o with
  | plain a => exact h.2
  | lapl t => exact exact_of_tripRep w x t u h.1

end Folx

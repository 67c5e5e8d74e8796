import Mathlib.Analysis.Matrix.Normed
import Mathlib.Analysis.Calculus.FDeriv.Mul
import Mathlib.Analysis.Calculus.Deriv.Polynomial
import Mathlib.Analysis.Calculus.ContDiff.Operations
import Mathlib.LinearAlgebra.Matrix.Charpoly.Coeff
import Mathlib.LinearAlgebra.Matrix.NonsingularInverse
import Mathlib.Analysis.SpecialFunctions.Log.Deriv
import Mathlib.Analysis.SpecialFunctions.Complex.LogDeriv
import Verif.Calc.Smooth
import Verif.Core.Custom

/-!
# Derivatives of the logarithm of a determinant

Pure calculus: nothing here refers to the model (`toMat` only arranges `m * m` numbers as a matrix).
-/

namespace Folx

open Filter Topology Matrix

variable {F : Type} [RCLike F] {m : ℕ}

section
attribute [local instance] Matrix.linftyOpNormedAddCommGroup Matrix.linftyOpNormedSpace Matrix.linftyOpNormedRing
  Matrix.linftyOpNormedAlgebra

/-- `m * m` numbers as matrix, as linear map. -/
noncomputable def toMatL (F : Type) [RCLike F] (m : ℕ) : (Fin (m * m) → F) →L[F] Matrix (Fin m) (Fin m) F :=
  LinearMap.toContinuousLinearMap
    { toFun := toMat, map_add' := fun _ _ => rfl, map_smul' := fun _ _ => rfl }

theorem toMatL_apply (y : Fin (m * m) → F) : toMatL F m y = toMat y := rfl

/-- `M ↦ (t ↦ tr (M t))`. -/
noncomputable def trL (F : Type) [RCLike F] (m : ℕ) : Matrix (Fin m) (Fin m) F →L[F] (Fin (m * m) → F) →L[F] F :=
  LinearMap.toContinuousLinearMap
    { toFun := fun M => LinearMap.toContinuousLinearMap
        { toFun := fun t => trace (M * toMat t)
          map_add' := fun s t => by
            rw [show toMat (s + t) = toMat s + toMat t from rfl, mul_add, trace_add]
          map_smul' := fun c t => by
            rw [show toMat (c • t) = c • toMat t from rfl, mul_smul_comm, trace_smul]; rfl }
      map_add' := fun M N => by ext t; simp [add_mul]
      map_smul' := fun c M => by ext t; simp }

theorem trL_apply (M : Matrix (Fin m) (Fin m) F) (t : Fin (m * m) → F) : trL F m M t = trace (M * toMat t) := rfl

theorem det_contDiff : ContDiff F ⊤ fun y : Fin (m * m) → F => (toMat y).det := by
  simp only [det_apply]
  apply ContDiff.sum
  intro σ _
  apply ContDiff.const_smul
  apply contDiff_prod
  intro i _
  exact contDiff_apply F F _

/-- Jacobi's formula at invertible matrices. -/
theorem det_hasFDerivAt (y : Fin (m * m) → F) (h : (toMat y).det ≠ 0) :
    HasFDerivAt (fun y : Fin (m * m) → F => (toMat y).det) ((toMat y).det • trL F m (toMat y)⁻¹) y := by
  have hd : DifferentiableAt F (fun y : Fin (m * m) → F => (toMat y).det) y :=
    (det_contDiff.differentiable (by simp)).differentiableAt
  refine hd.hasFDerivAt.congr_fderiv ?_
  ext t
  have h2 : HasDerivAt (fun τ : F => y + τ • t) t 0 := by
    have h := ((hasDerivAt_id (0 : F)).smul_const t).const_add y
    rw [one_smul] at h
    exact h
  have h1 : HasFDerivAt (fun y : Fin (m * m) → F => (toMat y).det)
      (fderiv F (fun y : Fin (m * m) → F => (toMat y).det) y) ((fun τ : F => y + τ • t) 0) := by
    simpa using hd.hasFDerivAt
  have h3 := HasFDerivAt.comp_hasDerivAt 0 h1 h2
  have hu : IsUnit (toMat y).det := isUnit_iff_ne_zero.mpr h
  set M := (toMat y)⁻¹ * toMat t with hM
  have h4 : ∀ τ : F, (toMat (y + τ • t)).det = (toMat y).det * (1 + trace M * τ +
      (det (1 + (Polynomial.X : Polynomial F) • M.map Polynomial.C)).divX.divX.eval τ * τ ^ 2) := by
    intro τ
    rw [← det_one_add_smul, ← det_mul, mul_add, mul_one, mul_smul_comm, hM, ← mul_assoc, mul_nonsing_inv _ hu, one_mul]
    rfl
  set p := (det (1 + (Polynomial.X : Polynomial F) • M.map Polynomial.C)).divX.divX with hp
  have h5 : HasDerivAt (fun τ : F => (toMat y).det * (1 + trace M * τ + p.eval τ * τ ^ 2)) ((toMat y).det * trace M) 0 := by
    have a1 : HasDerivAt (fun τ : F => 1 + trace M * τ) (trace M) 0 := by
      simpa using ((hasDerivAt_id (0 : F)).const_mul (trace M)).const_add 1
    have a2 : HasDerivAt (fun τ : F => p.eval τ * τ ^ 2) 0 0 := by
      refine ((p.hasDerivAt 0).mul (hasDerivAt_pow 2 (0 : F))).congr_deriv ?_
      simp
    have := (a1.add a2).const_mul (toMat y).det
    simpa using this
  have h6 : ((fun y : Fin (m * m) → F => (toMat y).det) ∘ fun τ : F => y + τ • t) =
      fun τ : F => (toMat y).det * (1 + trace M * τ + p.eval τ * τ ^ 2) := funext h4
  rw [h6] at h3
  exact h3.unique h5

/-- Derivative of `y ↦ tr (y⁻¹ ·)`. -/
theorem trInv_hasFDerivAt (y : Fin (m * m) → F) (h : (toMat y).det ≠ 0) :
    ∃ H : (Fin (m * m) → F) →L[F] (Fin (m * m) → F) →L[F] F,
      HasFDerivAt (fun y : Fin (m * m) → F => trL F m (toMat y)⁻¹) H y ∧
      ∀ s t, H s t = - trace ((toMat y)⁻¹ * toMat s * (toMat y)⁻¹ * toMat t) := by
  have hu : IsUnit (toMat y).det := isUnit_iff_ne_zero.mpr h
  obtain ⟨u, hu'⟩ := (isUnit_iff_isUnit_det (toMat y)).mpr hu
  have : CompleteSpace (Matrix (Fin m) (Fin m) F) := FiniteDimensional.complete F _
  have h1 : HasFDerivAt (𝕜 := F) (fun A : Matrix (Fin m) (Fin m) F => Ring.inverse A)
      (-ContinuousLinearMap.mulLeftRight F _ (↑u⁻¹ : Matrix (Fin m) (Fin m) F) ↑u⁻¹) (toMatL F m y) := by
    have := hasFDerivAt_ringInverse (𝕜 := F) u
    rw [hu'] at this
    exact this
  have h2 := ((trL F m).hasFDerivAt.comp y (h1.comp y (toMatL F m).hasFDerivAt))
  have h3 : (⇑(trL F m) ∘ (fun A : Matrix (Fin m) (Fin m) F => Ring.inverse A) ∘ ⇑(toMatL F m)) =
      fun y : Fin (m * m) → F => trL F m (toMat y)⁻¹ := by
    funext z
    simp only [Function.comp_apply, toMatL_apply, nonsing_inv_eq_ringInverse]
  rw [h3] at h2
  refine ⟨_, h2, fun s t => ?_⟩
  have hi : (↑u⁻¹ : Matrix (Fin m) (Fin m) F) = (toMat y)⁻¹ := by
    rw [← hu', coe_units_inv]
  rw [hi]
  show trace ((-((toMat y)⁻¹ * toMat s * (toMat y)⁻¹)) * toMat t) = _
  rw [neg_mul, trace_neg]

end

/-- Twice differentiable over `F`, hence over `ℝ`. -/
theorem hasFDeriv2At_restrict {E G : Type} [NormedAddCommGroup E] [NormedSpace F E] [NormedAddCommGroup G]
    [NormedSpace F G] [NormedSpace ℝ E] [IsScalarTower ℝ F E] [NormedSpace ℝ G] [IsScalarTower ℝ F G]
    [ContinuousSMul ℝ G] (f : E → G) (f' : E → E →L[F] G) (x : E) (H : E →L[F] E →L[F] G)
    (h1 : ∀ᶠ y in 𝓝 x, HasFDerivAt f (f' y) y) (h2 : HasFDerivAt f' H x) :
    ∃ H', HasFDeriv2At f ((f' x).restrictScalars ℝ) H' x ∧ ∀ s t, H' s t = H s t := by
  have h3 := (ContinuousLinearMap.restrictScalarsL F E G ℝ ℝ).hasFDerivAt.comp x (h2.restrictScalars ℝ)
  exact ⟨_, ⟨fun y => (f' y).restrictScalars ℝ, h1.mono fun y hy => hy.restrictScalars ℝ, rfl, h3⟩, fun s t => rfl⟩

/-- `ℓ` is a branch of the logarithm near `1`. -/
def LogLike (ℓ : F → F) : Prop := ∀ᶠ z in 𝓝 (1 : F), HasDerivAt ℓ z⁻¹ z

/-- `log (det y / det y₀)` is twice differentiable at `y₀` with derivatives `tr (y₀⁻¹ t)` and
`-tr (y₀⁻¹ s y₀⁻¹ t)`. -/
theorem logdet_deriv2 (ℓ : F → F) (hℓ : LogLike ℓ) (y0 : Fin (m * m) → F) (h0 : (toMat y0).det ≠ 0) :
    ∃ H, HasFDeriv2At (fun y : Fin (m * m) → F => ℓ ((toMat y).det / (toMat y0).det))
      ((trL F m (toMat y0)⁻¹).restrictScalars ℝ) H y0 ∧
      ∀ s t, H s t = - trace ((toMat y0)⁻¹ * toMat s * (toMat y0)⁻¹ * toMat t) := by
  obtain ⟨H, h1, h2⟩ := trInv_hasFDerivAt y0 h0
  have hc : ContinuousAt (fun y : Fin (m * m) → F => (toMat y).det / (toMat y0).det) y0 :=
    (det_contDiff.continuous.continuousAt).div_const _
  have hc1 : ∀ᶠ y in 𝓝 y0, HasDerivAt ℓ ((toMat y).det / (toMat y0).det)⁻¹ ((toMat y).det / (toMat y0).det) := by
    have hℓ' : ∀ᶠ z in 𝓝 ((fun y : Fin (m * m) → F => (toMat y).det / (toMat y0).det) y0), HasDerivAt ℓ z⁻¹ z := by
      simp only [div_self h0]
      exact hℓ
    exact hc.eventually hℓ'
  have hne : ∀ᶠ y in 𝓝 y0, (toMat y).det ≠ 0 := det_contDiff.continuous.continuousAt.eventually_ne h0
  have h3 : ∀ᶠ y in 𝓝 y0, HasFDerivAt (fun y : Fin (m * m) → F => ℓ ((toMat y).det / (toMat y0).det))
      (trL F m (toMat y)⁻¹) y := by
    filter_upwards [hc1, hne] with y hy hy0
    have a1 := (det_hasFDerivAt y hy0).mul_const ((toMat y0).det)⁻¹
    have a2 := hy.comp_hasFDerivAt y (f := fun y : Fin (m * m) → F => (toMat y).det / (toMat y0).det) (by
      simpa only [div_eq_mul_inv] using a1)
    refine a2.congr_fderiv ?_
    ext t
    simp only [_root_.smul_apply, smul_eq_mul]
    field_simp
  obtain ⟨H', a, b⟩ := hasFDeriv2At_restrict _ _ y0 H h3 h1
  exact ⟨H', a, fun s t => (b s t).trans (h2 s t)⟩

theorem logLike_real : LogLike Real.log := by
  filter_upwards [isOpen_ne.mem_nhds (one_ne_zero : (1 : ℝ) ≠ 0)] with z hz
  exact Real.hasDerivAt_log hz

theorem logLike_complex : LogLike Complex.log := by
  filter_upwards [Complex.isOpen_slitPlane.mem_nhds Complex.one_mem_slitPlane] with z hz
  exact Complex.hasDerivAt_log hz

end Folx

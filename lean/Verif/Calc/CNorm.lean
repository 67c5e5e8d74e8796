import Mathlib.Analysis.SpecialFunctions.Sqrt
import Mathlib.Analysis.Calculus.FDeriv.Mul
import Mathlib.Analysis.Calculus.Deriv.Inv
import Mathlib.Analysis.RCLike.Basic
import Mathlib.Topology.Algebra.Module.FiniteDimension
import Mathlib.Analysis.RCLike.Lemmas
import Verif.Calc.Deriv2

/-!
# The absolute value of a (complex) number, as function of two real variables

Specification vocabulary only: nothing here refers to the model.
-/

namespace Folx

open Filter Topology

variable {F : Type} [RCLike F]

/-- `re y re t + im y im t`, the real part of `conj y * t`. -/
noncomputable def reDot (y t : F) : ℝ := RCLike.re y * RCLike.re t + RCLike.im y * RCLike.im t

theorem reDot_eq (y t : F) : reDot y t = RCLike.re (star y * t) := by
  simp [reDot, RCLike.mul_re]

theorem reDot_self (y : F) : reDot y y = ‖y‖ ^ 2 := by
  rw [RCLike.norm_sq_eq_def]; rfl

/-- `reDot y` as linear map into the scalars, linear in `y`. -/
noncomputable def reDotL (F : Type) [RCLike F] : F →L[ℝ] F →L[ℝ] F :=
  LinearMap.toContinuousLinearMap
    { toFun := fun y => (RCLike.ofRealCLM (K := F)).comp (RCLike.re y • RCLike.reCLM + RCLike.im y • RCLike.imCLM)
      map_add' := fun a b => by ext t; simp [add_mul]; ring
      map_smul' := fun c a => by ext t; simp [RCLike.smul_re, RCLike.smul_im, Algebra.smul_def]; ring }

theorem reDotL_apply (y t : F) : reDotL F y t = ((reDot y t : ℝ) : F) := by
  simp [reDotL, reDot]

theorem hasFDerivAt_norm (z : F) (hz : z ≠ 0) :
    HasFDerivAt (fun z : F => ‖z‖) ((‖z‖⁻¹ : ℝ) • (RCLike.re z • RCLike.reCLM + RCLike.im z • RCLike.imCLM : F →L[ℝ] ℝ))
      z := by
  have h1 : HasFDerivAt (fun z : F => RCLike.re z * RCLike.re z + RCLike.im z * RCLike.im z)
      ((2 : ℝ) • (RCLike.re z • RCLike.reCLM + RCLike.im z • RCLike.imCLM : F →L[ℝ] ℝ)) z := by
    have a := (RCLike.reCLM (K := F)).hasFDerivAt (x := z)
    have b := (RCLike.imCLM (K := F)).hasFDerivAt (x := z)
    refine ((a.mul a).add (b.mul b)).congr_fderiv ?_
    ext t
    simp
    ring
  have hpos : 0 < ‖z‖ := by simpa using hz
  have hsq : RCLike.re z * RCLike.re z + RCLike.im z * RCLike.im z = ‖z‖ ^ 2 := reDot_self z
  have h2 := h1.sqrt (by rw [hsq]; positivity)
  have e : (fun z : F => ‖z‖) = fun z : F => √(RCLike.re z * RCLike.re z + RCLike.im z * RCLike.im z) := by
    funext w
    rw [show RCLike.re w * RCLike.re w + RCLike.im w * RCLike.im w = ‖w‖ ^ 2 from reDot_self w,
      Real.sqrt_sq (norm_nonneg w)]
  rw [e]
  refine h2.congr_fderiv ?_
  rw [hsq, Real.sqrt_sq (norm_nonneg z), smul_smul]
  congr 1
  field_simp

/-- The absolute value is twice differentiable away from `0`. -/
theorem norm_deriv2 (z : F) (hz : z ≠ 0) : ∃ D H, HasFDeriv2At (fun z : F => ((‖z‖ : ℝ) : F)) D H z ∧
    (∀ t, D t = ((reDot z t / ‖z‖ : ℝ) : F)) ∧
    ∀ s t, H s t = ((reDot s t / ‖z‖ - reDot z s * reDot z t / ‖z‖ ^ 3 : ℝ) : F) := by
  have hpos : ‖z‖ ≠ 0 := by simpa using hz
  let f' : F → F →L[ℝ] F := fun y => (‖y‖⁻¹ : ℝ) • reDotL F y
  have hinv : HasFDerivAt (fun y : F => ‖y‖⁻¹)
      ((-(‖z‖ ^ 2)⁻¹) • ((‖z‖⁻¹ : ℝ) • (RCLike.re z • RCLike.reCLM + RCLike.im z • RCLike.imCLM : F →L[ℝ] ℝ))) z :=
    (hasDerivAt_inv hpos).comp_hasFDerivAt z (hasFDerivAt_norm z hz)
  have h2 := hinv.smul (reDotL F).hasFDerivAt
  refine ⟨f' z, _, ⟨f', ?_, rfl, h2⟩, fun t => ?_, fun s t => ?_⟩
  · filter_upwards [isOpen_ne.mem_nhds hz] with y hy
    refine ((RCLike.ofRealCLM (K := F)).hasFDerivAt.comp y (hasFDerivAt_norm y hy)).congr_fderiv ?_
    ext t
    simp [f', reDotL_apply, reDot]
  · simp only [f', _root_.smul_apply, reDotL_apply]
    rw [RCLike.real_smul_eq_coe_mul, ← RCLike.ofReal_mul]
    congr 1
    field_simp
  · simp only [_root_.add_apply, _root_.smul_apply, ContinuousLinearMap.smulRight_apply,
      reDotL_apply]
    simp only [RCLike.real_smul_eq_coe_mul, ← RCLike.ofReal_mul, ← RCLike.ofReal_add]
    congr 1
    simp only [RCLike.ofReal_real_eq_id, id_eq, reDot, RCLike.reCLM_apply, RCLike.imCLM_apply, smul_eq_mul]
    field_simp
    ring

end Folx

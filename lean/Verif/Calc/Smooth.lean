import Mathlib.Analysis.Calculus.ContDiff.Basic
import Mathlib.Analysis.Calculus.ContDiff.Comp
import Mathlib.Analysis.Calculus.ContDiff.FTaylorSeries
import Mathlib.Analysis.Calculus.FDeriv.RestrictScalars
import Mathlib.Analysis.RCLike.Basic
import Mathlib.Topology.Algebra.Module.FiniteDimension
import Verif.Calc.Deriv2

/-!
# Smooth functions of several arrays

Specification vocabulary: second derivatives as derivatives of derivatives, functions of several arrays with
some of them held fixed.
-/

namespace Folx

open Filter Topology

section
variable {F : Type} [RCLike F] {E G : Type} [NormedAddCommGroup E] [NormedSpace F E]
  [NormedAddCommGroup G] [NormedSpace F G]

/-- The second derivative. -/
noncomputable def D2 (F : Type) [RCLike F] {E G : Type} [NormedAddCommGroup E] [NormedSpace F E]
    [NormedAddCommGroup G] [NormedSpace F G] (f : E → G) (x : E) : E →L[F] E →L[F] G :=
  fderiv F (fderiv F f) x

/-- A function that is twice continuously differentiable over `F` is twice differentiable over `ℝ`, with the
same derivatives. -/
theorem hasFDeriv2At_of_contDiffAt [NormedSpace ℝ E] [IsScalarTower ℝ F E] [NormedSpace ℝ G] [IsScalarTower ℝ F G]
    [ContinuousSMul ℝ G]
    (f : E → G) (x : E) (h : ContDiffAt F 2 f x) :
    ∃ H, HasFDeriv2At f ((fderiv F f x).restrictScalars ℝ) H x ∧ ∀ s t, H s t = D2 F f x s t := by
  have h1 : ∀ᶠ y in 𝓝 x, HasFDerivAt f ((fderiv F f y).restrictScalars ℝ) y := by
    filter_upwards [h.eventually (by simp)] with y hy
    exact (hy.differentiableAt (by simp)).hasFDerivAt.restrictScalars ℝ
  have h2 : HasFDerivAt (fderiv F f) (D2 F f x) x :=
    ((h.fderiv_right (m := 1) (by norm_num)).differentiableAt (by simp)).hasFDerivAt
  have h3 := (ContinuousLinearMap.restrictScalarsL F E G ℝ ℝ).hasFDerivAt.comp x (h2.restrictScalars ℝ)
  refine ⟨_, ⟨fun y => (fderiv F f y).restrictScalars ℝ, h1, rfl, h3⟩, fun s t => rfl⟩

/-- Second derivative of a function after an affine map. -/
theorem D2_comp_affine {E' : Type} [NormedAddCommGroup E'] [NormedSpace F E'] (f : E → G) (L : E' →L[F] E) (c : E)
    (y : E') (h : ContDiffAt F 2 f (c + L y)) :
    fderiv F (fun y => f (c + L y)) y = (fderiv F f (c + L y)).comp L ∧
    ∀ s t, D2 F (fun y => f (c + L y)) y s t = D2 F f (c + L y) (L s) (L t) := by
  have hA : ∀ y, HasFDerivAt (fun y => c + L y) L y := fun y => L.hasFDerivAt.const_add c
  have hcont : ContinuousAt (fun y => c + L y) y := (hA y).continuousAt
  have h1 : ∀ᶠ y in 𝓝 y, fderiv F (fun y => f (c + L y)) y = (fderiv F f (c + L y)).comp L := by
    filter_upwards [hcont.eventually (h.eventually (by simp))] with z hz
    exact ((hz.differentiableAt (by simp)).hasFDerivAt.comp z (hA z)).fderiv
  refine ⟨h1.self_of_nhds, fun s t => ?_⟩
  have h2 : HasFDerivAt (fderiv F f) (D2 F f (c + L y)) (c + L y) :=
    ((h.fderiv_right (m := 1) (by norm_num)).differentiableAt (by simp)).hasFDerivAt
  have h3 : HasFDerivAt (fun y => (fderiv F f (c + L y)).comp L)
      (((ContinuousLinearMap.compL F E' E G).flip L).comp ((D2 F f (c + L y)).comp L)) y :=
    ((ContinuousLinearMap.compL F E' E G).flip L).hasFDerivAt.comp y (h2.comp y (hA y))
  have h4 : D2 F (fun y => f (c + L y)) y =
      (((ContinuousLinearMap.compL F E' E G).flip L).comp ((D2 F f (c + L y)).comp L)) := by
    unfold D2
    rw [EventuallyEq.fderiv_eq h1]
    exact h3.fderiv
  rw [h4]
  rfl

end

/-! ### Holding some of several arrays fixed -/

section Dext
variable {k m : ℕ} {W : Fin m → Type}

/-- The arrays `x`, with those at places `e 0 < e 1 < …` replaced by `y 0, y 1, …`. -/
noncomputable def dext (e : Fin k ↪o Fin m) (x : (i : Fin m) → W i) (y : (a : Fin k) → W (e a)) : (i : Fin m) → W i :=
  fun i => open Classical in if h : ∃ a, e a = i then h.choose_spec ▸ y h.choose else x i

theorem dext_apply (e : Fin k ↪o Fin m) (x : (i : Fin m) → W i) (y : (a : Fin k) → W (e a)) (a : Fin k) :
    dext e x y (e a) = y a := by
  have h : ∃ b, e b = e a := ⟨a, rfl⟩
  unfold dext
  rw [dif_pos h]
  have key : ∀ b (hb : e b = e a), (hb ▸ y b : W (e a)) = y a := by
    intro b hb
    obtain rfl := e.injective hb
    rfl
  exact key _ h.choose_spec

theorem dext_of_not_mem (e : Fin k ↪o Fin m) (x : (i : Fin m) → W i) (y : (a : Fin k) → W (e a)) (i : Fin m)
    (h : i ∉ Set.range e) : dext e x y i = x i := by
  unfold dext
  exact dif_neg h

theorem dext_cases (e : Fin k ↪o Fin m) {motive : Fin m → Prop} (i : Fin m)
    (h1 : ∀ a, motive (e a)) (h2 : i ∉ Set.range e → motive i) : motive i := by
  by_cases h : i ∈ Set.range e
  · obtain ⟨a, rfl⟩ := h
    exact h1 a
  · exact h2 h

theorem dext_of_agree (e : Fin k ↪o Fin m) (x y : (i : Fin m) → W i)
    (h : ∀ i, i ∉ Set.range e → y i = x i) : dext e x (fun a => y (e a)) = y := by
  funext i
  by_cases hi : i ∈ Set.range e
  · obtain ⟨a, rfl⟩ := hi
    rw [dext_apply]
  · rw [dext_of_not_mem e _ _ i hi, h i hi]

theorem dext_self (e : Fin k ↪o Fin m) (x : (i : Fin m) → W i) : dext e x (fun a => x (e a)) = x :=
  dext_of_agree e x x fun _ _ => rfl

theorem dext_map {W' : Fin m → Type} (e : Fin k ↪o Fin m) (x : (i : Fin m) → W i) (y : (a : Fin k) → W (e a))
    (f : (i : Fin m) → W i → W' i) : (fun i => f i (dext e x y i)) = dext e (fun i => f i (x i)) fun a => f (e a) (y a) := by
  funext i
  by_cases hi : i ∈ Set.range e
  · obtain ⟨a, rfl⟩ := hi
    rw [dext_apply, dext_apply]
  · rw [dext_of_not_mem e _ _ i hi, dext_of_not_mem e _ _ i hi]

variable {F : Type} [RCLike F]

/-- The linear part of `dext`. -/
noncomputable def dextL (F : Type) [RCLike F] {k m : ℕ} {W : Fin m → Type} [∀ i, NormedAddCommGroup (W i)]
    [∀ i, NormedSpace F (W i)] [∀ i, FiniteDimensional F (W i)] (e : Fin k ↪o Fin m) :
    ((a : Fin k) → W (e a)) →L[F] ((i : Fin m) → W i) :=
  LinearMap.toContinuousLinearMap
    { toFun := fun y => dext e (fun _ => 0) y
      map_add' := fun y z => by
        funext i
        by_cases hi : i ∈ Set.range e
        · obtain ⟨a, rfl⟩ := hi
          simp [dext_apply]
        · simp [dext_of_not_mem e _ _ i hi]
      map_smul' := fun c y => by
        funext i
        by_cases hi : i ∈ Set.range e
        · obtain ⟨a, rfl⟩ := hi
          simp [dext_apply]
        · simp [dext_of_not_mem e _ _ i hi] }

variable [∀ i, NormedAddCommGroup (W i)] [∀ i, NormedSpace F (W i)] [∀ i, FiniteDimensional F (W i)]

theorem dextL_apply (e : Fin k ↪o Fin m) (y : (a : Fin k) → W (e a)) : dextL F e y = dext e (fun _ => 0) y := rfl

theorem dext_affine (e : Fin k ↪o Fin m) (x : (i : Fin m) → W i) (y : (a : Fin k) → W (e a)) :
    dext e x y = dext e x (fun _ => 0) + dextL F e y := by
  rw [dextL_apply]
  funext i
  by_cases hi : i ∈ Set.range e
  · obtain ⟨a, rfl⟩ := hi
    simp [dext_apply]
  · simp [dext_of_not_mem e _ _ i hi]

theorem dextL_single (e : Fin k ↪o Fin m) (a : Fin k) (t : W (e a)) :
    dextL F e (Pi.single a t) = Pi.single (e a) t := by
  rw [dextL_apply]
  funext i
  by_cases hi : i ∈ Set.range e
  · obtain ⟨b, rfl⟩ := hi
    rw [dext_apply]
    by_cases hb : b = a
    · subst hb; simp
    · rw [Pi.single_eq_of_ne hb, Pi.single_eq_of_ne (fun h => hb (e.injective h))]
  · rw [dext_of_not_mem e _ _ i hi, Pi.single_eq_of_ne]
    rintro rfl
    exact hi ⟨a, rfl⟩

/-- Derivatives of a function with some arguments held fixed. -/
theorem D2_dext {G : Type} [NormedAddCommGroup G] [NormedSpace F G] (e : Fin k ↪o Fin m) (f : ((i : Fin m) → W i) → G)
    (x : (i : Fin m) → W i) (h : ContDiffAt F 2 f x) :
    (∀ t, fderiv F (fun y => f (dext e x y)) (fun a => x (e a)) t = fderiv F f x (dextL F e t)) ∧
    ∀ s t, D2 F (fun y => f (dext e x y)) (fun a => x (e a)) s t = D2 F f x (dextL F e s) (dextL F e t) := by
  have h0 : dext e x (fun _ => 0) + dextL F e (fun a => x (e a)) = x := by
    rw [← dext_affine, dext_self]
  have hf : (fun y => f (dext e x y)) = fun y => f (dext e x (fun _ => 0) + dextL F e y) := by
    funext y
    rw [← dext_affine]
  have := D2_comp_affine f (dextL F e) (dext e x (fun _ => 0)) (fun a => x (e a)) (by rw [h0]; exact h)
  rw [h0] at this
  rw [hf]
  refine ⟨fun t => ?_, this.2⟩
  rw [this.1]
  rfl

end Dext

end Folx

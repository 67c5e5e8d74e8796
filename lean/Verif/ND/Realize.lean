import Verif.ND.Convert
import Verif.ND.WrapProduct

/-! # Every triple represents some function -/

namespace Folx.Layout

variable {F : Type} [RCLike F]

section
variable {X E : Type} [NormedAddCommGroup X] [NormedSpace ℝ X] [NormedAddCommGroup E] [NormedSpace ℝ E]

theorem add_exact {f g : X → E} {D D' : X →L[ℝ] E} {H H' : X →L[ℝ] X →L[ℝ] E} {x : X} (hf : HasFDeriv2At f D H x) (hg : HasFDeriv2At g D' H' x) :
    HasFDeriv2At (fun y => f y + g y) (D + D') (H + H') x := by
  obtain ⟨f', f1, rfl, f3⟩ := hf
  obtain ⟨g', g1, rfl, g3⟩ := hg
  refine ⟨fun y => f' y + g' y, ?_, rfl, f3.add g3⟩
  filter_upwards [f1, g1] with y hy hy'
  exact hy.add hy'

end

/-- The point `0` of `n` inputs with the unit vectors. -/
noncomputable def unitBase (n : ℕ) : Base (Fin n → ℝ) := ⟨n, 0, fun i => Pi.single i 1⟩

/-- A function with given value, derivatives and Laplacian. -/
theorem exists_function {n : ℕ} (hn : 0 < n) (c l : F) (g : Fin n → F) :
    ∃ (f : (Fin n → ℝ) → F) (D : (Fin n → ℝ) →L[ℝ] F) (H : (Fin n → ℝ) →L[ℝ] (Fin n → ℝ) →L[ℝ] F), HasFDeriv2At f D H 0 ∧ f 0 = c ∧
      (∀ i, D (Pi.single i 1) = g i) ∧ ∑ i, H (Pi.single i 1) (Pi.single i 1) = l := by
  set P : Fin n → (Fin n → ℝ) →L[ℝ] F := fun i => (ContinuousLinearMap.proj (R := ℝ) (φ := fun _ : Fin n => ℝ) i).smulRight (1 : F) with hP
  set κ : F := l / (2 * n) with hκ
  set Q : Fin n → (Fin n → ℝ) →L[ℝ] F := fun i => (ContinuousLinearMap.proj (R := ℝ) (φ := fun _ : Fin n => ℝ) i).smulRight κ with hQ
  set L : (Fin n → ℝ) →L[ℝ] F := ∑ i, (ContinuousLinearMap.proj (R := ℝ) (φ := fun _ : Fin n => ℝ) i).smulRight (g i) with hL
  obtain ⟨D, H, h1, h2, h3⟩ := dot_exact' P Q 0
  refine ⟨_, _, _, add_exact (HasFDeriv2At.const c 0) (add_exact (HasFDeriv2At.linear L 0) h1), ?_, fun i => ?_, ?_⟩
  · simp
  · have : D (Pi.single i 1) = 0 := by
      rw [h2]
      simp
    rw [zero_add, ContinuousLinearMap.add_apply, this, add_zero, hL, ContinuousLinearMap.sum_apply, Finset.sum_eq_single i]
    · simp
    · intro j _ hj
      simp [hj]
    · simp
  · have : ∀ i : Fin n, (0 + (0 + H)) (Pi.single i 1) (Pi.single i 1) = 2 * κ := by
      intro i
      rw [zero_add, zero_add, h3, Finset.sum_eq_single i]
      · simp [hP, hQ, two_mul]
      · intro j _ hj
        simp [hP, hQ, hj]
      · simp
    rw [Finset.sum_congr rfl fun i _ => this i]
    have hn' : (n : F) ≠ 0 := Nat.cast_ne_zero.mpr (by omega)
    simp only [Finset.sum_const, Finset.card_univ, Fintype.card_fin, nsmul_eq_mul, hκ]
    field_simp

/-- Every triple with a well-formed Jacobian represents a function. -/
theorem exists_rep {n m : ℕ} (hn : 0 < n) (t : Trip (Fin m) F) (hw : t.jac.Wf n) : ∃ u : (Fin n → ℝ) → Fin m → F, TripRep (unitBase n) t u := by
  choose f D H h1 h2 h3 h4 using fun p => exists_function hn (t.x p) (t.lapl p) fun i => t.jac.den i p
  obtain ⟨HH, h5, h6⟩ := HasFDeriv2At.pi h1
  refine ⟨fun z p => f p z, funext fun p => (h2 p).symm, hw, _, HH, h5, fun i => funext fun p => (h3 p i).symm, funext fun p => ?_⟩
  rw [← h4 p, Finset.sum_apply]
  exact Finset.sum_congr rfl fun i _ => (h6 _ _ p).symm

end Folx.Layout

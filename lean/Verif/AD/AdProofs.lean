import Mathlib.Analysis.Calculus.FDeriv.Comp
import Mathlib.Analysis.Calculus.FDeriv.CompCLM
import Mathlib.Analysis.Calculus.FDeriv.Linear
import Mathlib.Analysis.Calculus.FDeriv.Pi
import Mathlib.Analysis.Calculus.FDeriv.Add
import Mathlib.Analysis.Calculus.FDeriv.Prod
import Mathlib.Analysis.Calculus.FDeriv.RestrictScalars
import Mathlib.Analysis.Calculus.ContDiff.Basic
import Mathlib.Topology.Algebra.Module.FiniteDimension
import Mathlib.Tactic.Ring
import Verif.AD.Ad

/-! # Proofs about `folx/ad.py` -/

namespace Folx.AD

open Filter Topology

variable {F G : Type} [RCLike F] [RCLike G]

theorem not_isComplex_real : ¬ IsComplex ℝ := by simp [IsComplex]

theorem isComplex_complex : IsComplex ℂ := by simp [IsComplex]

theorem map_ofReal (r : ℝ) : RCLike.map F ℂ (r : F) = (r : ℂ) := by
  simp [RCLike.map_apply]

theorem map_mul (hG : IsComplex G) (a b : G) : RCLike.map G ℂ (a * b) = RCLike.map G ℂ a * RCLike.map G ℂ b := by
  apply Complex.ext <;> simp [RCLike.map_apply] <;> ring

theorem map_mul_real (hG : ¬ IsComplex G) (a b : G) : RCLike.map G ℂ (a * b) = RCLike.map G ℂ a * RCLike.map G ℂ b := by
  have h0 : (RCLike.I : G) = 0 := not_not.mp hG
  have h := fun z : G => RCLike.im_eq_zero h0 z
  apply Complex.ext <;> simp [RCLike.map_apply, h]

/-- Viewing a scalar in `ℂ` is multiplicative. -/
theorem toC_mul (a b : G) : RCLike.map G ℂ (a * b) = RCLike.map G ℂ a * RCLike.map G ℂ b := by
  by_cases hG : IsComplex G
  · exact map_mul hG a b
  · exact map_mul_real hG a b

theorem toC_one : RCLike.map G ℂ 1 = 1 := by
  simp [RCLike.map_apply]

theorem toC_complex (z : ℂ) : RCLike.map ℂ ℂ z = z := by
  rw [RCLike.map_same_eq_id]; rfl

/-- `jaxVjp` is the transpose of the derivative: the defining property of `jax.vjp`. -/
theorem jaxVjp_transpose {n m : ℕ} (f : (Fin n → F) → Fin m → G) (x : Fin n → F) (w : Fin m → G) (t : Fin n → F) :
    RCLike.re (∑ i, jaxVjp f x w i * t i) = RCLike.re (∑ p, w p * jaxJvp f x t p) := by
  have ht : t = ∑ i, (RCLike.re (t i) • (Pi.single i (1 : F) : Fin n → F) +
      RCLike.im (t i) • (Pi.single i (RCLike.I : F) : Fin n → F)) := by
    funext j
    rw [Finset.sum_apply, Finset.sum_eq_single j]
    · simp only [Pi.add_apply, Pi.smul_apply, Pi.single_eq_same, RCLike.real_smul_eq_coe_mul, mul_one]
      exact (RCLike.re_add_im (t j)).symm
    · intro b _ hb
      simp [Pi.single_eq_of_ne (Ne.symm hb)]
    · simp
  have hr : jaxJvp f x t = ∑ i, (RCLike.re (t i) • jaxJvp f x (Pi.single i (1 : F)) +
      RCLike.im (t i) • jaxJvp f x (Pi.single i (RCLike.I : F))) := by
    conv_lhs => rw [ht]
    unfold jaxJvp
    simp only [map_sum, map_add, map_smul]
  rw [hr]
  have hsw : ∑ p, w p * (∑ i, (RCLike.re (t i) • jaxJvp f x (Pi.single i (1 : F)) +
      RCLike.im (t i) • jaxJvp f x (Pi.single i (RCLike.I : F)))) p =
      ∑ i, ((RCLike.re (t i) : G) * (∑ p, w p * jaxJvp f x (Pi.single i (1 : F)) p) +
        (RCLike.im (t i) : G) * (∑ p, w p * jaxJvp f x (Pi.single i (RCLike.I : F)) p)) := by
    simp only [Finset.sum_apply, Pi.add_apply, Pi.smul_apply, RCLike.real_smul_eq_coe_mul, Finset.mul_sum]
    rw [Finset.sum_comm]
    refine Finset.sum_congr rfl fun i _ => ?_
    rw [← Finset.sum_add_distrib]
    refine Finset.sum_congr rfl fun p _ => ?_
    ring
  rw [hsw, map_sum, map_sum]
  refine Finset.sum_congr rfl fun i _ => ?_
  simp only [jaxVjp, map_add, RCLike.re_ofReal_mul]
  rcases RCLike.I_eq_zero_or_im_I_eq_one (K := F) with h | h
  · have him : RCLike.im (t i) = 0 := RCLike.im_eq_zero h _
    rw [him, h]
    simp [mul_comm]
  · simp only [RCLike.mul_re, map_sub, RCLike.ofReal_re, RCLike.I_re, zero_mul, RCLike.ofReal_im, mul_zero,
      sub_zero, RCLike.mul_im, zero_add, zero_sub, h, one_mul]
    ring

theorem fderiv_re {V : Type} [NormedAddCommGroup V] [NormedSpace ℝ V] {m : ℕ} (f : V → Fin m → G) (x t : V)
    (h : DifferentiableAt ℝ f x) (p : Fin m) :
    fderiv ℝ (fun z p => RCLike.re (f z p)) x t p = RCLike.re (fderiv ℝ f x t p) := by
  have hp : ∀ p, HasFDerivAt (fun z => RCLike.re (f z p))
      ((RCLike.reCLM (K := G)).comp ((ContinuousLinearMap.proj p).comp (fderiv ℝ f x))) x := fun p =>
    (RCLike.reCLM (K := G)).hasFDerivAt.comp x ((hasFDerivAt_pi'.mp h.hasFDerivAt) p)
  rw [(hasFDerivAt_pi.mpr hp).fderiv]
  rfl

theorem fderiv_im {V : Type} [NormedAddCommGroup V] [NormedSpace ℝ V] {m : ℕ} (f : V → Fin m → G) (x t : V)
    (h : DifferentiableAt ℝ f x) (p : Fin m) :
    fderiv ℝ (fun z p => RCLike.im (f z p)) x t p = RCLike.im (fderiv ℝ f x t p) := by
  have hp : ∀ p, HasFDerivAt (fun z => RCLike.im (f z p))
      ((RCLike.imCLM (K := G)).comp ((ContinuousLinearMap.proj p).comp (fderiv ℝ f x))) x := fun p =>
    (RCLike.imCLM (K := G)).hasFDerivAt.comp x ((hasFDerivAt_pi'.mp h.hasFDerivAt) p)
  rw [(hasFDerivAt_pi.mpr hp).fderiv]
  rfl

/-- Real inputs, real or complex outputs. -/
theorem vjp_real {n m : ℕ} (f : (Fin n → ℝ) → Fin m → G) (x : Fin n → ℝ) (h : DifferentiableAt ℝ f x) (w : Fin m → G)
    (i : Fin n) : vjp f x w i = RCLike.map G ℂ (∑ p, w p * fderiv ℝ f x (Pi.single i 1) p) := by
  unfold vjp
  rw [if_neg not_isComplex_real]
  split
  · rename_i hG
    simp only [vjpRc, jaxVjp, jaxJvp, fderiv_re f x _ h, fderiv_im f x _ h]
    apply Complex.ext
    · simp [RCLike.map_apply, Finset.sum_sub_distrib]
    · simp [RCLike.map_apply, Finset.sum_add_distrib, add_comm]
  · rename_i hG
    have h0 : (RCLike.I : G) = 0 := not_not.mp hG
    simp only [jaxVjp, jaxJvp]
    apply Complex.ext
    · simp [RCLike.map_apply]
    · simp only [RCLike.map_apply, RCLike.I_to_real, RCLike.ofReal_real_eq_id, RCLike.im_eq_zero h0]
      simp

/-- Complex inputs, complex outputs, holomorphic function. -/
theorem vjp_holo {n m : ℕ} (f : (Fin n → ℂ) → Fin m → ℂ) (x : Fin n → ℂ) (h : DifferentiableAt ℂ f x) (w : Fin m → ℂ)
    (i : Fin n) : vjp f x w i = ∑ p, w p * fderiv ℂ f x (Pi.single i 1) p := by
  unfold vjp
  rw [if_pos isComplex_complex, if_pos isComplex_complex]
  simp only [toC_complex, jaxVjp, jaxJvp]
  have hr : fderiv ℝ f x = (fderiv ℂ f x).restrictScalars ℝ := h.fderiv_restrictScalars ℝ
  have hI : (Pi.single i (RCLike.I : ℂ) : Fin n → ℂ) = Complex.I • Pi.single i 1 := by
    rw [← Pi.single_smul]; simp
  have hg : ∑ p, w p * fderiv ℝ f x (Pi.single i (RCLike.I : ℂ)) p =
      Complex.I * ∑ p, w p * fderiv ℂ f x (Pi.single i 1) p := by
    rw [hr, Finset.mul_sum]
    refine Finset.sum_congr rfl fun p _ => ?_
    rw [ContinuousLinearMap.coe_restrictScalars', hI, map_smul]
    simp only [Pi.smul_apply, smul_eq_mul]
    ring
  rw [hg, hr]
  simp only [ContinuousLinearMap.coe_restrictScalars']
  generalize ∑ p, w p * fderiv ℂ f x (Pi.single i 1) p = A
  apply Complex.ext <;> simp

/-- Complex inputs, real outputs. -/
theorem vjp_complex_real {n m : ℕ} (f : (Fin n → ℂ) → Fin m → ℝ) (x : Fin n → ℂ) (w : Fin m → ℝ)
    (i : Fin n) : vjp f x w i = ∑ p, (w p : ℂ) * ((fderiv ℝ f x (Pi.single i 1) p : ℂ) -
      Complex.I * (fderiv ℝ f x (Pi.single i Complex.I) p : ℂ)) := by
  unfold vjp
  rw [if_pos isComplex_complex, if_neg not_isComplex_real]
  simp only [toC_complex, jaxVjp, jaxJvp]
  simp only [mul_sub, Finset.sum_sub_distrib, RCLike.re_to_real, RCLike.I_to_complex]
  congr 1
  · rw [RCLike.ofReal_sum]
    simp
  · rw [RCLike.ofReal_sum, Finset.mul_sum]
    refine Finset.sum_congr rfl fun p _ => ?_
    simp
    ring

theorem eyeRow_single {n : ℕ} (i : Fin n) : (eyeRow i : Fin n → F) = Pi.single i 1 := by
  funext j
  simp [eyeRow, Pi.single_apply]

theorem unravel_single {k : ℕ} {size : Fin k → ℕ} (j : Fin k) (q : Fin (size j)) (s : F) :
    (unravel (Pi.single (finSigmaFinEquiv ⟨j, q⟩) s) : Tuple size F) = Pi.single j (Pi.single q s) := by
  funext j' q'
  unfold unravel
  rw [Pi.single_apply]
  by_cases hj : j' = j
  · subst hj
    rw [Pi.single_eq_same]
    by_cases hq : q' = q
    · subst hq; simp
    · rw [Pi.single_eq_of_ne hq, if_neg]
      intro h
      have := finSigmaFinEquiv.injective h
      simp at this
      exact hq this
  · rw [if_neg, Pi.single_eq_of_ne hj]
    · rfl
    · intro h
      have := finSigmaFinEquiv.injective h
      exact hj (congrArg Sigma.fst this)

theorem unravel_ravel {k : ℕ} {size : Fin k → ℕ} (t : Tuple size F) : unravel (ravel t) = t := by
  funext j q
  unfold unravel ravel
  rw [Equiv.symm_apply_apply]

theorem ravel_unravel {k : ℕ} {size : Fin k → ℕ} (x : Fin (∑ j, size j) → F) : ravel (unravel (size := size) x) = x := by
  funext i
  unfold unravel ravel
  simp

/-- `unravel` as a continuous linear map. -/
noncomputable def unravelL (K : Type) [RCLike K] {k : ℕ} (size : Fin k → ℕ) :
    (Fin (∑ j, size j) → K) →L[K] Tuple size K :=
  ContinuousLinearMap.pi fun j => ContinuousLinearMap.pi fun q => ContinuousLinearMap.proj (finSigmaFinEquiv ⟨j, q⟩)

theorem unravelL_apply {k : ℕ} (size : Fin k → ℕ) (x : Fin (∑ j, size j) → F) : unravelL F size x = unravel x := rfl

/-- `ravel` as a continuous linear map. -/
noncomputable def ravelL (K : Type) [RCLike K] {k : ℕ} (size : Fin k → ℕ) :
    Tuple size K →L[K] (Fin (∑ j, size j) → K) :=
  ContinuousLinearMap.pi fun i => (ContinuousLinearMap.proj (finSigmaFinEquiv.symm i).2).comp
    (ContinuousLinearMap.proj (R := K) (φ := fun j => Fin (size j) → K) (finSigmaFinEquiv.symm i).1)

theorem ravelL_apply {k : ℕ} (size : Fin k → ℕ) (x : Tuple size F) : ravelL F size x = ravel x := rfl

section
variable {k l : ℕ} {size : Fin k → ℕ} {osize : Fin l → ℕ}

theorem ravel_apply (t : Tuple osize G) (r : Fin l) (o : Fin (osize r)) : ravel t (finSigmaFinEquiv ⟨r, o⟩) = t r o := by
  rw [← congrFun (congrFun (unravel_ravel t) r) o]
  rfl

/-- Rows of `jacrev`: real inputs. -/
theorem jacrev_real (f : Tuple size ℝ → Tuple osize G) (x : Tuple size ℝ) (h : DifferentiableAt ℝ f x)
    (r : Fin l) (o : Fin (osize r)) (j : Fin k) (q : Fin (size j)) :
    jacrev f x (finSigmaFinEquiv ⟨r, o⟩) j q = RCLike.map G ℂ (fderiv ℝ f x (Pi.single j (Pi.single q 1)) r o) := by
  have hf : HasFDerivAt (fun z => ravel (f (unravel z)) : (Fin (∑ j, size j) → ℝ) → Fin (∑ j, osize j) → G)
      (((ravelL G osize).restrictScalars ℝ).comp ((fderiv ℝ f x).comp (unravelL ℝ size))) (ravel x) := by
    have h' : HasFDerivAt f (fderiv ℝ f x) (unravelL ℝ size (ravel x)) := by
      rw [unravelL_apply, unravel_ravel]; exact h.hasFDerivAt
    exact ((ravelL G osize).restrictScalars ℝ).hasFDerivAt.comp (ravel x)
      (h'.comp (ravel x) (unravelL ℝ size).hasFDerivAt)
  show vjp (fun z => ravel (f (unravel z))) (ravel x) (eyeRow (finSigmaFinEquiv ⟨r, o⟩)) (finSigmaFinEquiv ⟨j, q⟩) = _
  rw [vjp_real _ _ hf.differentiableAt, hf.fderiv, Finset.sum_eq_single (finSigmaFinEquiv ⟨r, o⟩)]
  · simp only [eyeRow, if_true, one_mul]
    congr 1
    show ravel (fderiv ℝ f x (unravel (Pi.single (finSigmaFinEquiv ⟨j, q⟩) 1))) _ = _
    rw [unravel_single, ravel_apply]
  · intro b _ hb
    simp [eyeRow, hb]
  · simp

/-- Rows of `jacrev`: holomorphic functions. -/
theorem jacrev_holo (f : Tuple size ℂ → Tuple osize ℂ) (x : Tuple size ℂ) (h : DifferentiableAt ℂ f x)
    (r : Fin l) (o : Fin (osize r)) (j : Fin k) (q : Fin (size j)) :
    jacrev f x (finSigmaFinEquiv ⟨r, o⟩) j q = fderiv ℂ f x (Pi.single j (Pi.single q 1)) r o := by
  have hf : HasFDerivAt (fun z => ravel (f (unravel z)) : (Fin (∑ j, size j) → ℂ) → Fin (∑ j, osize j) → ℂ)
      ((ravelL ℂ osize).comp ((fderiv ℂ f x).comp (unravelL ℂ size))) (ravel x) := by
    have h' : HasFDerivAt f (fderiv ℂ f x) (unravelL ℂ size (ravel x)) := by
      rw [unravelL_apply, unravel_ravel]; exact h.hasFDerivAt
    exact (ravelL ℂ osize).hasFDerivAt.comp (ravel x) (h'.comp (ravel x) (unravelL ℂ size).hasFDerivAt)
  show vjp (fun z => ravel (f (unravel z))) (ravel x) (eyeRow (finSigmaFinEquiv ⟨r, o⟩)) (finSigmaFinEquiv ⟨j, q⟩) = _
  rw [vjp_holo _ _ hf.differentiableAt, hf.fderiv, Finset.sum_eq_single (finSigmaFinEquiv ⟨r, o⟩)]
  · simp only [eyeRow, if_true, one_mul]
    show ravel (fderiv ℂ f x (unravel (Pi.single (finSigmaFinEquiv ⟨j, q⟩) 1))) _ = _
    rw [unravel_single, ravel_apply]
  · intro b _ hb
    simp [eyeRow, hb]
  · simp

end

end Folx.AD

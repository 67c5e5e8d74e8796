import Mathlib.Analysis.SpecialFunctions.ExpDeriv
import Verif.AD.HessianProofs

/-! # C39: `folx/ad.py`; C10 on the level of the AD transforms -/

namespace Folx

open Filter Topology AD

variable {F G : Type} [RCLike F] [RCLike G]

theorem dirD_proj {V : Type} [NormedAddCommGroup V] [NormedSpace ℝ V] {m : ℕ} (f : V → Fin m → G) (x v : V)
    (h : DifferentiableAt ℝ f x) (p : Fin m) : dirD v (fun z => f z p) x = fderiv ℝ f x v p := by
  have := (hasFDerivAt_pi'.mp h.hasFDerivAt) p
  rw [dirD_eq this.differentiableAt, this.fderiv]
  rfl

theorem dirD_elem {V : Type} [NormedAddCommGroup V] [NormedSpace ℝ V] {l : ℕ} {osize : Fin l → ℕ}
    (f : V → Tuple osize G) (x v : V) (h : DifferentiableAt ℝ f x) (r : Fin l) (o : Fin (osize r)) :
    dirD v (fun z => f z r o) x = fderiv ℝ f x v r o := by
  have := (elemL G osize r o).hasFDerivAt.comp x h.hasFDerivAt
  exact (dirD_eq (f := fun z => f z r o) this.differentiableAt).trans (by
    rw [show (fun z => f z r o) = (elemL G osize r o) ∘ f from rfl, this.fderiv]; rfl)

/-- **C39.** For a function from real to complex arrays, `vjp(f, x)(w)` is `wᵀ J`: entry `i` is
`∑ₚ wₚ ∂fₚ/∂xᵢ` with the complex partial derivatives, no conjugation. -/
theorem C39_vjp_real_to_complex {n m : ℕ} (f : (Fin n → ℝ) → Fin m → ℂ) (x : Fin n → ℝ) (h : DifferentiableAt ℝ f x)
    (w : Fin m → ℂ) (i : Fin n) :
    vjp f x w i = ∑ p, w p * dirD (Pi.single i 1) (fun z => f z p) x := by
  rw [vjp_real f x h, toC_complex]
  exact Finset.sum_congr rfl fun p _ => by rw [dirD_proj f x _ h]

/-- **C39.** The other combinations of dtypes: real to real, holomorphic, and complex to real (where JAX's
convention is `∂/∂(Re xᵢ) − i ∂/∂(Im xᵢ)`). -/
theorem C39_vjp_other {n m : ℕ} (x : Fin n → ℝ) (c : Fin n → ℂ) (i : Fin n) :
    (∀ f : (Fin n → ℝ) → Fin m → ℝ, DifferentiableAt ℝ f x → ∀ w : Fin m → ℝ,
      vjp f x w i = ((∑ p, w p * dirD (Pi.single i 1) (fun z => f z p) x : ℝ) : ℂ)) ∧
    (∀ f : (Fin n → ℂ) → Fin m → ℂ, DifferentiableAt ℂ f c → ∀ w : Fin m → ℂ,
      vjp f c w i = ∑ p, w p * lineDeriv ℂ (fun z => f z p) c (Pi.single i 1)) ∧
    (∀ f : (Fin n → ℂ) → Fin m → ℝ, DifferentiableAt ℝ f c → ∀ w : Fin m → ℝ,
      vjp f c w i = ∑ p, (w p : ℂ) * (((dirD (Pi.single i 1) (fun z => f z p) c : ℝ) : ℂ) -
        Complex.I * ((dirD (Pi.single i Complex.I) (fun z => f z p) c : ℝ) : ℂ))) := by
  refine ⟨fun f h w => ?_, fun f h w => ?_, fun f h w => ?_⟩
  · rw [vjp_real f x h]
    have : ∀ r : ℝ, RCLike.map ℝ ℂ r = (r : ℂ) := fun r => map_ofReal r
    rw [this]
    congr 1
    exact Finset.sum_congr rfl fun p _ => by rw [dirD_proj f x _ h]
  · rw [vjp_holo f c h]
    refine Finset.sum_congr rfl fun p _ => ?_
    have := (hasFDerivAt_pi'.mp h.hasFDerivAt) p
    rw [this.differentiableAt.lineDeriv_eq_fderiv, this.fderiv]
    rfl
  · rw [vjp_complex_real f c]
    exact Finset.sum_congr rfl fun p _ => by rw [dirD_proj f c _ h, dirD_proj f c _ h]

section
variable {k l : ℕ} {size : Fin k → ℕ} {osize : Fin l → ℕ}

/-- **C39 (`jacrev`).** Several arguments (real arrays of any sizes), several results (real or complex): the entry for
position `o` of result `r` and position `q` of argument `j` is that partial derivative. -/
theorem C39_jacrev (f : Tuple size ℝ → Tuple osize G) (x : Tuple size ℝ) (h : DifferentiableAt ℝ f x)
    (r : Fin l) (o : Fin (osize r)) (j : Fin k) (q : Fin (size j)) :
    jacrev f x (finSigmaFinEquiv ⟨r, o⟩) j q = RCLike.map G ℂ (dirD (unitAt j q 1) (fun z => f z r o) x) := by
  rw [jacrev_real f x h, dirD_elem f x _ h]
  rfl

/-- **C39 (`jacrev`, holomorphic functions).** -/
theorem C39_jacrev_holomorphic (f : Tuple size ℂ → Tuple osize ℂ) (x : Tuple size ℂ) (h : DifferentiableAt ℂ f x)
    (r : Fin l) (o : Fin (osize r)) (j : Fin k) (q : Fin (size j)) :
    jacrev f x (finSigmaFinEquiv ⟨r, o⟩) j q = lineDeriv ℂ (fun z => f z r o) x (unitAt j q 1) := by
  rw [jacrev_holo f x h]
  let E : Tuple osize ℂ →L[ℂ] ℂ := (ContinuousLinearMap.proj o).comp
    (ContinuousLinearMap.proj (R := ℂ) (φ := fun j => Fin (osize j) → ℂ) r)
  have := E.hasFDerivAt.comp x h.hasFDerivAt
  rw [show (fun z => f z r o) = E ∘ f from rfl, this.differentiableAt.lineDeriv_eq_fderiv, this.fderiv]
  rfl

/-- **C39 (`jacfwd`).** -/
theorem C39_jacfwd {O H : Type} [Fintype O] [NormedAddCommGroup H] [NormedSpace ℝ H]
    (f : Tuple size F → O → H) (x : Tuple size F) (h : DifferentiableAt ℝ f x) (o : O) (j : Fin k) (q : Fin (size j)) :
    jacfwd f x o (finSigmaFinEquiv ⟨j, q⟩) = dirD (unitAt j q 1) (fun z => f z o) x := by
  rw [jacfwd_eq]
  have := (hasFDerivAt_pi'.mp h.hasFDerivAt) o
  rw [dirD_eq this.differentiableAt, this.fderiv]
  rfl

/-- **C39 (`hessian`).** The array has all second partial derivatives: entry `(o of result r, q of argument j, q' of
argument j')`. -/
theorem C39_hessian (f : Tuple size ℝ → Tuple osize G) (x : Tuple size ℝ) (h : Twice f x)
    (r : Fin l) (o : Fin (osize r)) (j j' : Fin k) (q : Fin (size j)) (q' : Fin (size j')) :
    hessian f x (finSigmaFinEquiv ⟨r, o⟩, ⟨j, q⟩) (finSigmaFinEquiv ⟨j', q'⟩) =
      RCLike.map G ℂ (dirD (unitAt j' q' 1) (dirD (unitAt j q 1) fun z => f z r o) x) := by
  rw [hessian_of h]
  · exact congrArg _ (dirD2_eq (elemL G osize r o) h _ _).symm
  · filter_upwards [h.1] with z hz r o j q
    exact jacrev_real f z hz r o j q

/-- **C39 (`hessian`, holomorphic functions).** -/
theorem C39_hessian_holomorphic (f : Tuple size ℂ → Tuple osize ℂ) (x : Tuple size ℂ) (h : ContDiffAt ℂ 2 f x)
    (r : Fin l) (o : Fin (osize r)) (j j' : Fin k) (q : Fin (size j)) (q' : Fin (size j')) :
    hessian f x (finSigmaFinEquiv ⟨r, o⟩, ⟨j, q⟩) (finSigmaFinEquiv ⟨j', q'⟩) =
      dirD (unitAt j' q' 1) (dirD (unitAt j q 1) fun z => f z r o) x := by
  have h2 : Twice f x := twice_of_holo h
  rw [hessian_of h2, toC_complex]
  · exact (dirD2_eq (elemL ℂ osize r o) h2 _ _).symm
  · filter_upwards [h.eventually (by simp)] with z hz r o j q
    have hz' : DifferentiableAt ℂ f z := hz.differentiableAt (by simp)
    rw [jacrev_holo f z hz', toC_complex, hz'.fderiv_restrictScalars ℝ]
    rfl

end

/-- Non-vacuity: `f(x, y) = (x + i y)²` as a function of two real arguments, differentiated by `vjp` at `(1, 2)` with
cotangent `i`; every hypothesis is met and the result is `2 i (1 + 2 i) = −4 + 2 i`. -/
example : vjp (fun (z : Fin 2 → ℝ) (_ : Fin 1) => ((z 0 : ℂ) + Complex.I * (z 1 : ℂ)) * ((z 0 : ℂ) + Complex.I * (z 1 : ℂ))) ![1, 2] (fun _ => Complex.I) 0 =
    -4 + 2 * Complex.I := by
  have hz : ∀ j : Fin 2, HasFDerivAt (fun z : Fin 2 → ℝ => ((z j : ℝ) : ℂ))
      (Complex.ofRealCLM.comp (ContinuousLinearMap.proj (R := ℝ) (φ := fun _ : Fin 2 => ℝ) j)) ![1, 2] := fun j =>
    Complex.ofRealCLM.hasFDerivAt.comp _ (ContinuousLinearMap.proj (R := ℝ) (φ := fun _ : Fin 2 => ℝ) j).hasFDerivAt
  have h0 := (hz 0).add ((hz 1).const_mul Complex.I)
  have h1 := h0.mul h0
  rw [C39_vjp_real_to_complex _ _ (by
    rw [differentiableAt_pi]; exact fun _ => h1.differentiableAt)]
  simp only [Finset.univ_unique, Finset.sum_singleton]
  rw [dirD_eq (f := fun z : Fin 2 → ℝ => ((z 0 : ℂ) + Complex.I * (z 1 : ℂ)) * ((z 0 : ℂ) + Complex.I * (z 1 : ℂ))) h1.differentiableAt,
    show fderiv ℝ (fun z : Fin 2 → ℝ => ((z 0 : ℂ) + Complex.I * (z 1 : ℂ)) * ((z 0 : ℂ) + Complex.I * (z 1 : ℂ))) ![1, 2] = _ from h1.fderiv]
  apply Complex.ext <;> simp <;> norm_num

/-! ## C10, with the AD transforms -/

section
variable {n m K : ℕ}

/-- **C10 (real inputs).** The three strategies of `hessian.py`, as programs built from `jvp`, `jacrev` and `hessian`,
all return the sum over the Jacobian columns of the second derivative in the direction of the column. -/
theorem C10_transforms_real (f : (Fin n → ℝ) → Fin m → G) (x : Fin n → ℝ) (h : Twice f x) (g : Fin n → Fin K → ℝ)
    (p : Fin m) :
    let s := ∑ c, dirD (fun a => g a c) (dirD (fun a => g a c) fun z => f z p) x
    jhjViaHessian f x g p = RCLike.map G ℂ s ∧ jhjViaTrace f x g p = s ∧ jhjViaHvp f x g p = RCLike.map G ℂ s := by
  intro s
  let H := fderiv ℝ (fderiv ℝ f) x
  have hs : s = ∑ c, H (fun a => g a c) (fun a => g a c) p := Finset.sum_congr rfl fun c _ =>
    dirD2_eq (ContinuousLinearMap.proj (R := ℝ) (φ := fun _ : Fin m => G) p) h _ _
  obtain ⟨hl, hr⟩ := coeff_real H p
  refine ⟨?_, (jhjViaTrace_eq f x h g p).trans hs.symm, ?_⟩
  · rw [jhjViaHessian_eq f x h (jacrevOk_real f x h), hs, map_sum]
    exact contract_hessian (fun t u => RCLike.map G ℂ (H t u p)) g hl hr
  · rw [jhjViaHvp_eq f x h (jacrevOk_real f x h), hs, map_sum]
    exact contract_hvp (fun t u => RCLike.map G ℂ (H t u p)) g hr

/-- **C10 (holomorphic functions).** -/
theorem C10_transforms_holomorphic (f : (Fin n → ℂ) → Fin m → ℂ) (x : Fin n → ℂ) (h : ContDiffAt ℂ 2 f x)
    (g : Fin n → Fin K → ℂ) (p : Fin m) :
    let s := ∑ c, dirD (fun a => g a c) (dirD (fun a => g a c) fun z => f z p) x
    jhjViaHessian f x g p = s ∧ jhjViaTrace f x g p = s ∧ jhjViaHvp f x g p = s := by
  intro s
  have h2 : Twice f x := twice_of_holo h
  have hs : s = ∑ c, fderiv ℝ (fderiv ℝ f) x (fun a => g a c) (fun a => g a c) p := Finset.sum_congr rfl fun c _ =>
    dirD2_eq (ContinuousLinearMap.proj (R := ℝ) (φ := fun _ : Fin m => ℂ) p) h2 _ _
  obtain ⟨H, hH, hH2⟩ := hasFDeriv2At_of_contDiffAt f x h
  have he : ∀ u v, fderiv ℝ (fderiv ℝ f) x u v = D2 ℂ f x u v := fun u v => by rw [← hH.eq_fderiv.2, hH2]
  obtain ⟨hl, hr⟩ := coeff_holo (D2 ℂ f x) p
  refine ⟨?_, (jhjViaTrace_eq f x h2 g p).trans hs.symm, ?_⟩
  · rw [jhjViaHessian_eq f x h2 (jacrevOk_holo f x h), hs]
    simp only [he, toC_complex]
    simpa only [toC_complex] using contract_hessian (fun t u => D2 ℂ f x t u p) g
      (by simpa only [toC_complex] using hl) (by simpa only [toC_complex] using hr)
  · rw [jhjViaHvp_eq f x h2 (jacrevOk_holo f x h), hs]
    simp only [he, toC_complex]
    simpa only [toC_complex] using contract_hvp (fun t u => D2 ℂ f x t u p) g (by simpa only [toC_complex] using hr)

/-- **C10 (complex inputs, real outputs).** Here the code uses only the last two strategies, and takes the real part of
the last. -/
theorem C10_transforms_complex_to_real (f : (Fin n → ℂ) → Fin m → ℝ) (x : Fin n → ℂ) (h : Twice f x)
    (g : Fin n → Fin K → ℂ) (p : Fin m) :
    let s := ∑ c, dirD (fun a => g a c) (dirD (fun a => g a c) fun z => f z p) x
    jhjViaTrace f x g p = s ∧ (jhjViaHvp f x g p).re = s := by
  intro s
  have hs : s = ∑ c, fderiv ℝ (fderiv ℝ f) x (fun a => g a c) (fun a => g a c) p := Finset.sum_congr rfl fun c _ =>
    dirD2_eq (ContinuousLinearMap.proj (R := ℝ) (φ := fun _ : Fin m => ℝ) p) h _ _
  exact ⟨(jhjViaTrace_eq f x h g p).trans hs.symm, (jhjViaHvp_complex_real f x h g p).trans hs.symm⟩

/-- The hypotheses of the three theorems are met, e.g. by the exponential of every entry. -/
example (x : Fin 3 → ℝ) : Twice (fun (z : Fin 3 → ℝ) (p : Fin 3) => Real.exp (z p)) x := by
  have h : ContDiff ℝ 2 fun (z : Fin 3 → ℝ) (p : Fin 3) => Real.exp (z p) :=
    contDiff_pi.mpr fun p => Real.contDiff_exp.comp (contDiff_apply ℝ ℝ p)
  exact ⟨Eventually.of_forall fun z => (h.differentiable (by simp)).differentiableAt,
    ((h.fderiv_right (m := 1) (by norm_num)).differentiable (by simp)).differentiableAt⟩

end

end Folx

import Verif.AD.AdProofs
import Verif.AD.AdSpec
import Verif.Calc.Smooth

/-! # Second derivatives built by `folx/ad.py` and the strategies of `folx/hessian.py` -/

namespace Folx.AD

open Filter Topology

variable {F G : Type} [RCLike F] [RCLike G]

section
variable {V W : Type} [NormedAddCommGroup V] [NormedSpace ℝ V] [NormedAddCommGroup W] [NormedSpace ℝ W]

theorem dirD_eq {f : V → W} {x v : V} (h : DifferentiableAt ℝ f x) : dirD v f x = fderiv ℝ f x v :=
  h.lineDeriv_eq_fderiv

/-- Derivative of a linear function of the derivative. -/
theorem hasFDerivAt_clm_fderiv {U : Type} [NormedAddCommGroup U] [NormedSpace ℝ U] {f : V → W} {x : V} (L : W →L[ℝ] U)
    (h : Twice f x) (v : V) :
    HasFDerivAt (fun z => L (fderiv ℝ f z v)) (L.comp ((fderiv ℝ (fderiv ℝ f) x).flip v)) x := by
  have h2 : HasFDerivAt (fun z => fderiv ℝ f z v) ((fderiv ℝ (fderiv ℝ f) x).flip v) x := by
    have := h.2.hasFDerivAt.clm_apply (hasFDerivAt_const v x)
    rw [ContinuousLinearMap.comp_zero, zero_add] at this
    exact this
  exact L.hasFDerivAt.comp x h2

/-- Second directional derivatives are values of the second derivative. -/
theorem dirD2_eq {U : Type} [NormedAddCommGroup U] [NormedSpace ℝ U] {f : V → W} {x : V} (L : W →L[ℝ] U)
    (h : Twice f x) (v v' : V) :
    dirD v' (dirD v fun z => L (f z)) x = L (fderiv ℝ (fderiv ℝ f) x v' v) := by
  have he : dirD v (fun z => L (f z)) =ᶠ[𝓝 x] fun z => L (fderiv ℝ f z v) := by
    filter_upwards [h.1] with z hz
    have := L.hasFDerivAt.comp z hz.hasFDerivAt
    exact (dirD_eq this.differentiableAt).trans (by rw [this.fderiv]; rfl)
  have hd := (hasFDerivAt_clm_fderiv L h v).congr_of_eventuallyEq he
  rw [dirD_eq hd.differentiableAt, hd.fderiv]
  rfl

end

theorem twice_of_holo {V W : Type} [NormedAddCommGroup V] [NormedSpace ℂ V] [NormedAddCommGroup W] [NormedSpace ℂ W]
    [NormedSpace ℝ V] [NormedSpace ℝ W] [IsScalarTower ℝ ℂ V] [IsScalarTower ℝ ℂ W] [ContinuousSMul ℝ W]
    {f : V → W} {x : V} (h : ContDiffAt ℂ 2 f x) : Twice f x := by
  obtain ⟨H, ⟨f', h1, h2, h3⟩, -⟩ := hasFDeriv2At_of_contDiffAt f x h
  exact ⟨h1.mono fun z hz => hz.differentiableAt,
    (h3.congr_of_eventuallyEq (h1.mono fun z hz => hz.fderiv)).differentiableAt⟩

section
variable {k l : ℕ} {size : Fin k → ℕ} {osize : Fin l → ℕ}

/-- Selecting one output element. -/
noncomputable def elemL (G : Type) [RCLike G] {l : ℕ} (osize : Fin l → ℕ) (r : Fin l) (o : Fin (osize r)) :
    Tuple osize G →L[ℝ] G :=
  (ContinuousLinearMap.proj o).comp (ContinuousLinearMap.proj (R := ℝ) (φ := fun j => Fin (osize j) → G) r)

theorem jacfwd_eq {O H : Type} [Fintype O] [NormedAddCommGroup H] [NormedSpace ℝ H]
    (f : Tuple size F → O → H) (x : Tuple size F) (o : O) (j : Fin k) (q : Fin (size j)) :
    jacfwd f x o (finSigmaFinEquiv ⟨j, q⟩) = fderiv ℝ f x (unitAt j q 1) o := by
  unfold jacfwd jaxJvp
  rw [eyeRow_single, unravel_single]
  rfl

theorem hessian_of {f : Tuple size F → Tuple osize G} {x : Tuple size F} (h : Twice f x)
    (hj : ∀ᶠ z in 𝓝 x, ∀ r (o : Fin (osize r)) j (q : Fin (size j)), jacrev f z (finSigmaFinEquiv ⟨r, o⟩) j q =
      RCLike.map G ℂ (fderiv ℝ f z (unitAt j q 1) r o))
    (r : Fin l) (o : Fin (osize r)) (j j' : Fin k) (q : Fin (size j)) (q' : Fin (size j')) :
    hessian f x (finSigmaFinEquiv ⟨r, o⟩, ⟨j, q⟩) (finSigmaFinEquiv ⟨j', q'⟩) =
      RCLike.map G ℂ (fderiv ℝ (fderiv ℝ f) x (unitAt j' q' 1) (unitAt j q 1) r o) := by
  unfold hessian
  rw [jacfwd_eq]
  have hd : HasFDerivAt (fun z (o : Fin (∑ j, osize j) × (Σ j : Fin k, Fin (size j))) => jacrev f z o.1 o.2.1 o.2.2)
      (ContinuousLinearMap.pi fun o => ((RCLike.map G ℂ).comp (elemL G osize (finSigmaFinEquiv.symm o.1).1
        (finSigmaFinEquiv.symm o.1).2)).comp ((fderiv ℝ (fderiv ℝ f) x).flip (unitAt o.2.1 o.2.2 1))) x := by
    rw [hasFDerivAt_pi]
    intro o
    refine (hasFDerivAt_clm_fderiv ((RCLike.map G ℂ).comp (elemL G osize (finSigmaFinEquiv.symm o.1).1
        (finSigmaFinEquiv.symm o.1).2)) h (unitAt o.2.1 o.2.2 1)).congr_of_eventuallyEq ?_
    filter_upwards [hj] with z hz
    have := hz (finSigmaFinEquiv.symm o.1).1 (finSigmaFinEquiv.symm o.1).2 o.2.1 o.2.2
    rw [Sigma.eta, Equiv.apply_symm_apply] at this
    exact this
  rw [hd.fderiv]
  show RCLike.map G ℂ (fderiv ℝ (fderiv ℝ f) x (unitAt j' q' 1) (unitAt j q 1)
    (finSigmaFinEquiv.symm (finSigmaFinEquiv ⟨r, o⟩)).1 (finSigmaFinEquiv.symm (finSigmaFinEquiv ⟨r, o⟩)).2) = _
  rw [Equiv.symm_apply_apply]

end

/-! ### Strategies -/

section
variable {n m K : ℕ}

theorem lift1_fderiv (f : (Fin n → F) → Fin m → G) (x : Fin n → F) (h : DifferentiableAt ℝ f x) :
    HasFDerivAt (lift1 f) (ContinuousLinearMap.pi fun _ : Fin 1 =>
      (fderiv ℝ f x).comp (ContinuousLinearMap.proj (R := ℝ) (φ := fun _ : Fin 1 => Fin n → F) 0)) (single x) := by
  rw [hasFDerivAt_pi]
  intro j
  have h' : HasFDerivAt f (fderiv ℝ f x)
      ((ContinuousLinearMap.proj (R := ℝ) (φ := fun _ : Fin 1 => Fin n → F) 0) (single x)) := h.hasFDerivAt
  exact h'.comp (single x) (ContinuousLinearMap.proj (R := ℝ) (φ := fun _ : Fin 1 => Fin n → F) 0).hasFDerivAt

/-- `f` as seen by the strategies: its rows of `jacrev` near `x` are its derivatives. -/
def JacrevOk (f : (Fin n → F) → Fin m → G) (x : Fin n → F) : Prop :=
  ∀ᶠ z in 𝓝 x, ∀ p a, jacrev (lift1 f) (single z) (flat1 p) 0 a = RCLike.map G ℂ (fderiv ℝ f z (Pi.single a 1) p)

theorem jacrevOk_real (f : (Fin n → ℝ) → Fin m → G) (x : Fin n → ℝ) (h : Twice f x) : JacrevOk f x := by
  filter_upwards [h.1] with z hz p a
  have hl := lift1_fderiv f z hz
  unfold flat1
  rw [jacrev_real (lift1 f) (single z) hl.differentiableAt, hl.fderiv]
  congr 2

theorem jacrevOk_holo (f : (Fin n → ℂ) → Fin m → ℂ) (x : Fin n → ℂ) (h : ContDiffAt ℂ 2 f x) : JacrevOk f x := by
  filter_upwards [h.eventually (by simp)] with z hz p a
  have hz' : DifferentiableAt ℂ f z := hz.differentiableAt (by simp)
  have hl : HasFDerivAt (lift1 f) (ContinuousLinearMap.pi fun _ : Fin 1 =>
      (fderiv ℂ f z).comp (ContinuousLinearMap.proj (R := ℂ) (φ := fun _ : Fin 1 => Fin n → ℂ) 0)) (single z) := by
    rw [hasFDerivAt_pi]
    intro j
    have h' : HasFDerivAt f (fderiv ℂ f z)
        ((ContinuousLinearMap.proj (R := ℂ) (φ := fun _ : Fin 1 => Fin n → ℂ) 0) (single z)) := hz'.hasFDerivAt
    exact h'.comp (single z) (ContinuousLinearMap.proj (R := ℂ) (φ := fun _ : Fin 1 => Fin n → ℂ) 0).hasFDerivAt
  unfold flat1
  rw [jacrev_holo (lift1 f) (single z) hl.differentiableAt, hl.fderiv, toC_complex, hz'.fderiv_restrictScalars ℝ]
  show fderiv ℂ f z _ p = fderiv ℂ f z _ p
  congr 2

theorem jhjViaTrace_eq (f : (Fin n → F) → Fin m → G) (x : Fin n → F) (h : Twice f x) (g : Fin n → Fin K → F) (p : Fin m) :
    jhjViaTrace f x g p = ∑ c, fderiv ℝ (fderiv ℝ f) x (fun a => g a c) (fun a => g a c) p := by
  unfold jhjViaTrace
  refine Finset.sum_congr rfl fun c _ => ?_
  have hd : HasFDerivAt (fun z (o : Fin m × Fin K) => jaxJvp f z (fun a => g a o.2) o.1)
      (ContinuousLinearMap.pi fun o : Fin m × Fin K => (ContinuousLinearMap.proj (R := ℝ) (φ := fun _ : Fin m => G) o.1).comp
        ((fderiv ℝ (fderiv ℝ f) x).flip (fun a => g a o.2))) x := by
    rw [hasFDerivAt_pi]
    intro o
    exact hasFDerivAt_clm_fderiv (ContinuousLinearMap.proj (R := ℝ) (φ := fun _ : Fin m => G) o.1) h _
  unfold jaxJvp at hd ⊢
  rw [hd.fderiv]
  rfl

theorem jhjViaHvp_eq (f : (Fin n → F) → Fin m → G) (x : Fin n → F) (h : Twice f x) (hj : JacrevOk f x)
    (g : Fin n → Fin K → F) (p : Fin m) :
    jhjViaHvp f x g p = ∑ a, ∑ c, RCLike.map G ℂ (fderiv ℝ (fderiv ℝ f) x (fun b => g b c) (Pi.single a 1) p) *
      RCLike.map F ℂ (g a c) := by
  unfold jhjViaHvp traceOfProduct
  have hd : HasFDerivAt (fun z (o : Fin m × Fin n) => jacrev (lift1 f) (single z) (flat1 o.1) 0 o.2)
      (ContinuousLinearMap.pi fun o : Fin m × Fin n =>
        ((RCLike.map G ℂ).comp (ContinuousLinearMap.proj (R := ℝ) (φ := fun _ : Fin m => G) o.1)).comp
        ((fderiv ℝ (fderiv ℝ f) x).flip (Pi.single o.2 1))) x := by
    rw [hasFDerivAt_pi]
    intro o
    refine (hasFDerivAt_clm_fderiv ((RCLike.map G ℂ).comp (ContinuousLinearMap.proj (R := ℝ) (φ := fun _ : Fin m => G) o.1))
      h (Pi.single o.2 1)).congr_of_eventuallyEq ?_
    filter_upwards [hj] with z hz
    exact hz o.1 o.2
  refine Finset.sum_congr rfl fun a _ => Finset.sum_congr rfl fun c _ => ?_
  congr 1
  unfold jaxJvp
  rw [hd.fderiv]
  rfl

theorem jhjViaHessian_eq (f : (Fin n → F) → Fin m → G) (x : Fin n → F) (h : Twice f x) (hj : JacrevOk f x)
    (g : Fin n → Fin K → F) (p : Fin m) :
    jhjViaHessian f x g p = ∑ a, ∑ b, RCLike.map G ℂ (fderiv ℝ (fderiv ℝ f) x (Pi.single b 1) (Pi.single a 1) p) *
      RCLike.map F ℂ (∑ c, g a c * g b c) := by
  unfold jhjViaHessian traceOfProduct
  refine Finset.sum_congr rfl fun a _ => Finset.sum_congr rfl fun b _ => ?_
  congr 1
  show jacfwd (fun z (o : Fin (∑ _j : Fin 1, m) × (Σ _j : Fin 1, Fin n)) => jacrev (lift1 f) z o.1 o.2.1 o.2.2) (single x)
    (finSigmaFinEquiv ⟨0, p⟩, ⟨0, a⟩) (finSigmaFinEquiv ⟨0, b⟩) = _
  rw [jacfwd_eq]
  let P0 := ContinuousLinearMap.proj (R := ℝ) (φ := fun _ : Fin 1 => Fin n → F) 0
  have hd : HasFDerivAt (fun z (o : Fin (∑ _j : Fin 1, m) × (Σ _j : Fin 1, Fin n)) => jacrev (lift1 f) z o.1 o.2.1 o.2.2)
      (ContinuousLinearMap.pi fun o => (((RCLike.map G ℂ).comp
        (ContinuousLinearMap.proj (R := ℝ) (φ := fun _ : Fin m => G) (finSigmaFinEquiv.symm o.1).2)).comp
        ((fderiv ℝ (fderiv ℝ f) x).flip (Pi.single o.2.2 1))).comp P0) (single x) := by
    rw [hasFDerivAt_pi]
    intro o
    have h1 := (hasFDerivAt_clm_fderiv ((RCLike.map G ℂ).comp (ContinuousLinearMap.proj (R := ℝ) (φ := fun _ : Fin m => G)
      (finSigmaFinEquiv.symm o.1).2)) h (Pi.single o.2.2 1))
    have h2 := (show HasFDerivAt _ _ (P0 (single x)) from h1).comp (single x) P0.hasFDerivAt
    refine h2.congr_of_eventuallyEq ?_
    have hc : Tendsto P0 (𝓝 (single x)) (𝓝 x) := P0.continuous.tendsto (single x)
    filter_upwards [hc.eventually hj] with z hz
    have hzz : single (P0 z) = z := by
      funext j
      have : j = 0 := Subsingleton.elim _ _
      subst this
      rfl
    have := hz (finSigmaFinEquiv.symm o.1).2 o.2.2
    rw [hzz] at this
    have e1 : flat1 (finSigmaFinEquiv.symm o.1).2 = o.1 := by
      unfold flat1
      rw [show (0 : Fin 1) = (finSigmaFinEquiv.symm o.1).1 from Subsingleton.elim _ _, Sigma.eta, Equiv.apply_symm_apply]
    rw [e1] at this
    obtain ⟨o1, j, q⟩ := o
    have : j = 0 := Subsingleton.elim _ _
    subst this
    assumption
  rw [hd.fderiv]
  show RCLike.map G ℂ (fderiv ℝ (fderiv ℝ f) x (Pi.single b 1) (Pi.single a 1)
    (finSigmaFinEquiv.symm (finSigmaFinEquiv (m := 1) (n := fun _ => m) ⟨0, p⟩)).2) = _
  rw [Equiv.symm_apply_apply]

theorem sum_single {n : ℕ} (t : Fin n → F) : ∑ a, t a • (Pi.single a (1 : F) : Fin n → F) = t := by
  funext j
  rw [Finset.sum_apply, Finset.sum_eq_single j]
  · simp
  · intro b _ hb
    simp [Pi.single_eq_of_ne (Ne.symm hb)]
  · simp

/-- A bilinear form written with its coefficients, contracted in the order of `JHJ_via_hessian`. -/
theorem contract_hessian (A : (Fin n → F) → (Fin n → F) → ℂ) (g : Fin n → Fin K → F)
    (hl : ∀ t u, A t u = ∑ b, RCLike.map F ℂ (t b) * A (Pi.single b 1) u)
    (hr : ∀ u t, A u t = ∑ a, RCLike.map F ℂ (t a) * A u (Pi.single a 1)) :
    ∑ a, ∑ b, A (Pi.single b 1) (Pi.single a 1) * RCLike.map F ℂ (∑ c, g a c * g b c) =
      ∑ c, A (fun a => g a c) (fun a => g a c) := by
  have h1 : ∀ c, A (fun a => g a c) (fun a => g a c) =
      ∑ a, ∑ b, A (Pi.single b 1) (Pi.single a 1) * (RCLike.map F ℂ (g a c) * RCLike.map F ℂ (g b c)) := by
    intro c
    rw [hr]
    refine Finset.sum_congr rfl fun a _ => ?_
    rw [hl, Finset.mul_sum]
    exact Finset.sum_congr rfl fun b _ => by ring
  simp only [h1, map_sum, toC_mul, Finset.mul_sum]
  rw [Finset.sum_comm' (t' := Finset.univ) (s' := fun _ => Finset.univ) (by simp)]
  rw [Finset.sum_comm]
  rw [Finset.sum_congr rfl fun a _ => Finset.sum_comm]
  rw [Finset.sum_comm]

/-- The same for `JHJ_via_hvp`. -/
theorem contract_hvp (A : (Fin n → F) → (Fin n → F) → ℂ) (g : Fin n → Fin K → F)
    (hr : ∀ u t, A u t = ∑ a, RCLike.map F ℂ (t a) * A u (Pi.single a 1)) :
    ∑ a, ∑ c, A (fun b => g b c) (Pi.single a 1) * RCLike.map F ℂ (g a c) =
      ∑ c, A (fun a => g a c) (fun a => g a c) := by
  rw [Finset.sum_comm]
  refine Finset.sum_congr rfl fun c _ => ?_
  rw [hr _ fun a => g a c]
  exact Finset.sum_congr rfl fun a _ => mul_comm _ _

/-- The second derivative of a function of real arrays has coefficients. -/
theorem coeff_real (H : (Fin n → ℝ) →L[ℝ] (Fin n → ℝ) →L[ℝ] Fin m → G) (p : Fin m) :
    (∀ t u, RCLike.map G ℂ (H t u p) = ∑ b, RCLike.map ℝ ℂ (t b) * RCLike.map G ℂ (H (Pi.single b 1) u p)) ∧
    (∀ u t, RCLike.map G ℂ (H u t p) = ∑ b, RCLike.map ℝ ℂ (t b) * RCLike.map G ℂ (H u (Pi.single b 1) p)) := by
  have hr : ∀ (r : ℝ) (z : G), RCLike.map ℝ ℂ r * RCLike.map G ℂ z = RCLike.map G ℂ (r • z) := by
    intro r z
    rw [map_smul, show RCLike.map ℝ ℂ r = (r : ℂ) from map_ofReal r, Complex.real_smul]
  simp only [hr, ← map_sum]
  refine ⟨fun t u => ?_, fun u t => ?_⟩
  · conv_lhs => rw [← sum_single t, map_sum, sum_apply, Finset.sum_apply]
    exact congrArg _ (Finset.sum_congr rfl fun a _ => by rw [map_smul]; rfl)
  · conv_lhs => rw [← sum_single t, map_sum, Finset.sum_apply]
    exact congrArg _ (Finset.sum_congr rfl fun a _ => by rw [map_smul]; rfl)

theorem coeff_holo (H : (Fin n → ℂ) →L[ℂ] (Fin n → ℂ) →L[ℂ] Fin m → ℂ) (p : Fin m) :
    (∀ t u, H t u p = ∑ b, t b * H (Pi.single b 1) u p) ∧
    (∀ u t, H u t p = ∑ b, t b * H u (Pi.single b 1) p) := by
  refine ⟨fun t u => ?_, fun u t => ?_⟩
  · conv_lhs => rw [← sum_single t, map_sum, sum_apply, Finset.sum_apply]
    exact Finset.sum_congr rfl fun a _ => by rw [map_smul]; rfl
  · conv_lhs => rw [← sum_single t, map_sum, Finset.sum_apply]
    exact Finset.sum_congr rfl fun a _ => by rw [map_smul]; rfl

/-- Rows of `jacrev` for a function from complex to real arrays. -/
theorem jacrev_complex_real (f : (Fin n → ℂ) → Fin m → ℝ) (z : Fin n → ℂ) (h : DifferentiableAt ℝ f z) (p : Fin m)
    (a : Fin n) : jacrev (lift1 f) (single z) (flat1 p) 0 a =
      (fderiv ℝ f z (Pi.single a 1) p : ℂ) - Complex.I * (fderiv ℝ f z (Pi.single a Complex.I) p : ℂ) := by
  have hl := lift1_fderiv f z h
  let R := (ravelL ℝ fun _ : Fin 1 => m)
  let U := (unravelL ℂ fun _ : Fin 1 => n).restrictScalars ℝ
  have hU : U (ravel (single z)) = single z := unravel_ravel (size := fun _ : Fin 1 => n) (single z)
  have hf := R.hasFDerivAt.comp (ravel (single z)) ((show HasFDerivAt (lift1 f) _ (U (ravel (single z))) by
    rw [hU]; exact hl).comp (ravel (single z)) U.hasFDerivAt)
  show vjp (fun x => ravel (lift1 f (unravel x))) (ravel (single z)) (eyeRow (flat1 p)) (flat1 a) = _
  rw [vjp_complex_real, show fderiv ℝ (fun x => ravel (lift1 f (unravel x))) (ravel (single z)) = _ from hf.fderiv,
    Finset.sum_eq_single (flat1 p)]
  · have key : ∀ s : ℂ, (R.comp ((ContinuousLinearMap.pi fun _ : Fin 1 => (fderiv ℝ f z).comp
        (ContinuousLinearMap.proj (R := ℝ) (φ := fun _ : Fin 1 => Fin n → ℂ) 0)).comp U)) (Pi.single (flat1 a) s)
          (flat1 p) = fderiv ℝ f z (Pi.single a s) p := by
      intro s
      show ravel (fun _ : Fin 1 => fderiv ℝ f z (unravel (size := fun _ : Fin 1 => n) (Pi.single (flat1 a) s) 0))
        (finSigmaFinEquiv ⟨0, p⟩) = _
      rw [ravel_apply]
      unfold flat1
      rw [unravel_single, Pi.single_eq_same]
    rw [key, key]
    simp [eyeRow]
  · intro b _ hb
    simp [eyeRow, hb]
  · simp

/-- `JHJ_via_hvp(...).real` for a function from complex to real arrays. -/
theorem jhjViaHvp_complex_real (f : (Fin n → ℂ) → Fin m → ℝ) (x : Fin n → ℂ) (h : Twice f x)
    (g : Fin n → Fin K → ℂ) (p : Fin m) :
    (jhjViaHvp f x g p).re = ∑ c, fderiv ℝ (fderiv ℝ f) x (fun a => g a c) (fun a => g a c) p := by
  unfold jhjViaHvp traceOfProduct
  let E : Fin m → (Fin m → ℝ) →L[ℝ] ℝ := fun p => ContinuousLinearMap.proj (R := ℝ) (φ := fun _ : Fin m => ℝ) p
  have hd : HasFDerivAt (fun z (o : Fin m × Fin n) => jacrev (lift1 f) (single z) (flat1 o.1) 0 o.2)
      (ContinuousLinearMap.pi fun o : Fin m × Fin n =>
        (Complex.ofRealCLM.comp (E o.1)).comp ((fderiv ℝ (fderiv ℝ f) x).flip (Pi.single o.2 1)) -
        Complex.I • (Complex.ofRealCLM.comp (E o.1)).comp ((fderiv ℝ (fderiv ℝ f) x).flip (Pi.single o.2 Complex.I))) x := by
    rw [hasFDerivAt_pi]
    intro o
    have h1 := hasFDerivAt_clm_fderiv (Complex.ofRealCLM.comp (E o.1)) h (Pi.single o.2 1)
    have h2 := hasFDerivAt_clm_fderiv (Complex.ofRealCLM.comp (E o.1)) h (Pi.single o.2 Complex.I)
    refine (h1.sub (h2.const_smul Complex.I)).congr_of_eventuallyEq ?_
    filter_upwards [h.1] with z hz
    exact jacrev_complex_real f z hz o.1 o.2
  rw [Finset.sum_comm, Complex.re_sum]
  refine Finset.sum_congr rfl fun c _ => ?_
  have hsplit : (fun a => g a c) = ∑ a, ((g a c).re • (Pi.single a (1 : ℂ) : Fin n → ℂ) +
      (g a c).im • (Pi.single a Complex.I : Fin n → ℂ)) := by
    funext j
    rw [Finset.sum_apply, Finset.sum_eq_single j]
    · apply Complex.ext <;> simp
    · intro b _ hb
      simp [Pi.single_eq_of_ne (Ne.symm hb)]
    · simp
  rw [Complex.re_sum]
  conv_rhs => rw [hsplit]
  conv_rhs => rw [map_sum, Finset.sum_apply]
  refine Finset.sum_congr rfl fun a _ => ?_
  dsimp only
  rw [toC_complex]
  unfold jaxJvp
  rw [hd.fderiv, ← hsplit]
  generalize (fun a => g a c) = t
  show (((fderiv ℝ (fderiv ℝ f) x t (Pi.single a 1) p : ℂ) - Complex.I *
    (fderiv ℝ (fderiv ℝ f) x t (Pi.single a Complex.I) p : ℂ)) * g a c).re = _
  rw [map_add, map_smul, map_smul]
  simp only [Complex.mul_re, Complex.sub_re, Complex.ofReal_re, Complex.I_re, zero_mul, Complex.ofReal_im,
    Complex.I_im, Complex.sub_im, Complex.mul_im, Pi.add_apply, Pi.smul_apply, smul_eq_mul]
  ring

end

end Folx.AD

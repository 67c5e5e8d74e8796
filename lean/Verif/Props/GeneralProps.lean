import Verif.AD.General
import Verif.AD.OffDiag
import Verif.Props.AdProps
import Verif.Props.HessProps
import Verif.ND.HessSlice
import Verif.Props.CustomProps

/-! # C60: the general second-order rule, from `jax.jvp` and `jax.vjp` -/

namespace Folx
open Filter Topology AD

section
variable {F G : Type} [RCLike F] [RCLike G] {k l K : ℕ} {size : Fin k → ℕ} {osize : Fin l → ℕ}

theorem flatWrap_eq (f : Tuple size F → Tuple osize G) : flatWrap f = fun x => ravelL G osize (f (unravelL F size x)) := rfl

theorem concatT_col (rows : (a : Fin k) → Fin K → Fin (size a) → F) (c : Fin K) : (unravel (size := size) fun i => concatT rows i c) = fun a => rows a c := by
  have h : (fun i => concatT rows i c) = ravel fun a => rows a c := rfl
  rw [h, unravel_ravel]

/-- Twice differentiability of the flattened function. -/
theorem twice_comp {V W V' W' : Type} [NormedAddCommGroup V] [NormedSpace ℝ V] [NormedAddCommGroup W] [NormedSpace ℝ W] [NormedAddCommGroup V'] [NormedSpace ℝ V']
    [NormedAddCommGroup W'] [NormedSpace ℝ W'] (R : W →L[ℝ] W') (U : V' →L[ℝ] V) {f : V → W} {x : V'} (h : Twice f (U x)) : Twice (fun z => R (f (U z))) x := by
  have hd : ∀ z, DifferentiableAt ℝ f (U z) → HasFDerivAt (fun z => R (f (U z))) (R.comp ((fderiv ℝ f (U z)).comp U)) z := fun z hz =>
    R.hasFDerivAt.comp z (hz.hasFDerivAt.comp z U.hasFDerivAt)
  have hev : ∀ᶠ z in 𝓝 x, DifferentiableAt ℝ f (U z) := (U.continuous.tendsto x).eventually h.1
  refine ⟨hev.mono fun z hz => (hd z hz).differentiableAt, ?_⟩
  have he : fderiv ℝ (fun z => R (f (U z))) =ᶠ[𝓝 x] fun z => R.comp ((fderiv ℝ f (U z)).comp U) := hev.mono fun z hz => (hd z hz).fderiv
  refine DifferentiableAt.congr_of_eventuallyEq ?_ he
  have h2 : DifferentiableAt ℝ (fun z => fderiv ℝ f (U z)) x := h.2.comp x U.differentiableAt
  exact (differentiableAt_const R).clm_comp (h2.clm_comp (differentiableAt_const U))

theorem dirD_comp {V H V' : Type} [NormedAddCommGroup V] [NormedSpace ℝ V] [NormedAddCommGroup H] [NormedSpace ℝ H] [NormedAddCommGroup V'] [NormedSpace ℝ V']
    (U : V' →L[ℝ] V) (f : V → H) (x v : V') : dirD v (fun z => f (U z)) x = dirD (U v) f (U x) := by
  unfold dirD lineDeriv
  congr 1
  funext t
  show f (U (x + t • v)) = _
  rw [map_add, map_smul]

end

section
variable {G : Type} [RCLike G] {k l K : ℕ} {size : Fin k → ℕ} {osize : Fin l → ℕ}

/-- The second directional derivatives of the flattened function. -/
theorem flat_second {F : Type} [RCLike F] (f : Tuple size F → Tuple osize G) (x : Tuple size F) (rows : (a : Fin k) → Fin K → Fin (size a) → F) (r : Fin l) (o : Fin (osize r)) :
    ∑ c, dirD (fun a => concatT rows a c) (dirD (fun a => concatT rows a c) fun z => flatWrap f z (finSigmaFinEquiv ⟨r, o⟩)) (ravel x) =
      ∑ c, dirD (fun a => rows a c) (dirD (fun a => rows a c) fun z => f z r o) x := by
  refine Finset.sum_congr rfl fun c _ => ?_
  have h1 : (fun z => flatWrap f z (finSigmaFinEquiv ⟨r, o⟩)) = fun z => (fun y => f y r o) (((unravelL F size).restrictScalars ℝ) z) := by
    funext z
    exact ravel_apply _ r o
  rw [h1]
  have hc : (unravelL F size).restrictScalars ℝ (fun a => concatT rows a c) = fun a => rows a c := concatT_col rows c
  have hx : (unravelL F size).restrictScalars ℝ (ravel x) = x := unravel_ravel x
  have h2 : dirD (fun a => concatT rows a c) (fun z => (fun y => f y r o) (((unravelL F size).restrictScalars ℝ) z)) =
      fun z => (fun y => dirD (fun a => rows a c) (fun y => f y r o) y) (((unravelL F size).restrictScalars ℝ) z) := by
    funext z
    exact (dirD_comp ((unravelL F size).restrictScalars ℝ) (fun y => f y r o) z _).trans (by rw [hc])
  rw [h2]
  exact (dirD_comp ((unravelL F size).restrictScalars ℝ) (dirD (fun a => rows a c) fun y => f y r o) (ravel x) _).trans (by rw [hc, hx])

/-- **C60 (real arguments).**  For a function of any number of real arrays with any number of real or complex results, twice differentiable at the point: whatever the
sizes (hence whichever strategy is chosen), the rule returns at every position of every result the sum over the rows of the Jacobians of the second derivative in the
direction of the row. -/
theorem C60_real (f : Tuple size ℝ → Tuple osize G) (x : Tuple size ℝ) (h : Twice f x) (rows : (a : Fin k) → Fin K → Fin (size a) → ℝ) (r : Fin l) (o : Fin (osize r)) :
    generalJHJ f x rows r o = RCLike.map G ℂ (∑ c, dirD (fun a => rows a c) (dirD (fun a => rows a c) fun z => f z r o) x) := by
  have h2 : Twice (flatWrap f) (ravel x) := twice_comp ((ravelL G osize).restrictScalars ℝ) (unravelL ℝ size) (by rw [unravelL_apply, unravel_ravel]; exact h)
  obtain ⟨h3, h4, -⟩ := C10_transforms_real (flatWrap f) (ravel x) h2 (concatT rows) (finSigmaFinEquiv ⟨r, o⟩)
  rw [flat_second] at h3 h4
  show (if K > ∑ j, size j then _ else _ : Fin (∑ j, osize j) → ℂ) (finSigmaFinEquiv ⟨r, o⟩) = _
  split
  · rw [if_neg fun hc => not_isComplex_real hc.1]
    exact h3
  · exact congrArg (RCLike.map G ℂ) h4

/-- **C60 (holomorphic functions).** -/
theorem C60_holomorphic (f : Tuple size ℂ → Tuple osize ℂ) (x : Tuple size ℂ) (h : ContDiffAt ℂ 2 f x) (rows : (a : Fin k) → Fin K → Fin (size a) → ℂ) (r : Fin l) (o : Fin (osize r)) :
    generalJHJ f x rows r o = ∑ c, dirD (fun a => rows a c) (dirD (fun a => rows a c) fun z => f z r o) x := by
  have h2 : ContDiffAt ℂ 2 (flatWrap f) (ravel x) := by
    have h0 : ContDiffAt ℂ 2 f (unravelL ℂ size (ravel x)) := by rw [unravelL_apply, unravel_ravel]; exact h
    exact (ravelL ℂ osize).contDiff.contDiffAt.comp (ravel x) (h0.comp (ravel x) (unravelL ℂ size).contDiff.contDiffAt)
  obtain ⟨h3, h4, -⟩ := C10_transforms_holomorphic (flatWrap f) (ravel x) h2 (concatT rows) (finSigmaFinEquiv ⟨r, o⟩)
  rw [flat_second] at h3 h4
  show (if K > ∑ j, size j then _ else _ : Fin (∑ j, osize j) → ℂ) (finSigmaFinEquiv ⟨r, o⟩) = _
  split
  · rw [if_neg fun hc => hc.2 isComplex_complex]
    exact h3
  · exact (toC_complex _).trans h4

/-- **C60 (complex arguments, real results).** -/
theorem C60_complex_to_real (f : Tuple size ℂ → Tuple osize ℝ) (x : Tuple size ℂ) (h : Twice f x) (rows : (a : Fin k) → Fin K → Fin (size a) → ℂ) (r : Fin l) (o : Fin (osize r)) :
    generalJHJ f x rows r o = ((∑ c, dirD (fun a => rows a c) (dirD (fun a => rows a c) fun z => f z r o) x : ℝ) : ℂ) := by
  have h2 : Twice (flatWrap f) (ravel x) := twice_comp (ravelL ℝ osize) ((unravelL ℂ size).restrictScalars ℝ) (by
    have e : (unravelL ℂ size).restrictScalars ℝ (ravel x) = x := unravel_ravel x
    rw [e]
    exact h)
  obtain ⟨h3, h4⟩ := C10_transforms_complex_to_real (flatWrap f) (ravel x) h2 (concatT rows) (finSigmaFinEquiv ⟨r, o⟩)
  rw [flat_second] at h3 h4
  show (if K > ∑ j, size j then _ else _ : Fin (∑ j, osize j) → ℂ) (finSigmaFinEquiv ⟨r, o⟩) = _
  split
  · rw [if_pos ⟨isComplex_complex, not_isComplex_real⟩]
    exact congrArg Complex.ofReal h4
  · exact (map_ofReal _).trans (congrArg Complex.ofReal h3)

end

section
open Layout Vmap Dot
variable {k : ℕ} {ss : Fin k → List ℕ} {o : List ℕ}

/-- **C60 (the rule of the array-level model).**  The slice rule of C56, C58 and C59, in which the second derivative is a parameter, is the program built from
`jax.jvp` and `jax.vjp`, whenever the parameter is the second derivative of the function at the point. -/
theorem C60_slice (hess : SliceHess ℝ fun a => (ss a).prod) (junk : ℝ) (ts : List (ArrTrip ℝ)) (es : List (ND ℝ)) (i : Option (List ℤ)) (rows : (a : Fin k) → List (Fin (ss a).prod → ℝ))
    (hrows : reducedJacobians (fun a => (tripAt ts a).jac.rep (ss a)) i = .ok rows)
    (f : Tuple (fun a => (ss a).prod) ℝ → Tuple (fun _ : Fin 1 => o.prod) ℝ)
    (h : Twice f fun a c => (tripAt ts a).x.get (unravelIdx (ss a) c))
    (hh : ∀ s t (q : Fin o.prod), hess es (fun a c => (tripAt ts a).x.get (unravelIdx (ss a) c)) s t (unravelIdx o q) =
      dirD s (dirD t fun z => f z 0 q) fun a c => (tripAt ts a).x.get (unravelIdx (ss a) c)) (q : Fin o.prod) :
    (((generalSlice ss o false hess junk ts es i).get (unravelIdx o q) : ℝ) : ℂ) =
      generalJHJ f (fun a c => (tripAt ts a).x.get (unravelIdx (ss a) c)) (fun a (c : Fin (maxLen rows)) => col rows c a) 0 q := by
  rw [C60_real f _ h]
  refine (congrArg Complex.ofReal ?_).trans (map_ofReal _).symm
  have hg : (generalSlice ss o false hess junk ts es i).get (unravelIdx o q) =
      ∑ s ∈ Finset.range (maxLen rows), hess es (fun a c => (tripAt ts a).x.get (unravelIdx (ss a) c)) (col rows s) (col rows s) (unravelIdx o q) := by
    unfold generalSlice
    rw [hrows]
    dsimp only
    rw [ND.get_ofFn _ (inB_unravelIdx q.2)]
    obtain ⟨h1, h2, -⟩ := C10_strategies_agree (hess es fun a c => (tripAt ts a).x.get (unravelIdx (ss a) c)) (maxLen rows) (col rows) (unravelIdx o q)
    split
    · exact h1
    · exact h2
  rw [hg, Finset.sum_range]
  refine Finset.sum_congr rfl fun c _ => ?_
  rw [hh]

end

/-! ### The mixed block (functions linear in each of two arguments) -/

section
variable {D E m : ℕ}

theorem jaxJacrev_eq (f : (Fin D → ℝ) → Fin m → ℝ) (x : Fin D → ℝ) (p : Fin m) (i : Fin D) : jaxJacrev f x p i = fderiv ℝ f x (Pi.single i 1) p := by
  unfold jaxJacrev jaxVjp
  simp only [jaxJvp]
  rw [Finset.sum_eq_single p]
  · simp [eyeRow]
  · intro b _ hb
    simp [eyeRow, hb]
  · simp

/-- **C60 (the mixed block).**  `jax.jacfwd(jax.jacrev(f, 0), 1)` of a twice differentiable function of two flat real arrays: entry `(p, i, j)` is
`∂/∂yⱼ ∂/∂xᵢ f_p`. -/
theorem C60_mixed_block (f : (Fin D → ℝ) → (Fin E → ℝ) → Fin m → ℝ) (x : Fin D → ℝ) (y : Fin E → ℝ)
    (h : Twice (fun z : (Fin D → ℝ) × (Fin E → ℝ) => f z.1 z.2) (x, y)) (p : Fin m) (i : Fin D) (j : Fin E) :
    offDiagHessian f x y p i j =
      dirD ((0 : Fin D → ℝ), (Pi.single j 1 : Fin E → ℝ)) (dirD ((Pi.single i 1 : Fin D → ℝ), (0 : Fin E → ℝ)) fun z => f z.1 z.2 p) (x, y) := by
  set g : (Fin D → ℝ) × (Fin E → ℝ) → Fin m → ℝ := fun z => f z.1 z.2 with hg
  have hR : dirD ((0 : Fin D → ℝ), (Pi.single j 1 : Fin E → ℝ)) (dirD ((Pi.single i 1 : Fin D → ℝ), (0 : Fin E → ℝ)) fun z => f z.1 z.2 p) (x, y) =
      fderiv ℝ (fderiv ℝ g) (x, y) (0, Pi.single j 1) (Pi.single i 1, 0) p :=
    dirD2_eq (ContinuousLinearMap.proj (R := ℝ) (φ := fun _ : Fin m => ℝ) p) h _ _
  rw [hR]
  have hcont : Tendsto (fun r : Fin E → ℝ => (x, r)) (𝓝 y) (𝓝 (x, y)) := (continuous_const.prodMk continuous_id).tendsto y
  have hrow : ∀ᶠ r in 𝓝 y, (fun o : Fin m × Fin D => jaxJacrev (fun lhs => f lhs r) x o.1 o.2) =
      fun o => fderiv ℝ g (x, r) (Pi.single o.2 1, 0) o.1 := by
    filter_upwards [hcont.eventually h.1] with r hr
    funext o
    rw [jaxJacrev_eq]
    have h1 : HasFDerivAt (fun lhs => f lhs r) ((fderiv ℝ g (x, r)).comp (ContinuousLinearMap.inl ℝ (Fin D → ℝ) (Fin E → ℝ))) x :=
      HasFDerivAt.comp (g := g) (f := fun e : Fin D → ℝ => (e, r)) x hr.hasFDerivAt (hasFDerivAt_prodMk_left x r)
    rw [h1.fderiv]
    rfl
  have hd : HasFDerivAt (fun r (o : Fin m × Fin D) => jaxJacrev (fun lhs => f lhs r) x o.1 o.2)
      (ContinuousLinearMap.pi fun o : Fin m × Fin D => ((ContinuousLinearMap.proj (R := ℝ) (φ := fun _ : Fin m => ℝ) o.1).comp
        ((fderiv ℝ (fderiv ℝ g) (x, y)).flip (Pi.single o.2 1, 0))).comp (ContinuousLinearMap.inr ℝ (Fin D → ℝ) (Fin E → ℝ))) y := by
    refine HasFDerivAt.congr_of_eventuallyEq ?_ hrow
    rw [hasFDerivAt_pi]
    intro o
    exact (hasFDerivAt_clm_fderiv (ContinuousLinearMap.proj (R := ℝ) (φ := fun _ : Fin m => ℝ) o.1) h _).comp y (hasFDerivAt_prodMk_right x y)
  show fderiv ℝ (fun r (o : Fin m × Fin D) => jaxJacrev (fun lhs => f lhs r) x o.1 o.2) y (eyeRow j) (p, i) = _
  rw [hd.fderiv, eyeRow_single]
  rfl

/-- Renumbering the positions of two arrays. -/
noncomputable def renumL {P0 P1 : Type} [Fintype P0] [Fintype P1] (e0 : P0 ≃ Fin D) (e1 : P1 ≃ Fin E) : (Fin D → ℝ) × (Fin E → ℝ) →L[ℝ] (P0 → ℝ) × (P1 → ℝ) :=
  ContinuousLinearMap.prodMap (ContinuousLinearMap.pi fun p => ContinuousLinearMap.proj (R := ℝ) (φ := fun _ : Fin D => ℝ) (e0 p))
    (ContinuousLinearMap.pi fun p => ContinuousLinearMap.proj (R := ℝ) (φ := fun _ : Fin E => ℝ) (e1 p))

theorem comp_single {P : Type} [DecidableEq P] (e : P ≃ Fin D) (i : Fin D) : (fun p => (Pi.single i 1 : Fin D → ℝ) (e p)) = Pi.single (e.symm i) 1 := by
  funext p
  by_cases h : p = e.symm i
  · subst h; simp
  · rw [Pi.single_eq_of_ne h, Pi.single_eq_of_ne]
    intro h'
    exact h (by rw [← h', e.symm_apply_apply])

/-- **C60 (the mixed block, arrays of any shape and several results).**  For the flattened function, entry `(o of result r, i, j)` is the mixed partial derivative of that
element with respect to the elements numbered `i` and `j` of the two arrays. -/
theorem C60_mixed_block_arrays {P0 P1 : Type} [Fintype P0] [Fintype P1] [DecidableEq P0] [DecidableEq P1] (e0 : P0 ≃ Fin D) (e1 : P1 ≃ Fin E) {l : ℕ} {osize : Fin l → ℕ}
    (fn : (P0 → ℝ) → (P1 → ℝ) → Tuple osize ℝ) (x : P0 → ℝ) (y : P1 → ℝ) (h : Twice (fun z : (P0 → ℝ) × (P1 → ℝ) => fn z.1 z.2) (x, y))
    (r : Fin l) (o : Fin (osize r)) (i : Fin D) (j : Fin E) :
    offDiagHessian (arrayWiseFlatWrap e0 e1 fn) (fun i => x (e0.symm i)) (fun j => y (e1.symm j)) (finSigmaFinEquiv ⟨r, o⟩) i j =
      dirD ((0 : P0 → ℝ), (Pi.single (e1.symm j) 1 : P1 → ℝ)) (dirD ((Pi.single (e0.symm i) 1 : P0 → ℝ), (0 : P1 → ℝ)) fun z => fn z.1 z.2 r o) (x, y) := by
  have hpt : renumL e0 e1 (fun i => x (e0.symm i), fun j => y (e1.symm j)) = (x, y) := by
    refine Prod.ext (funext fun p => ?_) (funext fun p => ?_)
    · exact congrArg x (e0.symm_apply_apply p)
    · exact congrArg y (e1.symm_apply_apply p)
  have h2 : Twice (fun z : (Fin D → ℝ) × (Fin E → ℝ) => arrayWiseFlatWrap e0 e1 fn z.1 z.2) (fun i => x (e0.symm i), fun j => y (e1.symm j)) :=
    twice_comp (ravelL ℝ osize) (renumL e0 e1) (f := fun z : (P0 → ℝ) × (P1 → ℝ) => fn z.1 z.2) (by rw [hpt]; exact h)
  rw [C60_mixed_block _ _ _ h2]
  have h3 : (fun z : (Fin D → ℝ) × (Fin E → ℝ) => arrayWiseFlatWrap e0 e1 fn z.1 z.2 (finSigmaFinEquiv ⟨r, o⟩)) =
      fun z => (fun w : (P0 → ℝ) × (P1 → ℝ) => fn w.1 w.2 r o) (renumL e0 e1 z) := by
    funext z
    exact ravel_apply _ r o
  have hi : renumL e0 e1 ((Pi.single i 1 : Fin D → ℝ), (0 : Fin E → ℝ)) = (Pi.single (e0.symm i) 1, 0) := Prod.ext (comp_single e0 i) rfl
  have hj : renumL e0 e1 ((0 : Fin D → ℝ), (Pi.single j 1 : Fin E → ℝ)) = (0, Pi.single (e1.symm j) 1) := Prod.ext rfl (comp_single e1 j)
  rw [h3]
  have h4 : dirD ((Pi.single i 1 : Fin D → ℝ), (0 : Fin E → ℝ)) (fun z => (fun w : (P0 → ℝ) × (P1 → ℝ) => fn w.1 w.2 r o) (renumL e0 e1 z)) =
      fun z => (fun w => dirD ((Pi.single (e0.symm i) 1 : P0 → ℝ), (0 : P1 → ℝ)) (fun w : (P0 → ℝ) × (P1 → ℝ) => fn w.1 w.2 r o) w) (renumL e0 e1 z) := by
    funext z
    exact (dirD_comp (renumL e0 e1) (fun w : (P0 → ℝ) × (P1 → ℝ) => fn w.1 w.2 r o) z _).trans (by rw [hi])
  rw [h4]
  exact (dirD_comp (renumL e0 e1) (fun w => dirD ((Pi.single (e0.symm i) 1 : P0 → ℝ), (0 : P1 → ℝ)) (fun w : (P0 → ℝ) × (P1 → ℝ) => fn w.1 w.2 r o) w) _ _).trans (by rw [hj, hpt])

/-- **C60 (the rule for functions linear in each of two arguments).**  Whatever the rule of C47 returns is the contraction of the block computed by JAX with
`x @ y.T`, when the second derivative of the model is that of the function. -/
theorem C60_off_diag {P : Fin 2 → Type} {Q : Type} (I : HInst 2 P Q ℝ) (v : I.V) (args : (a : Fin 2) → Trip (Fin (I.dim a)) ℝ) (idx : Option (List ℤ))
    (f : (Fin (I.dim 0) → ℝ) → (Fin (I.dim 1) → ℝ) → Fin m → ℝ) (e : I.O → Fin m)
    (h : Twice (fun z : (Fin (I.dim 0) → ℝ) × (Fin (I.dim 1) → ℝ) => f z.1 z.2) ((args 0).x, (args 1).x))
    (hh : ∀ s t o, I.hess v (fun a => (args a).x) s t o =
      dirD (t 0, t 1) (dirD (s 0, s 1) fun z : (Fin (I.dim 0) → ℝ) × (Fin (I.dim 1) → ℝ) => f z.1 z.2 (e o)) ((args 0).x, (args 1).x))
    (res : I.O → ℝ) (hr : I.offDiagJHJ v args idx = .ok res) (rows : (a : Fin 2) → List (Fin (I.dim a) → ℝ))
    (hrows : reducedJacobians (fun a => (args a).jac) idx = .ok rows) (o : I.O) :
    ∃ hd : I.dim 0 = I.dim 1, res o = 2 * ∑ i : Fin (I.dim 0), ∑ j : Fin (I.dim 1), offDiagHessian f (args 0).x (args 1).x (e o) i j *
      HInst.einsumFactor (I.dim 0) (maxLen rows) (fun r s => ∑ c : Fin (I.dim 0), col rows r 0 c * col rows s 1 (c.cast hd)) i j := by
  unfold HInst.offDiagJHJ at hr
  rw [dif_pos rfl, hrows] at hr
  dsimp only at hr
  split at hr
  · rename_i hd
    refine ⟨hd.1, ?_⟩
    rw [← Except.ok.inj hr]
    refine congrArg (2 * ·) (Finset.sum_congr rfl fun i _ => Finset.sum_congr rfl fun j _ => congrArg₂ (· * ·) ?_ rfl)
    refine (hh _ _ o).trans ((C60_mixed_block f _ _ h (e o) i j).trans ?_).symm
    have h10 : (1 : Fin 2) ≠ 0 := by decide
    have e1 : (unit (F := ℝ) (dim := I.dim) ⟨0, i⟩) 0 = Pi.single i 1 := Pi.single_eq_same ..
    have e2 : (unit (F := ℝ) (dim := I.dim) ⟨0, i⟩) 1 = 0 := Pi.single_eq_of_ne h10 ..
    have e3 : (unit (F := ℝ) (dim := I.dim) ⟨1, j⟩) 0 = 0 := Pi.single_eq_of_ne h10.symm ..
    have e4 : (unit (F := ℝ) (dim := I.dim) ⟨1, j⟩) 1 = Pi.single j 1 := Pi.single_eq_same ..
    show _ = dirD ((unit (F := ℝ) (dim := I.dim) ⟨1, j⟩) 0, (unit (F := ℝ) (dim := I.dim) ⟨1, j⟩) 1)
      (dirD ((unit (F := ℝ) (dim := I.dim) ⟨0, i⟩) 0, (unit (F := ℝ) (dim := I.dim) ⟨0, i⟩) 1) fun z => f z.1 z.2 (e o)) _
    rw [e1, e2, e3, e4]
  · cases hr

end

/-! ### Non-vacuity -/

/-- `(x, y) ↦ (x₀ exp y₀, x₀ + y₀)`, two arrays of one element, two results. -/
noncomputable def exGeneral : Tuple (fun _ : Fin 2 => 1) ℝ → Tuple (fun _ : Fin 2 => 1) ℝ := fun z j _ => if j = 0 then z 0 0 * Real.exp (z 1 0) else z 0 0 + z 1 0

theorem exGeneral_twice (x : Tuple (fun _ : Fin 2 => 1) ℝ) : Twice exGeneral x := by
  have h : ContDiff ℝ 2 exGeneral := by
    refine contDiff_pi.mpr fun j => contDiff_pi.mpr fun _ => ?_
    have h0 : ∀ a : Fin 2, ContDiff ℝ 2 fun z : Tuple (fun _ : Fin 2 => 1) ℝ => z a 0 := fun a => contDiff_apply_apply ℝ ℝ a 0
    unfold exGeneral
    by_cases hj : j = 0
    · simp only [hj, if_true]
      exact (h0 0).mul (Real.contDiff_exp.comp (h0 1))
    · simp only [hj, if_false]
      exact (h0 0).add (h0 1)
  exact ⟨Eventually.of_forall fun z => (h.differentiable (by simp)).differentiableAt,
    ((h.fderiv_right (m := 1) (by norm_num)).differentiable (by simp)).differentiableAt⟩

/-- With one Jacobian row and with three (so that both strategies are used) the rule returns the sum of the second derivatives. -/
example (x : Tuple (fun _ : Fin 2 => 1) ℝ) (K : ℕ) (rows : Fin 2 → Fin K → Fin 1 → ℝ) :
    generalJHJ exGeneral x rows 0 0 = ((∑ c, dirD (fun a => rows a c) (dirD (fun a => rows a c) fun z => z 0 0 * Real.exp (z 1 0)) x : ℝ) : ℂ) :=
  (C60_real exGeneral x (exGeneral_twice x) rows 0 0).trans (map_ofReal _)

/-- The mixed block of `(x, y) ↦ x₀ exp y₀`, by JAX's transforms. -/
example (x y : Fin 1 → ℝ) : offDiagHessian (fun (x y : Fin 1 → ℝ) (_ : Fin 1) => x 0 * Real.exp (y 0)) x y 0 0 0 =
    dirD ((0 : Fin 1 → ℝ), (Pi.single 0 1 : Fin 1 → ℝ)) (dirD ((Pi.single 0 1 : Fin 1 → ℝ), (0 : Fin 1 → ℝ)) fun z => z.1 0 * Real.exp (z.2 0)) (x, y) := by
  have h : ContDiff ℝ 2 fun (z : (Fin 1 → ℝ) × (Fin 1 → ℝ)) (_ : Fin 1) => z.1 0 * Real.exp (z.2 0) := by
    refine contDiff_pi.mpr fun _ => ?_
    exact ((contDiff_apply ℝ ℝ (0 : Fin 1)).comp contDiff_fst).mul (Real.contDiff_exp.comp ((contDiff_apply ℝ ℝ (0 : Fin 1)).comp contDiff_snd))
  exact C60_mixed_block (fun (x y : Fin 1 → ℝ) (_ : Fin 1) => x 0 * Real.exp (y 0)) x y
    ⟨Eventually.of_forall fun z => (h.differentiable (by simp)).differentiableAt,
      ((h.fderiv_right (m := 1) (by norm_num)).differentiable (by simp)).differentiableAt⟩ 0 0 0

/-- Directional derivatives of `(x, y) ↦ 3 x₀ y₀`. -/
theorem exMul_dirD (s z : (Fin 1 → ℝ) × (Fin 1 → ℝ)) : dirD s (fun z : (Fin 1 → ℝ) × (Fin 1 → ℝ) => 3 * z.1 0 * z.2 0) z = 3 * (s.1 0 * z.2 0 + z.1 0 * s.2 0) := by
  have h1 : HasDerivAt (fun t : ℝ => z.1 0 + t * s.1 0) (s.1 0) 0 := by simpa using ((hasDerivAt_id (0 : ℝ)).mul_const (s.1 0)).const_add (z.1 0)
  have h2 : HasDerivAt (fun t : ℝ => z.2 0 + t * s.2 0) (s.2 0) 0 := by simpa using ((hasDerivAt_id (0 : ℝ)).mul_const (s.2 0)).const_add (z.2 0)
  have h3 : HasDerivAt (fun t : ℝ => 3 * (z.1 0 + t * s.1 0) * (z.2 0 + t * s.2 0)) (3 * (s.1 0 * z.2 0 + z.1 0 * s.2 0)) 0 := by
    refine ((h1.const_mul 3).mul h2).congr_deriv ?_
    simp
    ring
  exact h3.deriv

theorem exMul_dirD2 (s t z : (Fin 1 → ℝ) × (Fin 1 → ℝ)) :
    dirD t (dirD s fun z : (Fin 1 → ℝ) × (Fin 1 → ℝ) => 3 * z.1 0 * z.2 0) z = 3 * (s.1 0 * t.2 0 + t.1 0 * s.2 0) := by
  rw [funext (exMul_dirD s)]
  have h1 : HasDerivAt (fun u : ℝ => z.1 0 + u * t.1 0) (t.1 0) 0 := by simpa using ((hasDerivAt_id (0 : ℝ)).mul_const (t.1 0)).const_add (z.1 0)
  have h2 : HasDerivAt (fun u : ℝ => z.2 0 + u * t.2 0) (t.2 0) 0 := by simpa using ((hasDerivAt_id (0 : ℝ)).mul_const (t.2 0)).const_add (z.2 0)
  exact (((h2.const_mul (s.1 0)).add (h1.mul_const (s.2 0))).const_mul 3).deriv

theorem exMul_form (s t : (a : Fin 2) → Fin ((fun _ => 1 : Fin 2 → ℕ) a) → ℝ) :
    coeffForm (k := 2) (fun a b => if a = b then (0 : ℝ) else 3) s t () = 3 * (s 0 0 * t 1 0 + t 0 0 * s 1 0) := by
  rw [coeffForm_apply]
  simp [Fin.sum_univ_two]
  ring

/-- `3 x y` on arrays of one element, flagged linear in each argument: every hypothesis of `C60_off_diag` is met, with one Jacobian row. -/
example (args : Fin 2 → Trip (Fin 1) ℝ) (idx : Option (List ℤ)) (res : Unit → ℝ)
    (hr : (scalarForm (3 : ℝ) (P := fun _ => Unit) (Q := Unit) (fun _ u => u) fun _ => none).offDiagJHJ () args idx = .ok res)
    (rows : Fin 2 → List (Fin 1 → ℝ)) (hrows : reducedJacobians (fun a => (args a).jac) idx = .ok rows) :
    res () = 2 * ∑ i : Fin 1, ∑ j : Fin 1, offDiagHessian (fun (x y : Fin 1 → ℝ) (_ : Fin 1) => 3 * x 0 * y 0) (args 0).x (args 1).x 0 i j *
      HInst.einsumFactor 1 (maxLen rows) (fun r s => ∑ c : Fin 1, col rows r 0 c * col rows s 1 c) i j := by
  have h : ContDiff ℝ 2 fun (z : (Fin 1 → ℝ) × (Fin 1 → ℝ)) (_ : Fin 1) => 3 * z.1 0 * z.2 0 := by
    refine contDiff_pi.mpr fun _ => ?_
    exact (contDiff_const.mul ((contDiff_apply ℝ ℝ (0 : Fin 1)).comp contDiff_fst)).mul ((contDiff_apply ℝ ℝ (0 : Fin 1)).comp contDiff_snd)
  obtain ⟨_, h1⟩ := C60_off_diag (scalarForm (3 : ℝ) (P := fun _ => Unit) (Q := Unit) (fun _ u => u) fun _ => none) () args idx
    (fun (x y : Fin 1 → ℝ) (_ : Fin 1) => 3 * x 0 * y 0) (fun _ => 0)
    ⟨Eventually.of_forall fun z => (h.differentiable (by simp)).differentiableAt, ((h.fderiv_right (m := 1) (by norm_num)).differentiable (by simp)).differentiableAt⟩
    (fun s t o => by
      exact (exMul_form s t).trans (exMul_dirD2 (s 0, s 1) (t 0, t 1) _).symm)
    res hr rows hrows ()
  exact h1

end Folx

import Verif.Prog.Slogdet
import Verif.Prog.Wrapped
import Mathlib.Analysis.SpecialFunctions.ExpDeriv
import Verif.Calc.LogDet

/-! # `slogdet` is exact at invertible matrices -/

namespace Folx

open Filter Topology Matrix
open Folx.Interp (Err)

variable {F : Type} [RCLike F] {b m : ℕ}

theorem slogdetJvp_eq (y t : Fin (b * (m * m)) → F) (q : Fin b) :
    slogdetJvp y t q = trace ((mats y q)⁻¹ * mats t q) := by
  unfold slogdetJvp
  simp only [star_star, trace, diag_apply, mul_apply]
  exact Finset.sum_comm

theorem slogdetTerm_eq (A J : Matrix (Fin m) (Fin m) F) : slogdetTerm A J = trace (A⁻¹ * J * A⁻¹ * J) := by
  have h1 : (fun i d => ∑ j, A⁻¹ i j * J j d : Matrix (Fin m) (Fin m) F) = A⁻¹ * J := by
    ext i d; rw [mul_apply]
  unfold slogdetTerm
  rw [h1, mul_assoc (A⁻¹ * J), trace]
  simp only [diag_apply]
  rw [Finset.sum_comm]
  refine Finset.sum_congr rfl fun i _ => ?_
  rw [mul_apply]

theorem constructFor_one {d : ℕ} (J : Jac (Fin d) F) (idx : Option (List ℤ)) (rows : List (Fin d → F))
    (h : J.constructFor idx = .ok rows) :
    reducedJacobians (dim := fun _ : Fin 1 => d) (fun _ => J) idx = .ok fun _ => rows := by
  unfold reducedJacobians
  cases idx with
  | none =>
    have h' : J.denseArray = .ok rows := h
    have : (seqFin fun _ : Fin 1 => J.denseArray) = .ok fun _ => rows := seqFin_of_ok _ _ fun _ => h'
    simp only [this]
    congr 1
    funext a
    have : maxLen (k := 1) (P := fun _ => Fin d) (fun _ => rows) = rows.length := by
      unfold maxLen
      simp
    rw [this]
    simp [extendTo]
  | some is => exact seqFin_of_ok _ _ fun _ => h

theorem slogdetCustom_value (n : ℕ) (sargs : (a : Fin 1) → Trip (Fin ((fun _ => b * (m * m) : Fin 1 → ℕ) a)) F)
    (idx : Option (List ℤ)) (res : Fin b → F) (hwf : ∀ a, (sargs a).jac.Wf n)
    (hidx : IdxOk (fun a => (sargs a).jac) idx) (hres : slogdetCustom b m () sargs idx = .ok res) (q : Fin b) :
    res q = ∑ i ∈ Finset.range n, - slogdetTerm (mats (sargs 0).x q) (mats ((sargs 0).jac.den i) q) := by
  unfold slogdetCustom at hres
  split at hres
  · simp at hres
  rename_i rows hrows
  have hres := Except.ok.inj hres
  rw [← hres]
  have hr := constructFor_one _ _ _ hrows
  have hs : (fun a => (sargs a).jac) = fun _ => (sargs 0).jac := funext fun a => by rw [Subsingleton.elim a 0]
  have key := reduced_sum n (fun a => (sargs a).jac) hwf idx hidx (fun _ => rows) (by rw [hs]; exact hr)
    (fun g => - slogdetTerm (mats (sargs 0).x q) (mats (g 0) q)) (by
      rw [slogdetTerm_eq]
      have : mats ((0 : (a : Fin 1) → Fin (b * (m * m)) → F) 0) q = 0 := rfl
      rw [this]; simp)
  have hlen : maxLen (k := 1) (P := fun _ => Fin (b * (m * m))) (fun _ => rows) = rows.length := by
    unfold maxLen
    simp
  have e1 : -(rows.map fun r => slogdetTerm (mats (sargs 0).x q) (mats r q)).sum =
      ∑ s ∈ Finset.range rows.length, - slogdetTerm (mats (sargs 0).x q)
        (mats (col (dim := fun _ : Fin 1 => b * (m * m)) (fun _ => rows) s 0) q) := by
    rw [Finset.sum_neg_distrib]
    congr 1
    rw [Finset.sum_range, ← List.sum_ofFn]
    congr 1
    apply List.ext_getElem (by simp)
    intro i h1 h2
    simp only [List.getElem_map, List.getElem_ofFn, col]
    rw [List.getD_eq_getElem?_getD, List.getElem?_eq_getElem (by simpa using h1)]
    rfl
  refine e1.trans ?_
  rw [← hlen]
  exact key

theorem slogdetCustom_exact (hm : 0 < m) (n : ℕ) (x : (a : Fin 1) → Fin (b * (m * m)) → F) :
    (slogdetInst (F := F) b m hm).CustomExact n (slogdetCustom b m) x := by
  intro v sargs idx res hx hwf hidx hres q
  refine (slogdetCustom_value n sargs idx res hwf hidx hres q).trans ?_
  refine Finset.sum_congr rfl fun i _ => ?_
  have hx0 : (sargs 0).x = x 0 := hx 0
  rw [slogdetTerm_eq]
  erw [hx0]
  rfl

theorem slogdetInst_lawful (hm : 0 < m) (x : (a : Fin 1) → Fin (b * (m * m)) → F) :
    (slogdetInst (F := F) b m hm).toInst.Lawful x where
  elem := fun h => absurd h (by simp [slogdetInst])
  elem_ax := fun h => absurd h (by simp [slogdetInst])
  ax_elem := fun a π h => absurd h (by simp [slogdetInst])
  ax_red := by
    intro a r h t q ht
    simp only [slogdetInst, ArgAx.red.injEq] at h
    subst h
    have : t = 0 := funext fun p => ht p
    rw [this, Pi.single_zero, map_zero]
    rfl
  ax_surj := by
    intro a r h _
    simp only [slogdetInst, ArgAx.red.injEq] at h
    subst h
    rintro ⟨⟩
    rename_i hq
    obtain ⟨q⟩ := hq
    exact ⟨q, rfl⟩
  same_elem := fun h => absurd h (by simp [slogdetInst])
  same_ax := fun a π h => absurd h (by simp [slogdetInst])
  index := fun h => absurd h (by simp [slogdetInst]; decide)
  sum := fun h => absurd h (by simp [slogdetInst]; decide)
  noScatter := by simp [slogdetInst]; decide

theorem slogdetInst_hlawful (hm : 0 < m) (n : ℕ) (x : (a : Fin 1) → Fin (b * (m * m)) → F) :
    (slogdetInst (F := F) b m hm).HLawful n x where
  linear := fun h => absurd h (by simp [slogdetInst]; decide)
  linOne := fun h => absurd h (by simp [slogdetInst]; decide)
  linFirst := fun h => absurd h (by simp [slogdetInst]; decide)
  mult_arity := fun h => absurd h (by simp [slogdetInst]; decide)
  mult := fun h => absurd h (by simp [slogdetInst]; decide)
  custom := by
    intro c hc
    obtain rfl : slogdetCustom b m = c := Option.some.inj hc
    exact slogdetCustom_exact hm n x

/-- What the wrapped function returns. -/
theorem slogdet_wrapSpec (hm : 0 < m) (n : ℕ) (hn : 0 < n) (T : ℕ) (t : Trip (Fin (b * (m * m))) F)
    (hwf : t.jac.Wf n) (c : Trip (Fin b) F) (h : (slogdetInst b m hm).wrapped T (fun _ => t) = .ok c) :
    WrapSpec n (slogdetInst b m hm) (fun _ => t) c := by
  refine wrapped_spec n hn (by decide) _ T _ (slogdetInst_lawful hm _) (slogdetInst_hlawful hm n _)
    (fun h => absurd h (not_oneByOne_single _ rfl _)) (fun h => absurd h (by simp [slogdetInst]; decide)) (fun _ => ?_)
    (fun _ => hwf) c h
  by_cases hw : t.jac.weak = true
  · left; simp [allWeak, hw]
  · right; left; simpa [anyWeak] using hw

/-- The function whose value and derivatives the cached triple holds: the logarithm of the determinant, relative to the
determinant at `x0`. -/
noncomputable def slogdetRel (ℓ : F → F) (x0 : Fin (b * (m * m)) → F) (y : Fin (b * (m * m)) → F) (q : Fin b) : F :=
  ℓ ((mats y q).det / (mats x0 q).det)

/-- Matrix `q` of the batch, as linear map. -/
noncomputable def blockL (F : Type) [RCLike F] (b m : ℕ) (q : Fin b) :
    ((a : Fin 1) → Fin (b * (m * m)) → F) →L[ℝ] (Fin (m * m) → F) :=
  LinearMap.toContinuousLinearMap
    { toFun := fun y c => y 0 (finProdFinEquiv (q, c)), map_add' := fun _ _ => rfl, map_smul' := fun _ _ => rfl }

theorem slogdet_smooth (hm : 0 < m) (ℓ : F → F) (hℓ : LogLike ℓ) (x0 : Fin (b * (m * m)) → F)
    (h0 : ∀ q, (mats x0 q).det ≠ 0) :
    HInst.SmoothAt { slogdetInst (F := F) b m hm with fwd := fun y => slogdetRel ℓ x0 (y 0) } fun _ => x0 := by
  have key : ∀ q : Fin b, ∃ H, HasFDeriv2At
      (fun y : (a : Fin 1) → Fin (b * (m * m)) → F => slogdetRel ℓ x0 (y 0) q)
      (((trL F m (mats x0 q)⁻¹).restrictScalars ℝ).comp (blockL F b m q)) H (fun _ => x0) ∧
      ∀ s t, H s t = - trace ((mats x0 q)⁻¹ * mats (s 0) q * (mats x0 q)⁻¹ * mats (t 0) q) := by
    intro q
    obtain ⟨H, h1, h2⟩ := logdet_deriv2 ℓ hℓ (fun c => x0 (finProdFinEquiv (q, c))) (h0 q)
    obtain ⟨H', h3, h4⟩ := HasFDeriv2At.comp (g := blockL F b m q) (x := fun _ => x0) h1
      (HasFDeriv2At.linear (blockL F b m q) _)
    refine ⟨H', h3, fun s t => ?_⟩
    rw [h4]
    simp only [_root_.zero_apply, map_zero, add_zero]
    exact h2 _ _
  choose H h1 h2 using key
  obtain ⟨HH, p1, p2⟩ := HasFDeriv2At.pi h1
  refine ⟨_, HH, p1, fun t => ?_, fun s t q => ?_⟩
  · funext q
    exact (slogdetJvp_eq x0 (t 0) q).symm
  · rw [p2, h2]
    rfl

/-- The cached triple holds value and derivatives of the logarithm of the determinant ratio. -/
theorem slogdet_cached {X : Type} [NormedAddCommGroup X] [NormedSpace ℝ X] (B : Base X) (hn : 0 < B.n) (hm : 0 < m)
    (ℓ : F → F) (hℓ : LogLike ℓ) (hℓ1 : ℓ 1 = 0) (T : ℕ) (t : Trip (Fin (b * (m * m))) F)
    (u : X → Fin (b * (m * m)) → F) (hrep : TripRep B t u) (h0 : ∀ q, (mats t.x q).det ≠ 0) (c : Trip (Fin b) F)
    (h : (slogdetInst b m hm).wrapped T (fun _ => t) = .ok c) :
    TripRep B c fun y => slogdetRel ℓ (u B.x0) (u y) := by
  obtain ⟨s1, s2, s3, s4⟩ := slogdet_wrapSpec hm B.n hn T t hrep.wf c h
  have hx := hrep.x
  have := tripRep_of_wrapSpec B { slogdetInst (F := F) b m hm with fwd := fun y => slogdetRel ℓ t.x (y 0) } (fun _ => t)
    (fun _ => u) (fun _ => hrep) (slogdet_smooth hm ℓ hℓ t.x h0) c ⟨?_, s2, s3, s4⟩
  · rw [← hx]; exact this
  · rw [s1]
    funext q
    show 0 = slogdetRel ℓ t.x t.x q
    unfold slogdetRel
    rw [div_self (h0 q), hℓ1]

/-! ### The cached Jacobian is dense -/

theorem sparseSingle_multi {P Q : Type} [Fintype P] [DecidableEq P] [Fintype Q] [DecidableEq Q]
    (I : Inst 1 (fun _ => P) Q F) (T : ℕ) (a : Trip P F) (r : Red P Q) (hax : I.ax 0 = .red r)
    (hfl : I.flags = Flags.GENERAL) (hm : I.multi = true) (o : JvpOut Q F) (ho : sparseSingle I T a = .ok o) :
    ∃ rows, o.jac = .dense rows := by
  unfold sparseSingle at ho
  rw [hax] at ho
  dsimp only at ho
  rw [if_neg (by rw [hfl]; decide), if_neg (by rw [hfl]; decide)] at ho
  unfold sparseReduce at ho
  split at ho
  · simp at ho
  · split at ho
    · obtain ⟨_, res, _, h2, _⟩ := denseJvp_rows I _ o ho
      exact ⟨res, h2⟩
    · simp [hm] at ho

theorem slogdet_dense (hm : 0 < m) (T : ℕ) (t : Trip (Fin (b * (m * m))) F) (c : Trip (Fin b) F)
    (h : (slogdetInst b m hm).wrapped T (fun _ => t) = .ok c) : ∃ rows, c.jac = .dense rows := by
  have hd : ∀ (I : Inst 1 (fun _ => Fin (b * (m * m))) (Fin b) F) (a : Trip (Fin (b * (m * m))) F)
      (o : JvpOut (Fin b) F), denseJvp I (fun _ => a) = .ok o → ∃ rows, o.jac = .dense rows := by
    intro I a o ho
    obtain ⟨_, res, _, h2, _⟩ := denseJvp_rows I _ o ho
    exact ⟨res, h2⟩
  have key : ∀ o, jvpRule (slogdetInst (F := F) b m hm).toInst T (fun _ => t) = .ok o → ∃ rows, o.jac = .dense rows := by
    intro o ho
    unfold jvpRule at ho
    split at ho
    · unfold parallelJvp at ho
      split at ho
      · exact hd _ _ o ho
      · rw [if_neg (by simp [slogdetInst]; decide), if_neg (by simp [slogdetInst]), dif_pos rfl] at ho
        exact sparseSingle_multi _ T _ _ rfl rfl rfl o ho
    · rename_i hc
      exact absurd hc (not_oneByOne_single _ rfl _)
  unfold HInst.wrapped at h
  split at h
  · simp at h
  · rename_i o ho
    split at h
    · simp at h
    · simp only [Except.ok.injEq] at h
      subst h
      exact key o ho

theorem slogdet_denseInv (hm : 0 < m) (T n : ℕ) (t : Trip (Fin (b * (m * m))) F) (c : Trip (Fin b) F)
    (ht : denseInv n _ t.jac) (h : (slogdetInst b m hm).wrapped T (fun _ => t) = .ok c) : denseInv n _ c.jac := by
  obtain ⟨o', h1, h2⟩ := jvpRule_dense (slogdetInst (F := F) b m hm).toInst T n (by decide) (fun _ => t) (fun _ => ht)
  unfold HInst.wrapped at h
  split at h
  · simp at h
  · rename_i o ho
    rw [h1] at ho
    obtain rfl := Except.ok.inj ho
    split at h
    · simp at h
    · simp only [Except.ok.injEq] at h
      subst h
      exact h2

/-! ### Stored data mapped position by position -/

theorem Jac.mapAt_den {P : Type} (f : P → F →+ F) (J : Jac P F) (i : ℕ) (p : P) :
    (J.mapAt fun p z => f p z).den i p = f p (J.den i p) := by
  cases J with
  | dense rows =>
    simp only [Jac.mapAt, Jac.den, List.getD_eq_getElem?_getD, List.getElem?_map]
    cases h : rows[i]? <;> simp
  | sparse rows =>
    simp only [Jac.mapAt, Jac.den, List.map_map, map_list_sum]
    congr 1
    apply List.map_congr_left
    intro r _
    simp only [Function.comp_apply]
    split <;> simp

theorem Jac.mapAt_wf {P : Type} (f : P → F →+ F) (J : Jac P F) (n : ℕ) (h : J.Wf n) :
    (J.mapAt fun p z => f p z).Wf n := by
  cases J with
  | dense rows => simpa [Jac.mapAt, Jac.Wf] using h
  | sparse rows =>
    simp only [Jac.mapAt, Jac.Wf, List.mem_map, forall_exists_index, and_imp, forall_apply_eq_imp_iff₂] at h ⊢
    intro r hr p
    obtain ⟨h1, h2⟩ := h r hr p
    refine ⟨h1, fun h3 => ?_⟩
    obtain ⟨h4, h5⟩ := h2 h3
    exact ⟨h4, by simp [h5]⟩

omit [RCLike F] in
theorem mapAt_denseInv {m : ℕ} (n : ℕ) (f : Fin m → F → F) (J : Jac (Fin m) F) (h : denseInv n m J) :
    denseInv n m (J.mapAt f) := by
  obtain ⟨h1, h2⟩ := h
  cases J with
  | sparse _ => simp [Jac.weak] at h1
  | dense rows => exact ⟨rfl, by simpa [Jac.mapAt, Jac.nrows] using h2⟩

/-- A real-linear map after a represented function, position by position. -/
theorem TripRep.mapAt {X : Type} [NormedAddCommGroup X] [NormedSpace ℝ X] (B : Base X) {m : ℕ} (c : Trip (Fin m) F)
    (u : X → Fin m → F) (h : TripRep B c u) (f : Fin m → F →L[ℝ] F) (x : Fin m → F) (g : X → Fin m → F)
    (hx : x = g B.x0) (hg : ∀ᶠ y in 𝓝 B.x0, ∀ q, g y q = f q (u y q) + (g B.x0 q - f q (u B.x0 q))) :
    TripRep B ⟨x, c.jac.mapAt fun q z => f q z, fun q => f q (c.lapl q)⟩ g := by
  obtain ⟨h1, h2, D, H, h3, h4, h5⟩ := h
  let L : (Fin m → F) →L[ℝ] (Fin m → F) := ContinuousLinearMap.pi fun p => (f p).comp (ContinuousLinearMap.proj p)
  have hL : ∀ v p, L v p = f p (v p) := fun v p => rfl
  refine ⟨hx, Jac.mapAt_wf (fun q => (f q : F →+ F)) _ _ h2, ?_⟩
  obtain ⟨H', h7, h8⟩ := HasFDeriv2At.comp (f := L) (HasFDeriv2At.linear L (u B.x0)) h3
  have h9 : HasFDeriv2At (fun y => L (u y) + fun q => g B.x0 q - f q (u B.x0 q)) (L.comp D) H' B.x0 := by
    obtain ⟨f', a1, a2, a3⟩ := h7
    exact ⟨f', a1.mono fun y hy => hy.add_const _, a2, a3⟩
  refine ⟨_, H', h9.of_eventuallyEq ?_, fun i => ?_, ?_⟩
  · filter_upwards [hg] with y hy
    funext q
    exact hy q
  · funext p
    refine (Jac.mapAt_den (fun q => (f q : F →+ F)) c.jac i p).trans ?_
    rw [h4]
    rfl
  · funext p
    show f p (c.lapl p) = _
    rw [h5, Finset.sum_apply, Finset.sum_apply, map_sum]
    refine Finset.sum_congr rfl fun i _ => ?_
    rw [h8]
    simp [hL]

/-! ### The two outputs -/

/-- What the proof needs to know about the scalars: a branch of the logarithm and the exponential. -/
structure DetField (F : Type) [RCLike F] where
  /-- the scalars are complex -/
  cplx : Bool
  log : F → F
  log_deriv : LogLike log
  log_one : log 1 = 0
  log_re : ∀ᶠ z in 𝓝 (1 : F), RCLike.re (log z) = Real.log ‖z‖
  real : cplx = false → ∀ z : F, ((RCLike.re z : ℝ) : F) = z
  exp : F → F
  exp_deriv : ∀ z, HasDerivAt exp (exp z) z
  exp_zero : exp 0 = 1
  phase : cplx = true → RCLike.I * RCLike.I = (-1 : F) ∧
    ∀ᶠ z in 𝓝 (1 : F), z / ((‖z‖ : ℝ) : F) = exp (RCLike.I * ((RCLike.im (log z) : ℝ) : F))

/-- The real numbers. -/
noncomputable def DetField.ofReal : DetField ℝ where
  cplx := false
  log := Real.log
  log_deriv := logLike_real
  log_one := Real.log_one
  log_re := Eventually.of_forall fun z => by simp
  real := fun _ z => by simp
  exp := Real.exp
  exp_deriv := Real.hasDerivAt_exp
  exp_zero := Real.exp_zero
  phase := fun h => by simp at h

/-- The complex numbers. -/
noncomputable def DetField.ofComplex : DetField ℂ where
  cplx := true
  log := Complex.log
  log_deriv := logLike_complex
  log_one := Complex.log_one
  log_re := Eventually.of_forall fun z => by simp [Complex.log_re]
  real := fun h => by simp at h
  exp := Complex.exp
  exp_deriv := Complex.hasDerivAt_exp
  exp_zero := Complex.exp_zero
  phase := fun _ => by
    refine ⟨by simp, ?_⟩
    filter_upwards [isOpen_ne.mem_nhds (one_ne_zero : (1 : ℂ) ≠ 0)] with z hz
    have h := Complex.norm_mul_exp_arg_mul_I z
    have hz' : ((‖z‖ : ℝ) : ℂ) ≠ 0 := by simpa using hz
    have h1 : z / ((‖z‖ : ℝ) : ℂ) = Complex.exp (Complex.arg z * Complex.I) := by
      rw [div_eq_iff hz', mul_comm]
      exact h.symm
    simp only [RCLike.im_to_complex, Complex.log_im, RCLike.I_to_complex]
    rw [mul_comm]
    exact h1

theorem phase_deriv2 (fld : DetField F) (hc : fld.cplx = true) (s0 : F) :
    ∃ D H, HasFDeriv2At (fun w : F => s0 * fld.exp (RCLike.I * w)) D H 0 ∧ (∀ w, D w = RCLike.I * s0 * w) ∧
      ∀ s t, H s t = -(s0 * (s * t)) := by
  have hI := (fld.phase hc).1
  have h1 : ∀ w : F, HasDerivAt (fun w : F => fld.exp (RCLike.I * w)) (fld.exp (RCLike.I * w) * RCLike.I) w := by
    intro w
    have := (fld.exp_deriv (RCLike.I * w)).comp w ((hasDerivAt_id w).const_mul (RCLike.I : F))
    exact this.congr_deriv (by rw [mul_one])
  have h2 : ∀ w : F, HasFDerivAt (fun w : F => s0 * fld.exp (RCLike.I * w))
      ((s0 * (fld.exp (RCLike.I * w) * RCLike.I)) • ContinuousLinearMap.id F F) w := by
    intro w
    refine ((h1 w).const_mul s0).hasFDerivAt.congr_fderiv ?_
    ext
    simp
  have h3 : HasFDerivAt (fun w : F => (s0 * (fld.exp (RCLike.I * w) * RCLike.I)) • ContinuousLinearMap.id F F)
      (((s0 * RCLike.I * RCLike.I) • ContinuousLinearMap.id F F).smulRight (ContinuousLinearMap.id F F)) 0 := by
    have := (((h1 0).mul_const (RCLike.I : F)).const_mul s0).hasFDerivAt.smul_const (ContinuousLinearMap.id F F)
    refine this.congr_fderiv ?_
    ext
    simp [fld.exp_zero, mul_assoc]
  obtain ⟨H, a1, a2⟩ := hasFDeriv2At_restrict _ _ (0 : F) _ (Eventually.of_forall h2) h3
  refine ⟨_, H, a1, fun w => ?_, fun s t => ?_⟩
  · show (s0 * (fld.exp (RCLike.I * 0) * RCLike.I)) • w = _
    rw [mul_zero, fld.exp_zero, one_mul, smul_eq_mul, mul_comm s0]
  · rw [a2]
    show ((s0 * RCLike.I * RCLike.I) • s) • t = _
    rw [mul_assoc s0, hI, smul_eq_mul, smul_eq_mul]
    ring

section
variable {X : Type} [NormedAddCommGroup X] [NormedSpace ℝ X]

omit [NormedSpace ℝ X] in
theorem slogdet_near (B : Base X) (u : X → Fin (b * (m * m)) → F) (hu : ContinuousAt u B.x0)
    (h0 : ∀ q, (mats (u B.x0) q).det ≠ 0) (p : F → Prop) (hp : ∀ᶠ z in 𝓝 (1 : F), p z) :
    ∀ᶠ y in 𝓝 B.x0, ∀ q, (mats (u y) q).det ≠ 0 ∧ p ((mats (u y) q).det / (mats (u B.x0) q).det) := by
  rw [eventually_all]
  intro q
  have hd : ContinuousAt (fun y => (mats (u y) q).det) B.x0 := by
    have h1 : Continuous fun y : Fin (b * (m * m)) → F => fun c : Fin (m * m) => y (finProdFinEquiv (q, c)) :=
      continuous_pi fun c => continuous_apply _
    exact (((det_contDiff (F := F) (m := m)).continuous.comp h1).continuousAt).comp (x := B.x0) hu
  have hr : ContinuousAt (fun y => (mats (u y) q).det / (mats (u B.x0) q).det) B.x0 := hd.div_const _
  have h1 := hd.eventually_ne (h0 q)
  have h2 : ∀ᶠ y in 𝓝 B.x0, p ((mats (u y) q).det / (mats (u B.x0) q).det) := by
    refine hr.eventually ?_
    simp only [div_self (h0 q)]
    exact hp
  exact h1.and h2

/-- The logarithm. -/
theorem detLog_near (fld : DetField F) (d d0 : F) (hd : d ≠ 0) (h0 : d0 ≠ 0)
    (h : RCLike.re (fld.log (d / d0)) = Real.log ‖d / d0‖) :
    detLog d = ((RCLike.re (fld.log (d / d0)) : ℝ) : F) + detLog d0 := by
  unfold detLog
  rw [h, norm_div, Real.log_div (by simpa using hd) (by simpa using h0), ← RCLike.ofReal_add]
  congr 1
  ring

theorem detSign_near (d d0 : F) (h0 : d0 ≠ 0) :
    detSign d = detSign d0 * ((d / d0) / ((‖d / d0‖ : ℝ) : F)) := by
  unfold detSign
  have h1 : ((‖d0‖ : ℝ) : F) ≠ 0 := by simpa using h0
  rw [norm_div, RCLike.ofReal_div]
  by_cases hd : d = 0
  · simp [hd]
  have h2 : ((‖d‖ : ℝ) : F) ≠ 0 := by simpa using hd
  field_simp

/-- The second output. -/
theorem slogdet_log_rep (B : Base X) (hn : 0 < B.n) (hm : 0 < m) (fld : DetField F) (T : ℕ)
    (t : Trip (Fin (b * (m * m))) F) (u : X → Fin (b * (m * m)) → F) (hrep : TripRep B t u)
    (h0 : ∀ q, (mats t.x q).det ≠ 0) (c : Trip (Fin b) F)
    (h : (slogdetInst b m hm).wrapped T (fun _ => t) = .ok c) :
    TripRep B ⟨slogdetFwd t.x 1, c.jac.mapAt fun _ z => ((RCLike.re z : ℝ) : F),
      fun q => ((RCLike.re (c.lapl q) : ℝ) : F)⟩ fun y => slogdetFwd (u y) 1 := by
  have hc := slogdet_cached B hn hm fld.log fld.log_deriv fld.log_one T t u hrep h0 c h
  have hx := hrep.x
  obtain ⟨D, H, hD, _⟩ := hrep.deriv
  refine TripRep.mapAt B c _ hc (fun _ => (RCLike.ofRealCLM (K := F)).comp RCLike.reCLM) _ _ (by rw [hx]) ?_
  have h0' : ∀ q, (mats (u B.x0) q).det ≠ 0 := by rw [← hx]; exact h0
  filter_upwards [slogdet_near B u hD.continuousAt h0' _ fld.log_re] with y hy q
  have e1 := detLog_near fld _ _ (hy q).1 (h0' q) (hy q).2
  show detLog (mats (u y) q).det = ((RCLike.re (fld.log ((mats (u y) q).det / (mats (u B.x0) q).det)) : ℝ) : F) +
    (detLog (mats (u B.x0) q).det -
      ((RCLike.re (fld.log ((mats (u B.x0) q).det / (mats (u B.x0) q).det)) : ℝ) : F))
  rw [e1, div_self (h0' q), fld.log_one]
  simp

/-- The first output for complex input. -/
theorem slogdet_sign_rep (B : Base X) (hn : 0 < B.n) (hm : 0 < m) (fld : DetField F) (hcx : fld.cplx = true) (T : ℕ)
    (t : Trip (Fin (b * (m * m))) F) (u : X → Fin (b * (m * m)) → F) (hrep : TripRep B t u)
    (h0 : ∀ q, (mats t.x q).det ≠ 0) (c : Trip (Fin b) F)
    (h : (slogdetInst b m hm).wrapped T (fun _ => t) = .ok c) :
    TripRep B ⟨slogdetFwd t.x 0, c.jac.mapAt fun q z => RCLike.I * slogdetFwd t.x 0 q * ((RCLike.im z : ℝ) : F),
      fun q => slogdetFwd t.x 0 q * (RCLike.I * ((RCLike.im (c.lapl q) : ℝ) : F) - imDot c.jac q)⟩
      fun y => slogdetFwd (u y) 0 := by
  have hc := slogdet_cached B hn hm fld.log fld.log_deriv fld.log_one T t u hrep h0 c h
  have hx := hrep.x
  obtain ⟨_, _, hDu, _⟩ := hrep.deriv
  have h0' : ∀ q, (mats (u B.x0) q).det ≠ 0 := by rw [← hx]; exact h0
  obtain ⟨rows, hrows⟩ := slogdet_dense hm T t c h
  obtain ⟨hcx0, hwf, D, H, h3, h4, h5⟩ := hc
  set s0 : Fin b → F := slogdetFwd t.x 0 with hs0
  let imF : F →L[ℝ] F := (RCLike.ofRealCLM (K := F)).comp RCLike.imCLM
  have him : ∀ z, imF z = ((RCLike.im z : ℝ) : F) := fun z => rfl
  have key : ∀ q, ∃ DD HH, HasFDeriv2At (fun y => slogdetFwd (u y) 0 q) DD HH B.x0 ∧
      (∀ v, DD v = RCLike.I * s0 q * imF (D v q)) ∧
      ∀ v w, HH v w = -(s0 q * (imF (D v q) * imF (D w q))) + RCLike.I * s0 q * imF (H v w q) := by
    intro q
    obtain ⟨Dp, Hp, p1, p2, p3⟩ := phase_deriv2 fld hcx (s0 q)
    obtain ⟨H1, a1, a2⟩ := HasFDeriv2At.proj h3 q
    obtain ⟨H2, b1, b2⟩ := HasFDeriv2At.clm_comp imF a1
    have hz : imF (slogdetRel fld.log (u B.x0) (u B.x0) q) = 0 := by
      unfold slogdetRel
      rw [div_self (h0' q), fld.log_one, map_zero]
    obtain ⟨H3, c1, c2⟩ := HasFDeriv2At.comp (g := fun y => imF (slogdetRel fld.log (u B.x0) (u y) q))
      (f := fun w : F => s0 q * fld.exp (RCLike.I * w)) (by rw [hz]; exact p1) b1
    refine ⟨_, H3, c1.of_eventuallyEq ?_, fun v => ?_, fun v w => ?_⟩
    · filter_upwards [slogdet_near B u hDu.continuousAt h0' _ (fld.phase hcx).2] with y hy
      have e1 := detSign_near (mats (u y) q).det (mats (u B.x0) q).det (h0' q)
      rw [(hy q).2] at e1
      show detSign (mats (u y) q).det = s0 q * _
      rw [e1, hs0, hx]
      rfl
    · show Dp (imF (D v q)) = _
      rw [p2]
    · rw [c2, p3, b2, a2, p2]
      rfl
  choose DD HH k1 k2 k3 using key
  obtain ⟨HF, q1, q2⟩ := HasFDeriv2At.pi k1
  let f : Fin b → F →L[ℝ] F := fun q => ((RCLike.I * s0 q) • ContinuousLinearMap.id F F).restrictScalars ℝ |>.comp imF
  have hf : ∀ q z, f q z = RCLike.I * s0 q * ((RCLike.im z : ℝ) : F) := fun q z => rfl
  refine ⟨by rw [hs0, hx], Jac.mapAt_wf (fun q => (f q : F →+ F)) _ _ hwf, _, HF, q1, fun i => ?_, ?_⟩
  · funext q
    refine (Jac.mapAt_den (fun q => (f q : F →+ F)) c.jac i q).trans ?_
    show f q (c.jac.den i q) = DD q (B.dir i)
    rw [k2, h4]
    rfl
  · funext q
    have hdot : imDot c.jac q = ∑ i : Fin B.n, imF (c.jac.den i q) * imF (c.jac.den i q) := by
      unfold imDot
      rw [hrows] at hwf ⊢
      have hlen : rows.length ≤ B.n := hwf
      simp only [Jac.data]
      have e1 : (rows.map fun r => ((RCLike.im (r q) * RCLike.im (r q) : ℝ) : F)).sum =
          ∑ i ∈ Finset.range rows.length, imF ((Jac.dense rows).den i q) * imF ((Jac.dense rows).den i q) := by
        rw [Finset.sum_range, ← List.sum_ofFn]
        congr 1
        apply List.ext_getElem (by simp)
        intro i a1 a2
        simp only [List.getElem_map, List.getElem_ofFn, Jac.den]
        rw [List.getD_eq_getElem?_getD, List.getElem?_eq_getElem (by simpa using a1)]
        simp [him]
      rw [e1, ← Finset.sum_range (fun i => imF ((Jac.dense rows).den i q) * imF ((Jac.dense rows).den i q))]
      refine Finset.sum_subset (by simpa using hlen) fun i _ hi => ?_
      have : (Jac.dense rows).den i q = 0 := by
        simp only [Jac.den]
        rw [List.getD_eq_getElem?_getD, List.getElem?_eq_none (by simpa using hi)]
        rfl
      rw [this, map_zero, mul_zero]
    show s0 q * (RCLike.I * ((RCLike.im (c.lapl q) : ℝ) : F) - imDot c.jac q) = _
    rw [hdot, ← him, h5, Finset.sum_apply, Finset.sum_apply, map_sum, Finset.mul_sum, ← Finset.sum_sub_distrib,
      Finset.mul_sum]
    refine Finset.sum_congr rfl fun i _ => ?_
    rw [q2, k3, h4]
    ring

end

/-- `slogdet` is exact at invertible matrices, for every stored form of the Jacobian. -/
theorem slogdet_sound (inv : ∀ m, Jac (Fin m) F → Prop) (T n : ℕ) (hn : 0 < n) (fld : DetField F) (hm : 0 < m)
    (x : (i : Fin 1) → Fin (b * (m * m)) → F) (h0 : ∀ q, (mats (x 0) q).det ≠ 0)
    (hinv : ∀ (t : Trip (Fin (b * (m * m))) F) c, inv _ t.jac → (slogdetInst b m hm).wrapped 0 (fun _ => t) = .ok c →
      inv _ c.jac ∧ ∀ f, inv _ (c.jac.mapAt f)) :
    (slogdetPrim F fld.cplx b m hm).SoundAt inv T n x := by
  intro X _ _ B o u r hB hx ho hl hr j
  suffices hs : ∀ (o0 : Opd F (b * (m * m))) (u0 : X → Fin (b * (m * m)) → F) (r : Fin 2 → Opd F b), u0 B.x0 = x 0 →
      OpdRep B inv o0 u0 → o0.isLapl = true →
      (slogdetPrim F fld.cplx b m hm).rule T (fun _ => o0) = .ok r →
      ∀ j, OpdRep B inv (r j) fun y => slogdetFwd (u0 y) j by
    refine hs (o (0 : Fin 1)) (u (0 : Fin 1)) r (hx (0 : Fin 1)) (ho (0 : Fin 1)) ?_ ?_ j
    · obtain ⟨i, hi⟩ := hl
      have : i = (0 : Fin 1) := Subsingleton.elim (α := Fin 1) _ _
      subst this
      exact hi
    · exact hr
  clear hl hr ho hx
  intro o0 u0 r hx ho hl hr j
  cases o0 with
  | plain a => simp [Opd.isLapl] at hl
  | lapl t =>
    obtain ⟨hrep, hin⟩ := ho
    have h0t : ∀ q, (mats t.x q).det ≠ 0 := by rw [hrep.x, hx]; exact h0
    simp only [slogdetPrim] at hr
    cases hw : (slogdetInst b m hm).wrapped 0 (fun _ => t) with
    | error e => rw [hw] at hr; simp at hr
    | ok c =>
      rw [hw] at hr
      have hr := Except.ok.inj hr
      subst hr
      have hn' : 0 < B.n := hB ▸ hn
      obtain ⟨i1, i2⟩ := hinv t c hin hw
      have hlog := slogdet_log_rep B hn' hm fld 0 t u0 hrep h0t c hw
      dsimp only
      have hj : j = 0 ∨ j = 1 := by omega
      rcases hj with rfl | rfl
      · rw [if_pos rfl]
        by_cases hc : fld.cplx = true
        · rw [if_pos hc]
          exact ⟨slogdet_sign_rep B hn' hm fld hc 0 t u0 hrep h0t c hw,
            i2 fun q z => RCLike.I * slogdetFwd t.x 0 q * ((RCLike.im z : ℝ) : F)⟩
        · rw [if_neg hc]
          have hreal := fld.real (by simpa using hc)
          obtain ⟨_, _, hDu, _⟩ := hrep.deriv
          have h0' : ∀ q, (mats (u0 B.x0) q).det ≠ 0 := by rw [← hrep.x]; exact h0t
          refine ⟨by rw [hrep.x], ?_⟩
          have hpos : ∀ᶠ z in 𝓝 (1 : F), 0 < RCLike.re z := by
            refine (RCLike.continuous_re.continuousAt (x := (1 : F))).eventually ?_
            simp only [RCLike.one_re]
            exact lt_mem_nhds one_pos
          filter_upwards [slogdet_near B u0 hDu.continuousAt h0' _ hpos] with y hy
          funext q
          show detSign (mats (u0 y) q).det = detSign (mats t.x q).det
          rw [detSign_near _ _ (h0' q), hrep.x]
          set z := (mats (u0 y) q).det / (mats (u0 B.x0) q).det with hz
          have hz1 : ((‖z‖ : ℝ) : F) = z := by
            rw [← hreal z, RCLike.norm_ofReal, abs_of_pos (hy q).2]
          have hz2 : z ≠ 0 := by
            intro h
            have h1 : 0 < RCLike.re z := (hy q).2
            rw [h] at h1
            simp at h1
          rw [hz1, div_self hz2, mul_one]
      · rw [if_neg (by decide)]
        by_cases hc : fld.cplx = true
        · rw [if_pos hc]
          exact ⟨hlog, i2 fun _ z => ((RCLike.re z : ℝ) : F)⟩
        · rw [if_neg hc]
          have hreal := fld.real (by simpa using hc)
          have e1 : (c.jac.mapAt fun _ z => ((RCLike.re z : ℝ) : F)) = c.jac := by
            cases hj : c.jac with
            | dense rows => simp [Jac.mapAt, hreal]
            | sparse rows => simp [Jac.mapAt, hreal]
          have e2 : (fun q => ((RCLike.re (c.lapl q) : ℝ) : F)) = c.lapl := funext fun q => hreal _
          rw [e1, e2] at hlog
          exact ⟨hlog, i1⟩

theorem slogdet_sound_dense (T n : ℕ) (hn : 0 < n) (fld : DetField F) (hm : 0 < m)
    (x : (i : Fin 1) → Fin (b * (m * m)) → F) (h0 : ∀ q, (mats (x 0) q).det ≠ 0) :
    (slogdetPrim F fld.cplx b m hm).SoundAt (denseInv n) T n x :=
  slogdet_sound (denseInv n) T n hn fld hm x h0 fun t c ht hc =>
    ⟨slogdet_denseInv hm 0 n t c ht hc, fun f => mapAt_denseInv n f _ (slogdet_denseInv hm 0 n t c ht hc)⟩

theorem slogdet_sound_any (T n : ℕ) (hn : 0 < n) (fld : DetField F) (hm : 0 < m)
    (x : (i : Fin 1) → Fin (b * (m * m)) → F) (h0 : ∀ q, (mats (x 0) q).det ≠ 0) :
    (slogdetPrim F fld.cplx b m hm).SoundAt (fun _ _ => True) T n x :=
  slogdet_sound (fun _ _ => True) T n hn fld hm x h0 fun _ _ _ _ => ⟨trivial, fun _ => trivial⟩

end Folx

import Verif.Prog.CAbsProofs
import Verif.Prog.RuleSpec
import Verif.Prog.Total
import Verif.AD.AdProofs
import Mathlib.Analysis.Complex.Basic

/-! # C20: the absolute value of complex arrays -/

namespace Folx

open Filter Topology ComplexConjugate

theorem reDot_conj (z t : ℂ) : reDot z t = (conj z * t).re := by
  rw [reDot_eq]; rfl

/-- The model's pull-back is what `folx.ad.vjp` computes for the absolute value (C39's model of `ad.py`). -/
theorem absPull_spec {m : ℕ} (x : Fin m → ℂ) (h0 : ∀ q, x q ≠ 0) :
    AD.vjp (fun (z : Fin m → ℂ) p => ‖z p‖) x (fun _ => 1) = fun q => absPull (x q) := by
  have hvjp : AD.vjp (fun (z : Fin m → ℂ) p => ‖z p‖) x (fun _ => 1) =
      fun i => RCLike.map ℂ ℂ (AD.jaxVjp (fun (z : Fin m → ℂ) p => ‖z p‖) x (fun _ => 1) i) := by
    unfold AD.vjp
    split <;> split <;> first | rfl | simp_all [AD.IsComplex]
  rw [hvjp]
  funext q
  have hd : ∀ t : Fin m → ℂ, fderiv ℝ (fun (z : Fin m → ℂ) p => ‖z p‖) x t = fun p => reDot (x p) (t p) / ‖x p‖ := by
    intro t
    have : HasFDerivAt (fun (z : Fin m → ℂ) p => ‖z p‖) (ContinuousLinearMap.pi fun p =>
        ((‖x p‖⁻¹ : ℝ) • (RCLike.re (x p) • RCLike.reCLM + RCLike.im (x p) • RCLike.imCLM : ℂ →L[ℝ] ℝ)).comp
          (ContinuousLinearMap.proj p)) x := by
      rw [hasFDerivAt_pi]
      intro p
      exact (hasFDerivAt_norm (x p) (h0 p)).comp x (ContinuousLinearMap.proj (R := ℝ) (φ := fun _ : Fin m => ℂ) p).hasFDerivAt
    rw [this.fderiv]
    funext p
    show ‖x p‖⁻¹ * (_ * _ + _ * _) = _
    simp only [reDot]
    field_simp
    rfl
  have hs : ∀ s : ℂ, (∑ p, (1 : ℝ) * (reDot (x p) ((Pi.single q s : Fin m → ℂ) p) / ‖x p‖)) = reDot (x q) s / ‖x q‖ := by
    intro s
    rw [Finset.sum_eq_single q]
    · simp
    · intro p _ hp
      simp [Pi.single_eq_of_ne hp, reDot]
    · simp
  simp only [AD.jaxVjp, AD.jaxJvp, hd, hs]
  apply Complex.ext
  · simp [absPull, reDot, RCLike.map]
  · simp [absPull, reDot, RCLike.map, neg_div]

/-- **C20, partial: Jacobians that store no index twice at a position** (dense ones never do).  Let `z` be an element of the
operand, `dz i` its derivative with respect to input `i` and `Δz` its Laplacian.  The result has the value `|z|`, the
derivatives `Re (conj z dz) / |z|` and the Laplacian
`Re (conj z Δz) / |z| + ∑ (|dz|² / |z| - (Re (conj z dz))² / |z|³)`.  What is missing: see `C20_counterexample`. -/
theorem C20_formula_partial (m n : ℕ) (hn : 0 < n) (T : ℕ) (t : Trip (Fin m) ℂ) (hwf : t.jac.Wf n)
    (hnr : t.jac.NoRepeat) (h0 : ∀ q, t.x q ≠ 0) (r : Fin 1 → Opd ℂ m)
    (hr : (cabsPrim ℂ m).rule T (fun _ => .lapl t) = .ok r) :
    ∃ c, r 0 = .lapl c ∧ c.jac.Wf n ∧ ∀ q,
      let z := t.x q
      let dz := fun i => t.jac.den i q
      let Δz := t.lapl q
      c.x q = (‖z‖ : ℝ) ∧ (∀ i, c.jac.den i q = ((conj z * dz i).re / ‖z‖ : ℝ)) ∧
      c.lapl q = ((conj z * Δz).re / ‖z‖ +
        ∑ i ∈ Finset.range n, (‖dz i‖ ^ 2 / ‖z‖ - (conj z * dz i).re ^ 2 / ‖z‖ ^ 3) : ℝ) := by
  have _ := h0
  obtain ⟨c, h1, h2, h3⟩ := cabs_formula m n hn T t hwf hnr r hr
  refine ⟨c, h1, h2, fun q => ?_⟩
  obtain ⟨a1, a2, a3⟩ := h3 q
  simp only [reDot_conj] at a2 a3
  exact ⟨a1, a2, a3⟩

/-- **C20, partial (meaning).** If the operand describes a function `u` of the inputs near `x` that has no zeros at `x`
(`Holds`: value, first derivatives, Laplacian) and no index is stored twice at a position, the result describes `|u|`. -/
theorem C20_meaning_partial (m : ℕ) {n : ℕ} (hn : 0 < n) (T : ℕ) (w x : Fin n → ℝ) (t : Trip (Fin m) ℂ)
    (u : (Fin n → ℝ) → Fin m → ℂ) (hu : ∀ q, u x q ≠ 0) (hnr : t.jac.NoRepeat)
    (ho : Holds (fun _ _ => True) w x (.lapl t) u) (r : Fin 1 → Opd ℂ m)
    (hr : (cabsPrim ℂ m).rule T (fun _ => .lapl t) = .ok r) :
    Holds (fun _ _ => True) w x (r 0) (fun y q => (‖u y q‖ : ℝ)) := by
  obtain ⟨hrep, _⟩ := (holds_iff _ w x _ _).mp ho
  obtain ⟨c, hc, hrepc⟩ := cabs_rep (inputBase w x) hn m T t u hrep (by rw [hrep.x]; exact hu) hnr r hr
  rw [hc]
  exact (holds_iff _ w x _ _).mpr ⟨hrepc, trivial⟩

theorem abs_jvp_total (m T : ℕ) (t : Trip (Fin m) ℂ) :
    ∃ o, jvpRule (absInst (F := ℂ) m).toInst T (fun _ => t) = .ok o := by
  unfold jvpRule
  rw [if_pos (by by_contra hc; exact not_oneByOne_single _ rfl _ hc)]
  unfold parallelJvp
  by_cases hw : t.jac.weak = true
  · rw [if_neg (by simp [allWeak, hw]), if_neg (by simp [absInst, elemHInst]; decide), if_pos (by simp [absInst, elemHInst])]
    exact ⟨_, rfl⟩
  · rw [if_pos (by simpa [allWeak] using hw)]
    cases hj : t.jac with
    | sparse r => rw [hj] at hw; simp [Jac.weak] at hw
    | dense rows =>
      unfold denseJvp
      rw [seqFin_of_ok (fun a : Fin 1 => t.jac.denseArray) (fun _ => rows) (fun _ => by rw [hj]; rfl)]
      simp only
      split
      · exact ⟨_, rfl⟩
      · split <;> exact ⟨_, rfl⟩

/-- **C20 (the rule returns)** for every dense Jacobian and for every sparse one with at least one row, if the array is
not empty. -/
theorem C20_returns (m : ℕ) (hm : 0 < m) (T : ℕ) (t : Trip (Fin m) ℂ) (h : t.jac.weak = true → t.jac.nrows ≠ 0) :
    ∃ r, (cabsPrim ℂ m).rule T (fun _ => .lapl t) = .ok r := by
  obtain ⟨o, ho⟩ := abs_jvp_total m T t
  suffices hs : ∃ h2, (absInst (F := ℂ) m).hessianTransform T (fun _ => t) = .ok h2 by
    obtain ⟨h2, hh⟩ := hs
    have hw : (absInst (F := ℂ) m).wrapped T (fun _ => t) = .ok ⟨o.y, o.jac, fun q => o.lapl q + h2 q⟩ := by
      unfold HInst.wrapped
      rw [ho]
      simp only [hh]
    simp only [cabsPrim, hw]
    exact ⟨_, rfl⟩
  unfold HInst.hessianTransform
  rw [if_neg (by simp [absInst, elemHInst]; decide), if_neg (by simp [absInst, elemHInst]; decide),
    if_neg (by simp [absInst, elemHInst]; decide)]
  have hda : ∃ args', HInst.denseArgs (fun _ : Fin 1 => t) = .ok args' := by
    have : Nonempty (Fin m) := ⟨⟨0, hm⟩⟩
    obtain ⟨rows, hrows⟩ := Jac.denseArray_ok t.jac fun rows hj hr => h (by rw [hj]; rfl) (by rw [hj, hr]; rfl)
    unfold HInst.denseArgs
    rw [seqFin_of_ok (fun a : Fin 1 => t.jac.denseArray) (fun _ => rows) (fun _ => hrows)]
    exact ⟨_, rfl⟩
  obtain ⟨args', hargs⟩ := hda
  unfold HInst.vmappedJHJ
  dsimp only
  have : ∃ a, (if ((absInst (F := ℂ) m).findOutIdx T (fun _ => t)).2 && !(absInst (F := ℂ) m).flags.has Flags.SPARSE_JHJ
      then HInst.denseArgs (fun _ : Fin 1 => t) else .ok fun _ => t) = .ok a := by
    split
    · exact ⟨_, hargs⟩
    · exact ⟨_, rfl⟩
  obtain ⟨a, ha⟩ := this
  rw [ha]
  dsimp only
  generalize (if ((absInst (F := ℂ) m).findOutIdx T (fun _ => t)).2 && !(absInst (F := ℂ) m).flags.has Flags.SPARSE_JHJ
    then none else ((absInst (F := ℂ) m).findOutIdx T (fun _ => t)).1) = oi
  by_cases hc : oi.isSome = true ∧ (absInst (F := ℂ) m).idxWidth (fun _ => t) = 0
  · rw [if_pos hc]
    exact ⟨_, rfl⟩
  · rw [if_neg hc, if_pos]
    · exact ⟨_, rfl⟩
    · intro v
      split <;> rfl

/-! ### A sum of two arrays: `1 + i x + i flip(x)` with three inputs, at `x = 0` -/

namespace CAbsDemo

/-- `jax.lax.add` of two arrays of three elements (`wrapped_functions.py:306-308`). -/
noncomputable def addInst : HInst 2 (fun _ => Fin 3) (Fin 3) ℂ :=
  elemHInst (fun _ z => z 0 + z 1) (fun _ _ _ => 1) (fun _ _ _ _ => 0) (fun _ q => q)
    (fun _ => some (Equiv.refl _)) Flags.LINEAR true false none

/-- `1 + i x` -/
noncomputable def left : Trip (Fin 3) ℂ := ⟨fun _ => 1, .sparse [⟨![0, 1, 2], fun _ => Complex.I⟩], fun _ => 0⟩
/-- `i flip(x)` -/
noncomputable def right : Trip (Fin 3) ℂ := ⟨fun _ => 0, .sparse [⟨![2, 1, 0], fun _ => Complex.I⟩], fun _ => 0⟩
/-- The sum, with sparse Jacobian: the middle element stores input `1` twice. -/
noncomputable def sum : Trip (Fin 3) ℂ :=
  ⟨fun _ => 1, .sparse [⟨![0, 1, 2], fun _ => Complex.I⟩, ⟨![2, 1, 0], fun _ => Complex.I⟩], fun _ => 0⟩
/-- The sum, with dense Jacobian. -/
noncomputable def sumD : Trip (Fin 3) ℂ :=
  ⟨fun _ => 1, .dense [![Complex.I, 0, Complex.I], ![0, 2 * Complex.I, 0], ![Complex.I, 0, Complex.I]], fun _ => 0⟩

/-- The sum is what the addition rule returns, for every threshold. -/
theorem sum_reached (T : ℕ) : addInst.wrapped T ![left, right] = .ok sum := by
  have h1 : jvpRule addInst.toInst T ![left, right] = .ok ⟨sum.x, sum.jac, sum.lapl⟩ := by
    unfold jvpRule
    have hall : allWeak ![left, right] = true := by
      simp only [allWeak, decide_eq_true_eq]
      intro a
      fin_cases a <;> rfl
    rw [if_pos (Or.inr ⟨hall, Or.inr (Or.inl rfl)⟩)]
    unfold parallelJvp
    rw [if_neg (by rw [hall]; simp), if_neg (by simp [addInst, elemHInst]; decide), if_pos (show addInst.elem = true from rfl)]
    unfold sparseDiag
    rw [if_neg (by simp [addInst, elemHInst])]
    rw [dif_neg (by decide)]
    congr 1
    have hj : ∀ (x t : (a : Fin 2) → Fin 3 → ℂ) q, addInst.jvp x t q = t 0 q + t 1 q := by
      intro x t q
      show (∑ a : Fin 2, (1 : ℂ) * t a q) = _
      rw [Fin.sum_univ_two, one_mul, one_mul]
    refine (JvpOut.mk.injEq ..).mpr ⟨?_, ?_, ?_⟩
    · funext q
      show left.x q + right.x q = 1
      simp [left, right]
    · congr 1
      have hr : (List.flatten (List.ofFn fun a : Fin 2 => ((![left, right] : Fin 2 → Trip (Fin 3) ℂ) a).jac.srows.map fun r =>
          (⟨fun q => r.idx (addInst.π a q), addInst.jvp (fun a => ((![left, right] : Fin 2 → Trip (Fin 3) ℂ) a).x)
            (Pi.single (M := fun _ => Fin 3 → ℂ) a r.val)⟩ : Row (Fin 3) ℂ))) =
          [⟨![0, 1, 2], fun _ => Complex.I⟩, ⟨![2, 1, 0], fun _ => Complex.I⟩] := by
        simp only [List.ofFn_succ, List.ofFn_zero, List.flatten_cons, List.flatten_nil]
        have e : ∀ a : Fin 2, (fun q => addInst.jvp (fun a => ((![left, right] : Fin 2 → Trip (Fin 3) ℂ) a).x)
            (Pi.single (M := fun _ => Fin 3 → ℂ) a fun _ => Complex.I) q) = fun _ => Complex.I := by
          intro a
          funext q
          rw [hj]
          fin_cases a <;> simp
        show [Row.mk _ _] ++ ([Row.mk _ _] ++ []) = _
        simp only [List.cons_append, List.nil_append]
        refine congrArg₂ _ ?_ (congrArg₂ _ ?_ rfl)
        · exact congrArg (Row.mk _) (e 0)
        · exact congrArg (Row.mk _) (e 1)
      refine (congrArg uniqueRows hr).trans ?_
      unfold uniqueRows
      have hne : (![0, 1, 2] : Fin 3 → ℤ) ≠ ![2, 1, 0] := by decide
      have hd : ([⟨![0, 1, 2], fun _ => Complex.I⟩, ⟨![2, 1, 0], fun _ => Complex.I⟩].map
          (Row.idx (P := Fin 3) (F := ℂ))).dedup = [![0, 1, 2], ![2, 1, 0]] := by
        simp only [List.map_cons, List.map_nil]
        exact List.dedup_eq_self.mpr (by simp)
      rw [hd]
      simp [hne, hne.symm]
    · funext q
      refine (hj _ _ q).trans ?_
      simp [left, right, sum]
  unfold HInst.wrapped
  rw [h1]
  dsimp only
  unfold HInst.hessianTransform
  rw [if_pos (by simp [addInst, elemHInst]; decide)]
  simp [sum]

/-- The function of the inputs. -/
noncomputable def fn (y : Fin 3 → ℝ) (p : Fin 3) : ℂ := 1 + Complex.I * y p + Complex.I * y (2 - p)

theorem fn_rep (t : Trip (Fin 3) ℂ) (hx : t.x = fun _ => 1) (hl : t.lapl = fun _ => 0) (hwf : t.jac.Wf 3)
    (hden : ∀ i p : Fin 3, t.jac.den i p = Complex.I * (if p = i then 1 else 0) + Complex.I * (if 2 - p = i then 1 else 0)) :
    Holds (fun _ _ => True) (fun _ => 1) (fun _ => 0) (.lapl t) fn := by
  rw [holds_iff]
  let L : (Fin 3 → ℝ) →L[ℝ] (Fin 3 → ℂ) := LinearMap.toContinuousLinearMap
    { toFun := fun y p => Complex.I * y p + Complex.I * y (2 - p)
      map_add' := fun a b => by funext p; simp; ring
      map_smul' := fun c a => by funext p; simp; ring }
  have hL : HasFDeriv2At fn L 0 (fun _ => 0) := by
    obtain ⟨f', a1, a2, a3⟩ := HasFDeriv2At.linear L (fun _ => 0)
    refine ⟨f', a1.mono fun y hy => ?_, a2, a3⟩
    refine (hy.const_add fun _ => (1 : ℂ)).congr_of_eventuallyEq (Eventually.of_forall fun z => ?_)
    funext p
    show _ = 1 + (Complex.I * z p + Complex.I * z (2 - p))
    rw [← add_assoc]
    rfl
  refine ⟨⟨?_, hwf, L, 0, hL, fun i => ?_, ?_⟩, trivial⟩
  · rw [hx]
    funext p
    simp [fn, inputBase]
  · suffices hs : ∀ i : Fin 3, t.jac.den i = L (Pi.single i 1) from hs i
    intro i
    funext p
    rw [hden i p]
    show _ = Complex.I * (((Pi.single i 1 : Fin 3 → ℝ) p : ℝ) : ℂ) + Complex.I * (((Pi.single i 1 : Fin 3 → ℝ) (2 - p) : ℝ) : ℂ)
    simp only [Pi.single_apply]
    split <;> split <;> simp
  · rw [hl]
    funext p
    simp

theorem sum_wf : sum.jac.Wf 3 := by
  simp only [sum, Jac.Wf, List.mem_cons, List.not_mem_nil, or_false, forall_eq_or_imp, forall_eq]
  refine ⟨fun p => ?_, fun p => ?_⟩ <;> fin_cases p <;> simp

theorem sum_holds : Holds (fun _ _ => True) (fun _ => 1) (fun _ => 0) (.lapl sum) fn := by
  refine fn_rep sum rfl rfl sum_wf fun i p => ?_
  simp only [sum, Jac.den, List.map_cons, List.map_nil, List.sum_cons, List.sum_nil]
  fin_cases i <;> fin_cases p <;> simp

theorem sumD_holds : Holds (fun _ _ => True) (fun _ => 1) (fun _ => 0) (.lapl sumD) fn := by
  refine fn_rep sumD rfl rfl (by simp [sumD, Jac.Wf]) fun i p => ?_
  simp only [sumD, Jac.den]
  fin_cases i <;> fin_cases p <;> simp <;> ring

example : sumD.jac.NoRepeat ∧ left.jac.NoRepeat ∧ left.jac.Wf 3 ∧ (∀ q, fn (fun _ => 0) q ≠ 0) ∧
    ∀ T, ∃ r, (cabsPrim ℂ 3).rule T (fun _ => .lapl left) = .ok r := by
  refine ⟨trivial, fun p => by fin_cases p <;> simp, ?_, fun q => by simp [fn], fun T => C20_returns 3 (by decide) T left (by simp [left, Jac.nrows])⟩
  simp only [left, Jac.Wf, List.mem_singleton, forall_eq]
  intro p
  fin_cases p <;> simp

theorem maxSize_eq : HInst.maxSize (fun _ : Fin 1 => sum) = 3 := by
  unfold HInst.maxSize
  simp only [Finset.univ_unique, Finset.sup_singleton]
  unfold HInst.nUnique
  simp only [sum, List.map_cons, List.map_nil, List.foldr_cons, List.foldr_nil]
  decide

theorem merged_sub (v : Fin 3) : (absInst (F := ℂ) 3).mergedIdx (fun _ => sum) v ⊆ {(v : ℤ), 2 - (v : ℤ)} := by
  intro z hz
  obtain ⟨a, _, h⟩ := ((absInst (F := ℂ) 3).mem_merged_union 3 (fun _ => sum) (fun _ => sum_wf) rfl v z).mp hz
  have h : z ∈ HInst.posIdx (Equiv.prodUnique (Fin 3) (Fin 1)).symm sum.jac v := h
  simp only [HInst.posIdx, Jac.srows, sum, List.map_cons, List.map_nil, List.foldr_cons, List.foldr_nil,
    Finset.mem_union, Finset.mem_image, Finset.mem_univ, true_and, Finset.notMem_empty, or_false] at h
  fin_cases v <;> simp_all <;> omega

theorem width_le : (absInst (F := ℂ) 3).idxWidth (fun _ => sum) ≤ 2 := by
  unfold HInst.idxWidth
  refine Finset.sup_le fun v _ => ?_
  exact (Finset.card_le_card (merged_sub v)).trans Finset.card_le_two

theorem width_ne : (absInst (F := ℂ) 3).idxWidth (fun _ => sum) ≠ 0 := by
  intro h
  have h1 := (absInst (F := ℂ) 3).card_le_width (fun _ => sum) (1 : Fin 3)
  rw [h] at h1
  have h2 : (absInst (F := ℂ) 3).mergedIdx (fun _ => sum) (1 : Fin 3) = ∅ := Finset.card_eq_zero.mp (by omega)
  have h3 : (1 : ℤ) ∈ (absInst (F := ℂ) 3).mergedIdx (fun _ => sum) (1 : Fin 3) := by
    refine ((absInst (F := ℂ) 3).mem_merged_union 3 (fun _ => sum) (fun _ => sum_wf) rfl _ _).mpr ⟨0, by norm_num, ?_⟩
    show (1 : ℤ) ∈ HInst.posIdx (Equiv.prodUnique (Fin 3) (Fin 1)).symm sum.jac 1
    simp [HInst.posIdx, Jac.srows, sum]
  rw [h2] at h3
  simp at h3

/-- The rule's second-order term for the middle element, with threshold `T ≥ 2`. -/
theorem hess_mid (T : ℕ) (hT : 2 ≤ T) (h : Fin 3 → ℂ)
    (hh : (absInst (F := ℂ) 3).hessianTransform T (fun _ => sum) = .ok h) : h 1 = 2 := by
  unfold HInst.hessianTransform at hh
  rw [if_neg (by simp [absInst, elemHInst]; decide), if_neg (by simp [absInst, elemHInst]; decide),
    if_neg (by simp [absInst, elemHInst]; decide)] at hh
  have hw : anyWeak (fun _ : Fin 1 => sum) = true := by simp [anyWeak, sum, Jac.weak]
  have hd : ((absInst (F := ℂ) 3).findOutIdx T (fun _ => sum)).2 = false := by
    unfold HInst.findOutIdx
    rw [hw]
    simp only [Bool.true_eq_false, if_false, decide_eq_false_iff_not, not_or, maxSize_eq]
    have := width_le
    omega
  unfold HInst.vmappedJHJ at hh
  dsimp only at hh
  rw [hd] at hh
  simp only [Bool.false_and, Bool.false_eq_true, if_false] at hh
  rw [if_neg fun hc => width_ne hc.2] at hh
  split at hh
  · obtain rfl := Except.ok.inj hh
    have hk : ∀ v, (absInst (F := ℂ) 3).keptPos ((absInst (F := ℂ) 3).findOutIdx T (fun _ => sum)).1 false v := by
      intro v
      rw [(absInst (F := ℂ) 3).findOutIdx_weak T _ hw]
      unfold HInst.keptPos
      dsimp only
      rw [if_neg (by simp [absInst, elemHInst])]
      trivial
    dsimp only
    rw [if_pos (hk _)]
    show ((([‖Complex.I‖ * ‖Complex.I‖, ‖Complex.I‖ * ‖Complex.I‖].sum / ‖(1 : ℂ)‖ -
      [reDot 1 Complex.I * reDot 1 Complex.I, reDot 1 Complex.I * reDot 1 Complex.I].sum / ‖(1 : ℂ)‖ ^ 3 : ℝ)) : ℂ) = 2
    simp [reDot]
    norm_num
  · simp at hh

end CAbsDemo

/-- **C20 (counterexample).** The full statement is false: for a sparse Jacobian that stores an index twice, the rule
squares the stored entries one by one instead of their sum.  `1 + i x + i flip(x)` is the result of the addition rule
(threshold `T ≥ 2`), describes the function `fn`, which has no zeros; the rule for `abs` returns, but the result does not
describe `|fn|`. -/
theorem C20_counterexample (T : ℕ) (hT : 2 ≤ T) :
    CAbsDemo.addInst.wrapped T ![CAbsDemo.left, CAbsDemo.right] = .ok CAbsDemo.sum ∧
    Holds (fun _ _ => True) (fun _ => 1) (fun _ => 0) (.lapl CAbsDemo.sum) CAbsDemo.fn ∧
    (∀ q, CAbsDemo.fn (fun _ => 0) q ≠ 0) ∧
    ∃ r : Fin 1 → Opd ℂ 3, (cabsPrim ℂ 3).rule T (fun _ => .lapl CAbsDemo.sum) = .ok r ∧
      ¬ Holds (fun _ _ => True) (fun _ => 1) (fun _ => 0) (r 0) (fun y q => (‖CAbsDemo.fn y q‖ : ℝ)) := by
  have hne : ∀ q, CAbsDemo.fn (fun _ => 0) q ≠ 0 := fun q => by simp [CAbsDemo.fn]
  obtain ⟨r, hr⟩ := C20_returns 3 (by decide) T CAbsDemo.sum (by simp [CAbsDemo.sum, Jac.nrows])
  refine ⟨CAbsDemo.sum_reached T, CAbsDemo.sum_holds, hne, r, hr, fun hH => ?_⟩
  -- the Laplacian the rule returns
  obtain ⟨c, hc, rfl⟩ := cabs_rule 3 T _ r hr
  have hval : c.lapl 1 = 2 := by
    unfold HInst.wrapped at hc
    split at hc
    · simp at hc
    rename_i o ho
    split at hc
    · simp at hc
    rename_i h hh
    obtain rfl := Except.ok.inj hc
    obtain ⟨_, _, s3, _⟩ := jvpRule_spec' 3 (by decide) (absInst (F := ℂ) 3).toInst T (fun _ => CAbsDemo.sum)
      (absInst_lawful 3 _) (fun h => absurd h (not_oneByOne_single _ rfl _)) (fun _ => CAbsDemo.sum_wf) o ho
    show o.lapl 1 + h 1 = 2
    rw [CAbsDemo.hess_mid T hT h hh, s3]
    rw [show (absInst (F := ℂ) 3).jvp _ _ 1 = _ from absInst_jvp 3 _ _ 1]
    simp [CAbsDemo.sum]
  -- the Laplacian of the absolute value, from the dense representation
  obtain ⟨rD, hrD⟩ := C20_returns 3 (by decide) T CAbsDemo.sumD (by simp [CAbsDemo.sumD, Jac.weak])
  have hD := C20_meaning_partial 3 (by decide) T (fun _ => 1) (fun _ => 0) CAbsDemo.sumD CAbsDemo.fn hne trivial
    CAbsDemo.sumD_holds rD hrD
  obtain ⟨cD, hcD, _, hf⟩ := C20_formula_partial 3 3 (by decide) T CAbsDemo.sumD (by simp [CAbsDemo.sumD, Jac.Wf]) trivial
    (fun q => by simp [CAbsDemo.sumD]) rD hrD
  rw [hcD] at hD
  have h4 : cD.lapl 1 = 4 := by
    rw [(hf 1).2.2]
    simp only [CAbsDemo.sumD, Jac.den, Finset.sum_range_succ, Finset.sum_range_zero]
    simp
    norm_num
  have e1 := hH.1.laplacian 1
  have e2 := hD.1.laplacian 1
  have e3 : (((c.lapl 1).re : ℝ) : ℂ) = cD.lapl 1 := by rw [e2]; exact e1
  rw [hval, h4] at e3
  norm_num at e3

end Folx

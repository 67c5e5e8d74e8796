import Verif.Prog.Lib

/-!
# The rest of the registry: reductions, linear and indexing operations, derivative-dropping functions
(`folx/wrapped_functions.py:297-441`)
-/

namespace Folx

open Filter Topology

section Red
variable {m out : ℕ} {K C : Type} [Fintype K] [DecidableEq K] [Fintype C] {hm : 0 < m}
  {same : Option (Fin out ≃ Fin m)} {oneAxis : Bool}

/-- The maximum along the reduced axes. -/
noncomputable def maxFn [Nonempty C] (v : C → ℝ) : ℝ := Finset.univ.sup' Finset.univ_nonempty v

/-- The minimum along the reduced axes. -/
noncomputable def minFn [Nonempty C] (v : C → ℝ) : ℝ := Finset.univ.inf' Finset.univ_nonempty v

theorem affine_proj (φ : (C → ℝ) → ℝ) (v : C → ℝ) (c : C) (h : ∀ᶠ y in 𝓝 v, φ y = y c) : AffineAt ℝ φ v := by
  refine ⟨ContinuousLinearMap.proj (R := ℝ) (φ := fun _ : C => ℝ) c, 0, ?_⟩
  filter_upwards [h] with y hy
  rw [hy, add_zero]
  rfl

/-- The maximum is affine where it is attained once. -/
theorem maxFn_affine [Nonempty C] (v : C → ℝ) (c : C) (h : ∀ c', c' ≠ c → v c' < v c) : AffineAt ℝ maxFn v := by
  refine affine_proj _ v c ?_
  have h1 : ∀ᶠ y in 𝓝 v, ∀ c', c' ≠ c → y c' < y c := by
    rw [eventually_all]
    intro c'
    by_cases hc : c' = c
    · exact .of_forall fun _ h => absurd hc h
    · have k1 : Continuous fun y : C → ℝ => y c' := continuous_apply c'
      have k2 : Continuous fun y : C → ℝ => y c := continuous_apply c
      filter_upwards [(isOpen_lt k1 k2).mem_nhds (h c' hc)] with y hy _
      exact hy
  filter_upwards [h1] with y hy
  apply le_antisymm
  · refine Finset.sup'_le _ _ fun c' _ => ?_
    by_cases hc : c' = c
    · rw [hc]
    · exact (hy c' hc).le
  · exact Finset.le_sup' y (Finset.mem_univ c)

/-- The minimum is affine where it is attained once. -/
theorem minFn_affine [Nonempty C] (v : C → ℝ) (c : C) (h : ∀ c', c' ≠ c → v c < v c') : AffineAt ℝ minFn v := by
  refine affine_proj _ v c ?_
  have h1 : ∀ᶠ y in 𝓝 v, ∀ c', c' ≠ c → y c < y c' := by
    rw [eventually_all]
    intro c'
    by_cases hc : c' = c
    · exact .of_forall fun _ h => absurd hc h
    · have k1 : Continuous fun y : C → ℝ => y c' := continuous_apply c'
      have k2 : Continuous fun y : C → ℝ => y c := continuous_apply c
      filter_upwards [(isOpen_lt k2 k1).mem_nhds (h c' hc)] with y hy _
      exact hy
  filter_upwards [h1] with y hy
  apply le_antisymm
  · exact Finset.inf'_le y (Finset.mem_univ c)
  · refine Finset.le_inf' _ _ fun c' _ => ?_
    by_cases hc : c' = c
    · rw [hc]
    · exact (hy c' hc).le

/-- `reduce_max` (`wrapped_functions.py:329-333`). -/
noncomputable def reduceMax [Nonempty C] (m out : ℕ) (hm : 0 < m) (split : Fin m ≃ K × C) (κ : Fin out → K)
    (same : Option (Fin out ≃ Fin m)) (oneAxis : Bool) : Std ℝ :=
  redStd m out hm split κ maxFn (Flags.REDUCTION ||| Flags.LINEAR) same oneAxis

/-- `reduce_min` (`wrapped_functions.py:334-338`). -/
noncomputable def reduceMin [Nonempty C] (m out : ℕ) (hm : 0 < m) (split : Fin m ≃ K × C) (κ : Fin out → K)
    (same : Option (Fin out ≃ Fin m)) (oneAxis : Bool) : Std ℝ :=
  redStd m out hm split κ minFn (Flags.REDUCTION ||| Flags.LINEAR) same oneAxis

/-- `reduce_prod` (`wrapped_functions.py:339-341`). -/
noncomputable def reduceProd (m out : ℕ) (hm : 0 < m) (split : Fin m ≃ K × C) (κ : Fin out → K)
    (same : Option (Fin out ≃ Fin m)) (oneAxis : Bool) : Std ℝ :=
  redStd m out hm split κ (fun v => ∏ c, v c) Flags.REDUCTION same oneAxis

/-- `reduce_sum` (`wrapped_functions.py:324-328`). -/
noncomputable def reduceSum (m out : ℕ) (hm : 0 < m) (split : Fin m ≃ K × C) (κ : Fin out → K)
    (same : Option (Fin out ≃ Fin m)) (oneAxis : Bool) : Std ℝ :=
  redStd m out hm split κ (fun v => ∑ c, v c) Flags.SUMMATION same oneAxis

theorem reduceMax_true [Nonempty C] (n : ℕ) (split : Fin m ≃ K × C) (κ : Fin out → K) (hκ : Function.Surjective κ)
    (x : (i : Fin 1) → Fin (oneSize m i) → ℝ)
    (h : ∀ q, ∃ c, ∀ c', c' ≠ c → x 0 (split.symm (κ q, c')) < x 0 (split.symm (κ q, c))) :
    (reduceMax m out hm split κ same oneAxis).TrueAt n x :=
  red_linear n split κ hκ maxFn x fun q => by
    obtain ⟨c, hc⟩ := h q
    exact maxFn_affine _ c hc

theorem reduceMin_true [Nonempty C] (n : ℕ) (split : Fin m ≃ K × C) (κ : Fin out → K) (hκ : Function.Surjective κ)
    (x : (i : Fin 1) → Fin (oneSize m i) → ℝ)
    (h : ∀ q, ∃ c, ∀ c', c' ≠ c → x 0 (split.symm (κ q, c)) < x 0 (split.symm (κ q, c'))) :
    (reduceMin m out hm split κ same oneAxis).TrueAt n x :=
  red_linear n split κ hκ minFn x fun q => by
    obtain ⟨c, hc⟩ := h q
    exact minFn_affine _ c hc

theorem reduceProd_true (n : ℕ) (split : Fin m ≃ K × C) (κ : Fin out → K) (hκ : Function.Surjective κ)
    (x : (i : Fin 1) → Fin (oneSize m i) → ℝ) :
    (reduceProd m out hm split κ same oneAxis).TrueAt n x :=
  red_general n split κ hκ _ x fun q => by
    have : ContDiff ℝ 2 fun v : C → ℝ => ∏ c, v c := contDiff_prod fun c _ => contDiff_apply ℝ ℝ c
    exact this.contDiffAt

theorem reduceSum_true (n : ℕ) (split : Fin m ≃ K × C) (κ : Fin out → K) (hκ : Function.Surjective κ)
    (x : (i : Fin 1) → Fin (oneSize m i) → ℝ) :
    (reduceSum m out hm split κ same oneAxis).TrueAt n x := red_sum n split κ hκ x

theorem redStd_sparseOk (split : Fin m ≃ K × C) (κ : Fin out → K) (φ : (C → ℝ) → ℝ) (flags : Flags)
    (hf : flags.has Flags.SPARSE_JHJ = false) : (redStd m out hm split κ φ flags same oneAxis).SparseOk :=
  arrStd_sparseOk (Or.inl rfl) hf

end Red

/-- `lt` on arrays (`wrapped_functions.py:424`); truth values as numbers. -/
noncomputable def ltPrim (m : ℕ) : Prim ℝ :=
  dropPrim 2 (fun _ => m) 1 (fun _ => m) fun x _ q => if x 0 q < x 1 q then 1 else 0

/-- `sign` (`wrapped_functions.py:323`). -/
noncomputable def signPrim (m : ℕ) : Prim ℝ :=
  dropPrim 1 (fun _ => m) 1 (fun _ => m) fun x _ q => SignType.sign (x 0 q)

theorem lt_good (sp : Bool) (n m : ℕ) (x : (i : Fin 2) → Fin m → ℝ) (h : ∀ q, x 0 q ≠ x 1 q) :
    Good sp n (ltPrim m) x := by
  refine Good.dropped _ _ _ _ _ _ ?_
  have h1 : ∀ q : Fin m, ∀ᶠ y : (i : Fin 2) → Fin m → ℝ in 𝓝 x, (y 0 q < y 1 q ↔ x 0 q < x 1 q) := by
    intro q
    have c0 : Continuous fun y : (i : Fin 2) → Fin m → ℝ => y 0 q := (continuous_apply q).comp (continuous_apply 0)
    have c1 : Continuous fun y : (i : Fin 2) → Fin m → ℝ => y 1 q := (continuous_apply q).comp (continuous_apply 1)
    rcases lt_or_gt_of_ne (h q) with h | h
    · filter_upwards [(isOpen_lt c0 c1).mem_nhds h] with y hy
      exact ⟨fun _ => h, fun _ => hy⟩
    · filter_upwards [(isOpen_lt c1 c0).mem_nhds h] with y hy
      exact ⟨fun hy' => absurd hy' (not_lt_of_gt hy), fun h' => absurd h' (not_lt_of_gt h)⟩
  filter_upwards [eventually_all.mpr h1] with y hy
  funext _ q
  simp only [hy q]

theorem sign_good (sp : Bool) (n m : ℕ) (x : (i : Fin 1) → Fin m → ℝ) (h : ∀ q, x 0 q ≠ 0) :
    Good sp n (signPrim m) x := by
  refine Good.dropped _ _ _ _ _ _ ?_
  have h1 : ∀ q : Fin m, ∀ᶠ y : (i : Fin 1) → Fin m → ℝ in 𝓝 x, SignType.sign (y 0 q) = SignType.sign (x 0 q) := by
    intro q
    have c0 : Continuous fun y : (i : Fin 1) → Fin m → ℝ => y 0 q := (continuous_apply q).comp (continuous_apply 0)
    rcases lt_or_gt_of_ne (h q) with h | h
    · filter_upwards [(isOpen_lt c0 continuous_const).mem_nhds h] with y hy
      rw [sign_neg hy, sign_neg h]
    · filter_upwards [(isOpen_lt continuous_const c0).mem_nhds h] with y hy
      rw [sign_pos hy, sign_pos h]
  filter_upwards [eventually_all.mpr h1] with y hy
  funext _ q
  rw [hy q]

end Folx

import Verif.ND.CallPrim
import Verif.ND.CallLib
import Verif.ND.ReduceRuleMain

/-!
# `reduce_max`, `reduce_min`, `reduce_prod`, `cumsum` on arrays (`wrapped_functions.py:329-344`)
-/

namespace Folx.Layout
open Vmap Dot Filter Topology

section
variable {F : Type} [RCLike F] [Inhabited F] {s dims : List ℕ}

/-- The positions of the elements that are reduced to the one at `q`: they share its coordinates along the axes that are kept. -/
def groupOf (s dims q : List ℕ) : List (List ℕ) := (allIdx s).filter fun p => keptOf dims p = q

theorem mem_groupOf {q p : List ℕ} : p ∈ groupOf s dims q ↔ InB p s ∧ keptOf dims p = q := by
  unfold groupOf
  rw [List.mem_filter, mem_allIdx, decide_eq_true_iff]

/-- Reduction of an array along axes: `φ` of the list of the elements. -/
def groupFn (s dims : List ℕ) (φ : List F → F) (y : Fin s.prod → F) (w : Fin (dropDims s dims).prod) : F :=
  φ ((groupOf s dims (unravelIdx (dropDims s dims) w)).map (byCoord s y))

omit [Inhabited F] in
theorem groupFn_congr {φ : List F → F} {y y' : Fin s.prod → F} {w : Fin (dropDims s dims).prod}
    (h : ∀ p ∈ groupOf s dims (unravelIdx (dropDims s dims) w), byCoord s y p = byCoord s y' p) : groupFn s dims φ y w = groupFn s dims φ y' w :=
  congrArg φ (List.map_congr_left h)

/-- A reduction as registered: without `in_axes`; the call has the keyword argument `axes` (`jvp.py:136-143`). -/
noncomputable def redArr (flags : Flags) (fil : Bool) (s dims : List ℕ) (φ : List F → F) : ArrFn F (k := 1) (fun _ => s) (dropDims s dims) :=
  wholeFn flags fil (some dims) none (fun _ => s) (dropDims s dims) (fun y => groupFn s dims φ (y 0))
    (fun x => (fderiv F (fun y : Fin 1 → Fin s.prod → F => groupFn s dims φ (y 0)) x).toLinearMap)
    fun x => LinearMap.mk₂ F (fun u v => D2 F (fun y : Fin 1 → Fin s.prod → F => groupFn s dims φ (y 0)) x u v) (fun _ _ _ => by simp) (fun _ _ _ => by simp)
      (fun _ _ _ => by simp) (fun _ _ _ => by simp)

theorem axisOf_nat {n d : ℕ} : axisOf n (Int.ofNat d) = d := by
  unfold axisOf
  simp only [Int.ofNat_eq_natCast]
  rw [if_neg (by omega)]
  simp

theorem axisOf_nats {n : ℕ} (l : List ℕ) : (l.map Int.ofNat).map (axisOf n) = l := by
  rw [List.map_map]
  exact (List.map_congr_left fun d _ => axisOf_nat).trans (List.map_id l)

theorem dropDims_pos (h0 : 0 ∉ s) : 0 ∉ dropDims s dims := fun h => h0 (by
  unfold dropDims at h
  obtain ⟨d, h1, h2⟩ := List.mem_map.mp h
  have h3 := List.mem_range.mp (List.mem_filter.mp h1).1
  rw [List.getD_eq_getElem _ _ h3] at h2
  rw [← h2]
  exact List.getElem_mem h3)

/-- The declarations of a smooth reduction are true. -/
theorem redArr_truthful {flags : Flags} {fil : Bool} {φ : List F → F} {x : Fin 1 → Fin s.prod → F} (h0 : 0 ∉ s) (hd : dims.Nodup) (hr : ∀ d ∈ dims, d < s.length)
    (hsum : flags.has Flags.SUMMATION = false) (hidx : flags.has Flags.INDEXING = false)
    (hsm : ContDiffAt F 2 (fun y : Fin 1 → Fin s.prod → F => groupFn s dims φ (y 0)) x)
    (h2 : (flags.has Flags.LINEAR = true ∧ D2 F (fun y : Fin 1 → Fin s.prod → F => groupFn s dims φ (y 0)) x = 0) ∨
      (flags.has Flags.LINEAR_IN_ONE = false ∧ flags.has Flags.LINEAR_IN_FIRST = false)) :
    (redArr flags fil s dims φ).Truthful (m := 0) (fun _ => none) [] (fun _ z q => (toND (dropDims s dims) (groupFn s dims φ (unslice (fun _ : Fin 1 => s) z 0))).get q) x := by
  obtain ⟨H, g1, g2⟩ := hasFDeriv2At_of_contDiffAt (F := F) _ x hsm
  refine ⟨fun _ => h0, dropDims_pos h0, wholeFn_computes (k := 1) ⟨_, H, g1, fun t => rfl, fun u v => (g2 u v).trans rfl⟩, wholeFn_batch, ?_, fun h => absurd (hidx.symm.trans h) (by decide),
    fun _ _ _ _ _ hg => (by cases hg), ?_⟩
  · show AxesOk ((InAxes.unset (some dims)).first (flags.has Flags.SUMMATION)) _
    rw [hsum]
    show ∀ a : Fin 1, _
    intro a
    rw [axisOf_nats]
    refine ⟨fun i hi => ?_, hd, broadcasts_self _, fun t q hq ht => ?_⟩
    · obtain ⟨d, hd', rfl⟩ := List.mem_map.mp hi
      have := hr d hd'
      simp only [Int.ofNat_eq_natCast]
      omega
    · rw [bcoord_self hq] at ht
      rw [toND_get _ _ hq]
      show fderiv F (fun y : Fin 1 → Fin s.prod → F => groupFn s dims φ (y 0)) x (Pi.single a t) _ = 0
      obtain rfl : a = 0 := Subsingleton.elim (α := Fin 1) _ _
      set w : Fin (dropDims s dims).prod := ⟨ravelIdx (dropDims s dims) q, ravelIdx_lt hq⟩
      have hw : unravelIdx (dropDims s dims) w = q := unravelIdx_ravelIdx hq
      have hD := (hsm.differentiableAt (by norm_num)).hasFDerivAt
      have hD' := (ContinuousLinearMap.proj (R := F) (φ := fun _ : Fin (dropDims s dims).prod => F) w).hasFDerivAt.comp x hD
      -- along the direction the element is constant
      have hline : ∀ r : F, groupFn s dims φ ((x + r • Pi.single (M := fun _ : Fin 1 => Fin s.prod → F) 0 t) 0) w = groupFn s dims φ (x 0) w := by
        intro r
        refine groupFn_congr fun p hp => ?_
        rw [hw] at hp
        obtain ⟨hp1, hp2⟩ := mem_groupOf.mp hp
        have e : (x + r • Pi.single (M := fun _ : Fin 1 => Fin s.prod → F) 0 t) 0 = x 0 + r • t := by
          rw [Pi.add_apply, Pi.smul_apply, Pi.single_eq_same]
        rw [e, map_add, map_smul]
        show _ + r * byCoord s t p = _
        rw [byCoord_get hp1 t, ht p hp1 hp2, mul_zero, add_zero]
      have hl : HasDerivAt (fun r : F => groupFn s dims φ ((x + r • Pi.single (M := fun _ : Fin 1 => Fin s.prod → F) 0 t) 0) w)
          (fderiv F (fun y : Fin 1 → Fin s.prod → F => groupFn s dims φ (y 0)) x (Pi.single 0 t) w) 0 := by
        have h1 : HasDerivAt (fun r : F => x + r • Pi.single (M := fun _ : Fin 1 => Fin s.prod → F) 0 t) (Pi.single 0 t) 0 := by
          simpa using ((hasDerivAt_id (0 : F)).smul_const (Pi.single (M := fun _ : Fin 1 => Fin s.prod → F) 0 t)).const_add x
        have h2 : x + (0 : F) • Pi.single (M := fun _ : Fin 1 => Fin s.prod → F) 0 t = x := by rw [zero_smul, add_zero]
        rw [← h2] at hD'
        have := HasFDerivAt.comp_hasDerivAt (0 : F) hD' h1
        rw [h2] at this
        exact this
      rw [show (fun r : F => groupFn s dims φ ((x + r • Pi.single (M := fun _ : Fin 1 => Fin s.prod → F) 0 t) 0) w) = fun _ => groupFn s dims φ (x 0) w from funext hline] at hl
      exact hl.unique (hasDerivAt_const _ _)
  · rcases h2 with ⟨h2, h3⟩ | ⟨h2, h3⟩
    · refine Or.inl ⟨h2, fun v q hv hq u t => ?_⟩
      cases hv
      have e : unslice (fun _ : Fin 1 => s) ((redArr flags fil s dims φ).slices (m := 0) [] [] x) = x := unslice_slice (ss := fun _ : Fin 1 => s) [] [] x
      show byCoord (dropDims s dims) (D2 F (fun y : Fin 1 → Fin s.prod → F => groupFn s dims φ (y 0)) (unslice (fun _ : Fin 1 => s) _) _ _) q = 0
      rw [e, h3]
      show byCoord (dropDims s dims) 0 q = 0
      rw [map_zero]
      rfl
    · exact Or.inr (Or.inr ⟨h2, fun h => absurd (h3.symm.trans h) (by decide)⟩)

omit [Inhabited F] in
/-- With sparse Jacobians too. -/
theorem redArr_safe {flags : Flags} {fil : Bool} {φ : List F → F} (hj : flags.has Flags.SPARSE_JHJ = false) (hidx : flags.has Flags.INDEXING = false) (hdot : flags.has Flags.DOT_PRODUCT = false) :
    (redArr flags fil s dims φ).SparseSafe (m := 0) (fun _ => none) [] :=
  ⟨Or.inl hj, Or.inr (Or.inl rfl), fun h => absurd (hdot.symm.trans h) (by decide), fun h => absurd (hidx.symm.trans h) (by decide)⟩

/-! ### Products -/

/-- `jnp.prod(x, axes)`, as registered (`reduce_prod`, `wrapped_functions.py:339-341`). -/
noncomputable def prodArr (fil : Bool) (s dims : List ℕ) : ArrFn F (k := 1) (fun _ => s) (dropDims s dims) := redArr Flags.REDUCTION fil s dims List.prod

omit [Inhabited F] in
theorem contDiff_byCoord (p : List ℕ) {n : WithTop ℕ∞} : ContDiff F n fun y : Fin 1 → Fin s.prod → F => byCoord s (y 0) p := by
  have e : (fun y : Fin 1 → Fin s.prod → F => byCoord s (y 0) p) =
      fun y => if h : ravelIdx s p < s.prod then y 0 ⟨ravelIdx s p, h⟩ else 0 := by
    funext y
    show (if h : ravelIdx s p < s.prod then LinearMap.proj (R := F) (φ := fun _ : Fin s.prod => F) ⟨_, h⟩ else 0) (y 0) = _
    split <;> rfl
  rw [e]
  by_cases h : ravelIdx s p < s.prod
  · simp only [dif_pos h]
    fun_prop
  · simp only [dif_neg h]
    exact contDiff_const

omit [Inhabited F] in
theorem contDiff_prod {n : WithTop ℕ∞} : ∀ l : List (List ℕ), ContDiff F n fun y : Fin 1 → Fin s.prod → F => (l.map (byCoord s (y 0))).prod
  | [] => contDiff_const
  | p :: l => by
    have := (contDiff_byCoord (F := F) (s := s) p (n := n)).mul (contDiff_prod l)
    exact this

theorem prodArr_truthful {fil : Bool} {x : Fin 1 → Fin s.prod → F} (h0 : 0 ∉ s) (hd : dims.Nodup) (hr : ∀ d ∈ dims, d < s.length) :
    (prodArr fil s dims).Truthful (m := 0) (fun _ => none) [] (fun _ z q => (toND (dropDims s dims) (groupFn s dims List.prod (unslice (fun _ : Fin 1 => s) z 0))).get q) x :=
  redArr_truthful h0 hd hr (by decide) (by decide) (contDiff_pi.mpr fun w => contDiff_prod _).contDiffAt (Or.inr ⟨by decide, by decide⟩)

/-! ### Cumulative sums -/

/-- The sum of the elements of the array before (or after) an element along an axis, and the element itself. -/
def cumOver (s : List ℕ) (axis : ℕ) (reverse : Bool) (f : List ℕ → F) (q : List ℕ) : F :=
  (((allIdx s).filter fun p => keptOf [axis] p = keptOf [axis] q ∧ if reverse then q.getD axis 0 ≤ p.getD axis 0 else p.getD axis 0 ≤ q.getD axis 0).map f).sum

/-- Cumulative sums along an axis. -/
def cumL (s : List ℕ) (axis : ℕ) (reverse : Bool) : (Fin s.prod → F) →ₗ[F] (Fin s.prod → F) where
  toFun r w := cumOver s axis reverse (byCoord s r) (unravelIdx s w)
  map_add' r r' := by
    funext w
    unfold cumOver
    rw [map_add]
    exact List.sum_map_add
  map_smul' a r := by
    funext w
    unfold cumOver
    rw [map_smul]
    show (List.map (fun p => a * byCoord s r p) _).sum = a * (List.map (byCoord s r) _).sum
    rw [← List.sum_map_mul_left]

/-- `jax.lax.cumsum`, as registered (`wrapped_functions.py:342-344`): linear, without axes. -/
def cumsumArr (fil : Bool) (s : List ℕ) (axis : ℕ) (reverse : Bool) : ArrFn F (k := 1) (fun _ => s) s :=
  linFn (k := 1) Flags.LINEAR fil none (cumL s axis reverse ∘ₗ LinearMap.proj (φ := fun _ : Fin 1 => Fin s.prod → F) 0) 0

theorem cumsumArr_truthful {fil : Bool} {axis : ℕ} {reverse : Bool} {x : (i : Fin 1) → Fin s.prod → F} (h0 : 0 ∉ s) :
    (cumsumArr fil s axis reverse).Truthful (m := 0) (fun _ => none) [] (fun _ z q => (toND _ (cumL s axis reverse (unslice (fun _ : Fin 1 => s) z 0) + 0)).get q) x :=
  lin_truthful (m := 0) (shape := fun _ => s) (fun _ => h0) h0 (by decide) trivial (fun h => absurd h (by decide))

omit [Inhabited F] in
theorem cumsumArr_safe {fil : Bool} {axis : ℕ} {reverse : Bool} : (cumsumArr (F := F) fil s axis reverse).SparseSafe (m := 0) (fun _ => none) [] :=
  ⟨Or.inl (by show Flags.LINEAR.has _ = false; decide), Or.inr (Or.inl rfl), fun h => absurd h (by show ¬ Flags.LINEAR.has _ = true; decide), fun h => absurd h (by show ¬ Flags.LINEAR.has _ = true; decide)⟩

end

/-! ### Maxima and minima -/

section
variable {s dims : List ℕ}

/-- The largest element. -/
noncomputable def listMax (l : List ℝ) : ℝ := l.maximum.unbotD 0

/-- The smallest element. -/
noncomputable def listMin (l : List ℝ) : ℝ := l.minimum.untopD 0

theorem listMax_eq {l : List ℝ} {a : ℝ} (h : a ∈ l) (hm : ∀ b ∈ l, b ≤ a) : listMax l = a := by
  unfold listMax
  rw [List.maximum_eq_coe_iff.mpr ⟨h, hm⟩]
  rfl

theorem listMin_eq {l : List ℝ} {a : ℝ} (h : a ∈ l) (hm : ∀ b ∈ l, a ≤ b) : listMin l = a := by
  unfold listMin
  rw [List.minimum_eq_coe_iff.mpr ⟨h, hm⟩]
  rfl

/-- `jnp.max(x, axes)`, as registered (`reduce_max`, `wrapped_functions.py:329-333`). -/
noncomputable def maxArr (fil : Bool) (s dims : List ℕ) : ArrFn ℝ (k := 1) (fun _ => s) (dropDims s dims) := redArr (Flags.REDUCTION ||| Flags.LINEAR) fil s dims listMax

/-- `jnp.min(x, axes)`, as registered (`reduce_min`, `wrapped_functions.py:334-338`). -/
noncomputable def minArr (fil : Bool) (s dims : List ℕ) : ArrFn ℝ (k := 1) (fun _ => s) (dropDims s dims) := redArr (Flags.REDUCTION ||| Flags.LINEAR) fil s dims listMin

theorem pick_truthful {fil : Bool} {φ : List ℝ → ℝ} {x : Fin 1 → Fin s.prod → ℝ} (h0 : 0 ∉ s) (hd : dims.Nodup) (hr : ∀ d ∈ dims, d < s.length)
    (h : ∀ w : Fin (dropDims s dims).prod, ∃ p, ∀ᶠ y in 𝓝 x, groupFn s dims φ (y 0) w = byCoord s (y 0) p) :
    (redArr (Flags.REDUCTION ||| Flags.LINEAR) fil s dims φ).Truthful (m := 0) (fun _ => none) []
      (fun _ z q => (toND (dropDims s dims) (groupFn s dims φ (unslice (fun _ : Fin 1 => s) z 0))).get q) x := by
  choose p hp using h
  let L : (Fin 1 → Fin s.prod → ℝ) →ₗ[ℝ] (Fin (dropDims s dims).prod → ℝ) := LinearMap.pi fun w => (LinearMap.proj (p w)).comp ((byCoord s).comp (LinearMap.proj (φ := fun _ : Fin 1 => Fin s.prod → ℝ) 0))
  have hL : (fun y : Fin 1 → Fin s.prod → ℝ => groupFn s dims φ (y 0)) =ᶠ[𝓝 x] LinearMap.toContinuousLinearMap L := by
    filter_upwards [eventually_all.mpr hp] with y hy
    funext w
    exact hy w
  refine redArr_truthful h0 hd hr (by decide) (by decide) ((LinearMap.toContinuousLinearMap L).contDiff.contDiffAt.congr_of_eventuallyEq hL) (Or.inl ⟨by decide, ?_⟩)
  have e : fderiv ℝ (fun y : Fin 1 → Fin s.prod → ℝ => groupFn s dims φ (y 0)) =ᶠ[𝓝 x] fun _ => LinearMap.toContinuousLinearMap L := by
    filter_upwards [hL.eventuallyEq_nhds] with y hy
    rw [hy.fderiv_eq]
    exact ContinuousLinearMap.fderiv _
  unfold D2
  rw [e.fderiv_eq]
  simp

/-- One element of the group is strictly larger than the others: near the point the maximum is that element. -/
theorem max_near {x : Fin 1 → Fin s.prod → ℝ} {w : Fin (dropDims s dims).prod} {p : List ℕ} (hp : p ∈ groupOf s dims (unravelIdx (dropDims s dims) w))
    (h : ∀ p' ∈ groupOf s dims (unravelIdx (dropDims s dims) w), p' ≠ p → byCoord s (x 0) p' < byCoord s (x 0) p) :
    ∀ᶠ y in 𝓝 x, groupFn s dims listMax (y 0) w = byCoord s (y 0) p := by
  have h1 : ∀ p' ∈ (groupOf s dims (unravelIdx (dropDims s dims) w)).toFinset, ∀ᶠ y in 𝓝 x, byCoord s (y 0) p' ≤ byCoord s (y 0) p := by
    intro p' hp'
    rw [List.mem_toFinset] at hp'
    by_cases he : p' = p
    · subst he
      exact Eventually.of_forall fun y => le_refl _
    · have hc := fun p => (contDiff_byCoord (F := ℝ) (s := s) p (n := 0)).continuous
      filter_upwards [(hc p').continuousAt.eventually_lt (hc p).continuousAt (h p' hp' he)] with y hy
      exact hy.le
  filter_upwards [(Filter.eventually_all_finset _).mpr h1] with y hy
  refine listMax_eq (List.mem_map_of_mem hp) fun b hb => ?_
  obtain ⟨p', hp', rfl⟩ := List.mem_map.mp hb
  exact hy p' (List.mem_toFinset.mpr hp')

theorem min_near {x : Fin 1 → Fin s.prod → ℝ} {w : Fin (dropDims s dims).prod} {p : List ℕ} (hp : p ∈ groupOf s dims (unravelIdx (dropDims s dims) w))
    (h : ∀ p' ∈ groupOf s dims (unravelIdx (dropDims s dims) w), p' ≠ p → byCoord s (x 0) p < byCoord s (x 0) p') :
    ∀ᶠ y in 𝓝 x, groupFn s dims listMin (y 0) w = byCoord s (y 0) p := by
  have h1 : ∀ p' ∈ (groupOf s dims (unravelIdx (dropDims s dims) w)).toFinset, ∀ᶠ y in 𝓝 x, byCoord s (y 0) p ≤ byCoord s (y 0) p' := by
    intro p' hp'
    rw [List.mem_toFinset] at hp'
    by_cases he : p' = p
    · subst he
      exact Eventually.of_forall fun y => le_refl _
    · have hc := fun p => (contDiff_byCoord (F := ℝ) (s := s) p (n := 0)).continuous
      filter_upwards [(hc p).continuousAt.eventually_lt (hc p').continuousAt (h p' hp' he)] with y hy
      exact hy.le
  filter_upwards [(Filter.eventually_all_finset _).mpr h1] with y hy
  refine listMin_eq (List.mem_map_of_mem hp) fun b hb => ?_
  obtain ⟨p', hp', rfl⟩ := List.mem_map.mp hb
  exact hy p' (List.mem_toFinset.mpr hp')

end

end Folx.Layout

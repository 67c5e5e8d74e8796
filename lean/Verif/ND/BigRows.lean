import Verif.ND.WrapCase
import Verif.ND.Cover

/-! # The number of rows of dense Jacobians that the first-order rules return -/

namespace Folx.Layout
open Vmap Dot

section
variable {F : Type} [CommRing F] [Inhabited F] {k n T : ℕ} {ss : Fin (k + 1) → List ℕ} {o : List ℕ}

/-- A dense Jacobian has at least `T` or at least `n` rows. -/
def ArrJac.Big (T n : ℕ) (j : ArrJac F) : Prop := j.idx = none → T ≤ hd j.data ∨ n ≤ hd j.data

theorem allSome_inv {α : Type} {k : ℕ} {f : Fin k → Option α} {g : Fin k → α} (h : allSome f = some g) (a : Fin k) : f a = some (g a) := by
  unfold allSome at h
  split at h
  · rename_i hs
    cases h
    exact (Option.some_get _).symm
  · cases h

theorem extendJac_rows' (ds : Fin (k + 1) → ND F) (a b : Fin (k + 1)) : hd (ds b) ≤ hd (extendJac ds a) := by
  have hb : hd (ds b) ≤ (List.ofFn fun a => (ds a).shape.getD 0 0).foldr max 0 := foldr_max_le (List.mem_ofFn.mpr ⟨b, rfl⟩)
  unfold extendJac
  split
  · rename_i hk
    obtain rfl : k = 0 := by omega
    obtain rfl : a = b := Subsingleton.elim (α := Fin 1) _ _
    exact le_rfl
  · dsimp only
    split
    · rename_i h
      have := h a
      unfold hd at hb ⊢
      omega
    · dsimp only
      split
      · rename_i h
        show hd (ds b) ≤ hd (ds a) + (_ - (ds a).shape.getD 0 0)
        unfold hd at hb ⊢
        omega
      · unfold hd at hb ⊢
        omega

theorem extendJac_rows (ds : Fin (k + 1) → ND F) (a : Fin (k + 1)) : hd (ds a) ≤ hd (extendJac ds a) := extendJac_rows' ds a a

theorem vmapPush_rows {D : Deriv F ss o} {ts : Fin (k + 1) → ND F} {r : ND F} (h : vmapPush D ts = some r) (a : Fin (k + 1)) : hd r = hd (ts a) := by
  unfold vmapPush at h
  dsimp only at h
  split at h
  · rename_i hN
    cases h
    exact (hN a).symm
  · cases h

theorem denseSplit_rows {D : Deriv F ss o} {args : Fin (k + 1) → ArrTrip F} {r : ND F × ND F} (h : denseSplit D args = some r) {a : Fin (k + 1)} {d : ND F}
    (hd' : (args a).jac.dense = some d) : hd d ≤ hd r.1 := by
  unfold denseSplit at h
  simp only [Option.bind_eq_bind, Option.bind_eq_some_iff] at h
  obtain ⟨ds, h1, g, h2, h3⟩ := h
  cases h3
  have e := allSome_inv h1 a
  rw [hd'] at e
  cases e
  dsimp only
  rw [vmapPush_rows h2 a]
  exact extendJac_rows ds a

theorem denseJoint_rows {D : Deriv F ss o} {args : Fin (k + 1) → ArrTrip F} {r : ND F × ND F} (h : denseJoint D args = some r) {a : Fin (k + 1)} {d : ND F}
    (hd' : (args a).jac.dense = some d) : hd d ≤ hd r.1 := by
  unfold denseJoint at h
  simp only [Option.bind_eq_bind, Option.bind_eq_some_iff] at h
  obtain ⟨ds, h1, g, h2, h3⟩ := h
  cases h3
  have e := allSome_inv h1 a
  rw [hd'] at e
  cases e
  have h4 := vmapPush_rows h2 a
  have h5 : hd (concat0 (extendJac ds a) (expand0 (args a).lapl)) = hd (extendJac ds a) + 1 := rfl
  show hd (ds a) ≤ hd g - 1
  rw [h4, h5]
  exact extendJac_rows ds a

theorem denseJvp_rows' {ew join : Bool} {D : Deriv F ss o} {args : Fin (k + 1) → ArrTrip F} {r : FirstOut F} (h : denseJvpArr ew join D args = some r) {d : ND F}
    (hd' : (args 0).jac.dense = some d) : hd d ≤ hd r.1.data := by
  unfold denseJvpArr at h
  rw [Option.map_eq_some_iff] at h
  obtain ⟨g, h, rfl⟩ := h
  unfold densePick at h
  split at h
  · unfold denseElementwise at h
    split at h
    · exact denseSplit_rows h hd'
    · simp only [Option.bind_eq_bind, Option.bind_eq_some_iff] at h
      obtain ⟨d', h1, h2⟩ := h
      rw [hd'] at h1
      cases h1
      cases h2
      exact le_rfl
  · split at h
    · exact denseJoint_rows h hd'
    · exact denseSplit_rows h hd'

theorem denseJvp_big {ew join : Bool} {D : Deriv F ss o} {args : Fin (k + 1) → ArrTrip F} {r : FirstOut F} (h : denseJvpArr ew join D args = some r)
    (h0 : (args 0).jac.idx = none) (hb : (args 0).jac.Big T n) : r.1.Big T n := by
  have h1 : (args 0).jac.dense = some (args 0).jac.data := by
    unfold ArrJac.dense
    rw [h0]
  have h2 := denseJvp_rows' h h1
  intro _
  have := hb h0
  omega

/-- `dense_array` has a row for every input that is listed. -/
theorem denseArray_rows {s : List ℕ} {a : ArrTrip F} (ha : ArgFor n s a) {m : ND ℤ} (hm : a.jac.idx = some m) {d : ND F} (h : a.jac.dense = some d) :
    ∀ q p, q < hd a.jac.data → InB p s → m.get (q :: p) < (hd d : ℤ) := by
  obtain ⟨⟨K, hK⟩, hw⟩ := ha.jac
  rw [hm] at hw
  have hr : 0 < K := by have := ha.rows (by rw [hm]; simp); rwa [hK] at this
  obtain ⟨r, N, h1, h2, h3, -, -⟩ := C35_dense_array (data := a.jac.data) (x0 := m) hK (hw.1.trans hK) hr ha.size
  unfold ArrJac.dense at h
  rw [hm] at h
  dsimp only at h
  rw [h1] at h
  cases h
  intro q p hq hp
  have e1 : hd d = N := by unfold hd; rw [h2]; rfl
  have e2 : hd a.jac.data = K := by unfold hd; rw [hK]; rfl
  rw [e1]
  exact h3 q p (by omega) hp

theorem deps_bound {s dims u : List ℕ} {a : ArrTrip F} (ha : ArgFor n s a) {m : ND ℤ} (hm : a.jac.idx = some m) {N : ℕ}
    (hN : ∀ q p, q < hd a.jac.data → InB p s → m.get (q :: p) < (N : ℤ)) : (depsOf m s dims u).card ≤ N := by
  obtain ⟨⟨K, hK⟩, hw⟩ := ha.jac
  rw [hm] at hw
  have hsub : depsOf m s dims u ⊆ (Finset.range N).map ⟨((↑) : ℕ → ℤ), Nat.cast_injective⟩ := by
    intro z hz
    unfold depsOf at hz
    rw [Finset.mem_erase, List.mem_toFinset, List.mem_flatMap] at hz
    obtain ⟨hz1, p, hp, hz2⟩ := hz
    obtain ⟨q, hq, rfl⟩ := List.mem_map.mp hz2
    rw [List.mem_filter] at hp
    have hp := mem_allIdx.mp hp.1
    rw [List.mem_range, hw.1] at hq
    have h1 := hN q p hq hp
    have h2 := (hw.2 q p hq hp).2
    have h3 : 0 ≤ m.get (q :: p) := by
      by_contra hc
      exact hz1 (h2 (by omega)).1
    refine Finset.mem_map.mpr ⟨(m.get (q :: p)).toNat, Finset.mem_range.mpr (by omega), ?_⟩
    show ((m.get (q :: p)).toNat : ℤ) = _
    omega
  have := Finset.card_le_card hsub
  rwa [Finset.card_map, Finset.card_range] at this

theorem addDense_rows {j j' r : ArrJac F} (h : addDense j j' = some r) : (j.idx = none → hd j.data ≤ hd r.data) ∧ (j'.idx = none → hd j'.data ≤ hd r.data) := by
  unfold addDense at h
  simp only [Option.bind_eq_bind, Option.bind_eq_some_iff] at h
  obtain ⟨d, h1, d', h2, h3⟩ := h
  cases h3
  have e := extendJac_rows' (k := 1) ![d, d'] 0
  constructor
  · intro hi
    unfold ArrJac.dense at h1
    rw [hi] at h1
    cases h1
    exact e 0
  · intro hi
    unfold ArrJac.dense at h2
    rw [hi] at h2
    cases h2
    exact e 1

theorem addJac_big {j j' r : ArrJac F} (h : addJacArr j j' = some r) (hj : j.Big T n) (hj' : j'.Big T n) : r.Big T n := by
  unfold addJacArr at h
  split at h
  · cases h
  · split at h
    · split at h
      · cases h
      · split at h
        · cases h
          intro hr
          cases hr
        · cases h
          intro hr
          cases hr
    · rename_i hne
      obtain ⟨h1, h2⟩ := addDense_rows h
      intro _
      cases hi : j.idx with
      | none =>
        have := h1 hi
        have := hj hi
        omega
      | some m =>
        cases hi' : j'.idx with
        | none =>
          have := h2 hi'
          have := hj' hi'
          omega
        | some m' => exact absurd hi' (hne m m' hi)

/-- `sparse_sum_jvp`. -/
theorem sparseSum_big' {s dims : List ℕ} {arg : ArrTrip F} (ha : ArgFor n s arg) {m : ND ℤ} (hm : arg.jac.idx = some m)
    (hp : (keptDims s.length dims ++ dims).Perm (List.range s.length)) {y : ND F} {j : ArrJac F} {l : ND F}
    (h : sparseSumArr T arg.x arg.lapl arg.jac.data m dims = some (y, j, l)) : j.Big T n := by
  obtain ⟨⟨K, hK⟩, hw⟩ := ha.jac
  rw [hm] at hw
  have hr : K ≠ 0 := by have := ha.rows (by rw [hm]; simp); rw [hK] at this; exact Nat.pos_iff_ne_zero.mp this
  obtain ⟨y', j', l', h1, -, -, ⟨K', hK'⟩, hm', h2⟩ := sparseSumArr_refines T ha.x ha.lapl hK (hw.1.trans hK) hr ha.size hp
  rw [h] at h1
  cases h1
  have h3 := sparseSum_big _ T n _ ((ArrJac.rep_wf (j := ⟨arg.jac.data, some m⟩) hK (fun m' hm' => by cases hm'; exact hw.1)).mpr ⟨⟨K, hK⟩, hw⟩) _ h2
  intro hi
  unfold ArrJac.rep at h3
  rw [hi] at h3
  dsimp only at h3
  unfold Jac.Big at h3
  dsimp only at h3
  rw [List.length_map, List.length_range] at h3
  exact h3

/-- `sparse_jvp` for one sparse argument. -/
theorem sparseJvpArr_big (hn : 0 < n) (h0 : 0 ∉ o) (join : Bool) {ax : AxesKind} {s : List ℕ} {D : Deriv F (fun _ : Fin 1 => s) o} {arg : ArrTrip F}
    (harg : ArgFor n s arg) (hs : arg.jac.idx ≠ none) (hax : AxesOk ax D) {r : FirstOut F} (h : sparseJvpArr T join ax D arg = some r) : r.1.Big T n := by
  obtain ⟨m, hm⟩ := Option.ne_none_iff_exists'.mp hs
  cases hred : reducedAxes s ax with
  | some dims =>
    intro hi
    obtain ⟨h1, -, -⟩ := reduceJvp_rows T hn h0 join harg hax hm hred h
    have hT := h1.mp hi
    obtain ⟨axes, hf, rfl⟩ := reducedAxes_forNd hred
    obtain ⟨hax', -, -⟩ := axesOk_forNd hax
    have hdef : sparseJvpArr T join ax D arg = sparseJvpAt T join (ax.forNd s.length) D arg := by
      unfold sparseJvpArr ND.ndim
      rw [harg.x]
    rw [hdef, hf] at h
    unfold sparseJvpAt at h
    simp only [hm] at h
    split at h
    · cases h
    · obtain ⟨d, N, h2, h3, -⟩ := dense_spec hn harg
      have h4 := denseJvp_rows' h h2
      left
      refine le_trans ?_ h4
      have h5 := denseArray_rows harg hm h2
      have : widest m s (axes.map (axisOf s.length)) ≤ hd d := by
        refine foldr_max_le' fun x hx => ?_
        obtain ⟨u, -, rfl⟩ := List.mem_map.mp hx
        exact deps_bound harg hm h5
      omega
    · cases h
      rename_i e
      unfold sparseReduceArr at e
      simp only [Option.bind_eq_bind, Option.bind_eq_some_iff] at e
      obtain ⟨jm, -, e⟩ := e
      split at e
      · cases e
      · simp only [Option.bind_eq_some_iff] at e
        obtain ⟨_, -, _, -, e⟩ := e
        cases e
        cases hi
  | none =>
    have hdef : sparseJvpArr T join ax D arg = sparseJvpAt T join (ax.forNd s.length) D arg := by
      unfold sparseJvpArr ND.ndim
      rw [harg.x]
    rw [hdef] at h
    obtain ⟨hax', -, -⟩ := axesOk_forNd hax
    have hew : ∀ {r : FirstOut F}, sparseJvpAt T join .elementwise D arg = some r → r.1.Big T n := by
      intro r h hi
      unfold sparseJvpAt sparseDiagArr at h
      simp only [Option.bind_eq_bind, Option.bind_eq_some_iff] at h
      obtain ⟨g, -, q, -, m', -, h⟩ := h
      cases h
      cases hi
    cases ax with
    | elementwise => exact hew h
    | all =>
      by_cases hs0 : s = []
      · subst hs0
        exact hew h
      · unfold reducedAxes at hred
        rw [if_neg hs0] at hred
        cases hred
    | reduction axes =>
      cases axes with
      | nested _ => exact hax.elim
      | flat axes =>
        cases axes with
        | nil => exact hew h
        | cons i l => cases hred
    | summation dims =>
      cases dims with
      | nil => exact hew h
      | cons d l =>
        obtain ⟨hnd, hax⟩ := hax
        have hlt := (hax 0).1
        have h : sparseJvpAt T join (.summation (d :: l)) D arg = some r := h
        unfold sparseJvpAt at h
        simp only [hm] at h
        rw [Option.map_eq_some_iff] at h
        obtain ⟨⟨y, j, l'⟩, hh, rfl⟩ := h
        exact sparseSum_big' harg hm (keptDims_perm hnd hlt) hh

theorem oneJvp_big (hn : 0 < n) (h0 : 0 ∉ o) (join : Bool) {ax : AxesKind} {D : Deriv F ss o} {args : Fin (k + 1) → ArrTrip F}
    (hargs : ∀ a, ArgFor n (ss a) (args a)) (hax : AxesOk ax D) (hb : ∀ a, (args a).jac.Big T n) {a : Fin (k + 1)} {r : FirstOut F}
    (h : oneJvpArr T join ax D args a = some r) : r.1.Big T n := by
  unfold oneJvpArr at h
  split at h
  · rename_i hi
    exact denseJvp_big h hi (hb a)
  · rename_i m hi
    exact sparseJvpArr_big hn h0 join (hargs a) (by rw [hi]; simp) (axesOk_part hax a) h

theorem oneByOne_big (hn : 0 < n) (h0 : 0 ∉ o) (join : Bool) {ax : AxesKind} {D : Deriv F ss o} {args : Fin (k + 1) → ArrTrip F}
    (hargs : ∀ a, ArgFor n (ss a) (args a)) (hax : AxesOk ax D) (hb : ∀ a, (args a).jac.Big T n) {r : FirstOut F}
    (h : oneByOneArr T join ax D args = some r) : r.1.Big T n := by
  rw [oneByOneArr_eq] at h
  rw [Option.bind_eq_some_iff] at h
  obtain ⟨r0, h1, h2⟩ := h
  have h3 := oneJvp_big hn h0 join hargs hax hb h1
  clear h1
  generalize List.finRange k = L at h2
  induction L generalizing r0 with
  | nil =>
    cases h2
    exact h3
  | cons b L ih =>
    rw [List.foldlM_cons] at h2
    simp only [Option.bind_eq_bind, Option.bind_eq_some_iff] at h2
    obtain ⟨r1, h4, h5⟩ := h2
    refine ih r1 ?_ h5
    unfold stepArr at h4
    simp only [Option.bind_eq_bind, Option.bind_eq_some_iff] at h4
    obtain ⟨r2, h6, h7⟩ := h4
    unfold addOut at h7
    simp only [Option.bind_eq_bind, Option.bind_eq_some_iff] at h7
    obtain ⟨j, h8, h9⟩ := h7
    cases h9
    exact addJac_big h8 h3 (oneJvp_big hn h0 join hargs hax hb h6)

/-- **Rows.**  If every dense argument has at least `T` or at least `n` rows, so has the result, unless the indices of an indexing function are not known. -/
theorem jvpArr_big (hn : 0 < n) (h0 : 0 ∉ o) (index join : Bool) {ax : AxesKind} {D : Deriv F ss o} {ifwd : Option ((Fin (k + 1) → ND ℤ) → ND ℤ)}
    {args : Fin (k + 1) → ArrTrip F} (hargs : ∀ a, ArgFor n (ss a) (args a)) (hax : AxesOk ax D) (hf : index = true → ifwd ≠ none)
    (hb : ∀ a, (args a).jac.Big T n) {r : FirstOut F} (h : jvpArr T index join ax D ifwd args = some r) : r.1.Big T n := by
  unfold jvpArr at h
  split at h
  · rename_i hd'
    exact denseJvp_big h (hd' 0) (hb 0)
  · split at h
    · rename_i hs
      split at h
      · rename_i hi
        cases hif : ifwd with
        | none => exact absurd hif (hf hi)
        | some f =>
          rw [hif] at h
          unfold sparseIndexArr at h
          simp only [Option.bind_eq_bind, Option.bind_eq_some_iff] at h
          obtain ⟨q, -, h⟩ := h
          split at h
          · cases h
          · cases h
            intro hi
            cases hi
      · split at h
        · unfold sparseDiagArr at h
          simp only [Option.bind_eq_bind, Option.bind_eq_some_iff] at h
          obtain ⟨g, -, q, -, m', -, h⟩ := h
          cases h
          intro hi
          cases hi
        · exact sparseJvpArr_big hn h0 join (hargs 0) (hs.1 0) (axesOk_part hax 0) h
    · exact oneByOne_big hn h0 join hargs hax hb h

end

end Folx.Layout

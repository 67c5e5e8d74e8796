import Verif.ND.LayoutMain

/-!
# C35: the layout of materialised Jacobians
-/

namespace Folx.Layout
open Vmap

variable {F : Type} [AddCommMonoid F] [Inhabited F]

/-- **C35.**  For data of shape `(K, s)` and indices of shape `(K, t)` that broadcast to `(K, m)`, whether the indices are
static (collapsing of repeated axes) or traced: `materialize_for_idx` succeeds and its result, broadcast to `(M, m)`, has
at `(i, p)` the sum of the entries at `p` whose index is `i`.  The shape is `(M, m)` if the indices are traced or the data
already has the broadcast shape. -/
theorem C35_materialize {data : ND F} {idx : ND ℤ} {K M : ℕ} {s t m : List ℕ} (static : Bool)
    (hd : data.shape = K :: s) (hi : idx.shape = K :: t) (hb : Broadcasts [s, t] m) (h0 : 0 ∉ m) :
    ∃ r m', materialize static data idx M = some r ∧ r.shape = M :: m' ∧
      (static = false ∨ s = m → m' = m) ∧
      ∀ i p, i < M → InB p m → bget r m i p = segSum data idx m i p :=
  materialize_spec static hd hi hb h0

/-- **C35 (no broadcasting).**  For data and indices of the same shape, element `(i, p)` of the result is the sum over the
rows `k` with `idx[k, p] = i` of `data[k, p]`. -/
theorem C35_same_shape {data : ND F} {idx : ND ℤ} {K M : ℕ} {s : List ℕ} (static : Bool) (hd : data.shape = K :: s)
    (hi : idx.shape = K :: s) (h0 : 0 ∉ s) :
    ∃ r, materialize static data idx M = some r ∧ r.shape = M :: s ∧ ∀ i p, i < M → InB p s →
      r.get (i :: p) =
        ((List.range K).map fun k => if idx.get (k :: p) = (i : ℤ) then data.get (k :: p) else 0).sum := by
  have hb : Broadcasts [s, s] s := by
    refine ⟨?_, ?_, ?_, ?_⟩
    · intro u hu; simp at hu; rw [hu]
    · exact Or.inr ⟨s, by simp, rfl⟩
    · intro u hu j; simp at hu; rw [hu]; exact Or.inr rfl
    · exact fun j => Or.inr ⟨s, by simp, rfl⟩
  obtain ⟨r, m', h1, h2, h3, h4⟩ := materialize_spec (M := M) static hd hi hb h0
  have hm : m' = s := h3 (Or.inr rfl)
  subst hm
  refine ⟨r, h1, h2, fun i p hiM hp => ?_⟩
  have := h4 i p hiM hp
  rw [bget_eq r h2, bcoord_self hp] at this
  rw [this]
  unfold segSum
  rw [show data.shape.getD 0 0 = K by rw [hd]; rfl]
  congr 1
  refine List.map_congr_left fun k _ => ?_
  rw [bget_eq idx hi, bget_eq data hd, bcoord_self hp]

/-- Static and traced indices give the same values. -/
theorem C35_static_irrelevant {data : ND F} {idx : ND ℤ} {K : ℕ} {s : List ℕ} (M : ℕ) (hd : data.shape = K :: s)
    (hi : idx.shape = K :: s) (h0 : 0 ∉ s) : materialize true data idx M = materialize false data idx M := by
  obtain ⟨r, h1, h2, h3⟩ := C35_same_shape (M := M) true hd hi h0
  obtain ⟨r', h1', h2', h3'⟩ := C35_same_shape (M := M) false hd hi h0
  rw [h1, h1']
  congr 1
  refine ND.ext_get (h2.trans h2'.symm) fun w hw => ?_
  rw [h2] at hw
  obtain ⟨i, p, rfl, hiM, hp⟩ := hw.cons_right
  rw [h3 i p hiM hp, h3' i p hiM hp]

omit [AddCommMonoid F] [Inhabited F] in
theorem idxOf_le_of_getElem {l : List ℤ} {a : ℤ} {j : ℕ} {hj : j < l.length} (h : l[j] = a) : l.idxOf a ≤ j := by
  induction l generalizing j with
  | nil => simp at hj
  | cons b l ih =>
    rw [List.idxOf_cons]
    by_cases hb : b = a
    · simp [hb]
    · cases j with
      | zero => exact absurd h hb
      | succ j =>
        have := ih (j := j) (hj := by simpa using hj) (by simpa using h)
        have hb2 : (b == a) = false := by simpa using hb
        rw [hb2]
        simp only [cond_false]
        omega

/-- **C35 (construct).**  `construct_jac_for(idx)` of a sparse Jacobian with `x0_idx` of the shape of the data, for a
non-empty index array whose other axes have size 1 or agree with the data: row `i` collects, at each position, the entries
whose input is `idx[i]` if this is the first row of `idx` with that input, and is zero if it is a repetition. -/
theorem C35_construct {data : ND F} {x0 idx : ND ℤ} {K N : ℕ} {s t : List ℕ} (static : Bool) (hd : data.shape = K :: s)
    (hx : x0.shape = K :: s) (hi : idx.shape = N :: t) (hb : Broadcasts [t, s] s) (hN : 0 < N) (h0 : 0 ∉ s) :
    ∃ r, constructJacFor static data x0 idx = some r ∧ r.shape = N :: s ∧ ∀ i p, i < N → InB p s →
      r.get (i :: p) =
        if ∃ j < i, bget idx s j p = bget idx s i p then 0
        else ((List.range K).map fun k =>
          if x0.get (k :: p) = bget idx s i p then data.get (k :: p) else 0).sum := by
  have hN0 : idx.shape.getD 0 0 = N := by rw [hi]; rfl
  obtain ⟨mask, hm1, hm2, hm3⟩ := getIndexMask_spec hx hi hb h0 hN
  obtain ⟨r, h1, h2, h3⟩ := C35_same_shape (M := N) static hd hm2 h0
  refine ⟨r, ?_, h2, fun i p hiN hp => ?_⟩
  · unfold constructJacFor
    rw [hN0, if_neg (by omega), hm1]
    exact h1
  · rw [h3 i p hiN hp]
    have hpt : ∀ k < K, (mask.get (k :: p) = (i : ℤ)) ↔
        (¬ ∃ j < i, bget idx s j p = bget idx s i p) ∧ x0.get (k :: p) = bget idx s i p := by
      intro k hk
      rw [hm3 k p hk hp, bget_eq x0 hx, bcoord_self hp]
      generalize x0.get (k :: p) = a
      unfold getIndex
      set l := (List.range N).map fun j => bget idx s j p with hl
      have hll : l.length = N := by simp [l]
      have hg : ∀ j (hj : j < l.length), l[j] = bget idx s j p := by intro j hj; simp [l]
      constructor
      · intro h
        split at h
        · rename_i ha
          have hio : l.idxOf a = i := by exact_mod_cast h
          have hlt := List.idxOf_lt_length_iff.mpr ha
          have hai : a = bget idx s i p := by
            have := List.getElem_idxOf hlt
            rw [hg] at this
            rw [← hio]; exact this.symm
          refine ⟨?_, hai⟩
          rintro ⟨j, hj, e⟩
          have hjl : j < l.length := by omega
          have : l.idxOf a ≤ j := by
            have e2 : l[j] = a := by rw [hg, e, hai]
            exact idxOf_le_of_getElem e2
          omega
        · omega
      · rintro ⟨h4, h5⟩
        have hil : i < l.length := by omega
        have hli : l[i] = a := by rw [hg, h5]
        have ha : a ∈ l := by rw [← hli]; exact List.getElem_mem _
        rw [if_pos ha]
        have hlt := List.idxOf_lt_length_iff.mpr ha
        have hle : l.idxOf a ≤ i := idxOf_le_of_getElem hli
        have : ¬ l.idxOf a < i := by
          intro hlt2
          refine h4 ⟨l.idxOf a, hlt2, ?_⟩
          rw [← hg _ hlt, List.getElem_idxOf, h5]
        have : l.idxOf a = i := by omega
        exact_mod_cast this
    by_cases hex : ∃ j < i, bget idx s j p = bget idx s i p
    · rw [if_pos hex]
      apply List.sum_eq_zero
      intro y hy
      obtain ⟨k, hk, rfl⟩ := List.mem_map.mp hy
      rw [if_neg]
      intro h
      exact ((hpt k (by simpa using hk)).mp h).1 hex
    · rw [if_neg hex]
      congr 1
      refine List.map_congr_left fun k hk => ?_
      have := hpt k (by simpa using hk)
      by_cases hx2 : x0.get (k :: p) = bget idx s i p
      · rw [if_pos (this.mpr ⟨hex, hx2⟩), if_pos hx2]
      · rw [if_neg fun h => hx2 (this.mp h).2, if_neg hx2]

/-- **C35 (dense array).**  `dense_array` of a sparse Jacobian with at least one row and no empty axes has at `(i, p)` the
sum of the entries at `p` whose input is `i`; its number of rows is one more than the largest input that occurs
(one row if none occurs). -/
theorem C35_dense_array {data : ND F} {x0 : ND ℤ} {K : ℕ} {s : List ℕ} (hd : data.shape = K :: s)
    (hx : x0.shape = K :: s) (hK : 0 < K) (h0 : 0 ∉ s) :
    ∃ r N, denseArray data x0 = some r ∧ r.shape = N :: s ∧
      (∀ k p, k < K → InB p s → x0.get (k :: p) < (N : ℤ)) ∧
      (N = 1 ∨ ∃ k p, k < K ∧ InB p s ∧ 0 ≤ x0.get (k :: p) ∧ x0.get (k :: p) + 1 = (N : ℤ)) ∧
      ∀ i p, i < N → InB p s → r.get (i :: p) =
        ((List.range K).map fun k => if x0.get (k :: p) = (i : ℤ) then data.get (k :: p) else 0).sum := by
  have hlen : x0.data.length = K * s.prod := by rw [x0.wf, hx, List.prod_cons]
  have hpos : 0 < x0.data.length := by
    rw [hlen]; exact Nat.mul_pos hK (Nat.pos_of_ne_zero (List.prod_ne_zero h0))
  obtain ⟨n, hn, hmem, hnmax⟩ : ∃ n, maxN x0 = some n ∧ n ∈ x0.data ∧ ∀ a ∈ x0.data, a ≤ n := by
    unfold maxN
    cases hdat : x0.data with
    | nil => rw [hdat] at hpos; simp at hpos
    | cons a as =>
      refine ⟨_, rfl, foldl_max_mem as a, fun b hb => ?_⟩
      obtain ⟨h1, h2⟩ := foldl_max_ge as a
      rcases List.mem_cons.mp hb with rfl | hb
      · exact h1
      · exact h2 b hb
  have hget : ∀ k p, k < K → InB p s → x0.get (k :: p) ≤ n := by
    intro k p hk hp
    refine hnmax _ ?_
    have hin : InB (k :: p) x0.shape := by rw [hx]; exact List.Forall₂.cons hk hp
    have := ravelIdx_lt hin
    unfold ND.get
    rw [List.getD_eq_getElem _ _ (by rw [x0.wf]; exact this)]
    exact List.getElem_mem _
  unfold denseArray
  rw [hn]
  dsimp only
  by_cases hz : (n + 1).toNat = 0
  · refine ⟨ND.ofFn (1 :: s) fun _ => 0, 1, ?_, rfl, fun k p hk hp => ?_, Or.inl rfl, fun i p hi hp => ?_⟩
    · unfold constructJacFor
      rw [if_pos (by simpa using hz), hd]
      rfl
    · have := hget k p hk hp
      push_cast
      omega
    · rw [ND.get_ofFn _ (List.Forall₂.cons hi hp)]
      symm
      apply List.sum_eq_zero
      intro y hy
      obtain ⟨k, hk, rfl⟩ := List.mem_map.mp hy
      rw [if_neg]
      have := hget k p (by simpa using hk) hp
      omega
  · have hds : data.shape.length - 1 = s.length := by rw [hd]; simp
    rw [hds]
    set t := List.replicate s.length 1 with ht
    have hone : ∀ j, dimBack t j = 1 := by
      intro j
      by_cases hj : j < s.length
      · unfold dimBack
        rw [ht, List.reverse_replicate, List.getD_eq_getElem _ _ (by simpa using hj)]
        simp
      · exact dimBack_of_le (by simp [ht]; omega)
    have hb : Broadcasts [t, s] s := by
      refine ⟨?_, ?_, ?_, ?_⟩
      · intro u hu
        simp only [List.mem_cons, List.not_mem_nil, or_false] at hu
        rcases hu with rfl | rfl
        · simp [t]
        · exact le_refl _
      · exact Or.inr ⟨s, by simp, rfl⟩
      · intro u hu j
        simp only [List.mem_cons, List.not_mem_nil, or_false] at hu
        rcases hu with rfl | rfl
        · exact Or.inl (hone j)
        · exact Or.inr rfl
      · exact fun j => Or.inr ⟨s, by simp, rfl⟩
    set idx := ND.ofFn ((n + 1).toNat :: t) fun w => (w.getD 0 0 : ℤ) with hidx
    have hbg : ∀ i p, i < (n + 1).toNat → bget idx s i p = (i : ℤ) := by
      intro i p hi
      rw [bget_eq idx (s := t) rfl, hidx]
      have htb : InB (bcoord t s p) t := by
        refine inB_of_getD (bcoord_length _ _ _) fun j hj => ?_
        have h1 : t.getD j 0 = 1 := by
          rw [List.getD_eq_getElem _ _ hj]
          simp [t]
        rw [bcoord_getD hj, if_pos h1, h1]
        omega
      rw [ND.get_ofFn _ (List.Forall₂.cons hi htb)]
      rfl
    obtain ⟨r, h1, h2, h3⟩ := C35_construct (N := (n + 1).toNat) (t := t) (idx := idx) true hd hx rfl hb (by omega) h0
    refine ⟨r, _, h1, h2, fun k p hk hp => ?_, Or.inr ?_, fun i p hi hp => ?_⟩
    · have := hget k p hk hp
      omega
    · obtain ⟨j, hj, e⟩ := List.getElem_of_mem hmem
      have hin := inB_unravelIdx (s := x0.shape) (by rw [← x0.wf]; exact hj)
      have hr := ravelIdx_unravelIdx (s := x0.shape) (by rw [← x0.wf]; exact hj)
      have hin' := hin
      rw [hx] at hin'
      obtain ⟨k, p, e', hk, hp⟩ := hin'.cons_right
      have hval : x0.get (k :: p) = n := by
        rw [← e']
        unfold ND.get
        rw [← hx, hr, List.getD_eq_getElem _ _ hj, e]
      refine ⟨k, p, hk, hp, ?_, ?_⟩
      · omega
      · omega
    · rw [h3 i p hi hp, if_neg, hbg i p hi]
      rintro ⟨j, hj, e⟩
      rw [hbg i p hi, hbg j p (by omega)] at e
      omega

/-! Examples: a `2 × 2 × 2` Jacobian whose index array repeats along the last axis. -/

/-- Test data. -/
def dataEx : ND ℤ := ⟨[2, 2, 2], [1, 2, 3, 4, 5, 6, 7, 8], rfl⟩

/-- Test indices: repeated along the last axis, with a repeated input. -/
def idxEx : ND ℤ := ⟨[2, 2, 2], [0, 0, 1, 1, 2, 2, 1, 1], rfl⟩

example : (compact idxEx).2 = [2] := by decide

example : (materialize true dataEx idxEx 3).map ND.data = some [1, 2, 0, 0, 0, 0, 10, 12, 5, 6, 0, 0] := by decide

example : (materialize false dataEx idxEx 3).map ND.data = some [1, 2, 0, 0, 0, 0, 10, 12, 5, 6, 0, 0] := by decide

example : dataEx.shape = 2 :: [2, 2] ∧ idxEx.shape = 2 :: [2, 2] ∧ 0 ∉ [2, 2] := by decide

example : (denseArray dataEx idxEx).map ND.data = some [1, 2, 0, 0, 0, 0, 10, 12, 5, 6, 0, 0] := by decide

end Folx.Layout

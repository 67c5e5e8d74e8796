import Verif.ND.LayoutProofs

namespace Folx.Layout
open Vmap

variable {α F : Type} [Inhabited α]

theorem bcoord_getD {s m p : List ℕ} {i : ℕ} (hi : i < s.length) :
    (bcoord s m p).getD i 0 = if s.getD i 0 = 1 then 0 else p.getD (m.length - s.length + i) 0 := by
  unfold bcoord
  rw [List.getD_eq_getElem _ _ (by simpa using hi), List.getElem_map, List.getElem_range]

theorem bcoord_length (s m p : List ℕ) : (bcoord s m p).length = s.length := by simp [bcoord]

theorem ext_getD {a b : List ℕ} (hl : a.length = b.length) (h : ∀ i < a.length, a.getD i 0 = b.getD i 0) : a = b := by
  refine List.ext_getElem hl fun i h1 h2 => ?_
  have := h i h1
  rwa [List.getD_eq_getElem _ _ h1, List.getD_eq_getElem _ _ h2] at this

theorem aligned_of_broadcasts {shapes : List (List ℕ)} {m s : List ℕ} (h : Broadcasts shapes m) (hs : s ∈ shapes) :
    s.length ≤ m.length ∧ Aligned s (m.drop (m.length - s.length)) :=
  (bcast_spec (broadcastShapes_iff.mpr h)).1 s hs

theorem dimBack_getD {s : List ℕ} {i : ℕ} (hi : i < s.length) : s.getD i 0 = dimBack s (s.length - 1 - i) := by
  unfold dimBack
  rw [List.getD_eq_getElem _ _ hi, List.getD_eq_getElem _ _ (by rw [List.length_reverse]; omega), List.getElem_reverse]
  congr 1; omega

/-- Sizes `t'` obtained from `t` by setting some to 1. -/
structure Shrinks (t' t : List ℕ) : Prop where
  len : t'.length = t.length
  dims : ∀ i < t.length, t'.getD i 0 = 1 ∨ t'.getD i 0 = t.getD i 0

theorem Shrinks.back {t' t : List ℕ} (h : Shrinks t' t) (j : ℕ) : dimBack t' j = 1 ∨ dimBack t' j = dimBack t j := by
  by_cases hj : j < t.length
  · have h1 := h.dims (t.length - 1 - j) (by omega)
    have hl := h.len
    rw [dimBack_getD (by omega), dimBack_getD (by omega)] at h1
    have e1 : t'.length - 1 - (t.length - 1 - j) = j := by omega
    have e2 : t.length - 1 - (t.length - 1 - j) = j := by omega
    rwa [e1, e2] at h1
  · exact Or.inl (dimBack_of_le (by rw [h.len]; omega))

/-- The broadcast shape after shrinking one operand. -/
theorem broadcasts_shrink {s t t' m : List ℕ} (h : Broadcasts [s, t] m) (ht : Shrinks t' t) :
    ∃ m', Broadcasts [s, t'] m' ∧ m'.length = m.length ∧ (∀ j, dimBack m' j = 1 ∨ dimBack m' j = dimBack m j) ∧
      (s = m → m' = m) := by
  have hs := h.rank_le s (by simp)
  have htl := h.rank_le t (by simp)
  let m' := ((List.range m.length).map fun j => if dimBack s j = 1 then dimBack t' j else dimBack s j).reverse
  have hml : m'.length = m.length := by simp [m']
  have hd : ∀ j, dimBack m' j = if dimBack s j = 1 then dimBack t' j else dimBack s j := by
    intro j
    by_cases hj : j < m.length
    · have : dimBack m' j = ((List.range m.length).map fun j =>
          if dimBack s j = 1 then dimBack t' j else dimBack s j).getD j 1 := by
        show m'.reverse.getD j 1 = _
        simp only [m', List.reverse_reverse]
      rw [this, List.getD_eq_getElem _ _ (by simpa using hj), List.getElem_map, List.getElem_range]
    · rw [dimBack_of_le (by omega), dimBack_of_le (s := s) (by omega), dimBack_of_le (s := t') (by rw [ht.len]; omega)]
      simp
  have hc : ∀ j, dimBack m' j = 1 ∨ dimBack m' j = dimBack m j := by
    intro j
    rw [hd]
    split
    · rcases ht.back j with h1 | h1
      · exact Or.inl h1
      · rw [h1]; exact h.compat t (by simp) j
    · exact h.compat s (by simp) j
  have hb : Broadcasts [s, t'] m' := by
    refine ⟨?_, ?_, ?_, ?_⟩
    · intro u hu
      simp only [List.mem_cons, List.not_mem_nil, or_false] at hu
      rcases hu with rfl | rfl
      · omega
      · rw [ht.len]; omega
    · rcases h.rank_eq with h0 | ⟨u, hu, e⟩
      · left
        rw [h0] at hml
        exact List.length_eq_zero_iff.mp hml
      · right
        simp only [List.mem_cons, List.not_mem_nil, or_false] at hu
        rcases hu with rfl | rfl
        · exact ⟨u, by simp, by omega⟩
        · exact ⟨t', by simp, by rw [ht.len]; omega⟩
    · intro u hu j
      simp only [List.mem_cons, List.not_mem_nil, or_false] at hu
      rw [hd]
      rcases hu with rfl | rfl
      · by_cases h1 : dimBack u j = 1
        · exact Or.inl h1
        · rw [if_neg h1]; exact Or.inr rfl
      · by_cases h1 : dimBack s j = 1
        · rw [if_pos h1]; exact Or.inr rfl
        · rw [if_neg h1]
          rcases ht.back j with h2 | h2
          · exact Or.inl h2
          · rcases h.compat t (by simp) j with h3 | h3
            · exact Or.inl (h2.trans h3)
            · rcases h.compat s (by simp) j with h4 | h4
              · exact absurd h4 h1
              · exact Or.inr (h2.trans (h3.trans h4.symm))
    · intro j
      rw [hd]
      split
      · exact Or.inr ⟨t', by simp, rfl⟩
      · exact Or.inr ⟨s, by simp, rfl⟩
  refine ⟨m', hb, hml, hc, fun hsm => ?_⟩
  refine ext_getD hml fun i hi => ?_
  rw [dimBack_getD hi, dimBack_getD (by omega), hml, hd]
  split
  · rename_i h1
    rw [hsm] at h1
    rcases hc (m.length - 1 - i) with h2 | h2
    · rw [hd, hsm, if_pos h1] at h2; rw [h2, h1]
    · rw [hd, hsm, if_pos h1] at h2; exact h2
  · rw [hsm]

theorem bcoord_trans {s m' m p : List ℕ} (hl : s.length ≤ m'.length) (hml : m'.length = m.length)
    (h : ∀ i < s.length, s.getD i 0 = 1 ∨ s.getD i 0 = m'.getD (m'.length - s.length + i) 0) :
    bcoord s m' (bcoord m' m p) = bcoord s m p := by
  refine ext_getD (by simp [bcoord_length]) fun i hi => ?_
  rw [bcoord_length] at hi
  rw [bcoord_getD hi, bcoord_getD hi]
  split
  · rfl
  · rename_i hne
    rw [bcoord_getD (by omega), if_neg]
    · congr 1; omega
    · intro h1
      rcases h i hi with h2 | h2
      · exact hne h2
      · exact hne (h2.trans h1)

theorem aligned_getD {s m : List ℕ} (hl : s.length ≤ m.length) (h : Aligned s (m.drop (m.length - s.length))) :
    ∀ i < s.length, s.getD i 0 = 1 ∨ s.getD i 0 = m.getD (m.length - s.length + i) 0 := by
  intro i hi
  have h2 := (List.forall₂_iff_get.mp h).2 i hi (by rw [List.length_drop]; omega)
  simp only [List.get_eq_getElem, List.getElem_drop] at h2
  rw [List.getD_eq_getElem _ _ hi, List.getD_eq_getElem m _ (by omega)]
  exact h2

theorem compact_shrinks [DecidableEq α] {idx : ND α} {K : ℕ} {t : List ℕ} (hi : idx.shape = K :: t) :
    ∃ t', (compact idx).1.shape = K :: t' ∧ Shrinks t' t := by
  have hc := compact_spec idx
  have hlt := hc.shape
  rw [hi] at hlt
  have hl : (compact idx).1.shape.length = t.length + 1 := by rw [hlt, oneAt_length]; simp
  have h0 : 0 ∉ (compact idx).2 := by
    intro h
    have := hc.sub.subset h
    simp at this
  cases hsh : (compact idx).1.shape with
  | nil => rw [hsh] at hl; simp at hl
  | cons a t' =>
    rw [hsh] at hlt hl
    have ha : a = K := by
      have := oneAt_getD (compact idx).2 (K :: t) (j := 0) (by simp)
      rw [← hlt, if_neg h0] at this
      simpa using this
    refine ⟨t', by rw [ha], by simpa using hl, fun i hi2 => ?_⟩
    have := oneAt_getD (compact idx).2 (K :: t) (j := i + 1) (by simpa using hi2)
    rw [← hlt] at this
    simp only [List.getD_cons_succ] at this
    split at this
    · exact Or.inl this
    · exact Or.inr this

section
variable [AddCommMonoid F] [Inhabited F]

theorem finish_spec {data : ND F} {idx : ND ℤ} {K M : ℕ} {s t m : List ℕ} (static : Bool) (hd : data.shape = K :: s)
    (hi : idx.shape = K :: t) (hb : Broadcasts [s, t] m) (h0 : 0 ∉ m) :
    ∃ r, (if static then aggregateLayout (bexcept m data) (compact (bexcept m idx)).1 (compact (bexcept m idx)).2 M
        else aggregateLayout (bexcept m data) (bexcept m idx) [] M) = some r ∧ r.shape = M :: m ∧
      ∀ i p, i < M → InB p m → r.get (i :: p) =
        ((List.range K).map fun k =>
          if idx.get (k :: bcoord t m p) = (i : ℤ) then data.get (k :: bcoord s m p) else 0).sum := by
  obtain ⟨hs1, hs2⟩ := aligned_of_broadcasts hb (s := s) (by simp)
  obtain ⟨ht1, ht2⟩ := aligned_of_broadcasts hb (s := t) (by simp)
  obtain ⟨hx1, hx2⟩ := bexcept_spec hd hs1 hs2
  obtain ⟨hi1, hi2⟩ := bexcept_spec hi ht1 ht2
  cases static with
  | true =>
    have hc := compact_spec (bexcept m idx)
    have hnd : (bexcept m idx).ndim = m.length + 1 := by unfold ND.ndim; rw [hi1]; rfl
    have hsub := hc.sub
    rw [hnd] at hsub
    obtain ⟨r, h1, h2, h3⟩ := aggregateLayout_spec (M := M) hx1 (by rw [hc.shape, hi1]) h0 hsub
    refine ⟨r, h1, h2, fun i p hiM hp => ?_⟩
    rw [h3 i p hiM hp]
    congr 1
    refine List.map_congr_left fun k hk => ?_
    have hkK : k < K := by simpa using hk
    rw [hc.get _ (by rw [hi1]; exact List.Forall₂.cons hkK hp), hi2 k p hkK hp, hx2 k p hkK hp]
  | false =>
    obtain ⟨r, h1, h2, h3⟩ := aggregateLayout_spec (copied := []) (M := M) hx1 hi1 h0 (List.nil_sublist _)
    refine ⟨r, h1, h2, fun i p hiM hp => ?_⟩
    rw [h3 i p hiM hp]
    congr 1
    refine List.map_congr_left fun k hk => ?_
    have hkK : k < K := by simpa using hk
    show (if (bexcept m idx).get (k :: p) = _ then _ else _) = _
    rw [hi2 k p hkK hp, hx2 k p hkK hp]

theorem bget_eq (x : ND α) {K : ℕ} {s : List ℕ} (hx : x.shape = K :: s) (m : List ℕ) (k : ℕ) (p : List ℕ) :
    bget x m k p = x.get (k :: bcoord s m p) := by
  unfold bget bcoord
  rw [hx]
  rfl

theorem bcoord_self {m p : List ℕ} (hp : InB p m) : bcoord m m p = p := by
  have hl := hp.length_eq
  refine ext_getD (by rw [bcoord_length, hl]) fun i hi => ?_
  rw [bcoord_length] at hi
  rw [bcoord_getD hi]
  have := hp.getD_lt hi
  split
  · omega
  · congr 1; omega

theorem materialize_spec {data : ND F} {idx : ND ℤ} {K M : ℕ} {s t m : List ℕ} (static : Bool)
    (hd : data.shape = K :: s) (hi : idx.shape = K :: t) (hb : Broadcasts [s, t] m) (h0 : 0 ∉ m) :
    ∃ r m', materialize static data idx M = some r ∧ r.shape = M :: m' ∧
      (static = false ∨ s = m → m' = m) ∧
      ∀ i p, i < M → InB p m → bget r m i p = segSum data idx m i p := by
  have ht0 : 0 ∉ t := by
    obtain ⟨ht1, ht2⟩ := aligned_of_broadcasts hb (s := t) (by simp)
    intro h
    obtain ⟨i, hi3, e⟩ := List.getElem_of_mem h
    have := aligned_getD ht1 ht2 i hi3
    rw [List.getD_eq_getElem _ _ hi3, e] at this
    rcases this with h | h
    · omega
    · apply h0
      rw [List.getD_eq_getElem _ _ (by omega)] at h
      rw [h]; exact List.getElem_mem _
  have hd0 : data.shape.getD 0 0 = K := by rw [hd]; rfl
  have hi0 : idx.shape.getD 0 0 = K := by rw [hi]; rfl
  have hdt : data.shape.tail = s := by rw [hd]; rfl
  have hit : idx.shape.tail = t := by rw [hi]; rfl
  cases static with
  | false =>
    obtain ⟨r, h1, h2, h3⟩ := finish_spec (M := M) false hd hi hb h0
    refine ⟨r, m, ?_, h2, fun _ => rfl, fun i p hiM hp => ?_⟩
    · unfold materialize
      simp only [Bool.false_eq_true, false_and, if_false]
      rw [hdt, hit, broadcastShapes_iff.mpr hb]
      dsimp only
      rw [if_neg (by rw [hd0, hi0]; simp [h0])]
      exact h1
    · rw [bget_eq r h2, bcoord_self hp, h3 i p hiM hp]
      unfold segSum
      rw [hd0]
      congr 1
      refine List.map_congr_left fun k _ => ?_
      rw [bget_eq idx hi, bget_eq data hd]
  | true =>
    obtain ⟨t', hct, hsh⟩ := compact_shrinks hi
    obtain ⟨m', hb', hml, hmc, hms⟩ := broadcasts_shrink hb hsh
    have hm0 : 0 ∉ m' := by
      intro h
      obtain ⟨i, hi3, e⟩ := List.getElem_of_mem h
      have h1 := hmc (m'.length - 1 - i)
      rw [← dimBack_getD hi3, hml, ← dimBack_getD (s := m) (by omega), List.getD_eq_getElem _ _ hi3, e] at h1
      rcases h1 with h1 | h1
      · omega
      · apply h0
        rw [List.getD_eq_getElem _ _ (by omega)] at h1
        rw [h1]; exact List.getElem_mem _
    obtain ⟨r, h1, h2, h3⟩ := finish_spec (M := M) true hd hct hb' hm0
    refine ⟨r, m', ?_, h2, fun h => hms (by simpa using h), fun i p hiM hp => ?_⟩
    · unfold materialize
      rw [if_neg (by rw [hit]; simp [ht0])]
      simp only [if_true]
      rw [hdt, hct, List.tail_cons, broadcastShapes_iff.mpr hb']
      dsimp only
      rw [if_neg (by rw [hd0]; simp [hm0])]
      exact h1
    · have hm'al : m'.length ≤ m.length := by omega
      have hp' : InB (bcoord m' m p) m' := by
        refine inB_bcoord hm'al ?_ hp
        unfold Aligned
        rw [List.forall₂_iff_get]
        refine ⟨by rw [List.length_drop]; omega, fun j a1 a2 => ?_⟩
        have a3 := hmc (m'.length - 1 - j)
        rw [← dimBack_getD a1, hml, ← dimBack_getD (s := m) (by omega), List.getD_eq_getElem _ _ a1,
          List.getD_eq_getElem _ _ (by omega)] at a3
        simpa [hml] using a3
      obtain ⟨hs1, hs2⟩ := aligned_of_broadcasts hb' (s := s) (by simp)
      obtain ⟨ht1, ht2⟩ := aligned_of_broadcasts hb' (s := t') (by simp)
      have htt := aligned_of_broadcasts hb (s := t) (by simp)
      rw [bget_eq r h2, h3 i _ hiM hp', bcoord_trans hs1 hml (aligned_getD hs1 hs2),
        bcoord_trans ht1 hml (aligned_getD ht1 ht2)]
      unfold segSum
      rw [hd0]
      congr 1
      refine List.map_congr_left fun k hk => ?_
      have hkK : k < K := by simpa using hk
      rw [bget_eq idx hi, bget_eq data hd]
      have hc := compact_spec idx
      have hin : InB (k :: bcoord t m p) idx.shape := by
        rw [hi]; exact List.Forall₂.cons hkK (inB_bcoord htt.1 htt.2 hp)
      rw [← hc.get _ hin]
      have e : zeroAt (compact idx).2 (k :: bcoord t m p) = k :: bcoord t' m p := by
        have hsp := hc.shape
        rw [hct, hi] at hsp
        refine ext_getD (by rw [zeroAt_length]; simp [bcoord_length, hsh.len]) fun j hj => ?_
        rw [zeroAt_length] at hj
        rw [zeroAt_getD _ _ hj]
        have hj' : j < (K :: t).length := by simpa [bcoord_length] using hj
        have hone := oneAt_getD (compact idx).2 (K :: t) hj'
        rw [← hsp] at hone
        cases j with
        | zero =>
          have h0 : 0 ∉ (compact idx).2 := by
            intro h
            have := hc.sub.subset h
            simp at this
          rw [if_neg h0]; rfl
        | succ j =>
          simp only [List.getD_cons_succ] at hone ⊢
          have hjt : j < t.length := by simpa using hj'
          rw [bcoord_getD hjt, bcoord_getD (s := t') (by rw [hsh.len]; exact hjt), hsh.len]
          by_cases hjc : j + 1 ∈ (compact idx).2
          · rw [if_pos hjc] at hone ⊢
            rw [if_pos hone]
          · rw [if_neg hjc] at hone ⊢
            rw [hone]
      rw [e]

theorem getIndexMask_spec {mask outs : ND ℤ} {K N : ℕ} {s t m : List ℕ} (hm : mask.shape = K :: s)
    (ho : outs.shape = N :: t) (hb : Broadcasts [t, s] m) (h0 : 0 ∉ m) (hN : 0 < N) :
    ∃ r, getIndexMask mask outs = some r ∧ r.shape = K :: m ∧
      ∀ k p, k < K → InB p m → r.get (k :: p) =
        getIndex ((List.range N).map fun j => bget outs m j p) (bget mask m k p) := by
  obtain ⟨hs1, hs2⟩ := aligned_of_broadcasts hb (s := s) (by simp)
  obtain ⟨ht1, ht2⟩ := aligned_of_broadcasts hb (s := t) (by simp)
  obtain ⟨hx1, hx2⟩ := bexcept_spec hm hs1 hs2
  obtain ⟨hi1, hi2⟩ := bexcept_spec ho ht1 ht2
  have hmp : m.prod ≠ 0 := List.prod_ne_zero h0
  have hmp' : 0 < m.prod := Nat.pos_of_ne_zero hmp
  have ed : ∀ L : ℕ, (L :: m).prod / m.prod = L := fun L => by
    rw [List.prod_cons, Nat.mul_div_cancel _ hmp']
  have hp1 : (bexcept m mask).shape.prod = [K, m.prod].prod := by rw [hx1]; simp
  have hp2 : (bexcept m outs).shape.prod = [N, m.prod].prod := by rw [hi1]; simp
  unfold getIndexMask
  rw [show outs.shape.tail = t by rw [ho]; rfl, show mask.shape.tail = s by rw [hm]; rfl, broadcastShapes_iff.mpr hb]
  dsimp only
  rw [if_neg (by rw [ho]; show ¬ (m.prod = 0 ∨ N = 0); omega), hx1, hi1, ed K, ed N, ND.reshape?_eq _ _ hp1, ND.reshape?_eq _ _ hp2]
  simp only [Option.bind_eq_bind, Option.bind_some]
  rw [ND.reshape?_eq _ _ (by rw [ND.shape_ofFn]; show [K, m.prod].prod = _; simp)]
  refine ⟨_, rfl, rfl, fun k p hk hp => ?_⟩
  have hrv := ravelIdx_lt hp
  rw [ND.get_reshape _ _ _ _ [k, ravelIdx m p] (by
    show k * m.prod + ravelIdx m p = k * [m.prod].prod + (ravelIdx m p * 1 + 0)
    simp)]
  rw [ND.get_ofFn _ (by
    exact List.Forall₂.cons hk (List.Forall₂.cons hrv List.Forall₂.nil))]
  have eo : ((bexcept m outs).reshape [N, m.prod] hp2).shape.getD 0 0 = N := rfl
  rw [eo]
  congr 1
  · refine List.map_congr_left fun j hj => ?_
    have hjN : j < N := by simpa using hj
    rw [ND.get_reshape _ _ _ _ (j :: p) (by
      rw [hi1]
      show j * [m.prod].prod + (ravelIdx m p * 1 + 0) = j * m.prod + ravelIdx m p
      simp), hi2 j p hjN hp, bget_eq outs ho]
  · rw [ND.get_reshape _ _ _ _ (k :: p) (by
      rw [hx1]
      show k * [m.prod].prod + (ravelIdx m p * 1 + 0) = k * m.prod + ravelIdx m p
      simp), hx2 k p hk hp, bget_eq mask hm]

theorem foldl_max_ge (l : List ℤ) (a : ℤ) : a ≤ l.foldl max a ∧ ∀ b ∈ l, b ≤ l.foldl max a := by
  induction l generalizing a with
  | nil => exact ⟨le_refl _, fun b hb => by simp at hb⟩
  | cons c l ih =>
    obtain ⟨h1, h2⟩ := ih (max a c)
    refine ⟨le_trans (le_max_left _ _) h1, fun b hb => ?_⟩
    rcases List.mem_cons.mp hb with rfl | hb
    · exact le_trans (le_max_right _ _) h1
    · exact h2 b hb

theorem foldl_max_mem (l : List ℤ) (a : ℤ) : l.foldl max a ∈ a :: l := by
  induction l generalizing a with
  | nil => simp
  | cons c l ih =>
    have := ih (max a c)
    rw [List.foldl_cons]
    rcases le_total a c with h | h
    · rw [max_eq_right h] at this ⊢
      exact List.mem_cons_of_mem _ this
    · rw [max_eq_left h] at this ⊢
      rcases List.mem_cons.mp this with e | e
      · rw [e]; simp
      · exact List.mem_cons_of_mem _ (List.mem_cons_of_mem _ e)

end

end Folx.Layout

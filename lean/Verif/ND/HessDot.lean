import Verif.ND.HessMain

/-!
# Proofs: removal of zero entries for dot products (`hessian.py:254-287,319-322,369-370`)
-/

namespace Folx.Layout
open Vmap Dot

/-! ### Slices along the last axis -/

theorem skipsBefore_last (n i : ℕ) (h : i ≤ n) : skipsBefore [n] i = 0 := by
  unfold skipsBefore
  rw [List.length_eq_zero_iff, List.filter_eq_nil_iff]
  intro k hk
  have := List.mem_range.mp hk
  simp
  omega

theorem bindex_last {s b v : List ℕ} {c k : ℕ} :
    bindex (s ++ [c]) [s.length] b v [k] = bcoord s b v ++ [k] := by
  unfold bindex bcoord
  rw [List.length_append, List.length_singleton, List.range_succ, List.map_append, List.map_singleton]
  congr 1
  · refine List.map_congr_left fun i hi => ?_
    have hi := List.mem_range.mp hi
    rw [if_neg (by simp; omega), List.getD_append _ _ _ _ hi, skipsBefore_last _ _ hi.le]
    simp
  · rw [if_pos (by simp), skipsBefore_last _ _ le_rfl]
    simp

theorem skipShape_last (s : List ℕ) (c : ℕ) : skipShape (s ++ [c]) [s.length] = [c] := by
  unfold skipShape
  rw [List.zipIdx_append, List.filter_append]
  have : (s.zipIdx.filter fun p => decide (p.2 ∈ [s.length])) = [] := by
    rw [List.filter_eq_nil_iff]
    intro p hp
    have := List.snd_lt_of_mem_zipIdx hp
    simp
    omega
  rw [this]
  simp

theorem otherShape_last (s : List ℕ) (c : ℕ) : otherShape (s ++ [c]) [s.length] = s := by
  unfold otherShape
  rw [List.zipIdx_append, List.filter_append]
  have : (s.zipIdx.filter fun p => decide (p.2 ∉ [s.length])) = s.zipIdx := by
    rw [List.filter_eq_self]
    intro p hp
    have := List.snd_lt_of_mem_zipIdx hp
    simp
    omega
  rw [this]
  simp

theorem bindex_jac (K : ℕ) (s ax b v c : List ℕ) (q : ℕ) :
    bindex (K :: s) (jacAx ax) b v (q :: c) = q :: bindex s ax b v c := by
  rw [bindex_eq, bindex_eq, lab_jacAx_cons, weave_true]
  have : (K :: s).length - (jacAx ax).length = s.length - ax.length := by
    unfold jacAx
    simp
  rw [this]
  simp

section
variable {α : Type} [Inhabited α]

theorem bslice_last {x : ND α} {s b v : List ℕ} {c : ℕ} (hx : x.shape = s ++ [c]) :
    bslice x [s.length] b v = ND.ofFn [c] fun w => x.get (bcoord s b v ++ [w.getD 0 0]) := by
  unfold bslice
  rw [hx, skipShape_last]
  refine ND.ext_get rfl fun w hw => ?_
  have hw : InB w [c] := hw
  rw [ND.get_ofFn _ hw, ND.get_ofFn _ hw]
  obtain ⟨k, is, rfl, _, h2⟩ := hw.cons_right
  obtain rfl := InB.nil_right.mp h2
  rw [bindex_last]
  rfl

theorem bslice_last_jac {x : ND α} {s b v : List ℕ} {c K : ℕ} (hx : x.shape = K :: (s ++ [c])) :
    bslice x (jacAx [s.length]) b v = ND.ofFn [K, c] fun w => x.get (w.getD 0 0 :: (bcoord s b v ++ [w.getD 1 0])) := by
  unfold bslice
  rw [hx, skipShape_jac, skipShape_last]
  refine ND.ext_get rfl fun w hw => ?_
  have hw : InB w [K, c] := hw
  rw [ND.get_ofFn _ hw, ND.get_ofFn _ hw]
  obtain ⟨q, is, rfl, _, h2⟩ := hw.cons_right
  obtain ⟨k, is, rfl, _, h2⟩ := h2.cons_right
  obtain rfl := InB.nil_right.mp h2
  rw [bindex_jac, bindex_last]
  rfl

/-! ### Indexing with the kept positions -/

/-- The index tuple of `hessian.py:276-277`. -/
def keptIdxs (us : List (List ℕ)) (ndim : ℕ) (shape : List ℕ) : List (Option (List ℕ)) :=
  (List.range ndim).map fun i => if shape.getD i 0 = 1 then none else some (us.map fun u => u.getD i 0)

theorem keptIdxs_getD {us : List (List ℕ)} {ndim : ℕ} {shape : List ℕ} {i : ℕ} (hi : i < ndim) :
    (keptIdxs us ndim shape).getD i none = if shape.getD i 0 = 1 then none else some (us.map fun u => u.getD i 0) := by
  unfold keptIdxs
  rw [List.getD_eq_getElem _ _ (by simpa using hi)]
  simp

theorem keptIdxs_any (us : List (List ℕ)) (s : List ℕ) (c : ℕ) :
    (keptIdxs us s.length (s ++ [c])).any Option.isSome = decide (∃ d ∈ s, d ≠ 1) := by
  rw [Bool.eq_iff_iff, List.any_eq_true, decide_eq_true_eq]
  unfold keptIdxs
  constructor
  · rintro ⟨o, ho, h⟩
    obtain ⟨i, hi, rfl⟩ := List.mem_map.mp ho
    have hi := List.mem_range.mp hi
    refine ⟨s[i], List.getElem_mem hi, fun hc => ?_⟩
    rw [if_pos (by rw [List.getD_append _ _ _ _ hi, List.getD_eq_getElem _ _ hi, hc])] at h
    simp at h
  · rintro ⟨d, hd, h⟩
    obtain ⟨i, hi, rfl⟩ := List.getElem_of_mem hd
    refine ⟨_, List.mem_map.mpr ⟨i, List.mem_range.mpr hi, rfl⟩, ?_⟩
    rw [if_neg (by rw [List.getD_append _ _ _ _ hi, List.getD_eq_getElem _ _ hi]; exact h)]
    rfl

/-- A position of the kept list, for the axes of an argument. -/
theorem at_eq {us : List (List ℕ)} {s b : List ℕ} {c j : ℕ} (hl : s.length = b.length) (ha : Aligned s b)
    (hus : ∀ u ∈ us, InB u b) (hj : j < us.length) {f : ℕ → ℕ} (hf : ∀ i < s.length, f i = s.getD i 0) :
    ((List.range (keptIdxs us s.length (s ++ [c])).length).map fun i => match (keptIdxs us s.length (s ++ [c])).getD i none with
      | none => 0
      | some l => min (l.getD j 0) (f i - 1)) = bcoord s b (us.getD j []) := by
  have hlen : (keptIdxs us s.length (s ++ [c])).length = s.length := by unfold keptIdxs; simp
  rw [hlen]
  unfold bcoord
  refine List.map_congr_left fun i hi => ?_
  have hi := List.mem_range.mp hi
  rw [keptIdxs_getD hi, List.getD_append _ _ _ _ hi, hl, Nat.sub_self, Nat.zero_add]
  by_cases h1 : s.getD i 0 = 1
  · rw [if_pos h1, if_pos h1]
  · rw [if_neg h1, if_neg h1]
    dsimp only
    rw [hf i hi]
    have hu : InB (us.getD j []) b := by
      rw [List.getD_eq_getElem _ _ hj]; exact hus _ (List.getElem_mem hj)
    have e : ((us.map fun u => u.getD i 0).getD j 0) = (us.getD j []).getD i 0 := by
      rw [List.getD_eq_getElem _ _ (by simpa using hj), List.getElem_map, List.getD_eq_getElem _ _ hj]
    rw [e]
    have h2 := hu.getD_lt (k := i) (by omega)
    have h3 : s.getD i 0 = b.getD i 0 := by
      have := (List.forall₂_iff_get.mp ha).2 i hi (by omega)
      rw [List.get_eq_getElem, List.get_eq_getElem] at this
      have hb : i < b.length := by omega
      rw [List.getD_eq_getElem _ _ hi] at h1 ⊢
      rw [List.getD_eq_getElem _ _ hb]
      exact this.resolve_left h1
    exact Nat.min_eq_left (by omega)

/-- Leading shape after indexing. -/
def lead (s : List ℕ) (n : ℕ) : List ℕ := if ∃ d ∈ s, d ≠ 1 then [n] else []

theorem lead_bcoord {s : List ℕ} (b : List ℕ) (h : ¬ ∃ d ∈ s, d ≠ 1) (v : List ℕ) :
    bcoord s b v = bcoord s b [] := by
  unfold bcoord
  refine List.map_congr_left fun i hi => ?_
  have hi := List.mem_range.mp hi
  have : s.getD i 0 = 1 := by
    by_contra hc
    rw [List.getD_eq_getElem _ _ hi] at hc
    exact h ⟨_, List.getElem_mem hi, hc⟩
  rw [if_pos this, if_pos this]

variable {us : List (List ℕ)} {s b : List ℕ} {c : ℕ} (hl : s.length = b.length) (ha : Aligned s b)
  (hus : ∀ u ∈ us, InB u b) (hn : 0 < us.length)

include hl ha hus hn in
theorem advIndex_spec {x : ND α} (hx : x.shape = s ++ [c]) :
    ∃ y, advIndex x us.length (keptIdxs us s.length (s ++ [c])) = some y ∧ y.shape = lead s us.length ++ [c] ∧
      ∀ j < us.length, ∀ k < c, y.get (bcoord (lead s us.length) [us.length] [j] ++ [k]) =
        x.get (bcoord s b (us.getD j []) ++ [k]) := by
  have hlen : (keptIdxs us s.length (s ++ [c])).length = s.length := by unfold keptIdxs; simp
  have hdrop : x.shape.drop (keptIdxs us s.length (s ++ [c])).length = [c] := by rw [hlen, hx]; simp
  have hat : ∀ j < us.length, _ := fun j hj => at_eq (c := c) hl ha hus hj (f := fun i => x.shape.getD i 0)
    (fun i hi => by rw [hx, List.getD_append _ _ _ _ hi])
  unfold advIndex
  rw [if_neg (by rw [hlen, hx]; simp)]
  dsimp only
  rw [keptIdxs_any, hdrop]
  unfold lead
  by_cases hA : ∃ d ∈ s, d ≠ 1
  · rw [if_pos hA, if_pos (by simpa using hA)]
    refine ⟨_, rfl, rfl, fun j hj k hk => ?_⟩
    have e : bcoord [us.length] [us.length] [j] = [j] := Layout.bcoord_self (List.Forall₂.cons hj List.Forall₂.nil)
    rw [e, List.singleton_append, ND.get_ofFn _ (List.Forall₂.cons hj (List.Forall₂.cons hk List.Forall₂.nil))]
    show x.get (_ ++ [k]) = _
    rw [← hat j hj]
    rfl
  · rw [if_neg hA, if_neg (by simpa using hA)]
    refine ⟨_, rfl, rfl, fun j hj k hk => ?_⟩
    show (ND.ofFn [c] _).get [k] = _
    rw [ND.get_ofFn _ (List.Forall₂.cons hk List.Forall₂.nil), lead_bcoord b hA, ← lead_bcoord b hA (us.getD 0 []),
      ← hat 0 hn]
    rfl

include hl ha hus hn in
theorem advIndexTail_spec {x : ND α} {K : ℕ} (hx : x.shape = K :: (s ++ [c])) :
    ∃ y, advIndexTail x us.length (keptIdxs us s.length (s ++ [c])) = some y ∧ y.shape = K :: (lead s us.length ++ [c]) ∧
      ∀ j < us.length, ∀ q < K, ∀ k < c, y.get (q :: (bcoord (lead s us.length) [us.length] [j] ++ [k])) =
        x.get (q :: (bcoord s b (us.getD j []) ++ [k])) := by
  have hlen : (keptIdxs us s.length (s ++ [c])).length = s.length := by unfold keptIdxs; simp
  have hdrop : x.shape.drop ((keptIdxs us s.length (s ++ [c])).length + 1) = [c] := by rw [hlen, hx]; simp
  have hK : x.shape.getD 0 0 = K := by rw [hx]; rfl
  have hat : ∀ j < us.length, _ := fun j hj => at_eq (c := c) hl ha hus hj (f := fun i => x.shape.getD (i + 1) 0)
    (fun i hi => by rw [hx, List.getD_cons_succ, List.getD_append _ _ _ _ hi])
  unfold advIndexTail
  rw [if_neg (by rw [hlen, hx]; simp)]
  dsimp only
  rw [keptIdxs_any, hdrop, hK]
  unfold lead
  by_cases hA : ∃ d ∈ s, d ≠ 1
  · rw [if_pos hA, if_pos (by simpa using hA)]
    refine ⟨_, rfl, rfl, fun j hj q hq k hk => ?_⟩
    have e : bcoord [us.length] [us.length] [j] = [j] := Layout.bcoord_self (List.Forall₂.cons hj List.Forall₂.nil)
    rw [e, List.singleton_append, ND.get_ofFn _ (List.Forall₂.cons hq (List.Forall₂.cons hj (List.Forall₂.cons hk List.Forall₂.nil)))]
    show x.get (q :: (_ ++ [k])) = _
    rw [← hat j hj]
    rfl
  · rw [if_neg hA, if_neg (by simpa using hA)]
    refine ⟨_, rfl, rfl, fun j hj q hq k hk => ?_⟩
    show (ND.ofFn [K, c] _).get [q, k] = _
    rw [ND.get_ofFn _ (List.Forall₂.cons hq (List.Forall₂.cons hk List.Forall₂.nil)), lead_bcoord b hA,
      ← lead_bcoord b hA (us.getD 0 []), ← hat 0 hn]
    rfl

end

theorem mem_get {α : Type} [Inhabited α] (x : ND α) {z : α} (hz : z ∈ x.data) : ∃ w, InB w x.shape ∧ z = x.get w := by
  obtain ⟨k, hk, rfl⟩ := List.getElem_of_mem hz
  have hk' : k < x.shape.prod := by rw [← x.wf]; exact hk
  refine ⟨unravelIdx x.shape k, inB_unravelIdx hk', ?_⟩
  unfold ND.get
  rw [ravelIdx_unravelIdx hk', List.getD_eq_getElem _ _ hk]

section
variable {F : Type} [Inhabited F]
variable {us : List (List ℕ)} {b : List ℕ} (hus : ∀ u ∈ us, InB u b) (hn : 0 < us.length)

include hus hn in
/-- Restricting one argument to the kept positions. -/
theorem restrict_spec {a : ArrTrip F × List ℕ} (h : LastAxis a b) (hal : Aligned (a.1.x.shape.take b.length) b) :
    ∃ t, restrictTrip us b.length a.1 = some t ∧ TripOk (lastAxis (t, a.2)) ∧
      otherShape (lastAxis (t, a.2)).1.x.shape (lastAxis (t, a.2)).2 = lead (a.1.x.shape.take b.length) us.length ∧
      ∀ j < us.length, sliceAt [us.length] [j] (lastAxis (t, a.2)) = sliceAt b (us.getD j []) a := by
  obtain ⟨hok, hax, hrank⟩ := h
  obtain ⟨s, hs⟩ : ∃ s, s = a.1.x.shape.take b.length := ⟨_, rfl⟩
  obtain ⟨c, hc⟩ : ∃ c, a.1.x.shape = s ++ [c] := by
    have h1 : a.1.x.shape = s ++ a.1.x.shape.drop b.length := by rw [hs, List.take_append_drop]
    have h2 : (a.1.x.shape.drop b.length).length = 1 := by rw [List.length_drop]; omega
    obtain ⟨c, hc⟩ := List.length_eq_one_iff.mp h2
    exact ⟨c, by rw [h1, hc]⟩
  rw [← hs] at hal ⊢
  have hl : s.length = b.length := by rw [hs, List.length_take]; omega
  have hd := hok.data
  obtain ⟨K, hK⟩ : ∃ K, K = a.1.jac.data.shape.getD 0 0 := ⟨_, rfl⟩
  rw [← hK, hc] at hd
  obtain ⟨x', x1, x2, x3⟩ := advIndex_spec hl hal hus hn hc
  obtain ⟨l', l1, l2, l3⟩ := advIndex_spec hl hal hus hn (hok.lapl.trans hc)
  obtain ⟨d', d1, d2, d3⟩ := advIndexTail_spec hl hal hus hn hd
  have hidx : keptIdxs us s.length (s ++ [c]) = (List.range b.length).map fun i => if a.1.x.shape.getD i 0 = 1 then none else
      some (us.map fun u => u.getD i 0) := by
    unfold keptIdxs; rw [hl, hc]
  have hlast : ∀ y : ND F, y.shape = lead s us.length ++ [c] → y.shape.length - 1 = (lead s us.length).length := by
    intro y hy; rw [hy]; simp
  have hbl : ∀ {α : Type} [Inhabited α] {x y : ND α}, x.shape = s ++ [c] → y.shape = lead s us.length ++ [c] →
      (∀ j < us.length, ∀ k < c, y.get (bcoord (lead s us.length) [us.length] [j] ++ [k]) =
        x.get (bcoord s b (us.getD j []) ++ [k])) → ∀ j < us.length,
      bslice y [(lead s us.length).length] [us.length] [j] = bslice x [b.length] b (us.getD j []) := by
    intro α _ x y hx hy hg j hj
    rw [← hl, bslice_last hx, bslice_last hy]
    refine ND.ext_get rfl fun w hw => ?_
    have hw : InB w [c] := hw
    rw [ND.get_ofFn _ hw, ND.get_ofFn _ hw]
    exact hg j hj _ (hw.getD_lt (k := 0) (by simp))
  have hbj : ∀ {α : Type} [Inhabited α] {x y : ND α}, x.shape = K :: (s ++ [c]) → y.shape = K :: (lead s us.length ++ [c]) →
      (∀ j < us.length, ∀ q < K, ∀ k < c, y.get (q :: (bcoord (lead s us.length) [us.length] [j] ++ [k])) =
        x.get (q :: (bcoord s b (us.getD j []) ++ [k]))) → ∀ j < us.length,
      bslice y (jacAx [(lead s us.length).length]) [us.length] [j] = bslice x (jacAx [b.length]) b (us.getD j []) := by
    intro α _ x y hx hy hg j hj
    rw [← hl, bslice_last_jac hx, bslice_last_jac hy]
    refine ND.ext_get rfl fun w hw => ?_
    have hw : InB w [K, c] := hw
    rw [ND.get_ofFn _ hw, ND.get_ofFn _ hw]
    exact hg j hj _ (hw.getD_lt (k := 0) (by simp)) _ (hw.getD_lt (k := 1) (by simp))
  have hlt : ∀ y : ND F, y.shape = lead s us.length ++ [c] → ∀ d ∈ [y.shape.length - 1], d < y.shape.length := by
    intro y hy d hd
    rw [List.mem_singleton.mp hd, hy]
    simp
  have hoth : ∀ y : ND F, y.shape = lead s us.length ++ [c] → otherShape y.shape [y.shape.length - 1] = lead s us.length := by
    intro y hy
    rw [hlast y hy, hy, otherShape_last]
  obtain ⟨⟨x, ⟨d, mi⟩, lp⟩, ax⟩ := a
  obtain rfl : ax = [b.length] := hax
  cases mi with
  | none =>
    refine ⟨⟨x', ⟨d', none⟩, l'⟩, ?_, ⟨?_, ?_, ?_, ?_, ?_, ?_⟩, hoth x' x2, fun j hj => ?_⟩
    · unfold restrictTrip
      dsimp only at hidx ⊢
      rw [← hidx, x1, d1, l1]
      rfl
    · show d'.shape = d'.shape.getD 0 0 :: x'.shape
      rw [d2, x2]; rfl
    · intro m hm; cases hm
    · intro m hm; cases hm
    · show l'.shape = x'.shape
      rw [l2, x2]
    · exact List.nodup_singleton _
    · exact hlt x' x2
    · unfold sliceAt lastAxis
      dsimp only
      rw [hlast x' x2, hbl hc x2 x3 j hj, hbl (hok.lapl.trans hc) l2 l3 j hj, hbj hd d2 d3 j hj]
      rfl
  | some m =>
    have hm := (hok.idx m rfl).trans hd
    obtain ⟨m', m1, m2, m3⟩ := advIndexTail_spec hl hal hus hn hm
    refine ⟨⟨x', ⟨d', some m'⟩, l'⟩, ?_, ⟨?_, ?_, ?_, ?_, ?_, ?_⟩, hoth x' x2, fun j hj => ?_⟩
    · unfold restrictTrip
      dsimp only at hidx ⊢
      rw [← hidx, x1, d1, l1]
      show (advIndexTail m us.length (keptIdxs us s.length (s ++ [c]))).bind _ = _
      rw [m1]
      rfl
    · show d'.shape = d'.shape.getD 0 0 :: x'.shape
      rw [d2, x2]; rfl
    · intro m0 hm0
      obtain rfl := Option.some.inj hm0
      exact m2.trans d2.symm
    · intro m0 hm0
      obtain rfl := Option.some.inj hm0
      intro z hz
      obtain ⟨w, hw, rfl⟩ := mem_get m' hz
      rw [m2] at hw
      obtain ⟨q, w, rfl, hq, hw⟩ := hw.cons_right
      obtain ⟨l, k, rfl, hlw, hk⟩ : ∃ l k, w = l ++ [k] ∧ InB l (lead s us.length) ∧ k < c := by
        have hlen := hw.length_eq
        rw [List.length_append, List.length_singleton] at hlen
        refine ⟨w.take (lead s us.length).length, w.getD (lead s us.length).length 0, ?_, ?_, ?_⟩
        · refine List.ext_getElem (by simp; omega) fun i h1 h2 => ?_
          rcases Nat.lt_or_ge i (lead s us.length).length with hi | hi
          · rw [List.getElem_append_left (by simp; omega), List.getElem_take]
          · obtain rfl : i = (lead s us.length).length := by omega
            rw [List.getElem_append_right (by simp), List.getElem_singleton, List.getD_eq_getElem]
        · have := List.forall₂_take (lead s us.length).length hw
          rwa [List.take_left] at this
        · have := hw.getD_lt (k := (lead s us.length).length) (by simp)
          rwa [getD_length_append] at this
      obtain ⟨j, hj, rfl⟩ : ∃ j < us.length, l = bcoord (lead s us.length) [us.length] [j] := by
        unfold lead at hlw ⊢
        split
        · rename_i hA
          rw [if_pos hA] at hlw
          obtain ⟨j, r, rfl, hj, hr⟩ := hlw.cons_right
          obtain rfl := InB.nil_right.mp hr
          exact ⟨j, hj, (Layout.bcoord_self (List.Forall₂.cons hj List.Forall₂.nil)).symm⟩
        · rename_i hA
          rw [if_neg hA] at hlw
          obtain rfl := InB.nil_right.mp hlw
          exact ⟨0, hn, rfl⟩
      rw [m3 j hj q hq k hk]
      refine hok.neg m rfl _ (get_mem m ?_)
      rw [hm]
      refine List.Forall₂.cons hq (List.rel_append ?_ (List.Forall₂.cons hk List.Forall₂.nil))
      refine inB_bcoord (by omega) (by rw [hl, Nat.sub_self, List.drop_zero]; exact hal) ?_
      rw [List.getD_eq_getElem _ _ hj]
      exact hus _ (List.getElem_mem hj)
    · show l'.shape = x'.shape
      rw [l2, x2]
    · exact List.nodup_singleton _
    · exact hlt x' x2
    · unfold sliceAt lastAxis
      dsimp only
      rw [hlast x' x2, hbl hc x2 x3 j hj, hbl (hok.lapl.trans hc) l2 l3 j hj, hbj hd d2 d3 j hj]
      show ArrTrip.mk _ ⟨_, some (bslice m' _ _ _)⟩ _ = _
      rw [hbj hm m2 m3 j hj]
      rfl

end

/-! ### The kept positions -/

theorem sqz_id {b v : List ℕ} (h : 1 ∉ b) (hl : v.length = b.length) : sqz b v = v := by
  induction b generalizing v with
  | nil => rw [List.length_eq_zero_iff.mp hl]; rfl
  | cons c b ih =>
    cases v with
    | nil => simp at hl
    | cons i v =>
      have hc : c ≠ 1 := fun e => h (by simp [e])
      unfold sqz
      rw [if_neg hc, ih (fun e => h (by simp [e])) (by simpa using hl)]

theorem allIdx_sqz (b : List ℕ) : allIdx (sqz b b) = (allIdx b).map (sqz b) := by
  unfold allIdx
  have hp : (sqz b b).prod = b.prod := by
    have := prod_sqz b []
    rwa [List.append_nil, List.append_nil] at this
  rw [List.map_map, hp]
  refine List.map_congr_left fun k hk => ?_
  have hk := List.mem_range.mp hk
  have hin := inB_unravelIdx hk
  have h1 := ravel_sqz hin [] []
  rw [List.append_nil, List.append_nil, List.append_nil, List.append_nil, ravelIdx_unravelIdx hk] at h1
  show unravelIdx (sqz b b) k = sqz b (unravelIdx b k)
  rw [← unravelIdx_ravelIdx (inB_sqz hin), h1]

section
variable {F : Type} [Inhabited F] {inter : Bool} {args : List (ArrTrip F × List ℕ)} {b : List ℕ}

theorem mergedAt_nonneg {v : List ℕ} {z : ℤ} (hz : z ∈ mergedAt inter args b v) : 0 ≤ z := by
  have h := (Finset.mem_filter.mp hz).1
  clear hz
  induction args with
  | nil => simp at h
  | cons a as ih =>
    rw [List.map_cons, List.foldr_cons, Finset.mem_union] at h
    rcases h with h | h
    · exact (Finset.mem_filter.mp h).2
    · exact ih h

theorem idxList_ne {v : List ℕ} (hv : InB v b) :
    (∃ k < mergedWidth inter args b, (idxListAt inter args b v).getD k (-1) ≠ -1) ↔ (mergedAt inter args b v).Nonempty := by
  have hl := idxListAt_length inter args hv
  constructor
  · rintro ⟨k, hk, h⟩
    by_contra hc
    rw [Finset.not_nonempty_iff_eq_empty] at hc
    apply h
    unfold idxListAt
    rw [hc, Finset.sort_empty, List.nil_append]
    by_cases hk2 : k < (List.replicate (mergedWidth inter args b - (∅ : Finset ℤ).card) (-1 : ℤ)).length
    · rw [List.getD_eq_getElem _ _ hk2, List.getElem_replicate]
    · rw [List.getD_eq_default _ _ (by omega)]
  · rintro ⟨z, hz⟩
    have hm : z ∈ (mergedAt inter args b v).sort (· ≤ ·) := by simpa using hz
    obtain ⟨k, hk, rfl⟩ := List.getElem_of_mem hm
    have hk2 : k < (idxListAt inter args b v).length := by
      unfold idxListAt
      rw [List.length_append]; omega
    refine ⟨k, by omega, ?_⟩
    have h0 := mergedAt_nonneg hz
    have e : (idxListAt inter args b v).getD k (-1) = ((mergedAt inter args b v).sort (· ≤ ·))[k] := by
      unfold idxListAt
      rw [List.getD_append _ _ _ _ hk, List.getD_eq_getElem _ _ hk]
    rw [e]
    omega

/-- `np.where(mask)`. -/
theorem where_eq {idx : ND ℤ} (hs : idx.shape = mergedWidth inter args b :: sqz b b)
    (hi : ∀ v, InB v b → ∀ k < mergedWidth inter args b, idx.get (k :: sqz b v) = (idxListAt inter args b v).getD k (-1)) :
    whereIdx (nonzeroMask idx) = (activeAt inter args b).map (sqz b) ∧ (nonzeroMask idx).shape = sqz b b ∧
    (nonzeroMask idx).shape.prod = b.prod := by
  have hsh : (nonzeroMask idx).shape = sqz b b := by unfold nonzeroMask; rw [ND.shape_ofFn, hs]; rfl
  refine ⟨?_, hsh, ?_⟩
  · unfold whereIdx activeAt
    rw [hsh, allIdx_sqz, List.filter_map]
    congr 1
    refine List.filter_congr fun v hv => ?_
    have hv := mem_allIdx.mp hv
    show (nonzeroMask idx).get (sqz b v) = _
    have hin : InB (sqz b v) idx.shape.tail := by rw [hs]; exact inB_sqz hv
    unfold nonzeroMask
    rw [ND.get_ofFn _ hin, decide_eq_decide, ← idxList_ne hv, hs]
    refine exists_congr fun k => and_congr_right fun hk => ?_
    rw [hi v hv k hk]
  · rw [hsh]
    have := prod_sqz b []
    rwa [List.append_nil, List.append_nil] at this

end

/-! ### The term of dot products -/

section
variable {F : Type} [Inhabited F] [AddCommMonoid F]
variable {g : SliceFn F} (hg : TracedSlice g) (inter sparseJHJ : Bool) (T : ℕ) {args : List (ArrTrip F × List ℕ)} {b : List ℕ}
  (hba : Broadcasts (args.map fun a => otherShape a.1.x.shape a.2) b) (h0 : 0 ∉ b) (hne : args ≠ [])
  (hsp : ∃ a ∈ args, a.1.jac.idx ≠ none) (hw : 0 < mergedWidth inter args b)

/-- All the first steps. -/
theorem hessArr_start {sparseJHJ dot : Bool} {extras : List (ND F × List ℕ)} (out : List ℕ) {idx : ND ℤ} {dense : Bool}
    (hf : findOutIdxArr inter T args = some (some idx, dense)) (hd : (dense && !sparseJHJ) = false) :
    hessArr g inter sparseJHJ dot T args extras out = hessRest g dot args extras (some idx) dense out := by
  unfold hessArr densifyArgs
  simp only [Option.bind_eq_bind, Option.bind_some, hf, hd, Bool.false_eq_true, if_false]

include hg hba h0 hne hsp hw in
/-- A dot product without removal of zero entries. -/
theorem hessArr_dot_all (hok : ∀ a ∈ args, TripOk a) (hax : ∀ a ∈ args, a.2 = [a.1.x.shape.length - 1])
    (hj : sparseJHJ = true ∨ (mergedWidth inter args b < maxSizeArr args ∧ mergedWidth inter args b ≤ T))
    (hr : (mergedWidth inter args b ≥ maxSizeArr args ∨ mergedWidth inter args b > T) ∨
      2 * (activeAt inter args b).length > b.prod) {o : List ℕ}
    (ho : ∀ v, InB v b → (termAt g args [] (some (idxListAt inter args b v)) b v).shape = o) :
    hessArr g inter sparseJHJ true T args [] (b ++ o) = some (ND.ofFn (b ++ o) fun w =>
      (termAt g args [] (some (idxListAt inter args b (w.take b.length))) b (w.take b.length)).get (w.drop b.length)) := by
  obtain ⟨idx, hf, hs, hi⟩ := findOutIdxArr_spec inter T hne hok hba (any_sparse hsp)
  have hd : (decide (mergedWidth inter args b ≥ maxSizeArr args ∨ mergedWidth inter args b > T) && !sparseJHJ) = false := by
    rcases hj with h | h
    · rw [h]; simp
    · rw [decide_eq_false (by omega)]; rfl
  obtain ⟨R, h1, h2, h3⟩ := vmapHess_some (extras := []) hg hok (by simp) (by simpa using hba) hs hw
    (fun v hv => ⟨idxListAt_length inter args hv, hi v hv⟩) ho h0
  obtain ⟨w1, w2, w3⟩ := where_eq hs hi
  rw [hessArr_start inter T _ hf hd]
  have hz : ¬ (some (idx.shape.getD 0 0) = some 0) := by
    rw [hs, Option.some.injEq]
    exact Nat.pos_iff_ne_zero.mp hw
  have hrem : removeZero args (some idx) (decide (mergedWidth inter args b ≥ maxSizeArr args ∨ mergedWidth inter args b > T)) =
      some (args, some idx, none) := by
    by_cases hdn : mergedWidth inter args b ≥ maxSizeArr args ∨ mergedWidth inter args b > T
    · rw [decide_eq_true hdn]; rfl
    · rw [decide_eq_false hdn]
      unfold removeZero
      dsimp only
      rw [if_pos]
      rw [w1, List.length_map, w3]
      exact hr.resolve_left hdn
  have hla : args.map lastAxis = args := by
    conv_rhs => rw [← List.map_id args]
    refine List.map_congr_left fun a ha => ?_
    unfold lastAxis
    rw [← hax a ha]
    rfl
  unfold hessRest
  rw [Option.map_some, if_neg hz, if_pos ⟨rfl, fun a ha => by rw [hax a ha]; rfl⟩, hrem]
  simp only [Option.bind_eq_bind, Option.bind_some, hla, h1, applyMask]
  exact reshape_sqz h2 h3

include hba in
theorem last_aligned (hl : ∀ a ∈ args, LastAxis a b) {a : ArrTrip F × List ℕ} (ha : a ∈ args) :
    otherShape a.1.x.shape a.2 = a.1.x.shape.take b.length ∧ Aligned (a.1.x.shape.take b.length) b := by
  have h := hl a ha
  have e : otherShape a.1.x.shape a.2 = a.1.x.shape.take b.length := by
    obtain ⟨c, hc⟩ : ∃ c, a.1.x.shape.drop b.length = [c] := List.length_eq_one_iff.mp (by rw [List.length_drop, h.rank]; omega)
    have h1 : a.1.x.shape = a.1.x.shape.take b.length ++ [c] := by rw [← hc, List.take_append_drop]
    have h2 : (a.1.x.shape.take b.length).length = b.length := by rw [List.length_take, h.rank]; omega
    have := otherShape_last (a.1.x.shape.take b.length) c
    rw [h2, ← h1] at this
    rw [h.ax, this]
  refine ⟨e, ?_⟩
  have := ((bcast_spec (broadcastShapes_iff.mpr hba)).1 _ (List.mem_map_of_mem ha)).2
  rw [e] at this
  rwa [List.length_take, h.rank, Nat.min_eq_left (by omega), Nat.sub_self, List.drop_zero] at this

/-- The arguments restricted to the kept positions. -/
theorem restrict_all {us : List (List ℕ)} (hus : ∀ u ∈ us, InB u b) (hn : 0 < us.length) {l : List (ArrTrip F × List ℕ)}
    (hl : ∀ a ∈ l, LastAxis a b) (hal : ∀ a ∈ l, Aligned (a.1.x.shape.take b.length) b) :
    ∃ l', (l.mapM fun a => (restrictTrip us b.length a.1).map fun t => (t, a.2)) = some l' ∧
      (∀ a ∈ l'.map lastAxis, TripOk a) ∧
      ((l'.map lastAxis).map fun a => otherShape a.1.x.shape a.2) = l.map (fun a => lead (a.1.x.shape.take b.length) us.length) ∧
      ∀ j < us.length, (l'.map lastAxis).map (sliceAt [us.length] [j]) = l.map (sliceAt b (us.getD j [])) := by
  induction l with
  | nil => exact ⟨[], rfl, by simp, rfl, fun j _ => rfl⟩
  | cons a l ih =>
    obtain ⟨l', i1, i2, i3, i4⟩ := ih (fun x hx => hl x (by simp [hx])) fun x hx => hal x (by simp [hx])
    obtain ⟨t, t1, t2, t3, t4⟩ := restrict_spec hus hn (hl a (by simp)) (hal a (by simp))
    refine ⟨(t, a.2) :: l', by rw [List.mapM_cons, t1, i1]; rfl, ?_, ?_, fun j hj => ?_⟩
    · intro x hx
      rcases List.mem_cons.mp hx with rfl | hx
      · exact t2
      · exact i2 x hx
    · rw [List.map_cons, List.map_cons, List.map_cons, i3, t3]
    · rw [List.map_cons, List.map_cons, List.map_cons, i4 j hj, t4 j hj]

theorem bcast_lead {L : List (List ℕ)} {n : ℕ} (h : ∃ s ∈ L, ∃ d ∈ s, d ≠ 1) : Broadcasts (L.map fun s => lead s n) [n] where
  rank_le s hs := by
    obtain ⟨t, _, rfl⟩ := List.mem_map.mp hs
    unfold lead
    split <;> simp
  rank_eq := by
    obtain ⟨s, hs, h⟩ := h
    exact Or.inr ⟨_, List.mem_map_of_mem hs, by unfold lead; rw [if_pos h]⟩
  compat s hs j := by
    obtain ⟨t, _, rfl⟩ := List.mem_map.mp hs
    unfold lead
    split
    · exact Or.inr rfl
    · exact Or.inl (by simp [dimBack])
  tight j := by
    obtain ⟨s, hs, h⟩ := h
    exact Or.inr ⟨_, List.mem_map_of_mem hs, by unfold lead; rw [if_pos h]⟩

include hba in
/-- With an axis whose size is not 1, some argument is not broadcast along it. -/
theorem some_long (hl : ∀ a ∈ args, LastAxis a b) (h1 : 1 ∉ b) (hbn : b ≠ []) :
    ∃ s ∈ args.map (fun a => a.1.x.shape.take b.length), ∃ d ∈ s, d ≠ 1 := by
  by_contra hc
  push Not at hc
  obtain ⟨d, bs, rfl⟩ := List.exists_cons_of_ne_nil hbn
  apply h1
  have := (bcast_spec (broadcastShapes_iff.mpr hba)).2 0 (by simp) (by
    intro s hs
    obtain ⟨a, ha, rfl⟩ := List.mem_map.mp hs
    have e := (last_aligned hba hl ha).1
    have hlen : (otherShape a.1.x.shape a.2).length = (d :: bs).length := by
      rw [e, List.length_take, (hl a ha).rank]; omega
    rw [hlen, Nat.sub_self, List.replicate_zero, List.nil_append]
    rw [List.getD_eq_getElem _ _ (by rw [hlen]; simp)]
    refine hc _ (List.mem_map_of_mem ha) _ ?_
    rw [← e]
    exact List.getElem_mem _)
  simpa using Or.inl this.symm

include hg hba h0 hne hsp hw in
/-- A dot product with removal of zero entries. -/
theorem hessArr_dot_removed (hl : ∀ a ∈ args, LastAxis a b) (h1 : 1 ∉ b)
    (hj : mergedWidth inter args b < maxSizeArr args ∧ mergedWidth inter args b ≤ T)
    (hn : 2 ≤ (activeAt inter args b).length) (hr : 2 * (activeAt inter args b).length ≤ b.prod) {o : List ℕ}
    (ho : ∀ v, InB v b → (termAt g args [] (some (idxListAt inter args b v)) b v).shape = o) :
    hessArr g inter sparseJHJ true T args [] (b ++ o) = some (ND.ofFn (b ++ o) fun w =>
      if (mergedAt inter args b (w.take b.length)).Nonempty then
        (termAt g args [] (some (idxListAt inter args b (w.take b.length))) b (w.take b.length)).get (w.drop b.length)
      else 0) := by
  have hok : ∀ a ∈ args, TripOk a := fun a ha => (hl a ha).ok
  obtain ⟨idx, hf, hs, hi⟩ := findOutIdxArr_spec inter T hne hok hba (any_sparse hsp)
  have hdn : decide (mergedWidth inter args b ≥ maxSizeArr args ∨ mergedWidth inter args b > T) = false := decide_eq_false (by omega)
  rw [hdn] at hf
  obtain ⟨w1, w2, w3⟩ := where_eq hs hi
  rw [sqz_id h1 rfl] at hs w2
  have hact : ∀ v ∈ activeAt inter args b, InB v b := fun v hv => mem_allIdx.mp (List.mem_filter.mp hv).1
  have w1' : whereIdx (nonzeroMask idx) = activeAt inter args b := by
    rw [w1]
    conv_rhs => rw [← List.map_id (activeAt inter args b)]
    exact List.map_congr_left fun v hv => sqz_id h1 (hact v hv).length_eq
  obtain ⟨us, hus⟩ : ∃ us, us = activeAt inter args b := ⟨_, rfl⟩
  have husnd : us.Nodup := by rw [hus]; exact (nodup_allIdx b).filter _
  rw [← hus] at hn hr hact w1'
  have hbn : b ≠ [] := by
    rintro rfl
    rw [List.prod_nil] at hr
    omega
  obtain ⟨l', r1, r2, r3, r4⟩ := restrict_all hact (by omega) hl fun a ha => (last_aligned hba hl ha).2
  rw [hessArr_start inter T _ hf rfl]
  have hz : ¬ (some (idx.shape.getD 0 0) = some 0) := by
    rw [hs, Option.some.injEq]
    exact Nat.pos_iff_ne_zero.mp hw
  obtain ⟨idx', hidx'⟩ : ∃ idx', idx' = ND.ofFn [idx.shape.getD 0 0, us.length] fun w =>
    idx.get (w.getD 0 0 :: us.getD (w.getD 1 0) []) := ⟨_, rfl⟩
  have hrem : removeZero args (some idx) false = some (l', some idx', some (nonzeroMask idx)) := by
    unfold removeZero
    dsimp only
    rw [if_neg (by rw [w1', w3]; omega), w1', w2, r1, hidx']
    rfl
  have hs' : idx'.shape = mergedWidth inter args b :: sqz [us.length] [us.length] := by
    rw [hidx', ND.shape_ofFn, hs, sqz_id (by simp; omega) rfl]
    rfl
  have hb' : Broadcasts ((l'.map lastAxis).map (fun a => otherShape a.1.x.shape a.2) ++
      ([] : List (ND F × List ℕ)).map fun e => otherShape e.1.shape e.2) [us.length] := by
    rw [List.map_nil, List.append_nil, r3]
    have := bcast_lead (n := us.length) (some_long hba hl h1 hbn)
    rwa [List.map_map] at this
  have hget : ∀ v, InB v [us.length] → ∃ j < us.length, v = [j] := by
    intro v hv
    obtain ⟨j, r, rfl, hj, hr⟩ := hv.cons_right
    obtain rfl := InB.nil_right.mp hr
    exact ⟨j, hj, rfl⟩
  have husj : ∀ j < us.length, InB (us.getD j []) b := by
    intro j hj
    rw [List.getD_eq_getElem _ _ hj]
    exact hact _ (List.getElem_mem hj)
  have hterm : ∀ j < us.length, ∀ il, termAt g (l'.map lastAxis) [] il [us.length] [j] = termAt g args [] il b (us.getD j []) := by
    intro j hj il
    unfold termAt
    rw [r4 j hj]
    rfl
  obtain ⟨R, q1, q2, q3⟩ := vmapHess_some (extras := []) (b := [us.length]) hg r2 (by simp) hb' hs' hw
    (il := fun v => idxListAt inter args b (us.getD (v.getD 0 0) [])) (by
      intro v hv
      obtain ⟨j, hj', rfl⟩ := hget v hv
      refine ⟨idxListAt_length inter args (husj j hj'), fun k hk => ?_⟩
      have e : sqz [us.length] [j] = [j] := sqz_id (by simp; omega) rfl
      rw [e, hidx', ND.get_ofFn _ (List.Forall₂.cons (by rw [hs]; exact hk)
        (List.Forall₂.cons hj' List.Forall₂.nil))]
      have := hi _ (husj j hj') k hk
      rw [sqz_id h1 (husj j hj').length_eq] at this
      exact this) (o := o) (by
      intro v hv
      obtain ⟨j, hj', rfl⟩ := hget v hv
      rw [hterm j hj']
      exact ho _ (husj j hj')) (by simp; omega)
  rw [sqz_id (by simp; omega) rfl] at q2
  have hR : R = ND.ofFn (us.length :: o) fun w => (termAt g args [] (some (idxListAt inter args b (us.getD (w.getD 0 0) []))) b
      (us.getD (w.getD 0 0) [])).get w.tail := by
    refine ND.ext_get q2 fun w hw' => ?_
    rw [q2] at hw'
    obtain ⟨j, w, rfl, hj', hwo⟩ := hw'.cons_right
    have e1 : R.get (j :: w) = (ND.ofFn ([us.length] ++ o) fun w =>
        (termAt g (l'.map lastAxis) [] (some (idxListAt inter args b (us.getD ((w.take 1).getD 0 0) []))) [us.length] (w.take 1)).get
        (w.drop 1)).get (j :: w) := by
      unfold ND.get
      rw [q2, q3]
      rfl
    rw [e1, ND.get_ofFn _ (show InB (j :: w) ([us.length] ++ o) from List.Forall₂.cons hj' hwo),
      ND.get_ofFn _ (show InB (j :: w) (us.length :: o) from List.Forall₂.cons hj' hwo)]
    show (termAt g (l'.map lastAxis) [] _ [us.length] [j]).get w = _
    rw [hterm j hj']
    rfl
  have hmask : setMask (b ++ o) (nonzeroMask idx) R = some (ND.ofFn (b ++ o) fun w =>
      if (mergedAt inter args b (w.take b.length)).Nonempty then
        (termAt g args [] (some (idxListAt inter args b (w.take b.length))) b (w.take b.length)).get (w.drop b.length)
      else 0) := by
    have hRs : R.shape = us.length :: o := q2
    unfold setMask
    rw [w2, if_neg (by simp), w1']
    dsimp only
    rw [List.drop_left, hRs, if_neg]
    · congr 1
      refine ND.ext_get rfl fun w hw' => ?_
      rw [ND.shape_ofFn] at hw'
      rw [ND.get_ofFn _ hw', ND.get_ofFn _ hw']
      have hwb : InB (w.take b.length) b := by
        have := List.forall₂_take b.length hw'
        rwa [List.take_left] at this
      have hwo : InB (w.drop b.length) o := by
        have := List.forall₂_drop b.length hw'
        rwa [List.drop_left] at this
      have hiff : w.take b.length ∈ us ↔ (mergedAt inter args b (w.take b.length)).Nonempty := by
        rw [hus]
        unfold activeAt
        rw [List.mem_filter, mem_allIdx, decide_eq_true_eq]
        exact ⟨fun h => h.2, fun h => ⟨hwb, h⟩⟩
      by_cases hA : (mergedAt inter args b (w.take b.length)).Nonempty
      · rw [if_pos hA, if_pos (hiff.mpr hA)]
        have hlt : us.idxOf (w.take b.length) < us.length := List.idxOf_lt_length_of_mem (hiff.mpr hA)
        have hin : InB (us.idxOf (w.take b.length) :: w.drop b.length) (us.length :: o) := List.Forall₂.cons hlt hwo
        unfold broadcastTo
        rw [ND.get_ofFn _ hin, hRs, Layout.bcoord_self hin, hR, ND.get_ofFn _ hin]
        show (termAt g args [] (some (idxListAt inter args b (us.getD (us.idxOf (w.take b.length)) []))) b
          (us.getD (us.idxOf (w.take b.length)) [])).get (w.drop b.length) = _
        rw [List.getD_eq_getElem _ _ hlt, List.getElem_idxOf hlt]
      · rw [if_neg hA, if_neg fun h => hA (hiff.mp h)]
    · rw [not_not, broadcastShapes_iff]
      refine ⟨?_, Or.inr ⟨_, by simp, rfl⟩, ?_, fun j => Or.inr ⟨_, by simp, rfl⟩⟩
      · intro s hs; simp at hs; rw [hs]
      · intro s hs j; simp at hs; exact Or.inr (by rw [hs])
  unfold hessRest
  rw [Option.map_some, if_neg hz, if_pos ⟨rfl, fun a ha => by rw [(hl a ha).ax]; rfl⟩, hrem]
  simp only [Option.bind_eq_bind, Option.bind_some, q1, applyMask, hmask]
  refine (ND.reshape?_eq _ (b ++ o) rfl).trans ?_
  rfl

end

end Folx.Layout

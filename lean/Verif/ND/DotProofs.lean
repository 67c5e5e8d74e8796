import Verif.ND.Dot
import Verif.ND.LayoutProofs

namespace Folx.Dot
open Vmap Layout

/-! ### Placing coordinates -/

theorem place_length (n : ℕ) (dims coords : List ℕ) : (place n dims coords).length = n := by simp [place]

theorem place_getD {n : ℕ} {dims coords : List ℕ} {d : ℕ} (hd : d < n) :
    (place n dims coords).getD d 0 = coords.getD (dims.idxOf d) 0 := by
  unfold place
  rw [List.getD_eq_getElem _ _ (by simpa using hd)]
  simp

/-- The coordinates along `dims` are the given ones. -/
theorem place_dims {n : ℕ} {dims coords : List ℕ} (hp : dims.Perm (List.range n)) (hl : coords.length = n) :
    dims.map (fun d => (place n dims coords).getD d 0) = coords := by
  have hlen : dims.length = n := by simpa using hp.length_eq
  have hnd : dims.Nodup := hp.nodup_iff.mpr List.nodup_range
  refine List.ext_getElem (by simp [hlen, hl]) fun i h1 h2 => ?_
  have hi : i < dims.length := by simpa using h1
  rw [List.getElem_map, place_getD (ND.perm_lt hp (List.getElem_mem _)), hnd.idxOf_getElem i hi,
    List.getD_eq_getElem _ _ h2]

theorem getD_sizes {s dims : List ℕ} {j : ℕ} (hj : j < dims.length) : (sizes s dims).getD j 0 = s.getD dims[j] 0 := by
  unfold sizes
  rw [List.getD_eq_getElem _ _ (by simpa using hj), List.getElem_map]

theorem place_inB {s dims coords : List ℕ} (hp : dims.Perm (List.range s.length)) (h : InB coords (sizes s dims)) :
    InB (place s.length dims coords) s := by
  refine inB_of_getD (place_length _ _ _) fun k hk => ?_
  have hm : k ∈ dims := hp.mem_iff.mpr (by simpa using hk)
  have hl := List.idxOf_lt_length_iff.mpr hm
  have := h.getD_lt (k := dims.idxOf k) (by simpa [sizes] using hl)
  rw [getD_sizes hl, List.getElem_idxOf] at this
  rw [place_getD hk]
  exact this

/-- A multi-index is determined by its coordinates along a permutation of the dimensions. -/
theorem place_unique {n : ℕ} {dims w : List ℕ} (hp : dims.Perm (List.range n)) (hw : w.length = n) :
    place n dims (dims.map fun d => w.getD d 0) = w := by
  unfold place
  conv_rhs => rw [← map_range_getD w, hw]
  exact List.map_congr_left fun j hj => ND.perm_getD_idxOf hp (by simpa using hj) _

theorem freeOf_perm {n : ℕ} {c b : List ℕ} (hnd : (b ++ c).Nodup) (hlt : ∀ d ∈ b ++ c, d < n) :
    (b ++ freeOf n c b ++ c).Perm (List.range n) := by
  have h1 : (b ++ freeOf n c b ++ c).Perm (freeOf n c b ++ (b ++ c)) := by
    rw [List.append_assoc]
    exact (List.perm_append_comm_assoc _ _ _)
  refine h1.trans ?_
  rw [List.perm_ext_iff_of_nodup]
  · intro a
    simp only [freeOf, List.mem_append, List.mem_filter, List.mem_range, decide_eq_true_eq]
    constructor
    · rintro (h | h)
      · exact h.1
      · exact hlt a (by simpa using h)
    · intro h
      by_cases hm : a ∈ b ∨ a ∈ c
      · exact Or.inr hm
      · exact Or.inl ⟨h, hm⟩
  · rw [List.nodup_append]
    refine ⟨List.nodup_range.filter _, hnd, ?_⟩
    intro a ha b' hb' e
    subst e
    have := (List.mem_filter.mp ha).2
    simp only [decide_eq_true_eq] at this
    exact this hb'
  · exact List.nodup_range

/-! ### `expand` -/

section
variable {α : Type} [Inhabited α]

theorem ravelIdx_ones (s w : List ℕ) (n : ℕ) (h : w.length = s.length) :
    ravelIdx (s ++ List.replicate n 1) (w ++ List.replicate n 0) = ravelIdx s w := by
  rw [ravelIdx_append _ _ _ _ h]
  have : ∀ n, ravelIdx (List.replicate n 1) (List.replicate n 0) = 0 := by
    intro n
    induction n with
    | zero => rfl
    | succ n ih => simp [List.replicate_succ, ravelIdx, ih]
  rw [this]
  simp

theorem get_expand (x : ND α) (n : ℕ) {w : List ℕ} (h : w.length = x.shape.length) :
    (expand x n).get (w ++ List.replicate n 0) = x.get w :=
  ND.get_reshape _ _ _ _ _ (ravelIdx_ones _ _ _ h)

theorem inB_append {a b s t : List ℕ} (h1 : InB a s) (h2 : InB b t) : InB (a ++ b) (s ++ t) := List.rel_append h1 h2

theorem inB_replicate (n : ℕ) : InB (List.replicate n 0) (List.replicate n 1) := by
  induction n with
  | zero => simp
  | succ n ih => simpa [List.replicate_succ] using ih

theorem getD_append_replicate (w : List ℕ) (e v : ℕ) (d : ℕ) :
    d < w.length → (w ++ List.replicate e v).getD d 0 = w.getD d 0 := fun h => List.getD_append _ _ _ _ h

theorem map_range'_getD (w z : List ℕ) (n : ℕ) (hz : z.length = n) (hw : w.length = m) :
    (List.range' m n).map (fun d => (w ++ z).getD d 0) = z := by
  refine List.ext_getElem (by simp [hz]) fun i h1 h2 => ?_
  simp only [List.getElem_map, List.getElem_range', Nat.one_mul]
  rw [List.getD_append_right _ _ _ _ (by omega), hw, Nat.add_sub_cancel_left, List.getD_eq_getElem _ _ h2]

theorem map_getD_append_left {dims w z : List ℕ} (h : ∀ d ∈ dims, d < w.length) :
    dims.map (fun d => (w ++ z).getD d 0) = dims.map fun d => w.getD d 0 :=
  List.map_congr_left fun d hd => List.getD_append _ _ _ _ (h d hd)

/-- The order used by `rearrange` is a permutation of the extended axes. -/
theorem rearrangeOrder_perm {n : ℕ} {c b brd other : List ℕ} {rhs : Bool} (hp : (b ++ brd ++ c).Perm (List.range n)) :
    (rearrangeOrder n c b brd other rhs).Perm (List.range (n + other.length)) := by
  have h0 : List.range (n + other.length) = List.range n ++ List.range' n other.length := by
    rw [List.range_eq_range', List.range_eq_range']
    have := (@List.range'_append_1 0 n other.length).symm
    simpa using this
  rw [h0]
  refine List.Perm.trans ?_ (hp.append_right (List.range' n other.length))
  unfold rearrangeOrder
  dsimp only
  split
  · simp only [List.append_assoc]
    refine List.Perm.append_left b ?_
    refine List.perm_append_comm.trans ?_
    simp [List.append_assoc]
  · simp only [List.append_assoc]
    refine List.Perm.append_left b (List.Perm.append_left brd ?_)
    exact List.perm_append_comm

/-- The middle part of a multi-index of the rearranged array. -/
def mid (rhs : Bool) (l z : List ℕ) : List ℕ := if rhs then z ++ l else l ++ z

theorem mid_length (rhs : Bool) (l z : List ℕ) : (mid rhs l z).length = l.length + z.length := by
  unfold mid
  split <;> simp [Nat.add_comm]

theorem rearrangeOrder_map {n : ℕ} {c b brd other w z : List ℕ} {rhs : Bool} (hp : (b ++ brd ++ c).Perm (List.range n))
    (hw : w.length = n) (hz : z.length = other.length) :
    (rearrangeOrder n c b brd other rhs).map (fun d => (w ++ z).getD d 0) =
      (b.map fun d => w.getD d 0) ++ mid rhs (brd.map fun d => w.getD d 0) z ++ c.map fun d => w.getD d 0 := by
  have hlt : ∀ d ∈ b ++ brd ++ c, d < w.length := fun d hd => by rw [hw]; exact ND.perm_lt hp hd
  have hb := map_getD_append_left (dims := b) (w := w) (z := z) fun d hd => hlt d (by simp [hd])
  have hl := map_getD_append_left (dims := brd) (w := w) (z := z) fun d hd => hlt d (by simp [hd])
  have hc := map_getD_append_left (dims := c) (w := w) (z := z) fun d hd => hlt d (by simp [hd])
  have hn := map_range'_getD w z other.length hz hw
  unfold rearrangeOrder mid
  dsimp only
  cases rhs
  · simp only [Bool.false_eq_true, if_false, List.map_append]
    rw [hb, hl, hc, hn]
    simp
  · simp only [if_true, List.map_append]
    rw [hb, hl, hc, hn]
    simp

omit [Inhabited α] in
theorem ravelIdx_merge (A a C k : List ℕ) (h : a.length = A.length) :
    ravelIdx (A ++ [C.prod]) (a ++ [ravelIdx C k]) = ravelIdx (A ++ C) (a ++ k) := by
  rw [ravelIdx_append _ _ _ _ h, ravelIdx_append _ _ _ _ h]
  simp [ravelIdx]

/-- `rearrange` succeeds; its elements are those of the operand. -/
theorem rearrange_spec (x : ND α) {c b brd other : List ℕ} {rhs : Bool}
    (hp : (b ++ brd ++ c).Perm (List.range x.shape.length)) :
    ∃ z, rearrange x c b brd other rhs = some z ∧
      z.shape = sizes x.shape b ++ mid rhs (sizes x.shape brd) (List.replicate other.length 1) ++
        [(sizes x.shape c).prod] ∧
      ∀ w, InB w x.shape → z.get ((b.map fun d => w.getD d 0) ++
        mid rhs (brd.map fun d => w.getD d 0) (List.replicate other.length 0) ++
          [ravelIdx (sizes x.shape c) (c.map fun d => w.getD d 0)]) = x.get w := by
  set order := rearrangeOrder x.ndim c b brd other rhs with ho
  set y := (expand x other.length).transpose order with hy
  have hsE : (expand x other.length).shape = x.shape ++ List.replicate other.length 1 := rfl
  have hperm : order.Perm (List.range (expand x other.length).shape.length) := by
    rw [hsE, List.length_append, List.length_replicate]
    exact rearrangeOrder_perm hp
  have hys : y.shape = sizes x.shape b ++ mid rhs (sizes x.shape brd) (List.replicate other.length 1) ++ sizes x.shape c := by
    rw [hy, ND.shape_transpose, hsE]
    exact rearrangeOrder_map hp rfl (by simp)
  have hyg : ∀ w, InB w x.shape → y.get ((b.map fun d => w.getD d 0) ++
        mid rhs (brd.map fun d => w.getD d 0) (List.replicate other.length 0) ++ c.map fun d => w.getD d 0) = x.get w := by
    intro w hw
    rw [← get_expand x other.length hw.length_eq, hy,
      ← ND.get_transpose _ hperm (w := w ++ List.replicate other.length 0) (by
        rw [hsE]; exact inB_append hw (inB_replicate _))]
    congr 1
    exact (rearrangeOrder_map hp hw.length_eq (by simp)).symm
  have hlenpre : (sizes x.shape b ++ mid rhs (sizes x.shape brd) (List.replicate other.length 1)).length =
      y.ndim - c.length := by
    unfold ND.ndim
    rw [hys, List.length_append (bs := sizes x.shape c)]
    simp [sizes]
  have htake : y.shape.take (y.ndim - c.length) =
      sizes x.shape b ++ mid rhs (sizes x.shape brd) (List.replicate other.length 1) := by
    rw [← hlenpre, hys, List.take_left]
  have hdrop : y.shape.drop (y.ndim - c.length) = sizes x.shape c := by
    rw [← hlenpre, hys, List.drop_left]
  unfold rearrange
  rw [← ho, ← hy]
  dsimp only
  split
  · rename_i hpos
    rw [htake, hdrop, ND.reshape?_eq _ _ (by rw [hys]; simp)]
    refine ⟨_, rfl, rfl, fun w hw => ?_⟩
    rw [← hyg w hw]
    refine ND.get_reshape _ _ _ _ _ ?_
    rw [hys]
    exact ravelIdx_merge _ _ _ _ (by simp [mid_length, sizes])
  · rename_i hpos
    have hc : c = [] := by
      cases c with
      | nil => rfl
      | cons => simp at hpos
    subst hc
    refine ⟨_, rfl, ?_, fun w hw => ?_⟩
    · show y.shape ++ [1] = _
      rw [hys]
      simp [sizes]
    · rw [← hyg w hw]
      have := get_expand y 1 (w := (b.map fun d => w.getD d 0) ++
        mid rhs (brd.map fun d => w.getD d 0) (List.replicate other.length 0) ++ ([] : List ℕ).map fun d => w.getD d 0) (by
          rw [hys]; simp [mid_length, sizes])
      rw [← this]
      congr 1
      simp [sizes, ravelIdx]

end

end Folx.Dot

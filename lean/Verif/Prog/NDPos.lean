import Verif.ND.DotFast
import Verif.Prog.Kinds

/-!
# Arrays with shapes and arrays as functions of positions

The rules of the interpreter are modelled on functions of row-major positions; the index bookkeeping of shapes
(transposition, broadcasting, reduction along axes) becomes maps between positions.
-/

namespace Folx

open Vmap Layout Dot

section
variable {α β : Type} [Inhabited α] [Inhabited β]

/-- An array given by its row-major elements. -/
def toND {α : Type} (s : List ℕ) (x : Fin s.prod → α) : ND α := ⟨s, List.ofFn x, by simp⟩

/-- The row-major elements of an array (of at least `m` elements). -/
def vecOf (z : ND α) (m : ℕ) : Fin m → α := fun q => z.data.getD q default

omit [Inhabited α] in
@[simp] theorem toND_shape (s : List ℕ) (x : Fin s.prod → α) : (toND s x).shape = s := rfl

theorem toND_get (s : List ℕ) (x : Fin s.prod → α) {w : List ℕ} (h : InB w s) :
    (toND s x).get w = x ⟨ravelIdx s w, ravelIdx_lt h⟩ := by
  unfold ND.get toND
  dsimp only
  rw [List.getD_eq_getElem _ _ (by simpa using ravelIdx_lt h), List.getElem_ofFn]

theorem toND_vecOf (z : ND α) (s : List ℕ) (h : z.shape = s) : toND s (vecOf z s.prod) = z := by
  refine ND.ext' h.symm (List.ext_getElem (by simp [toND, z.wf, h]) fun i h1 h2 => ?_)
  simp only [toND, List.getElem_ofFn, vecOf]
  exact List.getD_eq_getElem _ _ h2

theorem vecOf_toND (s : List ℕ) (x : Fin s.prod → α) : vecOf (toND s x) s.prod = x := by
  funext q
  unfold vecOf toND
  dsimp only
  rw [List.getD_eq_getElem _ _ (by simp), List.getElem_ofFn]

theorem vecOf_get (z : ND α) (s : List ℕ) (h : z.shape = s) (q : Fin s.prod) :
    vecOf z s.prod q = z.get (unravelIdx s q) := by
  unfold vecOf ND.get
  rw [h, ravelIdx_unravelIdx q.2]

/-- The array of positions: `arange(size).reshape(s)`. -/
def iota (s : List ℕ) : ND ℕ := ⟨s, List.range s.prod, by simp⟩

/-- Position `v`, or the first one if there is none. -/
def finOr (m : ℕ) (hm : 0 < m) (v : ℕ) : Fin m := if h : v < m then ⟨v, h⟩ else ⟨0, hm⟩

theorem finOr_of_lt {m : ℕ} {hm : 0 < m} {v : ℕ} (h : v < m) : finOr m hm v = ⟨v, h⟩ := by
  unfold finOr
  rw [dif_pos h]

/-! ### Rearrangements commute with maps -/

theorem ND.map_get {γ : Type} [Inhabited γ] (x : ND γ) (f : γ → α) {w : List ℕ} (h : InB w x.shape) :
    (x.map f).get w = f (x.get w) := by
  have hlt := ravelIdx_lt h
  unfold ND.get ND.map
  dsimp only
  rw [List.getD_eq_getElem _ _ (by simpa [x.wf] using hlt), List.getElem_map,
    List.getD_eq_getElem _ _ (by simpa [x.wf] using hlt)]

theorem transpose_map (x : ND β) (f : β → α) {order : List ℕ} (hp : order.Perm (List.range x.shape.length)) :
    (x.map f).transpose order = (x.transpose order).map f := by
  refine ND.ext_get rfl fun w hw => ?_
  have hw' : InB w (x.transpose order).shape := hw
  rw [ND.map_get _ _ hw']
  have h1 : InB w (order.map fun a => (x.map f).shape.getD a 0) := hw
  have h2 : InB w (order.map fun a => x.shape.getD a 0) := hw
  unfold ND.transpose
  rw [ND.get_ofFn _ h1, ND.get_ofFn _ h2]
  exact ND.map_get _ _ (place_inB hp h2)

theorem rearrange_map (x : ND β) (f : β → α) {c b brd other : List ℕ} {rhs : Bool}
    (hp : (b ++ brd ++ c).Perm (List.range x.shape.length)) :
    rearrange (x.map f) c b brd other rhs = (rearrange x c b brd other rhs).map fun z => z.map f := by
  unfold rearrange
  have h1 : expand (x.map f) other.length = (expand x other.length).map f := rfl
  have hperm : (rearrangeOrder x.ndim c b brd other rhs).Perm (List.range (expand x other.length).shape.length) := by
    have : (expand x other.length).shape.length = x.shape.length + other.length := by
      show (x.shape ++ List.replicate other.length 1).length = _
      simp
    rw [this]
    exact rearrangeOrder_perm hp
  have h2 := transpose_map (expand x other.length) f hperm
  have h3 : (x.map f).ndim = x.ndim := rfl
  dsimp only
  rw [h3, h1, h2]
  split
  · unfold ND.reshape?
    have e1 : ∀ z : ND β, (z.map f).shape = z.shape := fun _ => rfl
    have e2 : ∀ z : ND β, (z.map f).ndim = z.ndim := fun _ => rfl
    simp only [e1, e2]
    split
    · rfl
    · rfl
  · rfl

/-- Gathering by a rearrangement evaluated on the positions. -/
def gatherOf (z : Option (ND ℕ)) (m : ℕ) (hm : 0 < m) (q : ℕ) : Fin m :=
  finOr m hm ((z.map fun z => z.data.getD q 0).getD 0)

theorem toND_eq_map (s : List ℕ) (x : Fin s.prod → α) :
    toND s x = (iota s).map fun k => if h : k < s.prod then x ⟨k, h⟩ else default := by
  refine ND.ext' rfl (List.ext_getElem (by simp [toND, ND.map, iota]) fun i h1 h2 => ?_)
  have hi : i < s.prod := by simpa [toND] using h1
  simp only [toND, ND.map, iota, List.getElem_ofFn, List.getElem_map, List.getElem_range]
  rw [dif_pos hi]

theorem rearrange_gather (s : List ℕ) (hs : 0 < s.prod) (x : Fin s.prod → α) {c b brd other : List ℕ} {rhs : Bool}
    (hp : (b ++ brd ++ c).Perm (List.range s.length)) {z : ND α}
    (hz : rearrange (toND s x) c b brd other rhs = some z) :
    z = toND z.shape fun q => x (gatherOf (rearrange (iota s) c b brd other rhs) s.prod hs q) := by
  rw [toND_eq_map, rearrange_map (iota s) _ hp] at hz
  obtain ⟨zi, hzi, rfl⟩ := Option.map_eq_some_iff.mp hz
  refine ND.ext' rfl (List.ext_getElem (by simp [toND, ND.map, zi.wf]) fun i h1 h2 => ?_)
  have hi : i < zi.data.length := by simpa [ND.map] using h1
  obtain ⟨z', hz', hsh, hget⟩ := rearrange_spec (iota s) (rhs := rhs) (other := other) hp
  obtain rfl : z' = zi := Option.some.inj (hz'.symm.trans hzi)
  simp only [toND, ND.map, List.getElem_ofFn, List.getElem_map, gatherOf, hzi, Option.map_some, Option.getD_some]
  rw [List.getD_eq_getElem _ _ hi]
  -- the gathered positions are valid
  have hlt : z'.data[i] < s.prod := by
    have hmem : ∀ (y : ND ℕ), (∀ k ∈ y.data, k < s.prod) → ∀ z, rearrange y c b brd other rhs = some z →
        y.shape = s → ∀ k ∈ z.data, k < s.prod := by
      intro y hy z hz hys k hk
      have hE : ∀ k ∈ (expand y other.length).data, k < s.prod := hy
      have hT : ∀ k ∈ ((expand y other.length).transpose (rearrangeOrder y.ndim c b brd other rhs)).data, k < s.prod := by
        intro k hk
        unfold ND.transpose ND.ofFn at hk
        obtain ⟨j, -, rfl⟩ := List.mem_map.mp hk
        unfold ND.get
        dsimp only
        rw [List.getD_eq_getElem?_getD]
        cases h : (expand y other.length).data[ravelIdx (expand y other.length).shape _]? with
        | none => exact hs
        | some v => exact hE v (List.mem_of_getElem? h)
      unfold rearrange at hz
      dsimp only at hz
      split at hz
      · unfold ND.reshape? at hz
        split at hz
        · have := Option.some.inj hz
          subst this
          exact hT k hk
        · simp at hz
      · have := Option.some.inj hz
        subst this
        exact hT k hk
    exact hmem (iota s) (by simp [iota]) z' hzi rfl _ (List.getElem_mem _)
  rw [finOr_of_lt hlt, dif_pos hlt]

end

/-! ### Broadcasting -/

/-- numpy broadcasting: the position of an array of shape `s` read at a position of the shape `t`. -/
def bpos (s t : List ℕ) (hs : 0 < s.prod) (q : Fin t.prod) : Fin s.prod :=
  finOr s.prod hs (ravelIdx s (bcoord s t (unravelIdx t q)))

theorem prod_pos_of {s : List ℕ} (h : 0 < s.prod) : ∀ a ∈ s, 0 < a := fun a ha =>
  Nat.pos_of_ne_zero fun h0 => by
    have : s.prod = 0 := List.prod_eq_zero_iff.mpr (h0 ▸ ha)
    omega

theorem broadcasts_aligned {shapes : List (List ℕ)} {b : List ℕ} (h : Broadcasts shapes b) {s : List ℕ} (hs : s ∈ shapes) :
    s.length ≤ b.length ∧ Aligned s (b.drop (b.length - s.length)) :=
  (bcast_spec (broadcastShapes_iff.mpr h)).1 s hs

theorem bpos_eq {shapes : List (List ℕ)} {b s : List ℕ} (h : Broadcasts shapes b) (hs : s ∈ shapes) (hpos : 0 < s.prod)
    (q : Fin b.prod) : ∃ hin : InB (bcoord s b (unravelIdx b q)) s,
      bpos s b hpos q = ⟨ravelIdx s (bcoord s b (unravelIdx b q)), ravelIdx_lt hin⟩ := by
  obtain ⟨h1, h2⟩ := broadcasts_aligned h hs
  have hin := inB_bcoord h1 h2 (inB_unravelIdx q.2)
  exact ⟨hin, finOr_of_lt (ravelIdx_lt hin)⟩

/-- Every element of a broadcast operand is used. -/
theorem bpos_surjective {shapes : List (List ℕ)} {b s : List ℕ} (h : Broadcasts shapes b) (hs : s ∈ shapes)
    (hpos : 0 < s.prod) (hb : 0 < b.prod) : Function.Surjective (bpos s b hpos) := by
  intro p
  obtain ⟨h1, h2⟩ := broadcasts_aligned h hs
  set c := unravelIdx s p with hc
  have hcin : InB c s := inB_unravelIdx p.2
  set w := List.replicate (b.length - s.length) 0 ++ c with hw
  have hlen : w.length = b.length := by rw [hw]; simp [hcin.length_eq]; omega
  have hwin : InB w b := by
    refine inB_of_getD hlen fun k hk => ?_
    have hkpos : 0 < b.getD k 0 := by
      rw [List.getD_eq_getElem _ _ hk]
      exact prod_pos_of hb _ (List.getElem_mem _)
    by_cases hk2 : k < b.length - s.length
    · rw [hw, List.getD_append _ _ _ _ (by simpa using hk2), List.getD_eq_getElem _ _ (by simpa using hk2),
        List.getElem_replicate]
      exact hkpos
    · rw [hw, List.getD_append_right _ _ _ _ (by simp; omega), List.length_replicate]
      have hj : k - (b.length - s.length) < s.length := by omega
      have hlt := hcin.getD_lt hj
      have hj2 : k - (b.length - s.length) < (b.drop (b.length - s.length)).length := by simp; omega
      have h3 := (List.forall₂_iff_get.mp h2).2 _ hj hj2
      simp only [List.get_eq_getElem, List.getElem_drop] at h3
      rw [List.getD_eq_getElem s _ hj] at hlt
      have e : b.length - s.length + (k - (b.length - s.length)) = k := by omega
      rcases h3 with h3 | h3
      · omega
      · rw [List.getD_eq_getElem b _ hk]
        have : b[b.length - s.length + (k - (b.length - s.length))]'(by omega) = b[k] := by simp only [e]
        rw [← this]
        omega
  have hbc : bcoord s b w = c := by
    unfold bcoord
    conv_rhs => rw [← map_range_getD c, hcin.length_eq]
    refine List.map_congr_left fun i hi => ?_
    have hi' : i < s.length := by simpa using hi
    split
    · have := hcin.getD_lt hi'
      omega
    · rw [hw, List.getD_append_right _ _ _ _ (by simp), List.length_replicate, Nat.add_sub_cancel_left]
  refine ⟨⟨ravelIdx b w, ravelIdx_lt hwin⟩, ?_⟩
  unfold bpos
  rw [unravelIdx_ravelIdx hwin, hbc, hc, ravelIdx_unravelIdx p.2]
  exact finOr_of_lt p.2

theorem bpos_self {s : List ℕ} (hpos : 0 < s.prod) (q : Fin s.prod) : bpos s s hpos q = q := by
  unfold bpos
  rw [bcoord_self (inB_unravelIdx q.2), ravelIdx_unravelIdx q.2]
  exact finOr_of_lt q.2

theorem broadcasts_pos {s t b : List ℕ} (h : Broadcasts [s, t] b) (hs : 0 < s.prod) (ht : 0 < t.prod) : 0 < b.prod := by
  refine List.prod_pos fun a ha => ?_
  obtain ⟨i, hi, rfl⟩ := List.getElem_of_mem ha
  have key := h.tight (b.length - 1 - i)
  have e : b.length - 1 - (b.length - 1 - i) = i := by omega
  have hb : dimBack b (b.length - 1 - i) = b[i] := by
    rw [dimBack_eq, if_pos (by omega), e, List.getD_eq_getElem]
  rw [hb] at key
  rcases key with h1 | ⟨u, hu, h1⟩
  · omega
  · rw [← h1, dimBack_eq]
    split
    · rename_i hlt
      have hm : u.getD (u.length - 1 - (b.length - 1 - i)) 0 ∈ u := by
        rw [List.getD_eq_getElem _ _ (by omega)]
        exact List.getElem_mem _
      simp only [List.mem_cons, List.not_mem_nil, or_false] at hu
      rcases hu with rfl | rfl
      · exact prod_pos_of hs _ hm
      · exact prod_pos_of ht _ hm
    · omega

/-! ### Splitting positions along axes -/

theorem sizes_split {s kept dims w : List ℕ} (hp : (kept ++ dims).Perm (List.range s.length)) (hw : InB w s) :
    InB (kept.map fun d => w.getD d 0) (sizes s kept) ∧ InB (dims.map fun d => w.getD d 0) (sizes s dims) := by
  have h := ND.inB_map_order hp hw
  rw [List.map_append, List.map_append] at h
  have := inB_split h
  simp only [List.length_map] at this
  rw [List.take_left' (by simp), List.drop_left' (by simp)] at this
  exact this

/-- A position of an array of shape `s` as position among the kept axes and position among the others. -/
def axesSplit (s kept dims : List ℕ) (hp : (kept ++ dims).Perm (List.range s.length)) :
    Fin s.prod ≃ Fin (sizes s kept).prod × Fin (sizes s dims).prod where
  toFun p := (⟨ravelIdx (sizes s kept) (kept.map fun d => (unravelIdx s p).getD d 0),
      ravelIdx_lt (sizes_split hp (inB_unravelIdx p.2)).1⟩,
    ⟨ravelIdx (sizes s dims) (dims.map fun d => (unravelIdx s p).getD d 0),
      ravelIdx_lt (sizes_split hp (inB_unravelIdx p.2)).2⟩)
  invFun a := ⟨ravelIdx s (place s.length (kept ++ dims) (unravelIdx (sizes s kept) a.1 ++ unravelIdx (sizes s dims) a.2)),
    ravelIdx_lt (place_inB hp (by
      rw [sizes_append]; exact inB_append (inB_unravelIdx a.1.2) (inB_unravelIdx a.2.2)))⟩
  left_inv p := by
    apply Fin.ext
    dsimp only
    have hin := inB_unravelIdx (s := s) p.2
    rw [unravelIdx_ravelIdx (sizes_split hp hin).1, unravelIdx_ravelIdx (sizes_split hp hin).2, ← List.map_append,
      place_unique hp hin.length_eq, ravelIdx_unravelIdx p.2]
  right_inv a := by
    obtain ⟨a, c⟩ := a
    dsimp only
    have ha := inB_unravelIdx (s := sizes s kept) a.2
    have hc := inB_unravelIdx (s := sizes s dims) c.2
    have hin : InB (unravelIdx (sizes s kept) a ++ unravelIdx (sizes s dims) c) (sizes s (kept ++ dims)) := by
      rw [sizes_append]; exact inB_append ha hc
    have hpl := place_inB hp hin
    have hd := place_dims hp (coords := unravelIdx (sizes s kept) a ++ unravelIdx (sizes s dims) c) (by
      rw [hin.length_eq, sizes_length, hp.length_eq, List.length_range])
    rw [List.map_append] at hd
    obtain ⟨h1, h2⟩ := List.append_inj hd (by rw [List.length_map, ha.length_eq, sizes_length])
    rw [Prod.mk.injEq]
    constructor
    · apply Fin.ext
      dsimp only
      rw [unravelIdx_ravelIdx hpl, h1, ravelIdx_unravelIdx a.2]
    · apply Fin.ext
      dsimp only
      rw [unravelIdx_ravelIdx hpl, h2, ravelIdx_unravelIdx c.2]

theorem keptDims_perm {n : ℕ} {dims : List ℕ} (hnd : dims.Nodup) (hlt : ∀ d ∈ dims, d < n) :
    (keptDims n dims ++ dims).Perm (List.range n) := by
  have := freeOf_perm (n := n) (c := dims) (b := []) (by simpa using hnd) (by simpa using hlt)
  simpa [keptDims, freeOf] using this

theorem sum_range_fin {F : Type} [AddCommMonoid F] (n : ℕ) (f : ℕ → F) :
    ((List.range n).map f).sum = ∑ i : Fin n, f i := by
  rw [← Finset.sum_range]
  rfl

/-- Summation along axes, by positions. -/
theorem sumDims_toND {F : Type} [AddCommMonoid F] [Inhabited F] (s dims : List ℕ)
    (hp : (keptDims s.length dims ++ dims).Perm (List.range s.length)) (x : Fin s.prod → F) :
    sumDims (toND s x) dims = toND (sizes s (keptDims s.length dims)) fun q =>
      ∑ c, x ((axesSplit s _ dims hp).symm (q, c)) := by
  refine ND.ext_get rfl fun w hw => ?_
  have hw' : InB w (sizes s (keptDims s.length dims)) := hw
  rw [toND_get _ _ hw']
  unfold sumDims
  have hw2 : InB w (sizes (toND s x).shape (keptDims (toND s x).ndim dims)) := hw
  rw [ND.get_ofFn _ hw2, sum_allIdx, sum_range_fin]
  refine Finset.sum_congr rfl fun c _ => ?_
  have hin : InB (w ++ unravelIdx (sizes s dims) c) (sizes s (keptDims s.length dims ++ dims)) := by
    rw [sizes_append]; exact inB_append hw' (inB_unravelIdx c.2)
  have hpl := place_inB hp hin
  refine (toND_get s x hpl).trans ?_
  congr 1
  apply Fin.ext
  show _ = ravelIdx s (place s.length _ (unravelIdx _ (ravelIdx _ w) ++ _))
  rw [unravelIdx_ravelIdx hw']

/-- Broadcasting multiplication, by positions. -/
theorem mulB_toND {F : Type} [Mul F] [Inhabited F] {s t b : List ℕ} (h : Broadcasts [s, t] b) (hs : 0 < s.prod)
    (ht : 0 < t.prod) (x : Fin s.prod → F) (y : Fin t.prod → F) :
    mulB (toND s x) (toND t y) = some (toND b fun q => x (bpos s b hs q) * y (bpos t b ht q)) := by
  unfold mulB
  have : broadcastShapes [(toND s x).shape, (toND t y).shape] = some b := broadcastShapes_iff.mpr h
  rw [this, Option.map_some]
  congr 1
  refine ND.ext_get rfl fun w hw => ?_
  have hw' : InB w b := hw
  rw [ND.get_ofFn _ hw', toND_get _ _ hw']
  obtain ⟨i1, e1⟩ := bpos_eq h (s := s) (by simp) hs ⟨ravelIdx b w, ravelIdx_lt hw'⟩
  obtain ⟨i2, e2⟩ := bpos_eq h (s := t) (by simp) ht ⟨ravelIdx b w, ravelIdx_lt hw'⟩
  rw [e1, e2]
  dsimp only at i1 i2 ⊢
  rw [unravelIdx_ravelIdx hw'] at i1 i2
  simp only [unravelIdx_ravelIdx hw', toND_shape]
  rw [toND_get _ _ i1, toND_get _ _ i2]

end Folx

import Verif.ND.DotProofs

namespace Folx.Dot
open Vmap Layout

/-! ### Broadcasting of equally many dimensions -/

theorem dimBack_eq (s : List ℕ) (j : ℕ) : dimBack s j = if j < s.length then s.getD (s.length - 1 - j) 0 else 1 := by
  unfold dimBack
  split
  · rename_i h
    rw [List.getD_eq_getElem _ _ (by simpa using h), List.getElem_reverse, List.getD_eq_getElem]
  · rename_i h
    rw [List.getD_eq_default _ _ (by simpa using h)]

theorem broadcasts_of_pointwise {l r b : List ℕ} (hl : l.length = b.length) (hr : r.length = b.length)
    (h : ∀ i < b.length, (l.getD i 0 = 1 ∨ l.getD i 0 = b.getD i 0) ∧ (r.getD i 0 = 1 ∨ r.getD i 0 = b.getD i 0) ∧
      (b.getD i 0 = 1 ∨ l.getD i 0 = b.getD i 0 ∨ r.getD i 0 = b.getD i 0)) : Broadcasts [l, r] b where
  rank_le := by simp [hl, hr]
  rank_eq := Or.inr ⟨l, by simp, hl⟩
  compat := by
    intro s hs j
    rw [dimBack_eq, dimBack_eq]
    simp only [List.mem_cons, List.not_mem_nil, or_false] at hs
    rcases hs with rfl | rfl
    · rw [hl]
      split
      · exact (h _ (by omega)).1
      · exact Or.inl rfl
    · rw [hr]
      split
      · exact (h _ (by omega)).2.1
      · exact Or.inl rfl
  tight := by
    intro j
    rw [dimBack_eq b]
    split
    · rename_i hj
      rcases (h (b.length - 1 - j) (by omega)).2.2 with h1 | h1 | h1
      · exact Or.inl h1
      · refine Or.inr ⟨l, by simp, ?_⟩
        rw [dimBack_eq, hl, if_pos hj, h1]
      · refine Or.inr ⟨r, by simp, ?_⟩
        rw [dimBack_eq, hr, if_pos hj, h1]
    · exact Or.inl rfl

theorem bcoord_block {s1 s2 t1 t2 i1 i2 : List ℕ} (h1 : s1.length = t1.length) (h2 : s2.length = t2.length)
    (h3 : i1.length = t1.length) :
    bcoord (s1 ++ s2) (t1 ++ t2) (i1 ++ i2) = bcoord s1 t1 i1 ++ bcoord s2 t2 i2 := by
  unfold bcoord
  simp only [List.length_append, h1, h2, Nat.sub_self, Nat.zero_add]
  rw [List.range_add, List.map_append, List.map_map]
  congr 1
  · refine List.map_congr_left fun i hi => ?_
    have hi' : i < t1.length := by simpa using hi
    rw [List.getD_append _ _ _ _ (by omega), List.getD_append _ _ _ _ (by omega)]
  · refine List.map_congr_left fun i hi => ?_
    simp only [Function.comp]
    rw [List.getD_append_right _ _ _ _ (by omega), List.getD_append_right _ _ _ _ (by omega), h1, h3,
      Nat.add_sub_cancel_left]

theorem bcoord_self {s i : List ℕ} (h : InB i s) : bcoord s s i = i := by
  unfold bcoord
  conv_rhs => rw [← map_range_getD i, h.length_eq]
  refine List.map_congr_left fun j hj => ?_
  have hj' : j < s.length := by simpa using hj
  simp only [Nat.sub_self, Nat.zero_add]
  split
  · have := h.getD_lt hj'
    omega
  · rfl

theorem bcoord_ones (n : ℕ) (t i : List ℕ) : bcoord (List.replicate n 1) t i = List.replicate n 0 := by
  unfold bcoord
  refine List.ext_getElem (by simp) fun j h1 h2 => ?_
  have hj : j < n := by simpa using h1
  simp only [List.getElem_map, List.getElem_range, List.getElem_replicate]
  rw [if_pos]
  rw [List.getD_eq_getElem _ _ (by simpa using hj), List.getElem_replicate]

/-- Broadcasting of shapes with equally many dimensions, dimension by dimension. -/
inductive PW : List ℕ → List ℕ → List ℕ → Prop
  | nil : PW [] [] []
  | cons {a c d : ℕ} {l r b : List ℕ} (h1 : a = 1 ∨ a = d) (h2 : c = 1 ∨ c = d) (h3 : d = 1 ∨ a = d ∨ c = d)
      (h : PW l r b) : PW (a :: l) (c :: r) (d :: b)

theorem PW.append {l r b l' r' b' : List ℕ} (h : PW l r b) (h' : PW l' r' b') : PW (l ++ l') (r ++ r') (b ++ b') := by
  induction h with
  | nil => exact h'
  | cons h1 h2 h3 _ ih => exact .cons h1 h2 h3 ih

theorem PW.refl (s : List ℕ) : PW s s s := by
  induction s with
  | nil => exact .nil
  | cons a s ih => exact .cons (.inr rfl) (.inr rfl) (.inr (.inl rfl)) ih

theorem PW.right_ones (s : List ℕ) : PW s (List.replicate s.length 1) s := by
  induction s with
  | nil => exact .nil
  | cons a s ih => exact .cons (.inr rfl) (.inl rfl) (.inr (.inl rfl)) ih

theorem PW.left_ones (s : List ℕ) : PW (List.replicate s.length 1) s s := by
  induction s with
  | nil => exact .nil
  | cons a s ih => exact .cons (.inl rfl) (.inr rfl) (.inr (.inr rfl)) ih

theorem PW.broadcasts {l r b : List ℕ} (h : PW l r b) : Broadcasts [l, r] b := by
  have hl : l.length = b.length ∧ r.length = b.length := by
    induction h with
    | nil => exact ⟨rfl, rfl⟩
    | cons _ _ _ _ ih => exact ⟨by simp [ih.1], by simp [ih.2]⟩
  refine broadcasts_of_pointwise hl.1 hl.2 ?_
  clear hl
  induction h with
  | nil => intro i hi; simp at hi
  | cons h1 h2 h3 _ ih =>
    intro i hi
    cases i with
    | zero => exact ⟨h1, h2, h3⟩
    | succ i => exact ih i (by simpa using hi)

/-- Shapes `A ++ B ++ 1…`, `A ++ 1… ++ C` broadcast to `A ++ B ++ C`. -/
theorem broadcasts_lead (A B C : List ℕ) : Broadcasts [A ++ B ++ List.replicate C.length 1,
    A ++ List.replicate B.length 1 ++ C] (A ++ B ++ C) :=
  (((PW.refl A).append (PW.right_ones B)).append (PW.left_ones C)).broadcasts

/-- The same with a common last axis. -/
theorem broadcasts_lead_last (A B C : List ℕ) (d : ℕ) : Broadcasts [A ++ B ++ List.replicate C.length 1 ++ [d],
    A ++ List.replicate B.length 1 ++ C ++ [d]] (A ++ B ++ C ++ [d]) :=
  ((((PW.refl A).append (PW.right_ones B)).append (PW.left_ones C)).append (PW.refl [d])).broadcasts

/-! ### The rearranged operands -/

section
variable {α : Type} [Inhabited α]

theorem freeOf_lt {n : ℕ} {c b : List ℕ} : ∀ d ∈ freeOf n c b, d < n := fun d hd => by
  simpa using (List.mem_filter.mp hd).1

theorem sizes_length (s dims : List ℕ) : (sizes s dims).length = dims.length := by simp [sizes]

theorem sizes_append (s a b : List ℕ) : sizes s (a ++ b) = sizes s a ++ sizes s b := by simp [sizes]

/-- Splitting the coordinates of a placed multi-index. -/
theorem place_split {n : ℕ} {A B C a b c : List ℕ} (hp : (A ++ B ++ C).Perm (List.range n)) (ha : a.length = A.length)
    (hb : b.length = B.length) (hc : c.length = C.length) :
    (A.map fun d => (place n (A ++ B ++ C) (a ++ b ++ c)).getD d 0) = a ∧
    (B.map fun d => (place n (A ++ B ++ C) (a ++ b ++ c)).getD d 0) = b ∧
    (C.map fun d => (place n (A ++ B ++ C) (a ++ b ++ c)).getD d 0) = c := by
  have hlen : (A ++ B ++ C).length = n := by simpa using hp.length_eq
  have h := place_dims hp (coords := a ++ b ++ c) (by rw [← hlen]; simp [ha, hb, hc])
  rw [List.map_append, List.map_append] at h
  obtain ⟨h1, h2⟩ := List.append_inj h (by simp [ha, hb])
  obtain ⟨h3, h4⟩ := List.append_inj h1 (by simp [ha])
  exact ⟨h3, h4, h2⟩

theorem left_spec (dd : DotDims) {x : ND α} {rs : List ℕ} (h : dd.Ok x.shape rs) :
    ∃ z, left dd rs.length x = some z ∧ z.shape = leftShape dd x.shape rs ∧
      ∀ b l k, InB b (sizes x.shape dd.lb) → InB l (sizes x.shape (freeOf x.shape.length dd.lc dd.lb)) →
        InB k (sizes x.shape dd.lc) →
        z.get (b ++ l ++ List.replicate (freeOf rs.length dd.rc dd.rb).length 0 ++ [ravelIdx (sizes x.shape dd.lc) k]) =
          x.get (place x.shape.length (dd.lb ++ freeOf x.shape.length dd.lc dd.lb ++ dd.lc) (b ++ l ++ k)) := by
  have hp := freeOf_perm h.lnodup h.llt
  obtain ⟨z, h1, h2, h3⟩ := rearrange_spec x (rhs := false) (other := freeOf rs.length dd.rc dd.rb) hp
  refine ⟨z, h1, ?_, fun b l k hb hl hk => ?_⟩
  · rw [h2]
    simp [leftShape, mid]
  · have hw := place_inB hp (coords := b ++ l ++ k) (by
      rw [sizes_append, sizes_append]; exact inB_append (inB_append hb hl) hk)
    have hs := place_split hp (a := b) (b := l) (c := k) (by rw [hb.length_eq, sizes_length])
      (by rw [hl.length_eq, sizes_length]) (by rw [hk.length_eq, sizes_length])
    have := h3 _ hw
    rw [hs.1, hs.2.1, hs.2.2] at this
    simpa [mid] using this

theorem right_spec (dd : DotDims) {y : ND α} {ls : List ℕ} (h : dd.Ok ls y.shape) :
    ∃ z, right dd ls.length y = some z ∧ z.shape = rightShape dd ls y.shape ∧
      ∀ b r k, InB b (sizes y.shape dd.rb) → InB r (sizes y.shape (freeOf y.shape.length dd.rc dd.rb)) →
        InB k (sizes y.shape dd.rc) →
        z.get (b ++ List.replicate (freeOf ls.length dd.lc dd.lb).length 0 ++ r ++ [ravelIdx (sizes y.shape dd.rc) k]) =
          y.get (place y.shape.length (dd.rb ++ freeOf y.shape.length dd.rc dd.rb ++ dd.rc) (b ++ r ++ k)) := by
  have hp := freeOf_perm h.rnodup h.rlt
  obtain ⟨z, h1, h2, h3⟩ := rearrange_spec y (rhs := true) (other := freeOf ls.length dd.lc dd.lb) hp
  refine ⟨z, h1, ?_, fun b l k hb hl hk => ?_⟩
  · rw [h2]
    simp [rightShape, mid]
  · have hw := place_inB hp (coords := b ++ l ++ k) (by
      rw [sizes_append, sizes_append]; exact inB_append (inB_append hb hl) hk)
    have hs := place_split hp (a := b) (b := l) (c := k) (by rw [hb.length_eq, sizes_length])
      (by rw [hl.length_eq, sizes_length]) (by rw [hk.length_eq, sizes_length])
    have := h3 _ hw
    rw [hs.1, hs.2.1, hs.2.2] at this
    simpa [mid] using this

end

/-- Splitting a multi-index of a concatenated shape. -/
theorem inB_split {A B w : List ℕ} (h : InB w (A ++ B)) :
    InB (w.take A.length) A ∧ InB (w.drop A.length) B := by
  constructor
  · have := List.forall₂_take A.length h
    rwa [List.take_left] at this
  · have := List.forall₂_drop A.length h
    rwa [List.drop_left] at this

section
variable {F : Type} [AddMonoid F] [Mul F] [Inhabited F]

omit [Mul F] [Inhabited F] in
/-- Sums over one axis of merged dimensions. -/
theorem sum_allIdx (s : List ℕ) (f : List ℕ → F) :
    ((allIdx s).map f).sum = ((List.range s.prod).map fun k => f (unravelIdx s k)).sum := by
  unfold allIdx
  rw [List.map_map]
  rfl

/-- The element of the contraction at a multi-index, from the rearranged operands. -/
theorem element_eq (dd : DotDims) {x y : ND F} (h : dd.Ok x.shape y.shape) {zl zr : ND F}
    (hl : left dd y.shape.length x = some zl) (hr : right dd x.shape.length y = some zr) {w : List ℕ}
    (hw : InB w (outShape dd x.shape y.shape)) :
    ((List.range (sizes x.shape dd.lc).prod).map fun k =>
      zl.get (bcoord (leftShape dd x.shape y.shape).dropLast (outShape dd x.shape y.shape) w ++ [k]) *
      zr.get (bcoord (rightShape dd x.shape y.shape).dropLast (outShape dd x.shape y.shape) w ++ [k])).sum =
    (contraction dd x y).get w := by
  obtain ⟨z1, e1, -, g1⟩ := left_spec dd h
  obtain ⟨z2, e2, -, g2⟩ := right_spec dd h
  obtain rfl : z1 = zl := Option.some.inj (e1.symm.trans hl)
  obtain rfl : z2 = zr := Option.some.inj (e2.symm.trans hr)
  unfold contraction
  rw [ND.get_ofFn _ hw]
  unfold element
  rw [sum_allIdx]
  set Sb := sizes x.shape dd.lb with hSb
  set fl := freeOf x.shape.length dd.lc dd.lb with hfl
  set fr := freeOf y.shape.length dd.rc dd.rb with hfr
  have hw' : InB w (Sb ++ sizes x.shape fl ++ sizes y.shape fr) := hw
  rw [List.append_assoc] at hw'
  obtain ⟨hb, hrest⟩ := inB_split hw'
  obtain ⟨hlc, hrc⟩ := inB_split hrest
  have lb : Sb.length = dd.lb.length := sizes_length _ _
  have ll : (sizes x.shape fl).length = fl.length := sizes_length _ _
  have lr : (sizes y.shape fr).length = fr.length := sizes_length _ _
  rw [lb] at hb hlc hrc
  rw [ll] at hlc hrc
  set b := w.take dd.lb.length with hbd
  set l := (w.drop dd.lb.length).take fl.length with hld
  set r := (w.drop dd.lb.length).drop fl.length with hrd
  have hwe : w = b ++ l ++ r := by
    rw [List.append_assoc, hld, hrd, List.take_append_drop, hbd, List.take_append_drop]
  have c1 : bcoord (leftShape dd x.shape y.shape).dropLast (outShape dd x.shape y.shape) w =
      b ++ l ++ List.replicate fr.length 0 := by
    unfold leftShape outShape
    rw [List.dropLast_concat, ← hSb, ← hfl, ← hfr, hwe,
      bcoord_block (by simp [lb, ll]) (by simp [lr]) (by rw [List.length_append, List.length_append, hb.length_eq, hlc.length_eq]),
      bcoord_self (inB_append hb hlc), bcoord_ones]
  have c2 : bcoord (rightShape dd x.shape y.shape).dropLast (outShape dd x.shape y.shape) w =
      b ++ List.replicate fl.length 0 ++ r := by
    unfold rightShape outShape
    rw [List.dropLast_concat, ← h.batch, ← hSb, ← hfl, ← hfr, hwe,
      bcoord_block (by simp [lb, ll]) (by simp [lr]) (by rw [List.length_append, List.length_append, hb.length_eq, hlc.length_eq]),
      bcoord_block rfl (by simp [ll]) hb.length_eq, bcoord_self hb, bcoord_ones, bcoord_self hrc]
  rw [c1, c2]
  congr 1
  refine List.map_congr_left fun k hk => ?_
  have hk' : k < (sizes x.shape dd.lc).prod := by simpa using hk
  have hin := inB_unravelIdx hk'
  have t1 := g1 b l _ hb hlc hin
  have t2 := g2 b r (unravelIdx (sizes x.shape dd.lc) k) (h.batch ▸ hb) hrc (h.contract ▸ hin)
  rw [ravelIdx_unravelIdx hk'] at t1
  rw [← h.contract, ravelIdx_unravelIdx hk'] at t2
  rw [t1, t2]

/-- The general path computes the contraction. -/
theorem dotLast_spec (dd : DotDims) {x y : ND F} (h : dd.Ok x.shape y.shape) {zl zr : ND F}
    (hl : left dd y.shape.length x = some zl) (hr : right dd x.shape.length y = some zr) :
    dotLast zl zr = some (contraction dd x y) := by
  obtain ⟨z1, e1, s1, -⟩ := left_spec dd h
  obtain ⟨z2, e2, s2, -⟩ := right_spec dd h
  obtain rfl : z1 = zl := Option.some.inj (e1.symm.trans hl)
  obtain rfl : z2 = zr := Option.some.inj (e2.symm.trans hr)
  unfold dotLast
  have l1 : z1.shape.getLast? = some (sizes x.shape dd.lc).prod := by rw [s1]; simp [leftShape]
  have l2 : z2.shape.getLast? = some (sizes x.shape dd.lc).prod := by rw [s2, h.contract]; simp [rightShape]
  rw [l1, l2, if_neg (by simp)]
  have hb : broadcastShapes [z1.shape.dropLast, z2.shape.dropLast] = some (outShape dd x.shape y.shape) := by
    rw [broadcastShapes_iff, s1, s2]
    unfold leftShape rightShape outShape
    rw [List.dropLast_concat, List.dropLast_concat, ← h.batch]
    have := broadcasts_lead (sizes x.shape dd.lb) (sizes x.shape (freeOf x.shape.length dd.lc dd.lb))
      (sizes y.shape (freeOf y.shape.length dd.rc dd.rb))
    rwa [sizes_length, sizes_length] at this
  rw [hb, Option.map_some]
  congr 1
  refine ND.ext_get rfl fun w hw => ?_
  have hw' : InB w (outShape dd x.shape y.shape) := hw
  rw [ND.get_ofFn _ hw', s1, s2]
  exact element_eq dd h hl hr hw'

theorem place_range {w : List ℕ} : place w.length (List.range w.length) w = w := by
  have := place_unique (w := w) (List.Perm.refl (List.range w.length)) rfl
  rwa [map_range_getD] at this

theorem keptDims_last (n : ℕ) : keptDims (n + 1) [n] = List.range n := by
  unfold keptDims
  rw [List.range_succ, List.filter_append]
  have : (List.range n).filter (fun d => decide (d ∉ [n])) = List.range n := by
    rw [List.filter_eq_self]
    intro d hd
    have : d < n := by simpa using hd
    simp; omega
  rw [this]
  simp

theorem allIdx_single (d : ℕ) : allIdx [d] = (List.range d).map fun k => [k] := by
  unfold allIdx
  simp [unravelIdx]

/-- The multiply-and-sum path on the rearranged operands computes the contraction. -/
theorem mulSum_spec (dd : DotDims) {x y : ND F} (h : dd.Ok x.shape y.shape) {zl zr : ND F}
    (hl : left dd y.shape.length x = some zl) (hr : right dd x.shape.length y = some zr) :
    ∃ p, mulB zl zr = some p ∧ sumDims p [p.ndim - 1] = contraction dd x y := by
  obtain ⟨z1, e1, s1, -⟩ := left_spec dd h
  obtain ⟨z2, e2, s2, -⟩ := right_spec dd h
  obtain rfl : z1 = zl := Option.some.inj (e1.symm.trans hl)
  obtain rfl : z2 = zr := Option.some.inj (e2.symm.trans hr)
  set O := outShape dd x.shape y.shape with hO
  set d := (sizes x.shape dd.lc).prod with hd
  have hb : broadcastShapes [z1.shape, z2.shape] = some (O ++ [d]) := by
    rw [broadcastShapes_iff, s1, s2]
    unfold leftShape rightShape
    rw [← h.batch, ← h.contract]
    have := broadcasts_lead_last (sizes x.shape dd.lb) (sizes x.shape (freeOf x.shape.length dd.lc dd.lb))
      (sizes y.shape (freeOf y.shape.length dd.rc dd.rb)) d
    rwa [sizes_length, sizes_length] at this
  refine ⟨_, by unfold mulB; rw [hb, Option.map_some], ?_⟩
  set p : ND F := ND.ofFn (O ++ [d]) fun w => z1.get (bcoord z1.shape (O ++ [d]) w) * z2.get (bcoord z2.shape (O ++ [d]) w)
    with hp
  have hps : p.shape = O ++ [d] := rfl
  have hnd : p.ndim = O.length + 1 := by unfold ND.ndim; rw [hps]; simp
  have hkept : keptDims p.ndim [p.ndim - 1] = List.range O.length := by rw [hnd]; exact keptDims_last _
  unfold sumDims
  rw [hkept, hps]
  have hsz : sizes (O ++ [d]) (List.range O.length) = O := by
    unfold sizes
    conv_rhs => rw [← map_range_getD O]
    exact List.map_congr_left fun j hj => List.getD_append _ _ _ _ (by simpa using hj)
  have hsz2 : sizes (O ++ [d]) [p.ndim - 1] = [d] := by
    unfold sizes
    rw [hnd, Nat.add_sub_cancel]
    simp
  rw [hsz, hsz2, allIdx_single]
  refine ND.ext_get rfl fun w hw => ?_
  have hw' : InB w O := hw
  rw [ND.get_ofFn _ hw', ← element_eq dd h hl hr hw', List.map_map]
  congr 1
  refine List.map_congr_left fun k hk => ?_
  have hk' : k < d := by simpa using hk
  simp only [Function.comp]
  have hpl : place p.ndim (List.range O.length ++ [p.ndim - 1]) (w ++ [k]) = w ++ [k] := by
    have e : List.range O.length ++ [p.ndim - 1] = List.range (w ++ [k]).length := by
      rw [hnd, List.length_append, hw'.length_eq, List.length_singleton, List.range_succ, Nat.add_sub_cancel]
    have e2 : p.ndim = (w ++ [k]).length := by rw [hnd, List.length_append, hw'.length_eq, List.length_singleton]
    rw [e, e2]
    exact place_range
  have hin : InB (w ++ [k]) (O ++ [d]) := inB_append hw' (by simpa using hk')
  rw [hpl, hp, ND.get_ofFn _ hin]
  have hlast1 : z1.shape = z1.shape.dropLast ++ [d] := by rw [s1]; unfold leftShape; rw [List.dropLast_concat]
  have hlast2 : z2.shape = z2.shape.dropLast ++ [d] := by
    rw [s2]; unfold rightShape; rw [List.dropLast_concat, ← h.contract]
  have hlen1 : z1.shape.dropLast.length = O.length := by
    rw [s1, hO]; unfold leftShape outShape; rw [List.dropLast_concat]; simp [sizes_length]
  have hlen2 : z2.shape.dropLast.length = O.length := by
    rw [s2, hO]; unfold rightShape outShape; rw [List.dropLast_concat, ← h.batch]; simp [sizes_length]
  congr 1
  · rw [← s1]
    conv_lhs => rw [hlast1]
    rw [bcoord_append _ _ _ _ _ hw'.length_eq (by omega) hk']
  · rw [← s2]
    conv_lhs => rw [hlast2]
    rw [bcoord_append _ _ _ _ _ hw'.length_eq (by omega) hk']

end

end Folx.Dot

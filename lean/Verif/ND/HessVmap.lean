import Verif.ND.HessFind

/-!
# Proofs: the vectorised slice function
-/

namespace Folx.Layout
open Vmap Dot

theorem map_get' {α β : Type} [Inhabited α] [Inhabited β] (f : α → β) (x : ND α) {w : List ℕ} (hw : InB w x.shape) :
    (x.map f).get w = f (x.get w) := by
  have hlt : ravelIdx x.shape w < x.data.length := by rw [x.wf]; exact ravelIdx_lt hw
  show ((x.data.map f).getD (ravelIdx x.shape w) default) = f (x.data.getD _ default)
  rw [List.getD_eq_getElem _ _ (by simpa using hlt), List.getD_eq_getElem _ _ hlt, List.getElem_map]

theorem map_map' {α β γ : Type} (f : α → β) (g : β → γ) (x : ND α) : (x.map f).map g = x.map fun z => g (f z) := by
  unfold ND.map
  simp [Function.comp_def]

theorem map_id' {α : Type} (f : α → α) (hf : ∀ z, f z = z) (x : ND α) : x.map f = x := by
  obtain ⟨s, d, w⟩ := x
  unfold ND.map
  congr 1
  exact (List.map_congr_left fun z _ => hf z).trans (List.map_id _)

/-- The conditions for a slice to be in range. -/
structure Fits (shape sk b : List ℕ) : Prop where
  valid : ValidSkip shape sk
  len : (removeAxes shape sk).length ≤ b.length
  al : Aligned (removeAxes shape sk) (b.drop (b.length - (removeAxes shape sk).length))

/-- Slices of leaves. -/
theorem bslice_map {α β : Type} [Inhabited α] [Inhabited β] (x : ND α) (f : α → β) {sk b v : List ℕ}
    (h : Fits x.shape sk b) (hv : InB v b) : bslice (x.map f) sk b v = (bslice x sk b v).map f := by
  refine ND.ext_get rfl fun c hc => ?_
  have hc' : InB c (skipShape x.shape sk) := hc
  have hin := bindex_inB h.valid h.len h.al hv hc'
  have h1 : (bslice x sk b v).get c = x.get (bindex x.shape sk b v c) := ND.get_ofFn _ hc'
  have h2 : (bslice (x.map f) sk b v).get c = (x.map f).get (bindex x.shape sk b v c) := ND.get_ofFn _ hc'
  rw [map_get' f (bslice x sk b v) hc', h1, h2, map_get' f x hin]

/-- Decoding the slice of a leaf. -/
theorem bslice_decode {α β : Type} [Inhabited α] [Inhabited β] (x : ND α) (f : α → β) (r : β → α) (hr : ∀ z, r (f z) = z)
    {sk b v : List ℕ} (h : Fits x.shape sk b) (hv : InB v b) : (bslice (x.map f) sk b v).map r = bslice x sk b v := by
  rw [bslice_map x f h hv, map_map', map_id' _ hr]

variable {F : Type} [Inhabited F]

/-- The leaves of all arguments. -/
def allLeaves (args : List (ArrTrip F × List ℕ)) (extras : List (ND F × List ℕ)) : List (ND (F ⊕ ℤ) × List ℕ) :=
  (args.flatMap ArrTrip.leaves) ++ extras.map fun e => (e.1.map Sum.inl, e.2)

/-- Rebuilding the slices from the slices of the leaves. -/
theorem unflatten_slices {b v : List ℕ} (hv : InB v b) {args : List (ArrTrip F × List ℕ)} (hok : ∀ a ∈ args, TripOk a)
    (hf : ∀ a ∈ args, Fits a.1.x.shape a.2 b) (rest : List (ND (F ⊕ ℤ))) :
    unflatten args (((args.flatMap ArrTrip.leaves).map fun l => bslice l.1 l.2 b v) ++ rest) =
      (args.map (sliceAt b v), rest) := by
  induction args with
  | nil => rfl
  | cons a as ih =>
    have hf' : Fits a.1.jac.data.shape (jacAx a.2) b := by
      have h1 := hf a (by simp)
      have h2 := hok a (by simp)
      refine ⟨h2.validJac, ?_, ?_⟩
      · rw [h2.other]; exact h1.len
      · rw [h2.other]; exact h1.al
    have ih' := ih (fun x hx => hok x (by simp [hx])) fun x hx => hf x (by simp [hx])
    have ex := bslice_decode a.1.x Sum.inl numOf (fun z => rfl) (β := F ⊕ ℤ) (hf a (by simp)) hv
    have ed := bslice_decode a.1.jac.data Sum.inl numOf (fun z => rfl) (β := F ⊕ ℤ) hf' hv
    have el := bslice_decode a.1.lapl Sum.inl numOf (fun z => rfl) (β := F ⊕ ℤ) (b := b) (sk := a.2)
      (by rw [(hok a (by simp)).lapl]; exact hf a (by simp)) hv
    have hi := (hok a (by simp)).idx
    rw [List.flatMap_cons, List.map_append, List.append_assoc, List.map_cons]
    unfold sliceAt
    obtain ⟨⟨x, ⟨d, mi⟩, lp⟩, ax⟩ := a
    cases mi with
    | none =>
      show ((⟨(bslice (x.map Sum.inl) ax b v).map numOf, ⟨(bslice (d.map Sum.inl) (jacAx ax) b v).map numOf, none⟩,
          (bslice (lp.map Sum.inl) ax b v).map numOf⟩ : ArrTrip F) ::
        (unflatten as (((as.flatMap ArrTrip.leaves).map fun l => bslice l.1 l.2 b v) ++ rest)).1,
        (unflatten as (((as.flatMap ArrTrip.leaves).map fun l => bslice l.1 l.2 b v) ++ rest)).2) = _
      rw [ih', ex, ed, el]
      rfl
    | some m =>
      have em := bslice_decode m Sum.inr idxOf' (fun z => rfl) (β := F ⊕ ℤ) (b := b) (sk := jacAx ax)
        (by rw [hi m rfl]; exact hf') hv
      show ((⟨(bslice (x.map Sum.inl) ax b v).map numOf, ⟨(bslice (d.map Sum.inl) (jacAx ax) b v).map numOf,
          some ((bslice (m.map Sum.inr) (jacAx ax) b v).map idxOf')⟩,
          (bslice (lp.map Sum.inl) ax b v).map numOf⟩ : ArrTrip F) ::
        (unflatten as (((as.flatMap ArrTrip.leaves).map fun l => bslice l.1 l.2 b v) ++ rest)).1,
        (unflatten as (((as.flatMap ArrTrip.leaves).map fun l => bslice l.1 l.2 b v) ++ rest)).2) = _
      rw [ih', ex, ed, el, em]
      rfl

/-- Same shapes of rebuilt triples. -/
theorem unflatten_shapes (args : List (ArrTrip F × List ℕ)) {l l' : List (ND (F ⊕ ℤ))} (h : l.map ND.shape = l'.map ND.shape) :
    List.Forall₂ (fun t t' : ArrTrip F => t.x.shape = t'.x.shape ∧ t.jac.data.shape = t'.jac.data.shape ∧
      t.jac.idx.map ND.shape = t'.jac.idx.map ND.shape ∧ t.lapl.shape = t'.lapl.shape) (unflatten args l).1 (unflatten args l').1 ∧
    (unflatten args l).2.map ND.shape = (unflatten args l').2.map ND.shape := by
  induction args generalizing l l' with
  | nil => exact ⟨List.Forall₂.nil, h⟩
  | cons a as ih =>
    obtain ⟨⟨x, ⟨d, mi⟩, lp⟩, ax⟩ := a
    match l, l' with
    | [], [] => cases mi <;> exact ⟨List.Forall₂.nil, rfl⟩
    | [_], [_] => cases mi <;> exact ⟨List.Forall₂.nil, rfl⟩
    | [_, _], [_, _] => cases mi <;> exact ⟨List.Forall₂.nil, rfl⟩
    | [x, d, y], [x', d', y'] =>
      cases mi with
      | some m => exact ⟨List.Forall₂.nil, rfl⟩
      | none =>
        simp only [List.map_cons, List.cons.injEq] at h
        obtain ⟨h1, h2⟩ := ih (l := []) (l' := []) rfl
        exact ⟨List.Forall₂.cons ⟨h.1, h.2.1, rfl, h.2.2.1⟩ h1, h2⟩
    | x :: d :: y :: z :: l, x' :: d' :: y' :: z' :: l' =>
      simp only [List.map_cons, List.cons.injEq] at h
      cases mi with
      | some m =>
        obtain ⟨h1, h2⟩ := ih (l := l) (l' := l') h.2.2.2.2
        exact ⟨List.Forall₂.cons ⟨h.1, h.2.1, congrArg some h.2.2.1, h.2.2.2.1⟩ h1, h2⟩
      | none =>
        obtain ⟨h1, h2⟩ := ih (l := z :: l) (l' := z' :: l') (by simp [h])
        exact ⟨List.Forall₂.cons ⟨h.1, h.2.1, rfl, h.2.2.1⟩ h1, h2⟩
    | [], _ :: _ => simp at h
    | _ :: _, [] => simp at h
    | [_], _ :: _ :: _ => simp at h
    | _ :: _ :: _, [_] => simp at h
    | [_, _], _ :: _ :: _ :: _ => simp at h
    | _ :: _ :: _ :: _, [_, _] => simp at h
    | [_, _, _], _ :: _ :: _ :: _ :: _ => simp at h
    | _ :: _ :: _ :: _ :: _, [_, _, _] => simp at h

theorem traced_onLeaves {g : SliceFn F} (hg : TracedSlice g) (args : List (ArrTrip F × List ℕ)) (hasIdx : Bool) :
    TracedFn (onLeaves g args hasIdx) := by
  intro xs ys h
  unfold onLeaves
  have hd : (if hasIdx then xs.dropLast else xs).map ND.shape = (if hasIdx then ys.dropLast else ys).map ND.shape := by
    split
    · rw [List.map_dropLast, List.map_dropLast, h]
    · exact h
  obtain ⟨h1, h2⟩ := unflatten_shapes args hd
  refine hg _ _ _ _ _ _ h1 ?_ ?_
  · rw [List.forall₂_map_left_iff, List.forall₂_map_right_iff]
    refine List.forall₂_iff_get.mpr ⟨(by simpa using congrArg List.length h2), fun i g1 g2 => ?_⟩
    have e := List.getElem_of_eq h2 (i := i) (by simpa using g1)
    rw [List.getElem_map, List.getElem_map] at e
    exact e
  · split
    · have e : (xs.getLast?.map ND.shape) = ys.getLast?.map ND.shape := by
        rw [← List.getLast?_map, ← List.getLast?_map, h]
      cases hx : xs.getLast? with
      | none => rw [hx] at e; cases hy : ys.getLast? with
        | none => rfl
        | some y => rw [hy] at e; simp at e
      | some x =>
        rw [hx] at e
        cases hy : ys.getLast? with
        | none => rw [hy] at e; simp at e
        | some y =>
          rw [hy] at e
          have e' : x.shape = y.shape := by simpa using e
          simp [x.wf, y.wf, e']
    · rfl

/-- The leaves are consistent. -/
theorem leaves_ok {args : List (ArrTrip F × List ℕ)} (hok : ∀ a ∈ args, TripOk a) {extras : List (ND F × List ℕ)}
    (hext : ∀ e ∈ extras, ValidSkip e.1.shape e.2) : ∀ l ∈ allLeaves args extras, ValidSkip l.1.shape l.2 := by
  intro l hl
  rcases List.mem_append.mp hl with hl | hl
  · obtain ⟨a, ha, hl⟩ := List.mem_flatMap.mp hl
    have h := hok a ha
    unfold ArrTrip.leaves at hl
    cases hm : a.1.jac.idx with
    | none =>
      rw [hm] at hl
      simp only [List.mem_cons, List.not_mem_nil, or_false] at hl
      rcases hl with rfl | rfl | rfl
      · exact h.valid
      · exact h.validJac
      · show ValidSkip a.1.lapl.shape a.2
        rw [h.lapl]; exact h.valid
    | some m =>
      rw [hm] at hl
      simp only [List.mem_cons, List.not_mem_nil, or_false] at hl
      rcases hl with rfl | rfl | rfl | rfl
      · exact h.valid
      · exact h.validJac
      · show ValidSkip m.shape _
        rw [h.idx m hm]; exact h.validJac
      · show ValidSkip a.1.lapl.shape a.2
        rw [h.lapl]; exact h.valid
  · obtain ⟨e, he, rfl⟩ := List.mem_map.mp hl
    exact hext e he

theorem leaves_shapes {args : List (ArrTrip F × List ℕ)} (hok : ∀ a ∈ args, TripOk a) (extras : List (ND F × List ℕ)) (s : List ℕ) :
    s ∈ ((allLeaves args extras).map fun l => removeAxes l.1.shape l.2) ↔
      s ∈ (args.map fun a => otherShape a.1.x.shape a.2) ++ extras.map fun e => otherShape e.1.shape e.2 := by
  unfold allLeaves
  rw [List.map_append, List.mem_append, List.mem_append, List.map_map]
  refine or_congr ?_ Iff.rfl
  constructor
  · intro hs
    obtain ⟨l, hl, rfl⟩ := List.mem_map.mp hs
    obtain ⟨a, ha, hl⟩ := List.mem_flatMap.mp hl
    have h := hok a ha
    refine List.mem_map.mpr ⟨a, ha, ?_⟩
    unfold ArrTrip.leaves at hl
    cases hm : a.1.jac.idx with
    | none =>
      rw [hm] at hl
      simp only [List.mem_cons, List.not_mem_nil, or_false] at hl
      rcases hl with rfl | rfl | rfl
      · rfl
      · exact h.other.symm
      · show _ = removeAxes a.1.lapl.shape a.2
        rw [h.lapl]; rfl
    | some m =>
      rw [hm] at hl
      simp only [List.mem_cons, List.not_mem_nil, or_false] at hl
      rcases hl with rfl | rfl | rfl | rfl
      · rfl
      · exact h.other.symm
      · show _ = removeAxes m.shape _
        rw [h.idx m hm]; exact h.other.symm
      · show _ = removeAxes a.1.lapl.shape a.2
        rw [h.lapl]; rfl
  · intro hs
    obtain ⟨a, ha, rfl⟩ := List.mem_map.mp hs
    refine List.mem_map.mpr ⟨(a.1.x.map Sum.inl, a.2), List.mem_flatMap.mpr ⟨a, ha, ?_⟩, rfl⟩
    unfold ArrTrip.leaves
    cases hm : a.1.jac.idx <;> simp

section Main
variable {g : SliceFn F} (hg : TracedSlice g) {args : List (ArrTrip F × List ℕ)} (hok : ∀ a ∈ args, TripOk a)
  {extras : List (ND F × List ℕ)} (hext : ∀ e ∈ extras, ValidSkip e.1.shape e.2) {b : List ℕ}
  (hb : Broadcasts ((args.map fun a => otherShape a.1.x.shape a.2) ++ extras.map fun e => otherShape e.1.shape e.2) b)

include hok hb in
theorem leaves_bcast : broadcastShapes ((allLeaves args extras).map fun l => removeAxes l.1.shape l.2) = some b :=
  broadcastShapes_iff.mpr (hb.congr fun s => (leaves_shapes hok extras s).symm)

include hok hext hb in
theorem fits_arg : ∀ a ∈ args, Fits a.1.x.shape a.2 b := by
  intro a ha
  obtain ⟨h1, h2⟩ := (bcast_spec (broadcastShapes_iff.mpr hb)).1 (otherShape a.1.x.shape a.2)
    (List.mem_append_left _ (List.mem_map.mpr ⟨a, ha, rfl⟩))
  exact ⟨(hok a ha).valid, h1, h2⟩

include hok hext hb in
theorem fits_extra : ∀ e ∈ extras, Fits e.1.shape e.2 b := by
  intro e he
  obtain ⟨h1, h2⟩ := (bcast_spec (broadcastShapes_iff.mpr hb)).1 (otherShape e.1.shape e.2)
    (List.mem_append_right _ (List.mem_map.mpr ⟨e, he, rfl⟩))
  exact ⟨hext e he, h1, h2⟩

include hok hext hb in
/-- The slice function on the slices of the leaves. -/
theorem onLeaves_at {v : List ℕ} (hv : InB v b) (hasIdx : Bool) (x : ND (F ⊕ ℤ)) :
    onLeaves g args hasIdx (((allLeaves args extras).map fun l => bslice l.1 l.2 b v) ++ if hasIdx then [x] else []) =
      termAt g args extras (if hasIdx then some (x.data.map idxOf') else none) b v := by
  have he : (extras.map fun e => (e.1.map (Sum.inl : F → F ⊕ ℤ), e.2)).map (fun l => bslice l.1 l.2 b v) =
      extras.map fun e => bslice (e.1.map Sum.inl) e.2 b v := by rw [List.map_map]; rfl
  have hu := unflatten_slices hv hok (fits_arg hok hext hb) (extras.map fun e => bslice (e.1.map Sum.inl) e.2 b v)
  have hex : ((extras.map fun e => bslice (e.1.map (Sum.inl : F → F ⊕ ℤ)) e.2 b v).map fun y => y.map numOf) =
      extras.map fun e => bslice e.1 e.2 b v := by
    rw [List.map_map]
    exact List.map_congr_left fun e he => bslice_decode e.1 Sum.inl numOf (fun z => rfl) (fits_extra hok hext hb e he) hv
  unfold onLeaves allLeaves termAt
  rw [List.map_append, he]
  cases hasIdx with
  | true =>
    simp only [if_true, List.dropLast_concat, List.getLast?_concat, Option.map_some]
    rw [hu, hex]
  | false =>
    simp only [Bool.false_eq_true, if_false, List.append_nil]
    rw [hu, hex]

include hg hok hext hb in
/-- The vectorised term without an index array. -/
theorem vmapHess_none {o : List ℕ} (ho : ∀ v, InB v b → (termAt g args extras none b v).shape = o) (h0 : 0 ∉ b) :
    ∃ R, vmapHess g args extras none = some R ∧ R.shape = sqz b b ++ o ∧
      R.data = (ND.ofFn (b ++ o) fun w => (termAt g args extras none b (w.take b.length)).get (w.drop b.length)).data := by
  have hbs := leaves_bcast hok hb
  have hT := traced_onLeaves hg args false
  obtain ⟨u, hu⟩ := exists_inB h0
  obtain ⟨R, h1, h2, h3⟩ := nested_plain hT (leaves_ok hok hext) hbs (osh := o) fun v => by
    have := onLeaves_at (g := g) hok hext hb hu false (ND.ofFn [] fun _ => default)
    simp only [Bool.false_eq_true, if_false, List.append_nil] at this
    rw [← ho u hu, ← this]
    refine hT _ _ ?_
    simp only [List.map_map]
    rfl
  refine ⟨R, ?_, h2, h3.trans (congrArg ND.data ?_)⟩
  · unfold vmapHess
    show ((vmapSequences ((allLeaves args extras).map fun l => (l.1.shape, l.2))).bind _) = _
    rw [vmapSequences_eq hbs]
    exact h1
  · refine ND.ext_get rfl fun w hw => ?_
    rw [ND.shape_ofFn] at hw
    rw [ND.get_ofFn _ hw, ND.get_ofFn _ hw]
    have hw' : InB (w.take b.length) b := by
      have := List.forall₂_take b.length hw
      rwa [List.take_left] at this
    have := onLeaves_at (g := g) hok hext hb hw' false (ND.ofFn [] fun _ => default)
    simp only [Bool.false_eq_true, if_false, List.append_nil] at this
    rw [this]

include hg hok hext hb in
/-- The vectorised term with an index array. -/
theorem vmapHess_some {idx : ND ℤ} {W : ℕ} (hi : idx.shape = W :: sqz b b) (hW : 0 < W) {il : List ℕ → List ℤ}
    (hil : ∀ v, InB v b → (il v).length = W ∧ ∀ k < W, idx.get (k :: sqz b v) = (il v).getD k (-1)) {o : List ℕ}
    (ho : ∀ v, InB v b → (termAt g args extras (some (il v)) b v).shape = o) (h0 : 0 ∉ b) :
    ∃ R, vmapHess g args extras (some idx) = some R ∧ R.shape = sqz b b ++ o ∧
      R.data = (ND.ofFn (b ++ o) fun w => (termAt g args extras (some (il (w.take b.length))) b (w.take b.length)).get
        (w.drop b.length)).data := by
  have hbs := leaves_bcast hok hb
  have hT := traced_onLeaves hg args true
  have h0' : 0 ∉ sqz b b := by
    have : ∀ l m : List ℕ, 0 ∉ m → 0 ∉ sqz l m := by
      intro l
      induction l with
      | nil => intro m h; simp [sqz]
      | cons c l ih =>
        intro m h
        cases m with
        | nil => simp [sqz]
        | cons d m =>
          have h' : 0 ∉ m := fun hm => h (by simp [hm])
          have hd : d ≠ 0 := fun hd => h (by simp [hd])
          unfold sqz
          split
          · exact ih m h'
          · simp only [List.mem_cons, not_or]
            exact ⟨hd.symm, ih m h'⟩
    exact this b b h0
  obtain ⟨x, seq, hc, hsl, hsm, hxs, hxg⟩ := compressIdx_spec hi hW h0'
  have hmem := spread_mem (b := b) hsm
  have hxs' : (x.map (Sum.inr : ℤ → F ⊕ ℤ)).shape = W :: sel (spread b seq) b := by
    rw [sel_spread b b seq rfl]; exact hxs
  obtain ⟨hS, hP⟩ := peel_one (spread_length b seq) hmem hxs'
  obtain ⟨u, hu⟩ := exists_inB h0
  have hpd : ∀ v, InB v b → ((peel (spread b seq) v (x.map (Sum.inr : ℤ → F ⊕ ℤ))).data.map idxOf') = il v := by
    intro v hv
    obtain ⟨p1, p2⟩ := hP v hv.length_eq
    obtain ⟨q1, q2⟩ := hil v hv
    have hlen : (peel (spread b seq) v (x.map (Sum.inr : ℤ → F ⊕ ℤ))).data.length = W := by
      rw [ND.wf, p1]; simp
    refine List.ext_getElem (by rw [List.length_map, hlen, q1]) fun k g1 g2 => ?_
    have hk : k < W := by rw [q1] at g2; exact g2
    have e1 : (peel (spread b seq) v (x.map (Sum.inr : ℤ → F ⊕ ℤ))).get [k] =
        (peel (spread b seq) v (x.map (Sum.inr : ℤ → F ⊕ ℤ))).data[k]'(by rw [hlen]; exact hk) := by
      unfold ND.get
      rw [p1]
      have : ravelIdx [W] [k] = k := by simp [ravelIdx]
      rw [this, List.getD_eq_getElem _ _ (by rw [hlen]; exact hk)]
    have hin : InB (k :: sel seq (sqz b v)) x.shape := by
      rw [hxs]; exact List.Forall₂.cons hk (inB_sel (inB_sqz hv))
    rw [List.getElem_map, ← e1, p2 hv k hk, sel_spread b v seq hv.length_eq, map_get' _ _ hin]
    show x.get _ = _
    rw [hxg _ (inB_sqz hv) k hk, q2 k hk, List.getD_eq_getElem _ _ g2]
  obtain ⟨R, h1, h2, h3⟩ := nested_idx hT (leaves_ok hok hext) hbs (x := x.map Sum.inr) (seq := seq) hsl hS (osh := o)
    fun v hvl => by
      rw [← ho u hu, ← hpd u hu]
      have := onLeaves_at (g := g) hok hext hb hu true (peel (spread b seq) u (x.map (Sum.inr : ℤ → F ⊕ ℤ)))
      simp only [if_true] at this
      rw [← this]
      refine hT _ _ ?_
      rw [List.map_append, List.map_append, List.map_map, List.map_map]
      congr 1
      rw [List.map_singleton, List.map_singleton, (hP v hvl).1, (hP u hu.length_eq).1]
  refine ⟨R, ?_, h2, h3.trans (congrArg ND.data ?_)⟩
  · unfold vmapHess
    show ((vmapSequences ((allLeaves args extras).map fun l => (l.1.shape, l.2))).bind _) = _
    rw [vmapSequences_eq hbs, Option.bind_some]
    dsimp only
    have hlen := (cols_spread (flags_of (leaves_ok hok hext) hbs) hsl).2
    rw [hlen, hc]
    exact h1
  · refine ND.ext_get rfl fun w hw => ?_
    rw [ND.shape_ofFn] at hw
    rw [ND.get_ofFn _ hw, ND.get_ofFn _ hw]
    have hw' : InB (w.take b.length) b := by
      have := List.forall₂_take b.length hw
      rwa [List.take_left] at this
    have := onLeaves_at (g := g) hok hext hb hw' true (peel (spread b seq) (w.take b.length) (x.map (Sum.inr : ℤ → F ⊕ ℤ)))
    simp only [if_true] at this
    rw [this, hpd _ hw']

end Main

end Folx.Layout

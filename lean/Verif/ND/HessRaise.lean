import Verif.ND.HessDot

/-!
# The second-order term: calls that raise
-/

namespace Folx.Layout
open Vmap Dot

/-- More `vmap`s than the index array was computed for: the additional ones also use axis 1. -/
theorem compressIdx_more {idx : ND ℤ} {m : ℕ} {x : ND ℤ} {seq : List (Option ℕ)} (h : compressIdx idx m = some (x, seq)) (r : ℕ) :
    compressIdx idx (m + r) = some (x, seq ++ List.replicate r (some 1)) := by
  unfold compressIdx at h ⊢
  have key : ∀ cs : List ℕ, ∀ x seq, cs.foldr (fun c acc => match acc with
      | none => none
      | some (x, seq) => if c - 1 < seq.length then some (x.take 0 c, seq.set (c - 1) none) else none)
      (some ((compact idx).1, List.replicate m (some 1))) = some (x, seq) →
      cs.foldr (fun c acc => match acc with
      | none => none
      | some (x, seq) => if c - 1 < seq.length then some (x.take 0 c, seq.set (c - 1) none) else none)
      (some ((compact idx).1, List.replicate (m + r) (some 1))) = some (x, seq ++ List.replicate r (some 1)) := by
    intro cs
    induction cs with
    | nil =>
      intro x seq h
      simp only [List.foldr_nil, Option.some.injEq, Prod.mk.injEq] at h ⊢
      rw [← h.2]
      exact ⟨h.1, by rw [List.replicate_append_replicate]⟩
    | cons c cs ih =>
      intro x seq h
      rw [List.foldr_cons] at h ⊢
      generalize hA : cs.foldr _ (some ((compact idx).1, List.replicate m (some 1))) = A at h
      cases A with
      | none => simp at h
      | some p =>
        obtain ⟨y, sq⟩ := p
        rw [ih y sq hA]
        dsimp only at h ⊢
        by_cases hc : c - 1 < sq.length
        · rw [if_pos hc, Option.some.injEq, Prod.mk.injEq] at h
          rw [if_pos (by rw [List.length_append]; omega), List.set_append_left _ _ hc, ← h.1, ← h.2]
        · rw [if_neg hc] at h; simp at h
  exact key _ x seq h

theorem sel_count {seq : List (Option ℕ)} {kb : List ℕ} (hl : seq.length = kb.length) (hm : ∀ o ∈ seq, o = none ∨ o = some 1) :
    (sel seq kb).length = seq.count (some 1) := by
  induction seq generalizing kb with
  | nil => simp [sel]
  | cons o seq ih =>
    cases kb with
    | nil => simp at hl
    | cons k kb =>
      have ih := ih (kb := kb) (by simpa using hl) fun o ho => hm o (by simp [ho])
      rcases hm o (by simp) with rfl | rfl
      · unfold sel
        rw [ih, List.count_cons_of_ne (by simp)]
      · unfold sel
        rw [List.length_cons, ih, List.count_cons_self]

/-- Every nested `vmap` over axis 1 of the last array uses up one of its axes. -/
theorem nestedVmap_rank {α β : Type} [Inhabited α] [Inhabited β] (f : List (ND α) → ND β) (S : List (List (Option ℕ)))
    (seq : List (Option ℕ)) (ys : List (ND α)) (x : ND α) (r : ND β) (hl : S.length = seq.length)
    (hS : ∀ s ∈ S, s.length = ys.length) (hm : ∀ o ∈ seq, o = none ∨ o = some 1)
    (h : nestedVmap f (List.zipWith (fun s o => s ++ [o]) S seq) (ys ++ [x]) = some r) :
    seq.count (some 1) = 0 ∨ seq.count (some 1) < x.shape.length := by
  induction S generalizing seq ys x r with
  | nil =>
    obtain rfl : seq = [] := by simpa using hl.symm
    exact Or.inl rfl
  | cons s S ih =>
    cases seq with
    | nil => simp at hl
    | cons o seq =>
      rw [List.zipWith_cons_cons] at h
      unfold nestedVmap at h
      split at h
      · simp at h
      rename_i n hn
      split at h
      · simp at h
      rename_i r0 hr0
      have hsl := hS s (by simp)
      have hsa : sliceAll (s ++ [o]) 0 (ys ++ [x]) = sliceAll s 0 ys ++ [match o with | none => x | some a => x.take 0 a] := by
        unfold sliceAll
        rw [List.zipWith_append hsl]
        rfl
      rw [hsa] at hr0
      have hlen : (sliceAll s 0 ys).length = ys.length := by
        unfold sliceAll
        rw [List.length_zipWith, hsl]; simp
      have := ih seq (sliceAll s 0 ys) _ r0 (by simpa using hl) (fun t ht => by rw [hlen]; exact hS t (by simp [ht]))
        (fun o ho => hm o (by simp [ho])) hr0
      rcases hm o (by simp) with rfl | rfl
      · rw [List.count_cons_of_ne (by simp)]
        exact this
      · right
        rw [List.count_cons_self]
        have hx : 2 ≤ x.shape.length := by
          have hmem : x.shape[1]? ∈ mappedSizes (s ++ [some 1]) (ys ++ [x]) := by
            unfold mappedSizes
            rw [List.zipWith_append hsl, List.filterMap_append]
            exact List.mem_append_right _ (by simp)
          have hsome : ∀ d ∈ mappedSizes (s ++ [some 1]) (ys ++ [x]), d = some n := by
            unfold mapSize at hn
            split at hn
            · simp at hn
            · simp at hn
            · rename_i m ds he
              split at hn
              · rename_i hall
                rw [Option.some.injEq] at hn
                subst hn
                intro d hd
                rw [he] at hd
                rcases List.mem_cons.mp hd with rfl | hd
                · rfl
                · exact hall d hd
              · simp at hn
          have := hsome _ hmem
          obtain ⟨h1, _⟩ := List.getElem?_eq_some_iff.mp this
          omega
        have hsh : (x.take 0 1).shape.length = x.shape.length - 1 := by
          unfold ND.take
          rw [ND.shape_ofFn, List.length_eraseIdx]
          rw [if_pos (by omega)]
        rcases this with h | h
        · omega
        · dsimp only at h
          rw [hsh] at h
          omega

section
variable {F : Type} [Inhabited F] [AddCommMonoid F] {g : SliceFn F} {args : List (ArrTrip F × List ℕ)}
  (hok : ∀ a ∈ args, TripOk a) {extras : List (ND F × List ℕ)} (hext : ∀ e ∈ extras, ValidSkip e.1.shape e.2) {B : List ℕ}
  (hb : Broadcasts ((args.map fun a => otherShape a.1.x.shape a.2) ++ extras.map fun e => otherShape e.1.shape e.2) B)

include hok hext hb in
/-- Indices for fewer axes than there are. -/
theorem vmapHess_raises {idx : ND ℤ} {W : ℕ} {kb : List ℕ} (hi : idx.shape = W :: kb) (hW : 0 < W) (h0 : 0 ∉ kb)
    (hlt : kb.length < (sqz B B).length) : vmapHess g args extras (some idx) = none := by
  have hbs := leaves_bcast hok hb
  obtain ⟨x, seq, hc, hsl, hsm, hxs, _⟩ := compressIdx_spec hi hW h0
  obtain ⟨r, hr⟩ : ∃ r, (sqz B B).length = kb.length + r := ⟨(sqz B B).length - kb.length, by omega⟩
  have hc' := compressIdx_more hc r
  have hlen := (cols_spread (flags_of (leaves_ok hok hext) hbs)
    (seq := List.replicate (sqz B B).length none) (by simp)).2
  unfold vmapHess
  show ((vmapSequences ((allLeaves args extras).map fun l => (l.1.shape, l.2))).bind _) = _
  rw [vmapSequences_eq hbs, Option.bind_some]
  dsimp only
  rw [hlen, hr, hc']
  by_contra hne
  obtain ⟨R, hN⟩ := Option.ne_none_iff_exists'.mp hne
  · have hm : ∀ o ∈ seq ++ List.replicate r (some 1), o = none ∨ o = some 1 := by
      intro o ho
      rcases List.mem_append.mp ho with ho | ho
      · exact hsm o ho
      · exact Or.inr (List.mem_replicate.mp ho).2
    have := nestedVmap_rank _ _ _ _ _ _ (by rw [hlen, hr, List.length_append, hsl]; simp) (by
      intro s hs
      have := (List.mem_filter.mp hs).1
      unfold cols at this
      obtain ⟨i, _, rfl⟩ := List.mem_map.mp this
      simp [allLeaves]) hm hN
    rw [List.count_append, List.count_replicate_self] at this
    have hx : (ND.map (Sum.inr : ℤ → F ⊕ ℤ) (x, seq ++ List.replicate r (some 1)).1).shape.length = seq.count (some 1) + 1 := by
      show x.shape.length = _
      rw [hxs, List.length_cons, sel_count hsl hsm]
    omega

end

theorem zero_sqz {b : List ℕ} (h0 : 0 ∉ b) : 0 ∉ sqz b b := by
  have : ∀ l m : List ℕ, 0 ∉ m → 0 ∉ sqz l m := by
    intro l
    induction l with
    | nil => intro m h; simp [sqz]
    | cons c l ih =>
      intro m h
      cases m with
      | nil => simp [sqz]
      | cons d m =>
        have h' : 0 ∉ m := fun hm => h (by simp [hm])
        have hd : d ≠ 0 := fun hd => h (by simp [hd])
        unfold sqz
        split
        · exact ih m h'
        · simp only [List.mem_cons, not_or]
          exact ⟨hd.symm, ih m h'⟩
  exact this b b h0

section
variable {F : Type} [Inhabited F] [AddCommMonoid F] {g : SliceFn F} (inter sparseJHJ dot : Bool) (T : ℕ)
  {args : List (ArrTrip F × List ℕ)} (hok : ∀ a ∈ args, TripOk a) {extras : List (ND F × List ℕ)}
  (hext : ∀ e ∈ extras, ValidSkip e.1.shape e.2) {b B : List ℕ} (hba : Broadcasts (args.map fun a => otherShape a.1.x.shape a.2) b)
  (hb : Broadcasts ((args.map fun a => otherShape a.1.x.shape a.2) ++ extras.map fun e => otherShape e.1.shape e.2) B)

include hok hext hba hb in
/-- Other arguments that enlarge the broadcast shape. -/
theorem hessArr_raises (h0 : 0 ∉ b) (hne : args ≠ []) (hnd : dot = false ∨ ∃ a ∈ args, a.2.length ≠ 1)
    (hsp : ∃ a ∈ args, a.1.jac.idx ≠ none) (hw : 0 < mergedWidth inter args b)
    (hj : sparseJHJ = true ∨ (mergedWidth inter args b < maxSizeArr args ∧ mergedWidth inter args b ≤ T))
    (hlt : (sqz b b).length < (sqz B B).length) (out : List ℕ) : hessArr g inter sparseJHJ dot T args extras out = none := by
  obtain ⟨idx, hf, hs, hi⟩ := findOutIdxArr_spec inter T hne hok hba (any_sparse hsp)
  have hd : (decide (mergedWidth inter args b ≥ maxSizeArr args ∨ mergedWidth inter args b > T) && !sparseJHJ) = false := by
    rcases hj with h | h
    · rw [h]; simp
    · rw [decide_eq_false (by omega)]; rfl
  have hc : ¬ (dot = true ∧ ∀ a ∈ args, a.2.length = 1) := by
    rintro ⟨e1, e2⟩
    rcases hnd with h | ⟨a, ha, h⟩
    · rw [h] at e1; simp at e1
    · exact h (e2 a ha)
  have hz : ¬ (some (idx.shape.getD 0 0) = some 0) := by
    rw [hs, Option.some.injEq]
    exact Nat.pos_iff_ne_zero.mp hw
  have := vmapHess_raises (g := g) hok hext hb hs hw (zero_sqz h0) hlt
  unfold hessArr hessRest densifyArgs
  simp only [Option.bind_eq_bind, Option.bind_some, hf, hd, Bool.false_eq_true, if_false, Option.map_some, if_neg hc, if_neg hz, this]
  rfl

theorem compress_one {idx : ND ℤ} {W : ℕ} (hs : idx.shape = [W, 1]) : compressIdx idx 0 = none := by
  have hrep : repeats idx 1 = true := by
    unfold repeats
    rw [List.all_eq_true]
    intro k hk
    have hk := inB_unravelIdx (List.mem_range.mp hk)
    rw [hs] at hk ⊢
    rw [decide_eq_true_eq]
    obtain ⟨i, l, e, _, h2⟩ := hk.cons_right
    obtain ⟨j, l', rfl, hj, h2⟩ := h2.cons_right
    obtain rfl := InB.nil_right.mp h2
    rw [e]
    obtain rfl : j = 0 := by omega
    rfl
  have hc : (compact idx).2 = [1] := by
    unfold compact
    have : ((List.range idx.ndim).filter fun d => decide (d ≠ 0)) = [1] := by
      unfold ND.ndim
      rw [hs]
      rfl
    rw [this, List.foldl_cons, List.foldl_nil]
    unfold compactStep
    rw [if_pos hrep]
    rfl
  unfold compressIdx
  rw [hc]
  rfl

end

section
variable {F : Type} [Inhabited F] [AddCommMonoid F] {g : SliceFn F} (inter sparseJHJ : Bool) (T : ℕ)
  {args : List (ArrTrip F × List ℕ)} {b : List ℕ} (hba : Broadcasts (args.map fun a => otherShape a.1.x.shape a.2) b)

include hba in
/-- A dot product in which some input matters at exactly one position. -/
theorem hessArr_dot_one (hne : args ≠ []) (hsp : ∃ a ∈ args, a.1.jac.idx ≠ none) (hw : 0 < mergedWidth inter args b)
    (hl : ∀ a ∈ args, LastAxis a b) (h1 : 1 ∉ b)
    (hj : mergedWidth inter args b < maxSizeArr args ∧ mergedWidth inter args b ≤ T)
    (hn : (activeAt inter args b).length = 1) (hr : 2 ≤ b.prod) (out : List ℕ) :
    hessArr g inter sparseJHJ true T args [] out = none := by
  have hok : ∀ a ∈ args, TripOk a := fun a ha => (hl a ha).ok
  obtain ⟨idx, hf, hs, hi⟩ := findOutIdxArr_spec inter T hne hok hba (any_sparse hsp)
  have hdn : decide (mergedWidth inter args b ≥ maxSizeArr args ∨ mergedWidth inter args b > T) = false := decide_eq_false (by omega)
  rw [hdn] at hf
  obtain ⟨w1, w2, w3⟩ := where_eq hs hi
  rw [sqz_id h1 rfl] at hs w2
  have hact : ∀ v ∈ activeAt inter args b, InB v b := fun v hv => mem_allIdx.mp (List.mem_filter.mp hv).1
  have w1' : whereIdx (nonzeroMask idx) = activeAt inter args b := by
    rw [w1]
    conv_rhs => rw [← List.map_id (activeAt inter args b)]
    exact List.map_congr_left fun v hv => sqz_id h1 (hact v hv).length_eq
  obtain ⟨us, hus⟩ : ∃ us, us = activeAt inter args b := ⟨_, rfl⟩
  rw [← hus] at hn hact w1'
  have hbn : b ≠ [] := by
    rintro rfl
    rw [List.prod_nil] at hr
    omega
  obtain ⟨l', r1, r2, r3, r4⟩ := restrict_all hact (by omega) hl fun a ha => (last_aligned hba hl ha).2
  rw [hessArr_start inter T _ hf rfl]
  have hz : ¬ (some (idx.shape.getD 0 0) = some 0) := by
    rw [hs, Option.some.injEq]
    exact Nat.pos_iff_ne_zero.mp hw
  obtain ⟨idx', hidx'⟩ : ∃ idx', idx' = ND.ofFn [idx.shape.getD 0 0, us.length] fun w =>
    idx.get (w.getD 0 0 :: us.getD (w.getD 1 0) []) := ⟨_, rfl⟩
  have hrem : removeZero args (some idx) false = some (l', some idx', some (nonzeroMask idx)) := by
    unfold removeZero
    dsimp only
    rw [if_neg (by rw [w1', w3]; omega), w1', w2, r1, hidx']
    rfl
  have hb' : Broadcasts ((l'.map lastAxis).map (fun a => otherShape a.1.x.shape a.2) ++
      ([] : List (ND F × List ℕ)).map fun e => otherShape e.1.shape e.2) [us.length] := by
    rw [List.map_nil, List.append_nil, r3]
    have := bcast_lead (n := us.length) (some_long hba hl h1 hbn)
    rwa [List.map_map] at this
  have hbs := leaves_bcast r2 hb'
  have hlen := (cols_spread (flags_of (leaves_ok r2 (by simp)) hbs) (seq := List.replicate (sqz [us.length] [us.length]).length none) (by simp)).2
  have hV : vmapHess g (l'.map lastAxis) [] (some idx') = none := by
    unfold vmapHess
    show ((vmapSequences ((allLeaves (l'.map lastAxis) []).map fun l => (l.1.shape, l.2))).bind _) = _
    rw [vmapSequences_eq hbs, Option.bind_some]
    dsimp only
    have : (sqz [us.length] [us.length]).length = 0 := by rw [hn]; rfl
    rw [hlen, this, compress_one (W := idx.shape.getD 0 0) (by rw [hidx', ND.shape_ofFn, hn])]
    rfl
  unfold hessRest
  rw [Option.map_some, if_neg hz, if_pos ⟨rfl, fun a ha => by rw [(hl a ha).ax]; rfl⟩, hrem]
  simp only [Option.bind_eq_bind, Option.bind_some, hV]
  rfl

end


theorem sqz_rev (b : List ℕ) : (sqz b b).length = (b.filter (· ≠ 1)).length := by
  induction b with
  | nil => rfl
  | cons c b ih =>
    unfold sqz
    by_cases h : c = 1
    · rw [if_pos h, ih, List.filter_cons_of_neg (by simpa using h)]
    · rw [if_neg h, List.length_cons, ih, List.filter_cons_of_pos (by simpa using h), List.length_cons]

/-- Lists aligned at the front (after reversal): the second repeats the entries of the first that are not 1. -/
theorem rev_shape (c C : List ℕ) (hl : c.length ≤ C.length) (h : ∀ j, c.getD j 1 = 1 ∨ C.getD j 1 = c.getD j 1) :
    (∃ j, C = c ++ List.replicate j 1) ∨ (c.filter (· ≠ 1)).length < (C.filter (· ≠ 1)).length := by
  induction c generalizing C with
  | nil =>
    by_cases hC : ∀ d ∈ C, d = 1
    · exact Or.inl ⟨C.length, List.eq_replicate_iff.mpr ⟨rfl, hC⟩⟩
    · right
      push Not at hC
      obtain ⟨d, hd, h1⟩ := hC
      have : d ∈ C.filter (· ≠ 1) := List.mem_filter.mpr ⟨hd, by simpa using h1⟩
      exact List.length_pos_of_mem this
  | cons d c ih =>
    cases C with
    | nil => simp at hl
    | cons D C =>
      have hh : ∀ j, c.getD j 1 = 1 ∨ C.getD j 1 = c.getD j 1 := fun j => by simpa using h (j + 1)
      have h0 : d = 1 ∨ D = d := by simpa using h 0
      have hle : (c.filter (· ≠ 1)).length ≤ (C.filter (· ≠ 1)).length := by
        rcases ih C (by simpa using hl) hh with ⟨j, e⟩ | e
        · rw [e, List.filter_append, List.length_append]; omega
        · omega
      by_cases hD : D = d
      · rcases ih C (by simpa using hl) hh with ⟨j, e⟩ | e
        · exact Or.inl ⟨j, by rw [hD, e, List.cons_append]⟩
        · right
          rw [List.filter_cons, List.filter_cons, hD]
          split
          · rw [List.length_cons, List.length_cons]; omega
          · exact e
      · right
        have hd1 := h0.resolve_right hD
        rw [List.filter_cons_of_neg (by simpa using hd1), List.filter_cons_of_pos (by simpa using fun e => hD (by rw [e, hd1]))]
        rw [List.length_cons]; omega

/-- The joint broadcast shape either has only additional axes of size 1 in front, or more axes that are not 1. -/
theorem joint_shape {S E : List (List ℕ)} {b B : List ℕ} (h : Broadcasts S b) (hB : Broadcasts (S ++ E) B) :
    (∃ j, B = List.replicate j 1 ++ b) ∨ (sqz b b).length < (sqz B B).length := by
  have hl : b.length ≤ B.length := by
    rcases h.rank_eq with rfl | ⟨s, hs, e⟩
    · simp
    · rw [← e]; exact hB.rank_le s (by simp [hs])
  have := rev_shape b.reverse B.reverse (by simpa using hl) fun j => by
    rcases h.tight j with e | ⟨s, hs, e⟩
    · exact Or.inl e
    · rcases hB.compat s (by simp [hs]) j with e' | e'
      · left; exact e.symm.trans e'
      · right; exact e'.symm.trans e
  rw [sqz_rev, sqz_rev]
  rcases this with ⟨j, e⟩ | e
  · left
    refine ⟨j, ?_⟩
    have := congrArg List.reverse e
    simpa using this
  · right
    rwa [List.filter_reverse, List.filter_reverse, List.length_reverse, List.length_reverse] at e

end Folx.Layout

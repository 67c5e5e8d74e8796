import Verif.ND.HessSpec
import Verif.ND.VmapBcast
import Verif.ND.LayoutProofs

/-!
# Proofs: nested `vmap` with an index array
-/

namespace Folx.Vmap
open Layout

variable {α β : Type}

/-- Coordinates along the axes whose size is not 1. -/
def sqz : List ℕ → List ℕ → List ℕ
  | b :: bs, i :: is => if b = 1 then sqz bs is else i :: sqz bs is
  | _, _ => []

/-- A sequence for the axes whose size is not 1, with `none` for the others. -/
def spread : List ℕ → List (Option ℕ) → List (Option ℕ)
  | b :: bs, os => if b = 1 then none :: spread bs os else os.headD none :: spread bs os.tail
  | [], _ => []

theorem spread_length (b : List ℕ) (os : List (Option ℕ)) : (spread b os).length = b.length := by
  induction b generalizing os with
  | nil => rfl
  | cons b bs ih => unfold spread; split <;> simp [ih]

theorem spread_none {b : List ℕ} {os : List (Option ℕ)} {i : ℕ} (hi : i < b.length) (h1 : b.getD i 0 = 1) :
    (spread b os).getD i none = none := by
  induction b generalizing i os with
  | nil => simp at hi
  | cons b bs ih =>
    cases i with
    | zero =>
      have : b = 1 := by simpa using h1
      rw [spread, if_pos this]
      rfl
    | succ i =>
      unfold spread
      split
      · exact ih (i := i) (by simpa using hi) (by simpa using h1)
      · exact ih (i := i) (by simpa using hi) (by simpa using h1)

theorem inB_sqz {b v : List ℕ} (h : InB v b) : InB (sqz b v) (sqz b b) := by
  induction b generalizing v with
  | nil => exact List.Forall₂.nil
  | cons b bs ih =>
    obtain ⟨i, is, rfl, hi, his⟩ := h.cons_right
    unfold sqz
    split
    · exact ih his
    · exact List.Forall₂.cons hi (ih his)

theorem sqz_surj {b u : List ℕ} (h : InB u (sqz b b)) : ∃ v, InB v b ∧ sqz b v = u := by
  induction b generalizing u with
  | nil => exact ⟨[], List.Forall₂.nil, (InB.nil_right.mp h).symm⟩
  | cons b bs ih =>
    unfold sqz at h
    by_cases hb : b = 1
    · rw [if_pos hb] at h
      obtain ⟨v, hv, e⟩ := ih h
      exact ⟨0 :: v, List.Forall₂.cons (by omega) hv, by unfold sqz; rw [if_pos hb, e]⟩
    · rw [if_neg hb] at h
      obtain ⟨i, is, rfl, hi, his⟩ := h.cons_right
      obtain ⟨v, hv, e⟩ := ih his
      exact ⟨i :: v, List.Forall₂.cons hi hv, by unfold sqz; rw [if_neg hb, e]⟩

theorem sqz_inj {b v w : List ℕ} (hv : InB v b) (hw : InB w b) (h : sqz b v = sqz b w) : v = w := by
  induction b generalizing v w with
  | nil => rw [InB.nil_right.mp hv, InB.nil_right.mp hw]
  | cons b bs ih =>
    obtain ⟨i, is, rfl, hi, his⟩ := hv.cons_right
    obtain ⟨j, js, rfl, hj, hjs⟩ := hw.cons_right
    unfold sqz at h
    by_cases hb : b = 1
    · rw [if_pos hb, if_pos hb] at h
      rw [ih his hjs h]
      congr 1
      omega
    · rw [if_neg hb, if_neg hb, List.cons.injEq] at h
      rw [ih his hjs h.2, h.1]

theorem prod_sqz (b o : List ℕ) : (sqz b b ++ o).prod = (b ++ o).prod := by
  induction b with
  | nil => rfl
  | cons b bs ih =>
    unfold sqz
    split
    · rename_i hb
      rw [ih, hb, List.cons_append, List.prod_cons, one_mul]
    · rw [List.cons_append, List.cons_append, List.prod_cons, List.prod_cons, ih]

theorem ravel_sqz {b v : List ℕ} (h : InB v b) (o c : List ℕ) :
    ravelIdx (sqz b b ++ o) (sqz b v ++ c) = ravelIdx (b ++ o) (v ++ c) := by
  induction b generalizing v with
  | nil => rw [InB.nil_right.mp h]; rfl
  | cons b bs ih =>
    obtain ⟨i, is, rfl, hi, his⟩ := h.cons_right
    unfold sqz
    split
    · rename_i hb
      rw [ih his, List.cons_append, List.cons_append, ravelIdx]
      have : i = 0 := by omega
      rw [this, Nat.zero_mul, Nat.zero_add]
    · rw [List.cons_append, List.cons_append, List.cons_append, List.cons_append, ravelIdx, ravelIdx, ih his, prod_sqz]

/-! ### Columns of axes -/

/-- Every kept axis is mapped by some leaf, the others by none. -/
def Flags (b : List ℕ) (ms : List (List (Option ℕ))) : Prop :=
  ∀ i < b.length, (ms.map fun m => m.getD i none).any Option.isSome = decide (b.getD i 0 ≠ 1)

theorem Flags.tail {b : ℕ} {bs : List ℕ} {ms : List (List (Option ℕ))} (h : Flags (b :: bs) ms) : Flags bs (ms.map List.tail) := by
  intro i hi
  have := h (i + 1) (by simpa using hi)
  rw [List.getD_cons_succ] at this
  rw [← this, List.map_map]
  congr 2
  funext m
  cases m <;> simp

theorem kept_eq {b : List ℕ} {ms : List (List (Option ℕ))} (h : Flags b ms) : kept (cols b.length ms) b = sqz b b := by
  induction b generalizing ms with
  | nil => rfl
  | cons b bs ih =>
    rw [List.length_cons, cols_succ]
    have h0 := h 0 (by simp)
    simp only [kept, sqz, h0]
    rw [List.getD_cons_zero]
    by_cases hb : b = 1
    · rw [if_neg (by simpa using hb), if_pos hb, ih h.tail]
    · rw [if_pos (by simpa using hb), if_neg hb, ih h.tail]

theorem cols_spread {b : List ℕ} {ms : List (List (Option ℕ))} (h : Flags b ms) {seq : List (Option ℕ)}
    (hl : seq.length = (sqz b b).length) :
    (cols b.length (ms ++ [spread b seq])).filter (fun c => c.any Option.isSome) =
      List.zipWith (fun s o => s ++ [o]) ((cols b.length ms).filter fun c => c.any Option.isSome) seq ∧
    ((cols b.length ms).filter fun c => c.any Option.isSome).length = (sqz b b).length := by
  induction b generalizing ms seq with
  | nil => exact ⟨rfl, rfl⟩
  | cons b bs ih =>
    rw [List.length_cons, cols_succ, cols_succ, List.map_append, List.map_append]
    have h0 : (ms.map fun m => m.getD 0 none).any Option.isSome = decide (b ≠ 1) := by simpa using h 0 (by simp)
    by_cases hb : b = 1
    · have hs : sqz (b :: bs) (b :: bs) = sqz bs bs := by rw [sqz, if_pos hb]
      rw [hs] at hl ⊢
      have hsp : spread (b :: bs) seq = none :: spread bs seq := by rw [spread, if_pos hb]
      rw [hsp]
      have e1 : ¬ ((ms.map fun m => m.getD 0 none).any Option.isSome = true) := by rw [h0]; simpa using hb
      rw [List.filter_cons_of_neg (p := fun c => List.any c Option.isSome) e1,
        List.filter_cons_of_neg (p := fun c => List.any c Option.isSome) (by
          rw [List.any_append]
          simpa using e1)]
      exact ih h.tail hl
    · have hs : sqz (b :: bs) (b :: bs) = b :: sqz bs bs := by rw [sqz, if_neg hb]
      rw [hs] at hl ⊢
      cases seq with
      | nil => simp at hl
      | cons o os =>
        have hsp : spread (b :: bs) (o :: os) = o :: spread bs os := by rw [spread, if_neg hb]; rfl
        rw [hsp]
        have e1 : (ms.map fun m => m.getD 0 none).any Option.isSome = true := by rw [h0]; simpa using hb
        rw [List.filter_cons_of_pos (p := fun c => List.any c Option.isSome) e1,
          List.filter_cons_of_pos (p := fun c => List.any c Option.isSome) (by
            rw [List.any_append, e1, Bool.true_or])]
        obtain ⟨g1, g2⟩ := ih h.tail (seq := os) (by simpa using hl)
        refine ⟨?_, by rw [List.length_cons, List.length_cons, g2]⟩
        rw [List.zipWith_cons_cons]
        congr 1

/-! ### The maps of a leaf -/

section
variable [Inhabited α] [Inhabited β]

omit [Inhabited α] [Inhabited β] in
theorem arg_some (a : ND α × List ℕ) {b : List ℕ} (hs : ValidSkip a.1.shape a.2)
    (hl : (removeAxes a.1.shape a.2).length ≤ b.length) {i : ℕ} (hi : (maps1 b a).getD i none ≠ none) :
    (List.replicate (b.length - (removeAxes a.1.shape a.2).length) 1 ++ removeAxes a.1.shape a.2).getD i 1 ≠ 1 := by
  rw [removeAxes_eq] at hl ⊢
  have hm : maps1 b a = _ := vmapSequence_eq hs hl
  rw [hm] at hi
  set k := b.length - (falses (lab a.2 0 a.1.shape)).length with hk
  by_cases hik : i < k
  · rw [List.getD_append _ _ _ _ (by simpa using hik), List.getD_eq_getElem _ _ (by simpa using hik)] at hi
    simp at hi
  · rw [List.getD_append_right _ _ _ _ (by simpa using hik), List.length_replicate] at hi ⊢
    generalize i - k = j at hi
    clear_value k
    generalize lab a.2 0 a.1.shape = l at hi ⊢
    generalize 0 = sk at hi
    clear hm hl hk hik
    induction l generalizing sk j with
    | nil => simp [seqAux] at hi
    | cons p l ih =>
      obtain ⟨t, d⟩ := p
      cases t with
      | true => exact ih _ _ hi
      | false =>
        cases j with
        | zero =>
          simp only [seqAux, List.getD_cons_zero, falses] at hi ⊢
          intro hd
          simp [hd] at hi
        | succ j =>
          simp only [seqAux, List.getD_cons_succ, falses] at hi ⊢
          exact ih _ _ hi

/-- The maps of broadcast leaves. -/
theorem flags_of {L : List (ND α × List ℕ)} (hs : ∀ a ∈ L, ValidSkip a.1.shape a.2) {b : List ℕ}
    (hb : broadcastShapes (L.map fun a => removeAxes a.1.shape a.2) = some b) : Flags b (L.map (maps1 b)) := by
  obtain ⟨h1, h2⟩ := bcast_spec hb
  intro i hi
  have hal : ∀ a ∈ L, (List.replicate (b.length - (removeAxes a.1.shape a.2).length) 1 ++
      removeAxes a.1.shape a.2).getD i 1 = 1 ∨ (List.replicate (b.length - (removeAxes a.1.shape a.2).length) 1 ++
      removeAxes a.1.shape a.2).getD i 1 = b.getD i 0 := by
    intro a ha
    obtain ⟨g1, g2⟩ := h1 _ (List.mem_map_of_mem ha)
    by_cases hik : i < b.length - (removeAxes a.1.shape a.2).length
    · left
      rw [List.getD_append _ _ _ _ (by simpa using hik), List.getD_eq_getElem _ _ (by simpa using hik)]
      simp
    · rw [List.getD_append_right _ _ _ _ (by simpa using hik), List.length_replicate]
      have hj : i - (b.length - (removeAxes a.1.shape a.2).length) < (removeAxes a.1.shape a.2).length := by omega
      have hj2 : i - (b.length - (removeAxes a.1.shape a.2).length) <
        (b.drop (b.length - (removeAxes a.1.shape a.2).length)).length := by rw [List.length_drop]; omega
      have := (List.forall₂_iff_get.mp g2).2 _ hj hj2
      simp only [List.get_eq_getElem, List.getElem_drop] at this
      rw [List.getD_eq_getElem _ _ hj, List.getD_eq_getElem _ _ hi]
      have e : b.length - (removeAxes a.1.shape a.2).length + (i - (b.length - (removeAxes a.1.shape a.2).length)) = i := by
        omega
      simpa only [e] using this
  by_cases hone : b.getD i 0 = 1
  · rw [decide_eq_false (by simpa using hone), List.any_eq_false]
    intro o ho
    rw [List.map_map] at ho
    obtain ⟨a, ha, rfl⟩ := List.mem_map.mp ho
    intro hsome
    have hne : (maps1 b a).getD i none ≠ none := by
      intro e
      simp only [Function.comp_apply, e] at hsome
      simp at hsome
    have := arg_some a (hs a ha) (h1 _ (List.mem_map_of_mem ha)).1 hne
    rcases hal a ha with h | h
    · exact this h
    · exact this (h.trans hone)
  · rw [decide_eq_true hone]
    by_contra hno
    apply hone
    refine h2 i hi fun s hs' => ?_
    obtain ⟨a, ha, rfl⟩ := List.mem_map.mp hs'
    refine (arg_spec a (hs a ha) (h1 _ (List.mem_map_of_mem ha)).1 (h1 _ (List.mem_map_of_mem ha)).2).2.2.2 i ?_
    by_contra hne
    apply hno
    rw [List.any_eq_true]
    refine ⟨(maps1 b a).getD i none, ?_, ?_⟩
    · rw [List.map_map]
      exact List.mem_map.mpr ⟨a, ha, rfl⟩
    · cases hq : (maps1 b a).getD i none with
      | none => exact absurd hq hne
      | some _ => rfl

omit [Inhabited α] [Inhabited β] in
theorem vmapSequences_eq {L : List (ND α × List ℕ)} {b : List ℕ}
    (hb : broadcastShapes (L.map fun a => removeAxes a.1.shape a.2) = some b) :
    vmapSequences (L.map fun a => (a.1.shape, a.2)) =
      some ((cols b.length (L.map (maps1 b))).filter fun c => c.any Option.isSome) := by
  unfold vmapSequences
  rw [List.map_map]
  have : ((fun a : List ℕ × List ℕ => removeAxes a.1 a.2) ∘ fun a : ND α × List ℕ => (a.1.shape, a.2)) =
    fun a => removeAxes a.1.shape a.2 := rfl
  rw [this, hb]
  simp only [List.map_map]
  congr 1
  unfold cols
  rw [List.filter_map]
  simp [Function.comp_def, maps1]

/-- The nested `vmap` without an index array: shape and elements of the result. -/
theorem nested_plain {f : List (ND α) → ND β} (hf : TracedFn f) {L : List (ND α × List ℕ)}
    (hs : ∀ a ∈ L, ValidSkip a.1.shape a.2) {b : List ℕ}
    (hb : broadcastShapes (L.map fun a => removeAxes a.1.shape a.2) = some b) {osh : List ℕ}
    (hosh : ∀ v, (f (L.map fun a => bslice a.1 a.2 b v)).shape = osh) :
    ∃ R, nestedVmap f ((cols b.length (L.map (maps1 b))).filter fun c => c.any Option.isSome)
        (L.map fun a => squeeze a.1 a.2) = some R ∧ R.shape = sqz b b ++ osh ∧
      R.data = (ND.ofFn (b ++ osh) fun idx => (f (L.map fun a => bslice a.1 a.2 b (idx.take b.length))).get
        (idx.drop b.length)).data := by
  obtain ⟨h1, h2⟩ := bcast_spec hb
  have ha := fun a (h : a ∈ L) => arg_spec a (hs a h) (h1 _ (List.mem_map_of_mem h)).1 (h1 _ (List.mem_map_of_mem h)).2
  let ps : List (List (Option ℕ) × ND α) := L.map fun a => (maps1 b a, squeeze a.1 a.2)
  have hfst : ps.map Prod.fst = L.map (maps1 b) := by simp [ps, Function.comp_def]
  have hsnd : ps.map Prod.snd = L.map fun a => squeeze a.1 a.2 := by simp [ps, Function.comp_def]
  have hat : ∀ v, (ps.map fun p => peel p.1 v p.2) = L.map fun a => peel (maps1 b a) v (squeeze a.1 a.2) := by
    intro v; simp [ps, Function.comp_def]
  obtain ⟨R, hR1, hR2, hR3⟩ := nested_spec f hf b ps (by
      intro p hp
      obtain ⟨a, h, rfl⟩ := List.mem_map.mp hp
      exact (ha a h).1) (by
      intro i hi hall
      refine h2 i hi fun s hs' => ?_
      obtain ⟨a, h, rfl⟩ := List.mem_map.mp hs'
      exact (ha a h).2.2.2 i (hall _ (List.mem_map_of_mem h))) osh (by
      rw [← hosh []]
      refine hf _ _ ?_
      rw [hat, List.map_map, List.map_map]
      exact List.map_congr_left fun a h => ((ha a h).2.1 _ (by simp)).symm)
  rw [hfst, hsnd] at hR1
  rw [hfst, kept_eq (flags_of hs hb)] at hR2
  refine ⟨R, hR1, hR2, hR3.trans (congrArg ND.data ?_)⟩
  refine ND.ext_get rfl fun idx hidx => ?_
  rw [ND.shape_ofFn] at hidx
  rw [ND.get_ofFn _ hidx, ND.get_ofFn _ hidx]
  have hidx' : InB (idx.take b.length) b := by
    have := List.forall₂_take b.length hidx
    rwa [List.take_left] at this
  rw [hat]
  congr 2
  exact List.map_congr_left fun a h => (ha a h).2.2.1 _ hidx'

/-- The nested `vmap` with an index array `x` mapped by `seq` along the kept axes. -/
theorem nested_idx {f : List (ND α) → ND β} (hf : TracedFn f) {L : List (ND α × List ℕ)}
    (hs : ∀ a ∈ L, ValidSkip a.1.shape a.2) {b : List ℕ}
    (hb : broadcastShapes (L.map fun a => removeAxes a.1.shape a.2) = some b) {x : ND α} {seq : List (Option ℕ)}
    (hl : seq.length = (sqz b b).length) (hx : ShapeOK (spread b seq) b x.shape) {osh : List ℕ}
    (hosh : ∀ v, v.length = b.length → (f ((L.map fun a => bslice a.1 a.2 b v) ++ [peel (spread b seq) v x])).shape = osh) :
    ∃ R, nestedVmap f (List.zipWith (fun s o => s ++ [o])
        ((cols b.length (L.map (maps1 b))).filter fun c => c.any Option.isSome) seq)
        ((L.map fun a => squeeze a.1 a.2) ++ [x]) = some R ∧ R.shape = sqz b b ++ osh ∧
      R.data = (ND.ofFn (b ++ osh) fun idx => (f ((L.map fun a => bslice a.1 a.2 b (idx.take b.length)) ++
        [peel (spread b seq) (idx.take b.length) x])).get (idx.drop b.length)).data := by
  obtain ⟨h1, h2⟩ := bcast_spec hb
  have ha := fun a (h : a ∈ L) => arg_spec a (hs a h) (h1 _ (List.mem_map_of_mem h)).1 (h1 _ (List.mem_map_of_mem h)).2
  let ps : List (List (Option ℕ) × ND α) := (L.map fun a => (maps1 b a, squeeze a.1 a.2)) ++ [(spread b seq, x)]
  have hfst : ps.map Prod.fst = L.map (maps1 b) ++ [spread b seq] := by simp [ps, Function.comp_def]
  have hsnd : ps.map Prod.snd = (L.map fun a => squeeze a.1 a.2) ++ [x] := by simp [ps, Function.comp_def]
  have hat : ∀ v, (ps.map fun p => peel p.1 v p.2) =
      (L.map fun a => peel (maps1 b a) v (squeeze a.1 a.2)) ++ [peel (spread b seq) v x] := by
    intro v; simp [ps, Function.comp_def]
  have hfl := flags_of hs hb
  have hone : ∀ i < b.length, (∀ p ∈ ps, p.1.getD i none = none) → b.getD i 0 = 1 := by
    intro i hi hall
    refine h2 i hi fun s hs' => ?_
    obtain ⟨a, h, rfl⟩ := List.mem_map.mp hs'
    exact (ha a h).2.2.2 i (hall _ (List.mem_append_left _ (List.mem_map_of_mem h)))
  obtain ⟨R, hR1, hR2, hR3⟩ := nested_spec f hf b ps (by
      intro p hp
      rcases List.mem_append.mp hp with hp | hp
      · obtain ⟨a, h, rfl⟩ := List.mem_map.mp hp
        exact (ha a h).1
      · obtain rfl := List.mem_singleton.mp hp
        exact hx) hone osh (by
      rw [← hosh (List.replicate b.length 0) (by simp), hat]
      refine hf _ _ ?_
      rw [List.map_append, List.map_append, List.map_map, List.map_map]
      congr 1
      exact List.map_congr_left fun a h => ((ha a h).2.1 _ (by simp)).symm)
  rw [hfst, hsnd, (cols_spread hfl hl).1] at hR1
  have hfl' : Flags b (L.map (maps1 b) ++ [spread b seq]) := by
    intro i hi
    rw [List.map_append, List.any_append, hfl i hi]
    by_cases hone : b.getD i 0 = 1
    · have : (spread b seq).getD i none = none := spread_none hi hone
      rw [List.map_cons, List.map_nil, this]
      simp
    · rw [decide_eq_true hone, Bool.true_or]
  rw [hfst, kept_eq hfl'] at hR2
  refine ⟨R, hR1, hR2, hR3.trans (congrArg ND.data ?_)⟩
  refine ND.ext_get rfl fun idx hidx => ?_
  rw [ND.shape_ofFn] at hidx
  rw [ND.get_ofFn _ hidx, ND.get_ofFn _ hidx]
  have hidx' : InB (idx.take b.length) b := by
    have := List.forall₂_take b.length hidx
    rwa [List.take_left] at this
  rw [hat]
  congr 3
  exact List.map_congr_left fun a h => (ha a h).2.2.1 _ hidx'

end

end Folx.Vmap

import Verif.ND.VmapProofs
import Mathlib.Data.List.GetD
import Mathlib.Data.List.Basic

namespace Folx.Vmap

variable {α β : Type}

/-! ### The broadcast shape -/

theorem mapM_some {γ δ : Type} (f : γ → Option δ) {l : List γ} {r : List δ} (h : l.mapM f = some r) :
    List.Forall₂ (fun x y => f x = some y) l r := by
  induction l generalizing r with
  | nil => simp at h; subst h; exact List.Forall₂.nil
  | cons a l ih =>
    rw [List.mapM_cons] at h
    cases ha : f a with
    | none => rw [ha] at h; simp at h
    | some y =>
      cases hl : l.mapM f with
      | none => rw [ha, hl] at h; simp at h
      | some ys =>
        rw [ha, hl] at h
        simp at h
        subst h
        exact List.Forall₂.cons ha (ih hl)

theorem foldr_max_le {l : List ℕ} {a : ℕ} (h : a ∈ l) : a ≤ l.foldr max 0 := by
  induction l with
  | nil => simp at h
  | cons b l ih =>
    rcases List.mem_cons.mp h with rfl | h
    · exact le_max_left _ _
    · exact le_trans (ih h) (le_max_right _ _)

theorem bcastDim_mem {l : List ℕ} {d e : ℕ} (h : bcastDim l = some d) (he : e ∈ l) : e = 1 ∨ e = d := by
  unfold bcastDim at h
  by_cases h1 : e = 1
  · exact Or.inl h1
  · right
    have hmem : e ∈ l.filter (· ≠ 1) := by
      rw [List.mem_filter]
      exact ⟨he, by simpa using h1⟩
    split at h
    · rename_i heq
      rw [heq] at hmem; simp at hmem
    · rename_i d ds heq
      rw [heq] at hmem
      split at h
      · rename_i hall
        rw [← Option.some.inj h]
        rcases List.mem_cons.mp hmem with h2 | h2
        · exact h2
        · exact hall _ h2
      · simp at h

theorem bcastDim_one {l : List ℕ} (h : ∀ e ∈ l, e = 1) : bcastDim l = some 1 := by
  unfold bcastDim
  have hnil : l.filter (· ≠ 1) = [] := by
    rw [List.filter_eq_nil_iff]
    intro a ha
    simpa using h a ha
  rw [hnil]

theorem bcast_spec {shapes : List (List ℕ)} {b : List ℕ} (h : broadcastShapes shapes = some b) :
    (∀ s ∈ shapes, s.length ≤ b.length ∧ Aligned s (b.drop (b.length - s.length))) ∧
    ∀ i < b.length, (∀ s ∈ shapes, (List.replicate (b.length - s.length) 1 ++ s).getD i 1 = 1) → b.getD i 0 = 1 := by
  unfold broadcastShapes at h
  have hf := mapM_some _ h
  have hlen : b.length = (shapes.map List.length).foldr max 0 := by
    rw [← hf.length_eq, List.length_range]
  rw [← hlen] at hf
  have hle : ∀ s ∈ shapes, s.length ≤ b.length := fun s hs => by
    rw [hlen]; exact foldr_max_le (List.mem_map_of_mem hs)
  have hget : ∀ i (hi : i < b.length),
      bcastDim ((shapes.map fun s => List.replicate (b.length - s.length) 1 ++ s).map fun s => s.getD i 1) =
        some b[i] := by
    intro i hi
    have := List.Forall₂.get hf (by simpa using hi) hi
    simpa only [List.get_eq_getElem, List.getElem_range] using this
  have hval : ∀ i (hi : i < b.length), ∀ s ∈ shapes,
      (List.replicate (b.length - s.length) 1 ++ s).getD i 1 = 1 ∨
      (List.replicate (b.length - s.length) 1 ++ s).getD i 1 = b[i] := by
    intro i hi s hs
    refine bcastDim_mem (hget i hi) ?_
    rw [List.map_map]
    exact List.mem_map.mpr ⟨s, hs, rfl⟩
  refine ⟨fun s hs => ⟨hle s hs, ?_⟩, ?_⟩
  · unfold Aligned
    rw [List.forall₂_iff_get]
    have := hle s hs
    refine ⟨by rw [List.length_drop]; omega, fun i h1 h2 => ?_⟩
    have hi : b.length - s.length + i < b.length := by omega
    have := hval _ hi s hs
    rw [List.getD_append_right _ _ _ _ (by simp)] at this
    simp only [List.length_replicate, Nat.add_sub_cancel_left] at this
    rw [List.getD_eq_getElem _ _ h1] at this
    simpa using this
  · intro i hi hall
    have := hget i hi
    have h1 := bcastDim_one (l := ((shapes.map fun s => List.replicate (b.length - s.length) 1 ++ s).map
      fun s => s.getD i 1)) (by
        intro a ha
        rw [List.map_map] at ha
        obtain ⟨s, hs, rfl⟩ := List.mem_map.mp ha
        exact hall s hs)
    rw [h1] at this
    rw [List.getD_eq_getElem _ _ hi]
    exact (Option.some.inj this).symm

/-! ### Coordinates -/

theorem weave_true (l : List (Bool × ℕ)) (d : ℕ) (v c : List ℕ) :
    weave ((true, d) :: l) v c = c.getD 0 0 :: weave l v c.tail := by
  cases c <;> rfl

theorem weave_false (l : List (Bool × ℕ)) (d : ℕ) (v c : List ℕ) :
    weave ((false, d) :: l) v c = (if d = 1 then 0 else v.getD 0 0) :: weave l v.tail c := by
  cases v with
  | nil => simp [weave]
  | cons i v => rfl

theorem skipsBefore_succ (skip : List ℕ) (i : ℕ) :
    skipsBefore skip (i + 1) = skipsBefore skip i + if i ∈ skip then 1 else 0 := by
  unfold skipsBefore
  rw [List.range_succ, List.filter_append, List.length_append]
  by_cases h : i ∈ skip <;> simp [h]

theorem skipsBefore_le (skip : List ℕ) (i : ℕ) : skipsBefore skip i ≤ i := by
  unfold skipsBefore
  exact le_trans (List.length_filter_le _ _) (by simp)

theorem bindex_aux (skip done rest v c : List ℕ) (off : ℕ) :
    ((List.range' done.length rest.length).map fun i =>
      if i ∈ skip then c.getD (skipsBefore skip i) 0
      else if (done ++ rest).getD i 0 = 1 then 0
      else v.getD (off + (i - skipsBefore skip i)) 0) =
    weave (lab skip done.length rest) (v.drop (off + (done.length - skipsBefore skip done.length)))
      (c.drop (skipsBefore skip done.length)) := by
  induction rest generalizing done with
  | nil => rfl
  | cons d ds ih =>
    have e : done ++ d :: ds = (done ++ [d]) ++ ds := by simp
    have hlen : (done ++ [d]).length = done.length + 1 := by simp
    have := ih (done ++ [d])
    rw [hlen, ← e, skipsBefore_succ] at this
    have hle := skipsBefore_le skip done.length
    rw [List.length_cons, List.range'_succ, List.map_cons, this, lab]
    have h2 : (done ++ d :: ds).getD done.length 0 = d := by
      rw [List.getD_append_right _ _ _ _ (le_refl _)]; simp
    rw [h2]
    by_cases h : done.length ∈ skip
    · simp only [h, if_true, decide_true]
      rw [weave_true]
      have e1 : done.length + 1 - (skipsBefore skip done.length + 1) =
        done.length - skipsBefore skip done.length := by omega
      rw [e1, List.tail_drop]
      congr 1
      simp [List.getD_eq_getElem?_getD]
    · simp only [h, if_false, decide_false]
      rw [weave_false]
      have e1 : done.length + 1 - (skipsBefore skip done.length + 0) =
        done.length - skipsBefore skip done.length + 1 := by omega
      rw [e1, List.tail_drop]
      simp [List.getD_eq_getElem?_getD, Nat.add_assoc]

theorem bindex_eq (shape skip b v c : List ℕ) :
    bindex shape skip b v c =
      weave (lab skip 0 shape) (v.drop (b.length - (shape.length - skip.length))) c := by
  have := bindex_aux skip [] shape v c (b.length - (shape.length - skip.length))
  have h0 : skipsBefore skip 0 = 0 := rfl
  simpa [bindex, List.range_eq_range', h0] using this

theorem inB_drop {v b : List ℕ} (h : InB v b) (n : ℕ) : InB (v.drop n) (b.drop n) := List.forall₂_drop n h

section
variable [Inhabited α] [Inhabited β]

/-- The maps of one argument. -/
def maps1 (b : List ℕ) (a : ND α × List ℕ) : List (Option ℕ) := vmapSequence a.1.shape b a.2

theorem arg_spec (a : ND α × List ℕ) {b : List ℕ} (hs : ValidSkip a.1.shape a.2)
    (hl : (removeAxes a.1.shape a.2).length ≤ b.length)
    (ha : Aligned (removeAxes a.1.shape a.2) (b.drop (b.length - (removeAxes a.1.shape a.2).length))) :
    ShapeOK (maps1 b a) b (squeeze a.1 a.2).shape ∧
    (∀ v, v.length = b.length → (peel (maps1 b a) v (squeeze a.1 a.2)).shape = skipShape a.1.shape a.2) ∧
    (∀ v, InB v b → peel (maps1 b a) v (squeeze a.1 a.2) = bslice a.1 a.2 b v) ∧
    (∀ i, (maps1 b a).getD i none = none →
      (List.replicate (b.length - (removeAxes a.1.shape a.2).length) 1 ++ removeAxes a.1.shape a.2).getD i 1 = 1) := by
  rw [removeAxes_eq] at hl ha ⊢
  have hm : maps1 b a = _ := vmapSequence_eq hs hl
  have hsh : (squeeze a.1 a.2).shape = [] ++ sq (lab a.2 0 a.1.shape) := squeezeShape_eq a.2 a.1.shape
  obtain ⟨h1, h2⟩ := peel_spec (lab a.2 0 a.1.shape) [] _ ha (squeeze a.1 a.2) hsh
  rw [hm]
  set k := b.length - (falses (lab a.2 0 a.1.shape)).length with hk
  have hkb : k ≤ b.length := by omega
  have htd : ∀ v : List ℕ, v = v.take k ++ v.drop k := fun v => (List.take_append_drop k v).symm
  have hshape : ∀ v : List ℕ, v.length = b.length →
      (peel (List.replicate k none ++ seqAux 0 (lab a.2 0 a.1.shape)) v (squeeze a.1 a.2)).shape =
        skipShape a.1.shape a.2 := by
    intro v hv
    conv_lhs => rw [htd v]
    rw [peel_append_none _ _ _ _ (by rw [List.length_take]; omega), skipShape_eq]
    exact (h2 _ (by rw [List.length_drop, List.length_drop]; omega)).1
  refine ⟨?_, hshape, ?_, ?_⟩
  · conv => arg 2; rw [htd b]
    exact shapeOK_append_none _ _ _ _ (by rw [List.length_take]; omega) _ h1
  · intro v hv
    have hvl := hv.length_eq
    refine ND.ext_get (by rw [hshape v hvl]; rfl) fun c hc => ?_
    rw [hshape v hvl] at hc
    unfold bslice
    rw [ND.get_ofFn _ hc, bindex_eq, ← falses_length hs]
    rw [skipShape_eq] at hc
    conv_lhs => rw [htd v]
    rw [peel_append_none _ _ _ _ (by rw [List.length_take]; omega)]
    have h3 := (h2 (v.drop k) (by rw [List.length_drop, List.length_drop]; omega)).2 (inB_drop hv k) [] c
      List.Forall₂.nil hc
    rw [List.nil_append, List.nil_append] at h3
    exact h3.trans (squeeze_get _ _ _ _)
  · intro i hi
    by_cases hik : i < k
    · rw [List.getD_append _ _ _ _ (by simpa using hik), List.getD_eq_getElem _ _ (by simpa using hik)]
      simp
    · rw [List.getD_append_right _ _ _ _ (by simpa using hik), List.length_replicate] at hi ⊢
      generalize i - k = j at hi
      clear_value k
      clear h1 h2 hshape hsh hm ha hl hk htd hik hkb
      generalize lab a.2 0 a.1.shape = l at hi ⊢
      generalize 0 = sk at hi
      induction l generalizing sk j with
      | nil => simp [falses]
      | cons p l ih =>
        obtain ⟨t, d⟩ := p
        cases t with
        | true => exact ih _ _ hi
        | false =>
          cases j with
          | zero =>
            simp only [seqAux, List.getD_cons_zero, falses] at hi ⊢
            by_contra hd
            simp [hd] at hi
          | succ j =>
            simp only [seqAux, List.getD_cons_succ, falses] at hi ⊢
            exact ih _ _ hi

/-! ### Nested `vmap` -/

theorem map_range_mul {γ : Type} (n P : ℕ) (g : ℕ → γ) :
    (List.range (n * P)).map g = (List.range n).flatMap fun i => (List.range P).map fun k => g (i * P + k) := by
  induction n with
  | zero => simp
  | succ n ih =>
    rw [Nat.succ_mul, List.range_add, List.map_append, ih, List.range_succ, List.flatMap_append, List.map_map]
    simp [Function.comp_def]

omit [Inhabited α] in
theorem data_ofFn_cons (n : ℕ) (s : List ℕ) (g : List ℕ → α) :
    (ND.ofFn (n :: s) g).data = (List.range n).flatMap fun i => (ND.ofFn s fun idx => g (i :: idx)).data := by
  show (List.range (n :: s).prod).map (fun k => g (unravelIdx (n :: s) k)) = _
  rw [List.prod_cons, map_range_mul]
  congr 1
  funext i
  refine List.map_congr_left fun k hk => ?_
  have hk' : k < s.prod := by simpa using hk
  have h0 : 0 < s.prod := by omega
  have e1 : (i * s.prod + k) / s.prod = i := by
    rw [mul_comm, Nat.mul_add_div h0, Nat.div_eq_of_lt hk', add_zero]
  have e2 : (i * s.prod + k) % s.prod = k := by
    rw [mul_comm, Nat.mul_add_mod, Nat.mod_eq_of_lt hk']
  simp only [unravelIdx, e1, e2]

theorem ofFn_get (x : ND α) {s : List ℕ} (h : x.shape = s) : ND.ofFn s x.get = x := by
  subst h
  exact ND.ext_get rfl fun idx hidx => ND.get_ofFn _ hidx

theorem data_stack (n : ℕ) (s : List ℕ) (y : ℕ → ND α) (h : ∀ i < n, (y i).shape = s) :
    (ND.stack n s y 0).data = (List.range n).flatMap fun i => (y i).data := by
  show (ND.ofFn (n :: s) _).data = _
  rw [data_ofFn_cons]
  refine List.flatMap_congr fun i hi => ?_
  have : ND.ofFn s (y i).get = y i := ofFn_get _ (h i (by simpa using hi))
  conv_rhs => rw [← this]
  rfl

/-- Column of axes at the head. -/
def heads (ps : List (List (Option ℕ) × ND α)) : List (Option ℕ) := ps.map fun p => p.1.getD 0 none

/-- One slicing step of every argument. -/
def stepAll (i : ℕ) (ps : List (List (Option ℕ) × ND α)) : List (List (Option ℕ) × ND α) :=
  ps.map fun p => (p.1.tail, slice1 (p.1.getD 0 none) i p.2)

/-- The columns of axes. -/
def cols (n : ℕ) (ms : List (List (Option ℕ))) : List (List (Option ℕ)) :=
  (List.range n).map fun i => ms.map fun m => m.getD i none

/-- Sizes of the kept dimensions. -/
def kept : List (List (Option ℕ)) → List ℕ → List ℕ
  | c :: cs, b :: bs => if c.any Option.isSome then b :: kept cs bs else kept cs bs
  | _, _ => []

theorem cols_succ (n : ℕ) (ms : List (List (Option ℕ))) :
    cols (n + 1) ms = (ms.map fun m => m.getD 0 none) :: cols n (ms.map List.tail) := by
  unfold cols
  rw [List.range_succ_eq_map, List.map_cons, List.map_map]
  congr 1
  refine List.map_congr_left fun i _ => ?_
  simp only [Function.comp_apply, List.map_map]
  refine List.map_congr_left fun m _ => ?_
  cases m <;> simp

theorem sliceAll_eq (i : ℕ) (ps : List (List (Option ℕ) × ND α)) :
    sliceAll (ps.map fun p => p.1.getD 0 none) i (ps.map Prod.snd) = (stepAll i ps).map Prod.snd := by
  unfold sliceAll stepAll
  induction ps with
  | nil => rfl
  | cons p ps ih =>
    simp only [List.map_cons, List.zipWith_cons_cons]
    rw [ih]
    congr 1

theorem mapSize_eq {b : ℕ} {bs : List ℕ} {ps : List (List (Option ℕ) × ND α)}
    (h : ∀ p ∈ ps, ShapeOK p.1 (b :: bs) p.2.shape)
    (hany : (ps.map fun p => p.1.getD 0 none).any Option.isSome = true) :
    mapSize (ps.map fun p => p.1.getD 0 none) (ps.map Prod.snd) = some b := by
  have h1 : ∀ d ∈ mappedSizes (ps.map fun p => p.1.getD 0 none) (ps.map Prod.snd), d = some b := by
    clear hany
    unfold mappedSizes
    induction ps with
    | nil => simp
    | cons p ps ih =>
      obtain ⟨m, x⟩ := p
      have hp := h (m, x) (by simp)
      have ih' := ih fun q hq => h q (by simp [hq])
      cases m with
      | nil => exact absurd hp (by simp [ShapeOK])
      | cons o os =>
        cases o with
        | none => simpa using ih'
        | some a =>
          have := hp.1
          dsimp only at this
          intro d hd
          simp only [List.map_cons, List.zipWith_cons_cons, List.getD_cons_zero, Option.map_some] at hd
          rw [List.filterMap_cons_some (f := id) (b := x.shape[a]?) rfl, List.mem_cons] at hd
          rcases hd with rfl | hd
          · exact this
          · exact ih' d hd
  have h2 : mappedSizes (ps.map fun p => p.1.getD 0 none) (ps.map Prod.snd) ≠ [] := by
    clear h1 h
    unfold mappedSizes
    induction ps with
    | nil => simp at hany
    | cons p ps ih =>
      simp only [List.map_cons, List.zipWith_cons_cons]
      cases ho : p.1.getD 0 none with
      | some a => simp
      | none =>
        rw [List.map_cons, List.any_cons, ho] at hany
        simpa using ih (by simpa using hany)
  unfold mapSize
  split
  · contradiction
  · rename_i heq
    exact absurd (h1 none (by rw [heq]; simp)) (by simp)
  · rename_i n ds heq
    have hn := h1 (some n) (by rw [heq]; simp)
    rw [if_pos (fun d hd => (h1 d (by rw [heq]; simp [hd])).trans hn.symm)]
    exact hn

theorem shapeOK_step {b i : ℕ} {bs : List ℕ} {p : List (Option ℕ) × ND α} (h : ShapeOK p.1 (b :: bs) p.2.shape) :
    ShapeOK p.1.tail bs (slice1 (p.1.getD 0 none) i p.2).shape := by
  obtain ⟨m, x⟩ := p
  cases m with
  | nil => exact absurd h (by simp [ShapeOK])
  | cons o os =>
    cases o with
    | none => exact h
    | some a => exact h.2

theorem peel_step {b i : ℕ} {bs : List ℕ} {p : List (Option ℕ) × ND α} (h : ShapeOK p.1 (b :: bs) p.2.shape)
    (v : List ℕ) : peel p.1 (i :: v) p.2 = peel p.1.tail v (slice1 (p.1.getD 0 none) i p.2) := by
  obtain ⟨m, x⟩ := p
  cases m with
  | nil => exact absurd h (by simp [ShapeOK])
  | cons o os => rfl

omit [Inhabited α] in
theorem slice1_shape [Inhabited α] (o : Option ℕ) (i j : ℕ) (x y : ND α) (h : x.shape = y.shape) :
    (slice1 o i x).shape = (slice1 o j y).shape := by
  cases o with
  | none => exact h
  | some a => simp only [slice1, ND.shape_take, h]

theorem peel_shape (m : List (Option ℕ)) (v w : List ℕ) (hl : v.length = w.length) (x y : ND α)
    (h : x.shape = y.shape) : (peel m v x).shape = (peel m w y).shape := by
  induction m generalizing v w x y with
  | nil => simpa [peel] using h
  | cons o os ih =>
    cases v with
    | nil => cases w with
      | nil => simpa [peel] using h
      | cons => simp at hl
    | cons i v => cases w with
      | nil => simp at hl
      | cons j w => exact ih _ _ (by simpa using hl) _ _ (slice1_shape _ _ _ _ _ h)

theorem nested_spec (f : List (ND α) → ND β) (hf : TracedFn f) (bs : List ℕ)
    (ps : List (List (Option ℕ) × ND α)) (hok : ∀ p ∈ ps, ShapeOK p.1 bs p.2.shape)
    (hone : ∀ i < bs.length, (∀ p ∈ ps, p.1.getD i none = none) → bs.getD i 0 = 1) (osh : List ℕ)
    (hosh : osh = (f (ps.map fun p => peel p.1 (List.replicate bs.length 0) p.2)).shape) :
    ∃ R, nestedVmap f ((cols bs.length (ps.map Prod.fst)).filter fun c => c.any Option.isSome) (ps.map Prod.snd) = some R ∧
      R.shape = kept (cols bs.length (ps.map Prod.fst)) bs ++ osh ∧
      R.data = (ND.ofFn (bs ++ osh) fun idx =>
        (f (ps.map fun p => peel p.1 (idx.take bs.length) p.2)).get (idx.drop bs.length)).data := by
  induction bs generalizing ps with
  | nil =>
    have e : (ps.map fun p => peel p.1 [] p.2) = ps.map Prod.snd :=
      List.map_congr_left fun p _ => by cases hp : p.1 <;> rfl
    refine ⟨f (ps.map Prod.snd), rfl, ?_, ?_⟩
    · rw [hosh]; simp only [List.length_nil, List.replicate_zero, e]; rfl
    · simp only [List.length_nil, List.take_zero, List.drop_zero, List.nil_append, e]
      have : (f (ps.map Prod.snd)).shape = osh := by
        rw [hosh]; simp only [List.length_nil, List.replicate_zero, e]
      exact congrArg ND.data (ofFn_get _ this).symm
  | cons b bs ih =>
    have hstep : ∀ i, ∃ R, nestedVmap f
        ((cols bs.length ((ps.map Prod.fst).map List.tail)).filter fun c => c.any Option.isSome)
          ((stepAll i ps).map Prod.snd) = some R ∧
        R.shape = kept (cols bs.length ((ps.map Prod.fst).map List.tail)) bs ++ osh ∧
        R.data = (ND.ofFn (bs ++ osh) fun idx =>
          (f (ps.map fun p => peel p.1 (i :: idx.take bs.length) p.2)).get (idx.drop bs.length)).data := by
      intro i
      have hfst : (stepAll i ps).map Prod.fst = (ps.map Prod.fst).map List.tail := by
        simp [stepAll, Function.comp_def]
      have hpl : ∀ v, ((stepAll i ps).map fun p => peel p.1 v p.2) = ps.map fun p => peel p.1 (i :: v) p.2 := by
        intro v
        unfold stepAll
        rw [List.map_map]
        exact List.map_congr_left fun p hp => (peel_step (hok p hp) v).symm
      have g1 : ∀ p ∈ stepAll i ps, ShapeOK p.1 bs p.2.shape := by
        intro p hp
        obtain ⟨q, hq, rfl⟩ := List.mem_map.mp hp
        exact shapeOK_step (hok q hq)
      have g2 : ∀ j < bs.length, (∀ p ∈ stepAll i ps, p.1.getD j none = none) → bs.getD j 0 = 1 := by
        intro j hj hall
        have := hone (j + 1) (by simpa using hj) fun p hp => by
          have := hall _ (List.mem_map_of_mem hp)
          dsimp only at this
          cases hp1 : p.1 with
          | nil => simp
          | cons o os => rw [hp1] at this; simpa using this
        simpa using this
      have g3 : osh = (f ((stepAll i ps).map fun p => peel p.1 (List.replicate bs.length 0) p.2)).shape := by
        rw [hpl, hosh]
        refine hf _ _ ?_
        rw [List.map_map, List.map_map]
        refine List.map_congr_left fun p _ => ?_
        exact peel_shape _ _ _ (by simp) _ _ rfl
      obtain ⟨R, h1, h2, h3⟩ := ih (stepAll i ps) g1 g2 g3
      rw [hfst] at h1 h2
      simp only [hpl] at h3
      exact ⟨R, h1, h2, h3⟩
    rw [List.length_cons, cols_succ]
    have hm : ((ps.map Prod.fst).map fun m => m.getD 0 none) = ps.map fun p => p.1.getD 0 none := by
      rw [List.map_map]; rfl
    rw [hm]
    by_cases hany : (ps.map fun p => p.1.getD 0 none).any Option.isSome = true
    · choose R hR1 hR2 hR3 using hstep
      rw [List.filter_cons_of_pos (p := fun c => List.any c Option.isSome) hany]
      refine ⟨ND.stack b (R 0).shape R 0, ?_, ?_, ?_⟩
      · simp only [nestedVmap, mapSize_eq hok hany, sliceAll_eq, hR1, Option.getD_some]
      · rw [ND.shape_stack, hR2]
        simp only [kept, if_pos hany]
        rfl
      · rw [data_stack _ _ _ fun i _ => (hR2 i).trans (hR2 0).symm, List.cons_append, data_ofFn_cons]
        refine List.flatMap_congr fun i _ => ?_
        rw [hR3]
        rfl
    · rw [List.filter_cons_of_neg (p := fun c => List.any c Option.isSome) hany]
      obtain ⟨R, h1, h2, h3⟩ := hstep 0
      have hnone : ∀ p ∈ ps, p.1.getD 0 none = none := by
        intro p hp
        by_contra hne
        apply hany
        rw [List.any_eq_true]
        exact ⟨_, List.mem_map_of_mem (f := fun p : List (Option ℕ) × ND α => p.1.getD 0 none) hp, by
          cases hq : p.1.getD 0 none with
          | none => exact absurd hq hne
          | some a => rfl⟩
      have hb : b = 1 := by simpa using hone 0 (by simp) hnone
      have hst : (stepAll 0 ps).map Prod.snd = ps.map Prod.snd := by
        unfold stepAll
        rw [List.map_map]
        refine List.map_congr_left fun p hp => ?_
        simp only [Function.comp_apply, hnone p hp, slice1]
      rw [hst] at h1
      refine ⟨R, h1, ?_, ?_⟩
      · rw [h2]; simp only [kept, if_neg hany]
      · rw [h3, hb, List.cons_append, data_ofFn_cons]
        simp

/-- The vectorised call is the broadcast application. -/
theorem vmapped_spec (f : List (ND α) → ND β) (hf : TracedFn f) (args : List (ND α × List ℕ))
    (hs : ∀ a ∈ args, ValidSkip a.1.shape a.2) {b : List ℕ}
    (hb : broadcastShapes (args.map fun a => removeAxes a.1.shape a.2) = some b) :
    vmapped f args = some (broadcastApply f args b).data := by
  obtain ⟨h1, h2⟩ := bcast_spec hb
  have ha := fun a (h : a ∈ args) => arg_spec a (hs a h) (h1 _ (List.mem_map_of_mem h)).1 (h1 _ (List.mem_map_of_mem h)).2
  have hv : vmapSequences (args.map fun a => (a.1.shape, a.2)) =
      some ((cols b.length (args.map (maps1 b))).filter fun c => c.any Option.isSome) := by
    unfold vmapSequences
    rw [List.map_map]
    have : ((fun a : List ℕ × List ℕ => removeAxes a.1 a.2) ∘ fun a : ND α × List ℕ => (a.1.shape, a.2)) =
      fun a => removeAxes a.1.shape a.2 := rfl
    rw [this, hb]
    simp only [List.map_map]
    congr 1
    unfold cols
    rw [List.filter_map]
    simp [Function.comp_def, maps1]
  let ps : List (List (Option ℕ) × ND α) := args.map fun a => (maps1 b a, squeeze a.1 a.2)
  have hfst : ps.map Prod.fst = args.map (maps1 b) := by simp [ps, Function.comp_def]
  have hsnd : ps.map Prod.snd = args.map fun a => squeeze a.1 a.2 := by simp [ps, Function.comp_def]
  have hat : ∀ v, (ps.map fun p => peel p.1 v p.2) = args.map fun a => peel (maps1 b a) v (squeeze a.1 a.2) := by
    intro v; simp [ps, Function.comp_def]
  obtain ⟨R, hR1, _, hR3⟩ := nested_spec f hf b ps (by
      intro p hp
      obtain ⟨a, h, rfl⟩ := List.mem_map.mp hp
      exact (ha a h).1) (by
      intro i hi hall
      refine h2 i hi fun s hs' => ?_
      obtain ⟨a, h, rfl⟩ := List.mem_map.mp hs'
      exact (ha a h).2.2.2 i (hall _ (List.mem_map_of_mem h))) _ rfl
  unfold vmapped
  rw [hv]
  dsimp only
  rw [← hfst, ← hsnd, hR1, Option.map_some, hR3]
  congr 2
  unfold broadcastApply
  have hsh : (f (ps.map fun p => peel p.1 (List.replicate b.length 0) p.2)).shape =
      (f (args.map fun a => bslice a.1 a.2 b [])).shape := by
    refine hf _ _ ?_
    rw [hat, List.map_map, List.map_map]
    exact List.map_congr_left fun a h => (ha a h).2.1 _ (by simp)
  dsimp only
  refine ND.ext_get (by rw [ND.shape_ofFn, ND.shape_ofFn, hsh]) fun idx hidx => ?_
  rw [ND.shape_ofFn] at hidx
  rw [ND.get_ofFn _ hidx, ND.get_ofFn _ (hsh ▸ hidx)]
  have hidx' : InB (idx.take b.length) b := by
    have := List.forall₂_take b.length hidx
    rwa [List.take_left] at this
  rw [hat]
  congr 2
  exact List.map_congr_left fun a h => (ha a h).2.2.1 _ hidx'

end

end Folx.Vmap

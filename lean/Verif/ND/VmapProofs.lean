import Verif.ND.VmapSeq
import Verif.ND.VmapSpec
import Mathlib.Data.List.Nodup
import Mathlib.Data.List.Perm.Basic

namespace Folx.Vmap

variable {α β : Type}

/-! ### Labelled axes -/

/-- Axes with a flag: excluded or not. -/
def lab (skip : List ℕ) : ℕ → List ℕ → List (Bool × ℕ)
  | _, [] => []
  | k, d :: ds => (decide (k ∈ skip), d) :: lab skip (k + 1) ds

theorem lab_snd (skip : List ℕ) (k : ℕ) (s : List ℕ) : (lab skip k s).map Prod.snd = s := by
  induction s generalizing k with
  | nil => rfl
  | cons d ds ih => simp [lab, ih]

/-- Sizes of the excluded axes. -/
def trues : List (Bool × ℕ) → List ℕ
  | [] => []
  | (true, d) :: l => d :: trues l
  | (false, _) :: l => trues l

/-- Sizes of the other axes. -/
def falses : List (Bool × ℕ) → List ℕ
  | [] => []
  | (true, _) :: l => falses l
  | (false, d) :: l => d :: falses l

/-- Sizes after squeezing. -/
def sq : List (Bool × ℕ) → List ℕ
  | [] => []
  | (true, d) :: l => d :: sq l
  | (false, d) :: l => if d = 1 then sq l else d :: sq l

/-- Maps of the axes. -/
def seqAux : ℕ → List (Bool × ℕ) → List (Option ℕ)
  | _, [] => []
  | sk, (true, _) :: l => seqAux (sk + 1) l
  | sk, (false, d) :: l => (if d = 1 then none else some sk) :: seqAux sk l

theorem removeAxes_aux (skip : List ℕ) (s : List ℕ) (k : ℕ) :
    ((s.zipIdx k).filter fun p => decide (p.2 ∉ skip)).map Prod.fst = falses (lab skip k s) := by
  induction s generalizing k with
  | nil => rfl
  | cons d ds ih =>
    rw [List.zipIdx_cons]
    by_cases h : k ∈ skip
    · rw [List.filter_cons_of_neg (by simpa using h), ih]
      simp only [lab, h, falses, decide_true]
    · rw [List.filter_cons_of_pos (by simpa using h), List.map_cons, ih]
      simp only [lab, h, falses, decide_false]

theorem removeAxes_eq (skip : List ℕ) (s : List ℕ) : removeAxes s skip = falses (lab skip 0 s) :=
  removeAxes_aux skip s 0

theorem skipShape_eq (skip : List ℕ) (s : List ℕ) : skipShape s skip = trues (lab skip 0 s) := by
  unfold skipShape
  generalize 0 = k
  induction s generalizing k with
  | nil => rfl
  | cons d ds ih =>
    rw [List.zipIdx_cons]
    by_cases h : k ∈ skip
    · rw [List.filter_cons_of_pos (by simpa using h)]
      simp [lab, h, trues, ih]
    · rw [List.filter_cons_of_neg (by simpa using h)]
      simp [lab, h, trues, ih]

theorem squeezeShape_aux (skip : List ℕ) (s : List ℕ) (k : ℕ) :
    ((s.zipIdx k).filter fun p => decide (p.2 ∈ skip ∨ p.1 ≠ 1)).map Prod.fst = sq (lab skip k s) := by
  induction s generalizing k with
  | nil => rfl
  | cons d ds ih =>
    rw [List.zipIdx_cons]
    by_cases h : k ∈ skip
    · rw [List.filter_cons_of_pos (by simp [h]), List.map_cons, ih]
      simp only [lab, h, sq, decide_true]
    · by_cases hd : d = 1
      · rw [List.filter_cons_of_neg (by simp [h, hd]), ih]
        simp only [lab, h, sq, decide_false, hd, if_true]
      · rw [List.filter_cons_of_pos (by simp [hd]), List.map_cons, ih]
        simp only [lab, h, sq, decide_false, hd, if_false]

theorem squeezeShape_eq (skip : List ℕ) (s : List ℕ) : squeezeShape s skip = sq (lab skip 0 s) :=
  squeezeShape_aux skip s 0

theorem seqStep_fold (skip done rest : List ℕ) (s : SeqState) (hs : s.currDim + s.skipped = done.length) :
    ((List.range' done.length rest.length).foldl (seqStep (done ++ rest) skip) s).maps =
      s.maps ++ seqAux s.skipped (lab skip done.length rest) := by
  induction rest generalizing done s with
  | nil => simp [lab, seqAux]
  | cons d ds ih =>
    have e : done ++ d :: ds = (done ++ [d]) ++ ds := by simp
    have hlen : (done ++ [d]).length = done.length + 1 := by simp
    rw [List.length_cons, List.range'_succ, List.foldl_cons]
    have step : seqStep (done ++ d :: ds) skip s done.length =
        if done.length ∈ skip then { s with skipped := s.skipped + 1 }
        else if d = 1 then { s with maps := s.maps ++ [none], currDim := s.currDim + 1 }
        else { s with maps := s.maps ++ [some s.skipped], currDim := s.currDim + 1 } := by
      unfold seqStep
      have h1 : ¬ ((done ++ d :: ds).length < (done ++ d :: ds).length - done.length + s.currDim) := by
        rw [List.length_append, List.length_cons]; omega
      rw [if_neg h1, hs]
      have h2 : (done ++ d :: ds).getD done.length 0 = d := by
        rw [List.getD_append_right _ _ _ _ (le_refl _)]; simp
      rw [h2]
    rw [step, e, lab]
    by_cases h : done.length ∈ skip
    · rw [if_pos h]
      have := ih (done ++ [d]) { s with skipped := s.skipped + 1 } (by rw [hlen]; dsimp only; omega)
      rw [hlen] at this
      rw [this]
      simp [h, seqAux]
    · rw [if_neg h]
      by_cases hd : d = 1
      · rw [if_pos hd]
        have := ih (done ++ [d]) { s with maps := s.maps ++ [none], currDim := s.currDim + 1 }
          (by rw [hlen]; dsimp only; omega)
        rw [hlen] at this
        rw [this]
        simp [h, seqAux, hd]
      · rw [if_neg hd]
        have := ih (done ++ [d]) { s with maps := s.maps ++ [some s.skipped], currDim := s.currDim + 1 }
          (by rw [hlen]; dsimp only; omega)
        rw [hlen] at this
        rw [this]
        simp [h, seqAux, hd]

/-- Valid excluded axes. -/
def ValidSkip (shape skip : List ℕ) : Prop := skip.Nodup ∧ ∀ k ∈ skip, k < shape.length

theorem trues_length (skip : List ℕ) (k : ℕ) (s : List ℕ) :
    (trues (lab skip k s)).length = ((List.range' k s.length).filter fun i => decide (i ∈ skip)).length := by
  induction s generalizing k with
  | nil => rfl
  | cons d ds ih =>
    rw [List.length_cons, List.range'_succ]
    by_cases h : k ∈ skip
    · rw [List.filter_cons_of_pos (by simpa using h)]
      simp [lab, h, trues, ih]
    · rw [List.filter_cons_of_neg (by simpa using h)]
      simp [lab, h, trues, ih]

theorem trues_add_falses (l : List (Bool × ℕ)) : (trues l).length + (falses l).length = l.length := by
  induction l with
  | nil => rfl
  | cons p l ih =>
    obtain ⟨b, d⟩ := p
    cases b <;> simp only [trues, falses, List.length_cons] <;> omega

theorem lab_length (skip : List ℕ) (k : ℕ) (s : List ℕ) : (lab skip k s).length = s.length := by
  induction s generalizing k with
  | nil => rfl
  | cons d ds ih => simp [lab, ih]

theorem falses_length {s skip : List ℕ} (h : ValidSkip s skip) :
    (falses (lab skip 0 s)).length = s.length - skip.length := by
  have h1 := trues_add_falses (lab skip 0 s)
  rw [lab_length, trues_length] at h1
  have h2 : ((List.range' 0 s.length).filter fun i => decide (i ∈ skip)).length = skip.length := by
    apply List.Perm.length_eq
    rw [List.perm_ext_iff_of_nodup (List.Nodup.filter _ List.nodup_range') h.1]
    intro a
    simp only [List.mem_filter, List.mem_range'_1, decide_eq_true_eq]
    constructor
    · exact fun hh => hh.2
    · exact fun hh => ⟨⟨Nat.zero_le _, by simpa using h.2 a hh⟩, hh⟩
  omega

theorem vmapSequence_eq {s skip b : List ℕ} (h : ValidSkip s skip) (hb : (falses (lab skip 0 s)).length ≤ b.length) :
    vmapSequence s b skip =
      List.replicate (b.length - (falses (lab skip 0 s)).length) none ++ seqAux 0 (lab skip 0 s) := by
  unfold vmapSequence
  rw [← falses_length h, List.range_eq_range']
  have := seqStep_fold skip [] s
    ⟨0, 0, if b.length > (falses (lab skip 0 s)).length then
      List.replicate (b.length - (falses (lab skip 0 s)).length) none else []⟩ rfl
  simp only [List.length_nil, List.nil_append] at this
  dsimp only
  rw [this]
  congr 1
  split
  · rfl
  · have : b.length - (falses (lab skip 0 s)).length = 0 := by omega
    rw [this]; rfl

theorem seqAux_length (sk : ℕ) (l : List (Bool × ℕ)) : (seqAux sk l).length = (falses l).length := by
  induction l generalizing sk with
  | nil => rfl
  | cons p l ih =>
    obtain ⟨b, d⟩ := p
    cases b <;> simp [seqAux, falses, ih]

/-! ### Peeling one array -/

section Peel
variable [Inhabited α]

/-- One slicing step. -/
def slice1 (o : Option ℕ) (i : ℕ) (x : ND α) : ND α :=
  match o with
  | none => x
  | some a => x.take i a

/-- Slicing along a list of axes, outermost first. -/
def peel : List (Option ℕ) → List ℕ → ND α → ND α
  | o :: os, i :: is, x => peel os is (slice1 o i x)
  | _, _, x => x

/-- Sizes met while slicing. -/
def ShapeOK : List (Option ℕ) → List ℕ → List ℕ → Prop
  | none :: os, _ :: bs, sh => ShapeOK os bs sh
  | some a :: os, b :: bs, sh => sh[a]? = some b ∧ ShapeOK os bs (sh.eraseIdx a)
  | [], [], _ => True
  | _, _, _ => False

/-- Coordinates of the squeezed array. -/
def weaveSq : List (Bool × ℕ) → List ℕ → List ℕ → List ℕ
  | [], _, _ => []
  | (true, _) :: l, v, c :: cs => c :: weaveSq l v cs
  | (true, _) :: l, v, [] => 0 :: weaveSq l v []
  | (false, d) :: l, i :: v, cs => if d = 1 then weaveSq l v cs else i :: weaveSq l v cs
  | (false, d) :: l, [], cs => if d = 1 then weaveSq l [] cs else 0 :: weaveSq l [] cs

/-- Coordinates of the original array. -/
def weave : List (Bool × ℕ) → List ℕ → List ℕ → List ℕ
  | [], _, _ => []
  | (true, _) :: l, v, c :: cs => c :: weave l v cs
  | (true, _) :: l, v, [] => 0 :: weave l v []
  | (false, d) :: l, i :: v, cs => (if d = 1 then 0 else i) :: weave l v cs
  | (false, d) :: l, [], cs => 0 :: weave l [] cs

/-- Aligned sizes. -/
def Aligned : List ℕ → List ℕ → Prop := List.Forall₂ fun d b => d = 1 ∨ d = b

theorem weaveSq_inB {l : List (Bool × ℕ)} {b v c : List ℕ} (ha : Aligned (falses l) b) (hv : InB v b)
    (hc : InB c (trues l)) : InB (weaveSq l v c) (sq l) := by
  induction l generalizing b v c with
  | nil => exact List.Forall₂.nil
  | cons p l ih =>
    obtain ⟨t, d⟩ := p
    cases t with
    | true =>
      obtain ⟨c0, cs, rfl, h0, hcs⟩ := hc.cons_right
      exact List.Forall₂.cons h0 (ih ha hv hcs)
    | false =>
      obtain ⟨b0, bs, h1, h2, rfl⟩ := List.forall₂_cons_left_iff.mp ha
      obtain ⟨i, is, rfl, hi, his⟩ := hv.cons_right
      simp only [weaveSq, sq]
      by_cases hd : d = 1
      · rw [if_pos hd, if_pos hd]
        exact ih h2 his hc
      · rw [if_neg hd, if_neg hd]
        exact List.Forall₂.cons (by rcases h1 with h1 | h1 <;> omega) (ih h2 his hc)

omit [Inhabited α] in
theorem insertIdx_append (c w : List ℕ) (i : ℕ) : (c ++ w).insertIdx c.length i = c ++ i :: w := by
  induction c with
  | nil => rfl
  | cons a c ih => simp [ih]

theorem peel_spec (l : List (Bool × ℕ)) (P b : List ℕ) (ha : Aligned (falses l) b) (x : ND α)
    (hx : x.shape = P ++ sq l) :
    ShapeOK (seqAux P.length l) b x.shape ∧
    ∀ v, v.length = b.length →
      (peel (seqAux P.length l) v x).shape = P ++ trues l ∧
      (InB v b → ∀ cP c, InB cP P → InB c (trues l) →
        (peel (seqAux P.length l) v x).get (cP ++ c) = x.get (cP ++ weaveSq l v c)) := by
  induction l generalizing P b x with
  | nil =>
    cases ha
    refine ⟨trivial, fun v hv => ?_⟩
    cases v with
    | nil => exact ⟨hx, fun _ cP c _ hc => by rw [InB.nil_right.mp hc]; rfl⟩
    | cons i v => simp at hv
  | cons p l ih =>
    obtain ⟨t, d⟩ := p
    cases t with
    | true =>
      have hx' : x.shape = (P ++ [d]) ++ sq l := by rw [hx]; simp [sq]
      have hlen : (P ++ [d]).length = P.length + 1 := by simp
      obtain ⟨h1, h2⟩ := ih (P ++ [d]) b ha x hx'
      rw [hlen] at h1 h2
      refine ⟨h1, fun v hv => ?_⟩
      obtain ⟨h3, h4⟩ := h2 v hv
      refine ⟨by simpa [trues, seqAux] using h3, fun hvb cP c hcP hc => ?_⟩
      obtain ⟨c0, cs, rfl, h0, hcs⟩ := hc.cons_right
      have := h4 hvb (cP ++ [c0]) cs (List.rel_append hcP (List.Forall₂.cons h0 List.Forall₂.nil)) hcs
      simpa [weaveSq, seqAux] using this
    | false =>
      obtain ⟨b0, bs, hb0, hbs, rfl⟩ := List.forall₂_cons_left_iff.mp ha
      by_cases hd : d = 1
      · have hx' : x.shape = P ++ sq l := by rw [hx]; simp [sq, hd]
        obtain ⟨h1, h2⟩ := ih P bs hbs x hx'
        have hs : seqAux P.length ((false, d) :: l) = none :: seqAux P.length l := by simp [seqAux, hd]
        rw [hs]
        refine ⟨h1, fun v hv => ?_⟩
        cases v with
        | nil => simp at hv
        | cons i v =>
          obtain ⟨h3, h4⟩ := h2 v (by simpa using hv)
          refine ⟨h3, fun hvb cP c hcP hc => ?_⟩
          have := h4 (InB.cons_cons.mp hvb).2 cP c hcP hc
          simpa [weaveSq, hd, peel, slice1] using this
      · have hdb : d = b0 := by rcases hb0 with h | h <;> [exact absurd h hd; exact h]
        have hs : seqAux P.length ((false, d) :: l) = some P.length :: seqAux P.length l := by simp [seqAux, hd]
        have hx2 : x.shape = P ++ d :: sq l := by rw [hx]; simp [sq, hd]
        have her : x.shape.eraseIdx P.length = P ++ sq l := by
          rw [hx2, List.eraseIdx_append_of_length_le (le_refl _)]; simp
        have key : ∀ i, ShapeOK (seqAux P.length l) bs (x.take i P.length).shape ∧ _ :=
          fun i => ih P bs hbs (x.take i P.length) her
        rw [hs]
        refine ⟨⟨by rw [hx2, hdb]; simp, (key 0).1⟩, fun v hv => ?_⟩
        cases v with
        | nil => simp at hv
        | cons i v =>
          obtain ⟨h3, h4⟩ := (key i).2 v (by simpa using hv)
          refine ⟨h3, fun hvb cP c hcP hc => ?_⟩
          obtain ⟨hi, hvb'⟩ := InB.cons_cons.mp hvb
          have h5 := h4 hvb' cP c hcP hc
          simp only [peel, slice1]
          rw [h5, ND.get_take _ _ _ (by rw [her]; exact List.rel_append hcP (weaveSq_inB hbs hvb' hc))]
          have hl := hcP.length_eq
          rw [← hl, insertIdx_append]
          simp [weaveSq, hd]

theorem ravel_weave (l : List (Bool × ℕ)) (v c : List ℕ) :
    ravelIdx (sq l) (weaveSq l v c) = ravelIdx (l.map Prod.snd) (weave l v c) ∧
    (sq l).prod = (l.map Prod.snd).prod := by
  induction l generalizing v c with
  | nil => exact ⟨rfl, rfl⟩
  | cons p l ih =>
    obtain ⟨t, d⟩ := p
    cases t with
    | true =>
      cases c with
      | nil => simp only [weaveSq, weave, sq, List.map_cons, ravelIdx, List.prod_cons, (ih v []).1, (ih v []).2]; trivial
      | cons c0 cs =>
        simp only [weaveSq, weave, sq, List.map_cons, ravelIdx, List.prod_cons, (ih v cs).1, (ih v cs).2]; trivial
    | false =>
      by_cases hd : d = 1
      · subst hd
        cases v with
        | nil => simp [weaveSq, weave, sq, ravelIdx, (ih [] c).1, (ih [] c).2]
        | cons i v => simp [weaveSq, weave, sq, ravelIdx, (ih v c).1, (ih v c).2]
      · cases v with
        | nil => simp [weaveSq, weave, sq, hd, ravelIdx, (ih [] c).1, (ih [] c).2]
        | cons i v => simp [weaveSq, weave, sq, hd, ravelIdx, (ih v c).1, (ih v c).2]

theorem squeeze_get (x : ND α) (skip v c : List ℕ) :
    (squeeze x skip).get (weaveSq (lab skip 0 x.shape) v c) = x.get (weave (lab skip 0 x.shape) v c) := by
  unfold ND.get squeeze ND.reshape
  dsimp only
  rw [squeezeShape_eq, (ravel_weave _ v c).1, lab_snd]

theorem peel_append_none (n : ℕ) (os : List (Option ℕ)) (v w : List ℕ) (hv : v.length = n) (x : ND α) :
    peel (List.replicate n none ++ os) (v ++ w) x = peel os w x := by
  induction n generalizing v with
  | zero => rw [List.length_eq_zero_iff.mp hv]; rfl
  | succ n ih =>
    cases v with
    | nil => simp at hv
    | cons i v => exact ih v (by simpa using hv)

omit [Inhabited α] in
theorem shapeOK_append_none (n : ℕ) (os : List (Option ℕ)) (v w : List ℕ) (hv : v.length = n) (sh : List ℕ)
    (h : ShapeOK os w sh) : ShapeOK (List.replicate n none ++ os) (v ++ w) sh := by
  induction n generalizing v with
  | zero => rw [List.length_eq_zero_iff.mp hv]; exact h
  | succ n ih =>
    cases v with
    | nil => simp at hv
    | cons i v => exact ih v (by simpa using hv)

end Peel

end Folx.Vmap

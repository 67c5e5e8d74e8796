import Verif.ND.HessIdx

/-!
# Proofs: `find_out_idx` on arrays
-/

namespace Folx.Vmap

theorem weave_inB {l : List (Bool × ℕ)} {b v c : List ℕ} (ha : Aligned (falses l) b) (hv : InB v b)
    (hc : InB c (trues l)) : InB (weave l v c) (l.map Prod.snd) := by
  induction l generalizing b v c with
  | nil => exact List.Forall₂.nil
  | cons p l ih =>
    obtain ⟨t, d⟩ := p
    cases t with
    | true =>
      obtain ⟨c0, cs, rfl, h0, hcs⟩ := hc.cons_right
      exact List.Forall₂.cons h0 (ih ha hv hcs)
    | false =>
      obtain ⟨e, bs, h0, h1, rfl⟩ := List.forall₂_cons_left_iff.mp ha
      obtain ⟨i, is, rfl, hi, his⟩ := hv.cons_right
      refine List.Forall₂.cons ?_ (ih h1 his hc)
      dsimp only
      split
      · omega
      · rcases h0 with h0 | h0 <;> omega

theorem bindex_inB {shape skip b v c : List ℕ} (hs : ValidSkip shape skip) (hl : (removeAxes shape skip).length ≤ b.length)
    (ha : Aligned (removeAxes shape skip) (b.drop (b.length - (removeAxes shape skip).length))) (hv : InB v b)
    (hc : InB c (skipShape shape skip)) : InB (bindex shape skip b v c) shape := by
  rw [bindex_eq, ← falses_length hs]
  rw [removeAxes_eq] at hl ha
  rw [skipShape_eq] at hc
  have := weave_inB (l := lab skip 0 shape) ha (inB_drop hv _) hc
  rwa [lab_snd] at this

theorem mem_bslice {α : Type} [Inhabited α] (x : ND α) (skip b v : List ℕ) (z : α) :
    z ∈ (bslice x skip b v).data ↔ ∃ c, InB c (skipShape x.shape skip) ∧ z = x.get (bindex x.shape skip b v c) := by
  unfold bslice ND.ofFn
  dsimp only
  rw [List.mem_map]
  constructor
  · rintro ⟨k, hk, rfl⟩
    exact ⟨_, inB_unravelIdx (by simpa using hk), rfl⟩
  · rintro ⟨c, hc, rfl⟩
    exact ⟨ravelIdx _ c, by simpa using ravelIdx_lt hc, by rw [unravelIdx_ravelIdx hc]⟩

theorem get_mem {α : Type} [Inhabited α] (x : ND α) {w : List ℕ} (hw : InB w x.shape) : x.get w ∈ x.data := by
  unfold ND.get
  rw [List.getD_eq_getElem _ _ (by rw [x.wf]; exact ravelIdx_lt hw)]
  exact List.getElem_mem _

theorem Broadcasts.congr {S S' : List (List ℕ)} {b : List ℕ} (h : Broadcasts S b) (he : ∀ s, s ∈ S ↔ s ∈ S') :
    Broadcasts S' b where
  rank_le s hs := h.rank_le s ((he s).mpr hs)
  rank_eq := h.rank_eq.imp id fun ⟨s, hs, e⟩ => ⟨s, (he s).mp hs, e⟩
  compat s hs := h.compat s ((he s).mpr hs)
  tight j := (h.tight j).imp id fun ⟨s, hs, e⟩ => ⟨s, (he s).mp hs, e⟩

end Folx.Vmap

namespace Folx.Layout
open Vmap Dot

variable {F : Type}

theorem lab_jacAx (ax : List ℕ) (k : ℕ) (s : List ℕ) : lab (jacAx ax) (k + 1) s = lab ax k s := by
  induction s generalizing k with
  | nil => rfl
  | cons d s ih =>
    unfold lab
    rw [ih (k + 1)]
    congr 2
    unfold jacAx
    simp

theorem lab_jacAx_cons (ax : List ℕ) (K : ℕ) (s : List ℕ) : lab (jacAx ax) 0 (K :: s) = (true, K) :: lab ax 0 s := by
  conv_lhs => unfold lab
  rw [lab_jacAx]
  congr 2
  simp [jacAx]

theorem removeAxes_jac (ax : List ℕ) (K : ℕ) (s : List ℕ) : removeAxes (K :: s) (jacAx ax) = removeAxes s ax := by
  rw [removeAxes_eq, removeAxes_eq, lab_jacAx_cons]
  rfl

theorem skipShape_jac (ax : List ℕ) (K : ℕ) (s : List ℕ) : skipShape (K :: s) (jacAx ax) = K :: skipShape s ax := by
  rw [skipShape_eq, skipShape_eq, lab_jacAx_cons]
  rfl

theorem validSkip_jac {ax : List ℕ} {K : ℕ} {s : List ℕ} (h : ValidSkip s ax) : ValidSkip (K :: s) (jacAx ax) := by
  constructor
  · unfold jacAx
    rw [List.nodup_append]
    refine ⟨h.1.map fun a b e => by omega, by simp, ?_⟩
    intro a ha b hb
    obtain ⟨c, _, rfl⟩ := List.mem_map.mp ha
    simp at hb
    omega
  · intro k hk
    unfold jacAx at hk
    rcases List.mem_append.mp hk with hk | hk
    · obtain ⟨c, hc, rfl⟩ := List.mem_map.mp hk
      have := h.2 c hc
      rw [List.length_cons]
      omega
    · rw [List.mem_singleton.mp hk, List.length_cons]
      omega

section Trip
variable [Inhabited F] {a : ArrTrip F × List ℕ}

theorem TripOk.valid (h : TripOk a) : ValidSkip a.1.x.shape a.2 := ⟨h.nodup, h.lt⟩

theorem TripOk.validJac (h : TripOk a) : ValidSkip a.1.jac.data.shape (jacAx a.2) := by
  rw [h.data]; exact validSkip_jac h.valid

theorem TripOk.other (h : TripOk a) : removeAxes a.1.jac.data.shape (jacAx a.2) = otherShape a.1.x.shape a.2 := by
  rw [h.data, removeAxes_jac]; rfl

theorem TripOk.mask_shape (h : TripOk a) : a.1.jac.mask.shape = a.1.jac.data.shape := by
  unfold ArrJac.mask
  cases hm : a.1.jac.idx with
  | none => rfl
  | some m => exact h.idx m hm

theorem TripOk.mask_neg (h : TripOk a) : ∀ z ∈ a.1.jac.mask.data, -1 ≤ z := by
  unfold ArrJac.mask
  cases hm : a.1.jac.idx with
  | none =>
    intro z hz
    obtain ⟨k, _, rfl⟩ := List.mem_map.mp hz
    show (-1 : ℤ) ≤ ((_ : ℕ) : ℤ)
    omega
  | some m => exact h.neg m hm

/-- The slice of the mask at a position. -/
def maskAt (b v : List ℕ) (a : ArrTrip F × List ℕ) : ND ℤ := bslice a.1.jac.mask (jacAx a.2) b v

variable {b v : List ℕ}

theorem TripOk.maskAt_mem (h : TripOk a) (hl : (otherShape a.1.x.shape a.2).length ≤ b.length)
    (ha : Aligned (otherShape a.1.x.shape a.2) (b.drop (b.length - (otherShape a.1.x.shape a.2).length))) (hv : InB v b) :
    ∀ z ∈ (maskAt b v a).data, z ∈ a.1.jac.mask.data := by
  intro z hz
  obtain ⟨c, hc, rfl⟩ := (mem_bslice _ _ _ _ _).mp hz
  refine get_mem _ (bindex_inB ?_ ?_ ?_ hv hc)
  · rw [h.mask_shape]; exact h.validJac
  · rw [h.mask_shape, h.other]; exact hl
  · rw [h.mask_shape, h.other]; exact ha

theorem TripOk.card_le (h : TripOk a) (hl : (otherShape a.1.x.shape a.2).length ≤ b.length)
    (ha : Aligned (otherShape a.1.x.shape a.2) (b.drop (b.length - (otherShape a.1.x.shape a.2).length))) (hv : InB v b) :
    (depsAt b v a).card ≤ a.1.jac.nUnique := by
  have hm := h.maskAt_mem hl ha hv
  unfold ArrJac.nUnique
  cases hi : a.1.jac.idx with
  | some m =>
    refine Finset.card_le_card fun z hz => ?_
    obtain ⟨h1, h2⟩ := Finset.mem_filter.mp hz
    refine Finset.mem_filter.mpr ⟨?_, h2⟩
    have := hm z (List.mem_toFinset.mp h1)
    unfold ArrJac.mask at this
    rw [hi] at this
    exact List.mem_toFinset.mpr this
  | none =>
    dsimp only
    refine le_trans (Finset.card_le_card (t := (Finset.range (a.1.jac.data.shape.getD 0 0)).image fun k : ℕ => (k : ℤ)) fun z hz => ?_)
      (le_trans Finset.card_image_le (by simp))
    obtain ⟨h1, h2⟩ := Finset.mem_filter.mp hz
    have := hm z (List.mem_toFinset.mp h1)
    unfold ArrJac.mask at this
    rw [hi] at this
    obtain ⟨k, hk, rfl⟩ := List.mem_map.mp this
    have hin := inB_unravelIdx (List.mem_range.mp hk)
    refine Finset.mem_image.mpr ⟨_, ?_, rfl⟩
    rw [Finset.mem_range]
    refine hin.getD_lt ?_
    rw [h.data]
    simp

end Trip

/-- Cutting, filling and removing the negative values. -/
theorem filter_unique {l : List ℤ} {m : ℕ} (hn : ∀ z ∈ l, -1 ≤ z) (hc : (l.toFinset.filter (0 ≤ ·)).card ≤ m) :
    (uniqueSized (m + 1) l).filter (fun z => decide (0 ≤ z)) = (l.toFinset.filter (0 ≤ ·)).sort (· ≤ ·) := by
  have hcard : l.toFinset.card ≤ m + 1 := by
    have : l.toFinset ⊆ insert (-1) (l.toFinset.filter (0 ≤ ·)) := by
      intro z hz
      have := hn z (List.mem_toFinset.mp hz)
      rw [Finset.mem_insert, Finset.mem_filter]
      by_cases h0 : 0 ≤ z
      · exact Or.inr ⟨hz, h0⟩
      · left; omega
    exact le_trans (Finset.card_le_card this) (le_trans (Finset.card_insert_le _ _) (by omega))
  unfold uniqueSized
  dsimp only
  rw [List.take_of_length_le (by simpa using hcard), List.filter_append]
  have h2 : (List.replicate (m + 1 - (l.toFinset.sort (· ≤ ·)).length) (-1 : ℤ)).filter (fun z => decide (0 ≤ z)) = [] := by
    rw [List.filter_eq_nil_iff]
    intro z hz
    rw [List.eq_of_mem_replicate hz]
    decide
  rw [h2, List.append_nil]
  refine List.Perm.eq_of_pairwise' (r := (· ≤ ·)) (List.Pairwise.filter _ (Finset.pairwise_sort _ _)) (Finset.pairwise_sort _ _) ?_
  rw [List.perm_ext_iff_of_nodup ((Finset.sort_nodup _ _).filter _) (Finset.sort_nodup _ _)]
  intro z
  rw [List.mem_filter]
  simp

theorem uniqueSized_length (m : ℕ) (l : List ℤ) : (uniqueSized m l).length = m := by
  unfold uniqueSized
  simp

theorem sort_toFinset' (s : Finset ℤ) : (s.sort (· ≤ ·)).toFinset = s := by simp

/-- Merging sorted lists one after the other. -/
theorem foldl_merge (inter : Bool) (ss : List (Finset ℤ)) (s : Finset ℤ) :
    (ss.map fun s => s.sort (· ≤ ·)).foldl (mergeSorted inter) (s.sort (· ≤ ·)) =
      (((s :: ss).foldr (· ∪ ·) ∅).filter fun z => inter = true → ∀ t ∈ s :: ss, z ∈ t).sort (· ≤ ·) := by
  induction ss generalizing s with
  | nil =>
    simp only [List.map_nil, List.foldl_nil, List.foldr_cons, List.foldr_nil]
    congr 1
    ext z
    simp only [Finset.mem_filter, Finset.mem_union, Finset.notMem_empty, or_false, List.mem_singleton, forall_eq]
    tauto
  | cons t ss ih =>
    rw [List.map_cons, List.foldl_cons]
    have : mergeSorted inter (s.sort (· ≤ ·)) (t.sort (· ≤ ·)) = (if inter then s ∩ t else s ∪ t).sort (· ≤ ·) := by
      unfold mergeSorted
      rw [sort_toFinset', sort_toFinset']
    rw [this, ih]
    congr 1
    ext z
    cases inter with
    | true =>
      simp only [List.foldr_cons, Finset.mem_filter, Finset.mem_union, if_true, Finset.mem_inter, List.mem_cons, forall_eq_or_imp,
        true_imp_iff]
      tauto
    | false =>
      simp only [List.foldr_cons, Finset.mem_filter, Finset.mem_union, Bool.false_eq_true, if_false, false_imp_iff, and_true]
      tauto

variable [Inhabited F]

theorem merged_eq (inter : Bool) {args : List (ArrTrip F × List ℕ)} (hne : args ≠ []) (b v : List ℕ) :
    reduceLists inter (args.map fun a => (depsAt b v a).sort (· ≤ ·)) = (mergedAt inter args b v).sort (· ≤ ·) := by
  cases args with
  | nil => exact absurd rfl hne
  | cons a as =>
    have := foldl_merge inter (as.map (depsAt b v)) (depsAt b v a)
    rw [List.map_map] at this
    refine this.trans ?_
    unfold mergedAt
    congr 1
    ext z
    simp only [List.map_cons, Finset.mem_filter, List.mem_cons, List.mem_map, forall_eq_or_imp]
    simp only [forall_exists_index, and_imp, forall_apply_eq_imp_iff₂]

/-- `mapM` of functions that return. -/
theorem mapM_range {γ : Type} {n : ℕ} {f : ℕ → Option γ} {r : ℕ → γ} (h : ∀ i < n, f i = some (r i)) :
    (List.range n).mapM f = some ((List.range n).map r) := by
  refine mapM_of_forall₂ _ ?_
  rw [List.forall₂_map_right_iff, List.forall₂_same]
  exact fun i hi => h i (List.mem_range.mp hi)

/-- Elements of an array with axes of size 1 removed. -/
theorem get_sqz {γ : Type} [Inhabited γ] {R : ND γ} {b o : List ℕ} {g : List ℕ → γ} (hs : R.shape = sqz b b ++ o)
    (hd : R.data = (ND.ofFn (b ++ o) g).data) {v c : List ℕ} (hv : InB v b) (hc : InB c o) :
    R.get (sqz b v ++ c) = g (v ++ c) := by
  have h1 : InB (v ++ c) (b ++ o) := List.rel_append hv hc
  rw [← ND.get_ofFn g h1]
  unfold ND.get
  rw [hs, ravel_sqz hv, hd]
  rfl

theorem range_map_getD {γ : Type} (l : List γ) (d : γ) : ((List.range l.length).map fun k => l.getD k d) = l := by
  refine List.ext_getElem (by simp) fun i h1 h2 => ?_
  rw [List.getElem_map, List.getElem_range, List.getD_eq_getElem _ _ h2]

theorem foldr_max_congr {γ δ : Type} {l : List γ} {r : List δ} {f : γ → ℕ} {g : δ → ℕ} (h1 : ∀ a ∈ l, ∃ b ∈ r, f a = g b)
    (h2 : ∀ b ∈ r, ∃ a ∈ l, g b = f a) : (l.map f).foldr max 0 = (r.map g).foldr max 0 := by
  have key : ∀ {γ δ : Type} {l : List γ} {r : List δ} {f : γ → ℕ} {g : δ → ℕ}, (∀ a ∈ l, ∃ b ∈ r, f a = g b) →
      (l.map f).foldr max 0 ≤ (r.map g).foldr max 0 := by
    intro γ δ l r f g h
    induction l with
    | nil => exact Nat.zero_le _
    | cons a l ih =>
      rw [List.map_cons, List.foldr_cons]
      refine max_le ?_ (ih fun x hx => h x (by simp [hx]))
      obtain ⟨b, hb, e⟩ := h a (by simp)
      rw [e]
      exact foldr_max_le (List.mem_map_of_mem hb)
  exact le_antisymm (key h1) (key h2)

/-- The result of `find_out_idx`: at every position of the broadcast shape the inputs that matter. -/
theorem findOutIdxArr_spec (inter : Bool) (T : ℕ) {args : List (ArrTrip F × List ℕ)} (hne : args ≠ [])
    (hok : ∀ a ∈ args, TripOk a) {b : List ℕ} (hb : Broadcasts (args.map fun a => otherShape a.1.x.shape a.2) b)
    (hsp : (args.any fun a => a.1.jac.idx.isSome) = true) :
    ∃ idx, findOutIdxArr inter T args = some (some idx, decide (mergedWidth inter args b ≥ maxSizeArr args ∨
        mergedWidth inter args b > T)) ∧
      idx.shape = mergedWidth inter args b :: sqz b b ∧
      ∀ v, InB v b → ∀ k < mergedWidth inter args b, idx.get (k :: sqz b v) = (idxListAt inter args b v).getD k (-1) := by
  have hL : ∀ m ∈ maskLeaves args, ValidSkip m.1.shape m.2 := by
    intro m hm
    obtain ⟨a, ha, rfl⟩ := List.mem_map.mp hm
    show ValidSkip a.1.jac.mask.shape (jacAx a.2)
    rw [(hok a ha).mask_shape]
    exact (hok a ha).validJac
  have hrem : ((maskLeaves args).map fun m => removeAxes m.1.shape m.2) = args.map fun a => otherShape a.1.x.shape a.2 := by
    unfold maskLeaves
    rw [List.map_map]
    refine List.map_congr_left fun a ha => ?_
    show removeAxes a.1.jac.mask.shape (jacAx a.2) = _
    rw [(hok a ha).mask_shape, (hok a ha).other]
  have hbs : broadcastShapes ((maskLeaves args).map fun m => removeAxes m.1.shape m.2) = some b := by
    rw [hrem]; exact broadcastShapes_iff.mpr hb
  have hal := (bcast_spec (broadcastShapes_iff.mpr hb)).1
  obtain ⟨m, hm⟩ : ∃ m, m = maxSizeArr args := ⟨_, rfl⟩
  have hcard : ∀ a ∈ args, ∀ v, InB v b → (depsAt b v a).card ≤ m := by
    intro a ha v hv
    obtain ⟨g1, g2⟩ := hal _ (List.mem_map_of_mem ha)
    rw [hm]
    exact le_trans ((hok a ha).card_le g1 g2 hv) (foldr_max_le (List.mem_map_of_mem ha))
  have hget : ∀ i < args.length, ∀ v, (((maskLeaves args).map fun q => bslice q.1 q.2 b v).getD i (ND.ofFn [] fun _ => 0)) =
      ((args.map (maskAt b v)).getD i (ND.ofFn [] fun _ => 0)) := by
    intro i hi v
    unfold maskLeaves
    rw [List.map_map]
    rfl
  have hT : ∀ i, TracedFn (fun xs : List (ND ℤ) => uniqueArr (m + 1) (xs.getD i (ND.ofFn [] fun _ => 0))) := fun i xs ys _ => rfl
  have hex : ∀ i, ∃ R, nestedVmap (fun xs : List (ND ℤ) => uniqueArr (m + 1) (xs.getD i (ND.ofFn [] fun _ => 0)))
        ((cols b.length ((maskLeaves args).map (maps1 b))).filter fun c => c.any Option.isSome)
        ((maskLeaves args).map fun q => squeeze q.1 q.2) = some R ∧ R.shape = sqz b b ++ [m + 1] ∧
      (i < args.length → ∀ v, InB v b → ∀ k < m + 1, R.get (sqz b v ++ [k]) =
        (uniqueSized (m + 1) ((args.map (maskAt b v)).getD i (ND.ofFn [] fun _ => 0)).data).getD k (-1)) := by
    intro i
    obtain ⟨R, h1, h2, h3⟩ := nested_plain (hT i) hL hbs (osh := [m + 1]) fun v => rfl
    refine ⟨R, h1, h2, fun hi v hv k hk => ?_⟩
    have hk' : InB [k] [m + 1] := List.Forall₂.cons hk List.Forall₂.nil
    rw [get_sqz h2 h3 hv hk', List.take_left' hv.length_eq, List.drop_left' hv.length_eq, hget i hi v]
    unfold uniqueArr
    rw [ND.get_ofFn _ hk']
    rfl
  choose R hR1 hR2 hR3 using hex
  have hfl : ∀ v, InB v b → ((List.range args.length).map R).map (fun x => filteredAt x (sqz b v)) =
      args.map fun a => (depsAt b v a).sort (· ≤ ·) := by
    intro v hv
    rw [List.map_map]
    refine List.ext_getElem (by simp) fun i h1 h2 => ?_
    have hi : i < args.length := by simpa using h2
    rw [List.getElem_map, List.getElem_map, List.getElem_range]
    show filteredAt (R i) (sqz b v) = _
    unfold filteredAt
    rw [hR2 i, List.getLastD_concat]
    have e : ((List.range (m + 1)).map fun k => (R i).get (sqz b v ++ [k])) =
        uniqueSized (m + 1) (maskAt b v args[i]).data := by
      rw [← range_map_getD (uniqueSized (m + 1) (maskAt b v args[i]).data) (-1), uniqueSized_length]
      refine List.map_congr_left fun k hk => ?_
      rw [hR3 i hi v hv k (List.mem_range.mp hk)]
      congr 3
      rw [List.getD_eq_getElem _ _ (by simpa using hi), List.getElem_map]
    rw [e]
    have ha := List.getElem_mem hi
    obtain ⟨g1, g2⟩ := hal _ (List.mem_map_of_mem ha)
    exact filter_unique (fun z hz => (hok _ ha).mask_neg z ((hok _ ha).maskAt_mem g1 g2 hv z hz)) (hcard _ ha v hv)
  have hfind : findOutIdxArr inter T args = some (some ((mergeAndPopulate inter ((List.range args.length).map R)).moveaxis
      ((mergeAndPopulate inter ((List.range args.length).map R)).ndim - 1) 0), decide
      (((mergeAndPopulate inter ((List.range args.length).map R)).moveaxis
      ((mergeAndPopulate inter ((List.range args.length).map R)).ndim - 1) 0).shape.getD 0 0 ≥ m ∨
      ((mergeAndPopulate inter ((List.range args.length).map R)).moveaxis
      ((mergeAndPopulate inter ((List.range args.length).map R)).ndim - 1) 0).shape.getD 0 0 > T)) := by
    unfold findOutIdxArr
    rw [if_neg (by rw [hsp]; simp)]
    dsimp only
    rw [vmapSequences_eq hbs, ← hm]
    have := mapM_range (n := args.length) (f := fun i => nestedVmap (fun xs : List (ND ℤ) => uniqueArr (m + 1) (xs.getD i (ND.ofFn [] fun _ => 0)))
        ((cols b.length ((maskLeaves args).map (maps1 b))).filter fun c => c.any Option.isSome)
        ((maskLeaves args).map fun q => squeeze q.1 q.2)) (r := R) fun i _ => hR1 i
    simp only [Option.bind_eq_bind, Option.bind_some]
    rw [this]
    rfl
  obtain ⟨a0, as, rfl⟩ := List.exists_cons_of_ne_nil hne
  have hkept : (((List.range (a0 :: as).length).map R).map ND.shape).headD [] = sqz b b ++ [m + 1] := by
    rw [List.length_cons, List.range_succ_eq_map, List.map_cons, List.map_cons]
    exact hR2 0
  have hw : ((allIdx (sqz b b)).map fun u => (reduceLists inter (((List.range (a0 :: as).length).map R).map fun x => filteredAt x u)).length).foldr max 0 = mergedWidth inter (a0 :: as) b := by
    unfold mergedWidth
    refine foldr_max_congr ?_ ?_
    · intro u hu
      obtain ⟨v, hv, rfl⟩ := sqz_surj (mem_allIdx.mp hu)
      refine ⟨v, mem_allIdx.mpr hv, ?_⟩
      rw [hfl v hv, merged_eq inter hne, Finset.length_sort]
    · intro v hv
      have hv := mem_allIdx.mp hv
      refine ⟨sqz b v, mem_allIdx.mpr (inB_sqz hv), ?_⟩
      rw [hfl v hv, merged_eq inter hne, Finset.length_sort]
  obtain ⟨M, hM⟩ : ∃ M, M = mergeAndPopulate inter ((List.range (a0 :: as).length).map R) := ⟨_, rfl⟩
  rw [← hM] at hfind
  have hMs : M.shape = sqz b b ++ [mergedWidth inter (a0 :: as) b] := by
    rw [hM]
    unfold mergeAndPopulate
    rw [ND.shape_ofFn, hkept, List.dropLast_concat]
    dsimp only
    rw [hw]
  have hMg : ∀ v, InB v b → ∀ k < mergedWidth inter (a0 :: as) b, M.get (sqz b v ++ [k]) =
      (idxListAt inter (a0 :: as) b v).getD k (-1) := by
    intro v hv k hk
    rw [hM]
    unfold mergeAndPopulate
    rw [hkept, List.dropLast_concat]
    dsimp only
    have hin : InB (sqz b v ++ [k]) (sqz b b ++ [mergedWidth inter (a0 :: as) b]) :=
      List.rel_append (inB_sqz hv) (List.Forall₂.cons hk List.Forall₂.nil)
    rw [hw, ND.get_ofFn _ hin, List.take_left' (inB_sqz hv).length_eq, hfl v hv, merged_eq inter hne]
    rw [List.getD_append_right _ _ _ _ (by rw [(inB_sqz hv).length_eq]), (inB_sqz hv).length_eq, Nat.sub_self]
    show List.getD _ k (-1) = _
    unfold idxListAt
    by_cases hlt : k < (mergedAt inter (a0 :: as) b v).card
    · rw [List.getD_append _ _ _ _ (by simpa using hlt)]
    · rw [List.getD_append_right _ _ _ _ (by simpa using hlt), List.getD_eq_default _ _ (by simpa using hlt)]
      by_cases h2 : k - (Finset.sort (mergedAt inter (a0 :: as) b v) fun x1 x2 => x1 ≤ x2).length <
        (List.replicate (mergedWidth inter (a0 :: as) b - (mergedAt inter (a0 :: as) b v).card) (-1 : ℤ)).length
      · rw [List.getD_eq_getElem _ _ h2, List.getElem_replicate]
      · rw [List.getD_eq_default _ _ (by omega)]
  have hnd : M.ndim = (sqz b b).length + 1 := by unfold ND.ndim; rw [hMs]; simp
  have hI : (M.moveaxis (M.ndim - 1) 0).shape = mergedWidth inter (a0 :: as) b :: sqz b b := by
    rw [ND.shape_moveaxis, hnd, hMs, Nat.add_sub_cancel, eraseIdx_length_append, getD_length_append]
    simp
  refine ⟨M.moveaxis (M.ndim - 1) 0, ?_, hI, ?_⟩
  · rw [hfind, hI, ← hm]
    rfl
  · intro v hv k hk
    have hin : InB (k :: sqz b v) (mergedWidth inter (a0 :: as) b :: sqz b b) := List.Forall₂.cons hk (inB_sqz hv)
    rw [← hMg v hv k hk]
    unfold ND.moveaxis at hI ⊢
    rw [ND.shape_ofFn] at hI
    rw [ND.get_ofFn _ (by rw [hI]; exact hin)]
    have e : ((k :: sqz b v).eraseIdx 0).insertIdx (M.ndim - 1) ((k :: sqz b v).getD 0 0) = sqz b v ++ [k] := by
      rw [hnd, Nat.add_sub_cancel, ← (inB_sqz hv).length_eq]
      simp [insertIdx_length_append]
    rw [e]

end Folx.Layout

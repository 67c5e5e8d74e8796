import Verif.ND.SumRuleProofs
import Verif.Prog.NDPos
import Verif.Core.ReduceProofs
import Verif.Core.WrappedProofs
import Verif.Core.ReturnProofs

/-!
# `sparse_sum_jvp`: arrays and positions
-/

namespace Folx.Layout
open Vmap Dot

variable {α F : Type} [Inhabited α]

theorem increases_sorted : ∀ {l : List ℤ}, l ≠ [] → l.Pairwise (· ≤ ·) → increases l + 1 = l.toFinset.card
  | [], h, _ => absurd rfl h
  | [a], _, _ => by simp [increases]
  | a :: b :: l, _, hs => by
    have hs' := List.pairwise_cons.mp hs
    have ih := increases_sorted (l := b :: l) (by simp) hs'.2
    unfold increases
    by_cases hab : a < b
    · have hn : a ∉ (b :: l).toFinset := by
        rw [List.mem_toFinset, List.mem_cons]
        rintro (h | h)
        · omega
        · have := (List.pairwise_cons.mp hs'.2).1 a h
          omega
      rw [if_pos hab, List.toFinset_cons, Finset.card_insert_of_notMem hn, ← ih]
      omega
    · have e : a = b := by
        have := hs'.1 b (by simp)
        omega
      rw [if_neg hab, zero_add, ih, List.toFinset_cons (a := a), Finset.insert_eq_of_mem (by simp [e])]

theorem increases_mergeSort {l : List ℤ} (h : l ≠ []) :
    increases (l.mergeSort fun a b => decide (a ≤ b)) + 1 = l.toFinset.card := by
  have hp := List.mergeSort_perm l (fun a b => decide (a ≤ b))
  have hs : (l.mergeSort fun a b => decide (a ≤ b)).Pairwise (· ≤ ·) := by
    have := List.pairwise_mergeSort (le := fun a b : ℤ => decide (a ≤ b)) (fun a b c => by simp; omega) (fun a b => by simp; omega) l
    exact this.imp fun h => by simpa using h
  rw [increases_sorted (by intro e; rw [e] at hp; exact h hp.symm.eq_nil) hs, List.toFinset_eq_of_perm _ _ hp]

theorem foldr_max_succ (n : ℕ) (f g : ℕ → ℕ) (hn : n ≠ 0) (h : ∀ q < n, f q + 1 = g q) :
    ((List.range n).map f).foldr max 0 + 1 = (Finset.range n).sup g := by
  have h1 : ∀ l : List ℕ, l ≠ [] → (∀ q ∈ l, q < n) → (l.map f).foldr max 0 + 1 = l.toFinset.sup g := by
    intro l
    induction l with
    | nil => intro hl; exact absurd rfl hl
    | cons a l ih =>
      intro _ hm
      rw [List.toFinset_cons, Finset.sup_insert, List.map_cons, List.foldr_cons, ← h a (hm a (by simp))]
      cases l with
      | nil => simp
      | cons b l =>
        rw [← ih (by simp) fun q hq => hm q (by simp [List.mem_cons] at hq ⊢; tauto)]
        show max _ _ + 1 = max _ _
        omega
  rw [h1 (List.range n) (by simpa using hn) (by simp), List.toFinset_range]

/-- The distinct values of a column, in increasing order and filled up. -/
def distinctPadded (size : ℕ) (S : Finset ℤ) : List ℤ :=
  S.sort (· ≤ ·) ++ List.replicate (size - (S.sort (· ≤ ·)).length) (-1)

theorem uniqueSized_eq {size : ℕ} {l l' : List ℤ} (hp : l.Perm l') (h : l'.toFinset.card ≤ size) :
    uniqueSized size l = distinctPadded size l'.toFinset := by
  unfold uniqueSized distinctPadded
  rw [List.toFinset_eq_of_perm _ _ hp, List.take_of_length_le (by simpa using h)]

theorem distinctPadded_length {size : ℕ} {S : Finset ℤ} (h : S.card ≤ size) : (distinctPadded size S).length = size := by
  unfold distinctPadded
  simp only [List.length_append, List.length_replicate, Finset.length_sort]
  omega

/-- The largest number of distinct values in a column. -/
def maxDistinct (arr : ND ℤ) (n : ℕ) : ℕ := (Finset.range n).sup fun q => (column arr q).toFinset.card

/-- `compute_outdeps` lists the distinct values of every column. -/
theorem computeOutdeps_spec {arr : ND ℤ} {R n : ℕ} (hs : arr.shape = [R, n]) (hR : R ≠ 0) (hn : n ≠ 0) :
    ∃ out, computeOutdeps arr = some out ∧ out.shape = [maxDistinct arr n, n] ∧
      ∀ q < n, column out q = distinctPadded (maxDistinct arr n) (column arr q).toFinset := by
  have e1 : arr.shape.getD 1 0 = n := by rw [hs]; rfl
  have hne : ∀ q, column arr q ≠ [] := by
    intro q h
    have : (column arr q).length = R := by unfold column; rw [hs]; simp
    rw [h] at this
    exact hR this.symm
  have hmax : ((List.range n).map fun q => increases ((column arr q).mergeSort fun a b => decide (a ≤ b))).foldr max 0 + 1 =
      maxDistinct arr n := foldr_max_succ n _ _ hn fun q _ => increases_mergeSort (hne q)
  unfold computeOutdeps
  simp only [e1, if_neg hn, hmax]
  refine ⟨_, rfl, rfl, fun q hq => ?_⟩
  have hle : (column arr q).toFinset.card ≤ maxDistinct arr n :=
    Finset.le_sup (f := fun q => (column arr q).toFinset.card) (Finset.mem_range.mpr hq)
  have hu : uniqueSized (maxDistinct arr n) ((column arr q).mergeSort fun a b => decide (a ≤ b)) =
      distinctPadded (maxDistinct arr n) (column arr q).toFinset := uniqueSized_eq (List.mergeSort_perm _ _) hle
  have hl := distinctPadded_length hle
  unfold column
  rw [ND.shape_ofFn]
  refine List.ext_getElem (by simpa [column] using hl.symm) fun i h1 h2 => ?_
  have hi : i < maxDistinct arr n := by simpa using h1
  simp only [List.getElem_map, List.getElem_range]
  rw [ND.get_ofFn _ (List.Forall₂.cons hi (List.Forall₂.cons hq List.Forall₂.nil))]
  simp only [List.getD_cons_zero, List.getD_cons_succ]
  show (uniqueSized (maxDistinct arr n) ((column arr q).mergeSort fun a b => decide (a ≤ b))).getD i (-1) =
    (distinctPadded (maxDistinct arr n) (column arr q).toFinset)[i]
  rw [hu, List.getD_eq_getElem _ _ (by rw [hl]; exact hi)]
  rfl

/-! ### Moving the reduced axes to the front -/

/-- The axes `0, dims + 1, kept + 1`. -/
theorem sumOrder_eq (n : ℕ) (dims : List ℕ) :
    ((0 :: dims.map fun i => i + 1) ++ (List.range (n + 1)).filter fun i => decide (i ∉ (0 :: dims.map fun i => i + 1))) =
      0 :: ((dims.map fun i => i + 1) ++ (keptDims n dims).map fun i => i + 1) := by
  rw [List.cons_append]
  congr 2
  rw [List.range_succ_eq_map, List.filter_cons]
  rw [if_neg (by simp), keptDims, List.filter_map]
  congr 1
  refine List.filter_congr fun d _ => ?_
  by_cases h : d ∈ dims <;> simp [h]
  exact fun x hx e => h (e ▸ hx)

theorem succ_perm {n : ℕ} {l : List ℕ} (h : l.Perm (List.range n)) :
    (0 :: l.map fun i => i + 1).Perm (List.range (n + 1)) := by
  rw [List.range_succ_eq_map]
  exact (h.map _).cons 0

theorem sumOrder_perm {n : ℕ} {dims : List ℕ} (hp : (keptDims n dims ++ dims).Perm (List.range n)) :
    (0 :: ((dims.map fun i => i + 1) ++ (keptDims n dims).map fun i => i + 1)).Perm (List.range (n + 1)) := by
  rw [← List.map_append]
  exact succ_perm (List.perm_append_comm.trans hp)

/-- The element along the reduced axes at `c` and the kept axes at `u` in row `k`. -/
def entry (s dims : List ℕ) (k : ℕ) (u c : List ℕ) : List ℕ := k :: place s.length (keptDims s.length dims ++ dims) (u ++ c)

theorem entry_inB {s dims : List ℕ} (hp : (keptDims s.length dims ++ dims).Perm (List.range s.length)) {K k : ℕ} {u c : List ℕ}
    (hk : k < K) (hu : InB u (sizes s (keptDims s.length dims))) (hc : InB c (sizes s dims)) :
    InB (entry s dims k u c) (K :: s) :=
  List.Forall₂.cons hk (place_inB hp (by rw [sizes_append]; exact inB_append hu hc))

/-- An array of shape `(K, s)` transposed and flattened to `(rows, outputs)`. -/
theorem moved_spec (x : ND α) {s dims : List ℕ} {K : ℕ} (hx : x.shape = K :: s)
    (hp : (keptDims s.length dims ++ dims).Perm (List.range s.length)) (h0 : 0 ∉ s) :
    ∃ z, reshapeLead (x.transpose (0 :: ((dims.map fun i => i + 1) ++ (keptDims s.length dims).map fun i => i + 1)))
        [(sizes s (keptDims s.length dims)).prod] = some z ∧
      z.shape = [K * (sizes s dims).prod, (sizes s (keptDims s.length dims)).prod] ∧
      ∀ k u c, k < K → InB u (sizes s (keptDims s.length dims)) → InB c (sizes s dims) →
        z.get [k * (sizes s dims).prod + ravelIdx (sizes s dims) c, ravelIdx (sizes s (keptDims s.length dims)) u] =
          x.get (entry s dims k u c) := by
  set kept := keptDims s.length dims with hkept
  have hperm := sumOrder_perm hp
  have hpx : (0 :: ((dims.map fun i => i + 1) ++ kept.map fun i => i + 1)).Perm (List.range x.shape.length) := by
    rw [hx]; simpa using hperm
  have hsh : (x.transpose (0 :: ((dims.map fun i => i + 1) ++ kept.map fun i => i + 1))).shape =
      K :: (sizes s dims ++ sizes s kept) := by
    rw [ND.shape_transpose, hx, List.map_cons, List.map_append, List.map_map, List.map_map]
    rfl
  have hpr : (x.transpose (0 :: ((dims.map fun i => i + 1) ++ kept.map fun i => i + 1))).shape.prod =
      (K * (sizes s dims).prod) * [(sizes s kept).prod].prod := by
    rw [hsh, List.prod_cons, List.prod_append]
    simp [mul_assoc]
  have hk0 : (sizes s kept).prod ≠ 0 := by
    rw [Ne, List.prod_eq_zero_iff]
    intro h
    obtain ⟨d, hd, e⟩ := List.mem_map.mp h
    have hd' : d < s.length := by
      have := (List.mem_filter.mp hd).1
      simpa using this
    rw [List.getD_eq_getElem _ _ hd'] at e
    exact h0 (e ▸ List.getElem_mem _)
  rw [reshapeLead_eq _ _ _ (by simpa using hk0) hpr]
  refine ⟨_, rfl, rfl, fun k u c hk hu hc => ?_⟩
  have hin := entry_inB hp hk hu hc
  rw [ND.get_reshape _ _ _ _ (k :: (c ++ u)) (by
    rw [hsh]
    show (k * (sizes s dims).prod + ravelIdx (sizes s dims) c) * [(sizes s kept).prod].prod +
        ravelIdx [(sizes s kept).prod] [ravelIdx (sizes s kept) u] =
      k * (sizes s dims ++ sizes s kept).prod + ravelIdx (sizes s dims ++ sizes s kept) (c ++ u)
    rw [ravelIdx_append _ _ _ _ hc.length_eq, List.prod_append]
    simp [ravelIdx]
    ring)]
  have := ND.get_transpose x hpx (w := entry s dims k u c) (by rw [hx]; exact hin)
  rw [← this]
  congr 1
  have hlen : (u ++ c).length = s.length := by
    have := (inB_append hu hc).length_eq
    rw [this, ← sizes_append, sizes_length, hp.length_eq, List.length_range]
  have hd := place_dims hp hlen
  rw [List.map_append] at hd
  obtain ⟨h1, h2⟩ := List.append_inj hd (by rw [List.length_map, hu.length_eq, sizes_length])
  rw [List.map_cons, List.map_append, List.map_map, List.map_map]
  show k :: (c ++ u) = (entry s dims k u c).getD 0 0 :: _
  congr 1
  congr 1
  · exact h2.symm
  · exact h1.symm

/-! ### The rule -/

variable [CommRing F] [Inhabited F]

/-- The rows of a Jacobian given by arrays of shape `(K, s)`, by positions. -/
def ArrJac.rep (s : List ℕ) (j : ArrJac F) : Jac (Fin s.prod) F :=
  match j.idx with
  | none => .dense ((List.range (j.data.shape.getD 0 0)).map fun k p => j.data.get (k :: unravelIdx s p))
  | some x0 => .sparse ((List.range (j.data.shape.getD 0 0)).map fun k =>
      ⟨fun p => x0.get (k :: unravelIdx s p), fun p => j.data.get (k :: unravelIdx s p)⟩)

/-- The axes that are summed, by positions. -/
def axesRedOf (s dims : List ℕ) (hp : (keptDims s.length dims ++ dims).Perm (List.range s.length)) :
    Red (Fin s.prod) (Fin (sizes s (keptDims s.length dims)).prod) :=
  ⟨_, _, axesSplit s _ dims hp, fun q => q⟩

theorem sum_range_mul {G : Type} [AddCommMonoid G] (K N : ℕ) (f : ℕ → G) :
    ((List.range (K * N)).map f).sum = ((List.range K).map fun k => ∑ c : Fin N, f (k * N + c)).sum := by
  induction K with
  | zero => simp
  | succ K ih =>
    rw [Nat.succ_mul, List.range_add, List.map_append, List.sum_append, ih, List.range_succ, List.map_append, List.sum_append]
    congr 1
    rw [List.map_map, sum_range_fin]
    simp

theorem unravel_split {s dims : List ℕ} (hp : (keptDims s.length dims ++ dims).Perm (List.range s.length))
    (q : Fin (sizes s (keptDims s.length dims)).prod) (c : Fin (sizes s dims).prod) (k : ℕ) :
    k :: unravelIdx s ((axesSplit s _ dims hp).symm (q, c) : Fin s.prod) =
      entry s dims k (unravelIdx (sizes s (keptDims s.length dims)) q) (unravelIdx (sizes s dims) c) := by
  unfold entry axesSplit
  simp only [Equiv.coe_fn_symm_mk]
  rw [unravelIdx_ravelIdx (place_inB hp (by
    rw [sizes_append]; exact inB_append (inB_unravelIdx q.2) (inB_unravelIdx c.2)))]

theorem maxN_some {x : ND ℤ} {m : ℤ} (hm : m ∈ x.data) (hle : ∀ a ∈ x.data, a ≤ m) : maxN x = some m := by
  have key : ∀ (l : List ℤ) (a : ℤ), (∀ b ∈ l, b ≤ l.foldl max a) ∧ a ≤ l.foldl max a ∧ (l.foldl max a = a ∨ l.foldl max a ∈ l) := by
    intro l
    induction l with
    | nil => intro a; simp
    | cons b l ih =>
      intro a
      obtain ⟨h1, h2, h3⟩ := ih (max a b)
      rw [List.foldl_cons]
      refine ⟨?_, le_trans (le_max_left _ _) h2, ?_⟩
      · intro d hd
        rcases List.mem_cons.mp hd with rfl | hd
        · exact le_trans (le_max_right _ _) h2
        · exact h1 d hd
      · rcases h3 with h3 | h3
        · rw [h3]
          rcases le_total a b with h | h
          · right; rw [max_eq_right h]; simp
          · left; exact max_eq_left h
        · right; exact List.mem_cons_of_mem _ h3
  unfold maxN
  cases hd : x.data with
  | nil => rw [hd] at hm; simp at hm
  | cons a l =>
    rw [hd] at hm hle
    obtain ⟨h1, h2, h3⟩ := key l a
    simp only
    congr 1
    refine le_antisymm ?_ ?_
    · rcases h3 with h3 | h3
      · rw [h3]; exact hle a (by simp)
      · exact hle _ (List.mem_cons_of_mem _ h3)
    · rcases List.mem_cons.mp hm with rfl | hm
      · exact h2
      · exact h1 _ hm

theorem mem_data {x : ND α} {a : α} : a ∈ x.data ↔ ∃ w, InB w x.shape ∧ x.get w = a := by
  constructor
  · intro h
    obtain ⟨i, hi, rfl⟩ := List.getElem_of_mem h
    have hi' : i < x.shape.prod := by rw [← x.wf]; exact hi
    refine ⟨unravelIdx x.shape i, inB_unravelIdx hi', ?_⟩
    unfold ND.get
    rw [ravelIdx_unravelIdx hi', List.getD_eq_getElem _ _ hi]
  · rintro ⟨w, hw, rfl⟩
    unfold ND.get
    rw [List.getD_eq_getElem _ _ (by rw [x.wf]; exact ravelIdx_lt hw)]
    exact List.getElem_mem _

omit [CommRing F] [Inhabited F] in
theorem jacMaxN_mem {P : Type} [Fintype P] : ∀ {rows : List (Row P F)} {m : ℤ}, Jac.maxN rows = (m : WithBot ℤ) →
    ∃ r ∈ rows, ∃ p, r.idx p = m
  | [], m, h => by simp [Jac.maxN] at h
  | r :: rows, m, h => by
    have h' : max (Finset.univ.sup fun p => ((r.idx p : ℤ) : WithBot ℤ)) (Jac.maxN rows) = (m : WithBot ℤ) := h
    rcases max_choice (Finset.univ.sup fun p => ((r.idx p : ℤ) : WithBot ℤ)) (Jac.maxN rows) with e | e
    · rw [e] at h'
      have hne : (Finset.univ : Finset P).Nonempty := by
        by_contra hn
        rw [Finset.not_nonempty_iff_eq_empty] at hn
        rw [hn, Finset.sup_empty] at h'
        exact absurd h' (by simp)
      obtain ⟨p, -, hp⟩ := Finset.exists_mem_eq_sup Finset.univ hne fun p => ((r.idx p : ℤ) : WithBot ℤ)
      rw [hp] at h'
      exact ⟨r, by simp, p, WithBot.coe_injective h'⟩
    · rw [e] at h'
      obtain ⟨r', hr, p, hp⟩ := jacMaxN_mem h'
      exact ⟨r', List.mem_cons_of_mem _ hr, p, hp⟩

/-- The result of `sparse_sum_jvp` on arrays is, by positions, the result of the model in `Verif/Core/Jvp.lean`. -/
theorem sparseSumArr_refines (T : ℕ) {x lapl data : ND F} {x0 : ND ℤ} {s dims : List ℕ} {K : ℕ} (hx : x.shape = s)
    (hl : lapl.shape = s) (hd : data.shape = K :: s) (hi : x0.shape = K :: s) (hK : K ≠ 0) (h0 : 0 ∉ s)
    (hp : (keptDims s.length dims ++ dims).Perm (List.range s.length)) :
    ∃ y j l, sparseSumArr T x lapl data x0 dims = some (y, j, l) ∧
      y.shape = sizes s (keptDims s.length dims) ∧ l.shape = sizes s (keptDims s.length dims) ∧
      (∃ K', j.data.shape = K' :: sizes s (keptDims s.length dims)) ∧ (∀ m, j.idx = some m → m.shape = j.data.shape) ∧
      sparseSum (axesRedOf s dims hp) T ⟨vecOf x s.prod, ArrJac.rep s ⟨data, some x0⟩, vecOf lapl s.prod⟩ =
        .ok ⟨vecOf y (sizes s (keptDims s.length dims)).prod, j.rep _,
          vecOf l (sizes s (keptDims s.length dims)).prod⟩ := by
  set out := sizes s (keptDims s.length dims) with hout
  set D := sizes s dims with hD
  have hs0 : s.prod ≠ 0 := by rwa [Ne, List.prod_eq_zero_iff]
  have hnz : ∀ L : List ℕ, (∀ d ∈ L, d < s.length) → (sizes s L).prod ≠ 0 ∧ 0 ∉ sizes s L := by
    intro L hL
    have : 0 ∉ sizes s L := by
      intro h
      obtain ⟨d, hd, e⟩ := List.mem_map.mp h
      rw [List.getD_eq_getElem _ _ (hL d hd)] at e
      exact h0 (e ▸ List.getElem_mem _)
    exact ⟨by rwa [Ne, List.prod_eq_zero_iff], this⟩
  have hlt : ∀ d ∈ keptDims s.length dims ++ dims, d < s.length := fun d hd' => by
    have := hp.subset hd'
    simpa using this
  obtain ⟨hn, ho⟩ := hnz (keptDims s.length dims) fun d h => hlt d (by simp [h])
  obtain ⟨hN, -⟩ := hnz dims fun d h => hlt d (by simp [h])
  have hR : K * D.prod ≠ 0 := mul_ne_zero hK hN
  -- the moved arrays
  obtain ⟨z, hz1, hz2, hz3⟩ := moved_spec x0 hi hp h0
  obtain ⟨zd, hzd1, hzd2, hzd3⟩ := moved_spec data hd hp h0
  simp only [← hout, ← hD] at hn ho hN hz1 hz2 hz3 hzd1 hzd2 hzd3
  obtain ⟨idxOut, ho1, ho2, ho3⟩ := computeOutdeps_spec hz2 hR hn
  have hzp : ∀ (k : ℕ), k < K → ∀ (q : Fin out.prod) (c : Fin D.prod),
      z.get [k * D.prod + c, q] = x0.get (k :: unravelIdx s ((axesSplit s _ dims hp).symm (q, c) : Fin s.prod)) := by
    intro k hk q c
    rw [unravel_split hp q c k, ← hz3 k _ _ hk (inB_unravelIdx q.2) (inB_unravelIdx c.2), ravelIdx_unravelIdx q.2,
      ravelIdx_unravelIdx c.2]
  have hzdp : ∀ (k : ℕ), k < K → ∀ (q : Fin out.prod) (c : Fin D.prod),
      zd.get [k * D.prod + c, q] = data.get (k :: unravelIdx s ((axesSplit s _ dims hp).symm (q, c) : Fin s.prod)) := by
    intro k hk q c
    rw [unravel_split hp q c k, ← hzd3 k _ _ hk (inB_unravelIdx q.2) (inB_unravelIdx c.2), ravelIdx_unravelIdx q.2,
      ravelIdx_unravelIdx c.2]
  set rows : List (Row (Fin s.prod) F) := (List.range K).map fun k =>
    ⟨fun p => x0.get (k :: unravelIdx s p), fun p => data.get (k :: unravelIdx s p)⟩ with hrows
  set r := axesRedOf s dims hp with hr
  have hrep : (ArrJac.rep s ⟨data, some x0⟩ : Jac (Fin s.prod) F).srows = rows := by
    unfold ArrJac.rep
    simp only [Jac.srows]
    rw [hd]
    rfl
  -- the distinct indices
  have hcol : ∀ q : Fin out.prod, (column z q).toFinset = sumIdx r rows q := by
    intro q
    ext a
    rw [List.mem_toFinset, mem_sumIdx]
    unfold column
    rw [hz2, List.mem_map]
    constructor
    · rintro ⟨i, hi', rfl⟩
      have hi2 : i < K * D.prod := by simpa using hi'
      have hk : i / D.prod < K := Nat.div_lt_of_lt_mul (by rw [mul_comm]; exact hi2)
      have hc : i % D.prod < D.prod := Nat.mod_lt _ (Nat.pos_of_ne_zero hN)
      refine ⟨_, List.mem_map.mpr ⟨i / D.prod, by simpa using hk, rfl⟩, ⟨i % D.prod, hc⟩, ?_⟩
      have e := hzp (i / D.prod) hk q ⟨i % D.prod, hc⟩
      have e2 : i / D.prod * D.prod + i % D.prod = i := Nat.div_add_mod' i D.prod
      simp only [e2] at e
      exact e.symm
    · rintro ⟨row, hrow, c, rfl⟩
      obtain ⟨k, hk, rfl⟩ := List.mem_map.mp hrow
      have hk : k < K := by simpa using hk
      have hc : (c : Fin D.prod).val < D.prod := (c : Fin D.prod).2
      refine ⟨k * D.prod + (c : Fin D.prod).val, ?_, hzp k hk q c⟩
      have : (k + 1) * D.prod ≤ K * D.prod := Nat.mul_le_mul_right _ hk
      have h3 : (k + 1) * D.prod = k * D.prod + D.prod := Nat.succ_mul _ _
      rw [List.mem_range]
      show _ < K * D.prod
      omega
  have hcard : ∀ q : Fin out.prod, max 1 (sumIdx r rows q).card = (column z q).toFinset.card := by
    intro q
    rw [← hcol q]
    refine max_eq_right ?_
    rw [Nat.one_le_iff_ne_zero, Ne, Finset.card_eq_zero, List.toFinset_eq_empty_iff]
    intro h
    have : (column z q).length = K * D.prod := by unfold column; rw [hz2]; simp
    rw [h] at this
    exact hR this.symm
  have hmax : (Finset.univ.sup fun q : Fin out.prod => max 1 (sumIdx r rows q).card) = maxDistinct z out.prod := by
    unfold maxDistinct
    refine le_antisymm (Finset.sup_le fun q _ => ?_) (Finset.sup_le fun q hq => ?_)
    · rw [hcard q]
      exact Finset.le_sup (f := fun q => (column z q).toFinset.card) (Finset.mem_range.mpr q.2)
    · have := hcard ⟨q, Finset.mem_range.mp hq⟩
      simp only at this
      rw [← this]
      exact Finset.le_sup (f := fun q : Fin out.prod => max 1 (sumIdx r rows q).card) (Finset.mem_univ _)
  -- the reshaped data
  have hresh : ∀ {β : Type} [Inhabited β] (a : ND β), a.shape = [K * D.prod, out.prod] →
      ∃ b, reshapeLead a out = some b ∧ b.shape = K * D.prod :: out ∧
        ∀ i u, InB u out → b.get (i :: u) = a.get [i, ravelIdx out u] := by
    intro β _ a ha
    rw [reshapeLead_eq a out (K * D.prod) hn (by rw [ha]; simp)]
    refine ⟨_, rfl, rfl, fun i u hu => ?_⟩
    rw [ND.get_reshape _ _ _ _ [i, ravelIdx out u] (by
      rw [ha]
      show i * out.prod + ravelIdx out u = i * [out.prod].prod + ravelIdx [out.prod] [ravelIdx out u]
      simp [ravelIdx])]
  obtain ⟨jd, hj1, hj2, hj3⟩ := hresh zd hzd2
  have hord : ((0 :: dims.map fun i => i + 1) ++ (List.range data.ndim).filter fun i => decide (i ∉ (0 :: dims.map fun i => i + 1))) =
      0 :: ((dims.map fun i => i + 1) ++ (keptDims s.length dims).map fun i => i + 1) := by
    have : data.ndim = s.length + 1 := by unfold ND.ndim; rw [hd]; rfl
    rw [this]
    exact sumOrder_eq _ _
  have hys : (sumDims x dims).shape = out := by unfold sumDims; rw [ND.shape_ofFn]; unfold ND.ndim; rw [hx]
  have hls : (sumDims lapl dims).shape = out := by unfold sumDims; rw [ND.shape_ofFn]; unfold ND.ndim; rw [hl]
  have hsumpos : ∀ a : ND F, a.shape = s → vecOf (sumDims a dims) out.prod =
      fun q => ∑ c : r.C, vecOf a s.prod (r.split.symm (r.κ q, c)) := by
    intro a ha
    have := sumDims_toND s dims hp (vecOf a s.prod)
    rw [toND_vecOf a s ha] at this
    rw [this, vecOf_toND]
    rfl
  -- a segment sum over the moved rows
  have hseg : ∀ (ids : ND ℤ) (M : ℕ), ids.shape = [K * D.prod, out.prod] →
      ∃ ids' res, reshapeLead ids out = some ids' ∧ segLayout jd ids' M out = some res ∧ res.shape = M :: out ∧
        ∀ i, i < M → ∀ q : Fin out.prod, res.get (i :: unravelIdx out q) =
          ((List.range K).map fun k => ∑ c : Fin D.prod, if ids.get [k * D.prod + c, q] = (i : ℤ) then
            data.get (k :: unravelIdx s ((axesSplit s _ dims hp).symm (q, c) : Fin s.prod)) else 0).sum := by
    intro ids M hids
    obtain ⟨ids', h1, h2, h3⟩ := hresh ids hids
    obtain ⟨res, h4, h5, h6⟩ := segLayout_spec (M := M) hR hj2 h2 ho
    refine ⟨ids', res, h1, h4, h5, fun i hiM q => ?_⟩
    rw [h6 i _ hiM (inB_unravelIdx q.2), sum_range_mul]
    congr 1
    refine List.map_congr_left fun k hk => Finset.sum_congr rfl fun c _ => ?_
    rw [h3 _ _ (inB_unravelIdx q.2), hj3 _ _ (inB_unravelIdx q.2), ravelIdx_unravelIdx q.2, hzdp k (by simpa using hk) q c]
  have hcardQ : ¬ Fintype.card (Fin out.prod) = 0 := by rwa [Fintype.card_fin]
  have hrowsN : (maxDistinct z out.prod) = idxOut.shape.getD 0 0 := by rw [ho2]; rfl
  subst out D
  unfold sparseSumArr sparseSum
  simp only [hord, hys, hz1, ho1, hzd1, hj1, Option.bind_eq_bind, Option.bind_some, hrep, if_neg hcardQ, hmax, ← hrowsN]
  by_cases hT : T < maxDistinct z (sizes s (keptDims s.length dims)).prod
  · -- dense
    have hT' : maxDistinct z (sizes s (keptDims s.length dims)).prod > T := hT
    rw [if_pos hT, if_pos hT']
    obtain ⟨m, hm⟩ : ∃ m : ℤ, Jac.maxN rows = (m : WithBot ℤ) := by
      have : Jac.maxN rows ≠ ⊥ := Folx.maxN_some rows _ (List.mem_map.mpr ⟨0, by simpa using Nat.pos_of_ne_zero hK, rfl⟩)
        ⟨0, Nat.pos_of_ne_zero hs0⟩
      exact ⟨_, (WithBot.coe_unbot _ this).symm⟩
    have hzm : maxN z = some m := by
      refine maxN_some ?_ fun a ha => ?_
      · obtain ⟨row, hrow, p, e⟩ := jacMaxN_mem hm
        obtain ⟨k, hk, rfl⟩ := List.mem_map.mp hrow
        have hk : k < K := by simpa using hk
        obtain ⟨q, c, hqc⟩ : ∃ q c, (axesSplit s _ dims hp) p = (q, c) := ⟨_, _, rfl⟩
        have e2 : (axesSplit s _ dims hp).symm (q, c) = p := by rw [← hqc, Equiv.symm_apply_apply]
        refine mem_data.mpr ⟨[k * (sizes s dims).prod + c, q], ?_, ?_⟩
        · rw [hz2]
          have h3 : (k + 1) * (sizes s dims).prod = k * (sizes s dims).prod + (sizes s dims).prod := Nat.succ_mul _ _
          have h4 : (k + 1) * (sizes s dims).prod ≤ K * (sizes s dims).prod := Nat.mul_le_mul_right _ hk
          have h5 : (c : Fin (sizes s dims).prod).val < (sizes s dims).prod := c.2
          exact List.Forall₂.cons (by omega) (List.Forall₂.cons q.2 List.Forall₂.nil)
        · rw [hzp k hk q c, e2]
          exact e
      · obtain ⟨w, hw, rfl⟩ := mem_data.mp ha
        rw [hz2] at hw
        obtain ⟨i, w', rfl, hi2, hw'⟩ := hw.cons_right
        obtain ⟨q, w'', rfl, hq, hw''⟩ := hw'.cons_right
        obtain rfl : w'' = [] := by cases hw''; rfl
        have hk : i / (sizes s dims).prod < K := Nat.div_lt_of_lt_mul (by rw [mul_comm]; exact hi2)
        have hc : i % (sizes s dims).prod < (sizes s dims).prod := Nat.mod_lt _ (Nat.pos_of_ne_zero hN)
        have e := hzp (i / (sizes s dims).prod) hk ⟨q, hq⟩ ⟨i % (sizes s dims).prod, hc⟩
        have e2 : i / (sizes s dims).prod * (sizes s dims).prod + i % (sizes s dims).prod = i := Nat.div_add_mod' i (sizes s dims).prod
        simp only [e2] at e
        rw [e]
        exact idx_le_maxN rows m hm _ (List.mem_map.mpr ⟨i / (sizes s dims).prod, by simpa using hk, rfl⟩) _
    obtain ⟨ids', res, h1, h2, h3, h4⟩ := hseg z (m + 1).toNat hz2
    simp only [hzm, Option.map_some, Option.bind_some, h1, h2, hm]
    refine ⟨_, _, _, rfl, hys, hls, ⟨_, h3⟩, by simp, ?_⟩
    rw [hsumpos x hx, hsumpos lapl hl]
    congr 1
    congr 1
    unfold ArrJac.rep
    simp only [h3, List.getD_cons_zero]
    congr 1
    refine List.map_congr_left fun i hi' => ?_
    funext q
    rw [h4 i (by simpa using hi') q, hrows, List.map_map]
    congr 1
    refine List.map_congr_left fun k hk => ?_
    refine Finset.sum_congr rfl fun c _ => ?_
    rw [hzp k (by simpa using hk) q c]
    rfl
  · rw [if_neg hT, if_neg (show ¬ maxDistinct z (sizes s (keptDims s.length dims)).prod > T from hT)]
    have hpr : idxOut.shape.prod = (maxDistinct z (sizes s (keptDims s.length dims)).prod :: (sizes s (keptDims s.length dims))).prod := by rw [ho2]; simp
    rw [ND.reshape?_eq _ _ hpr]
    have hsa : (argmaxCols z idxOut).shape = [K * (sizes s dims).prod, (sizes s (keptDims s.length dims)).prod] := by unfold argmaxCols; rw [ND.shape_ofFn, hz2]
    obtain ⟨ids', res, h1, h2, h3, h4⟩ := hseg (argmaxCols z idxOut) (maxDistinct z (sizes s (keptDims s.length dims)).prod) hsa
    simp only [Option.map_some, Option.bind_some, h1, h2]
    refine ⟨_, _, _, rfl, hys, hls, ⟨_, h3⟩, by rintro _ ⟨⟩; rw [h3]; rfl, ?_⟩
    rw [hsumpos x hx, hsumpos lapl hl]
    congr 1
    congr 1
    unfold ArrJac.rep
    simp only [h3, List.getD_cons_zero]
    congr 1
    have hcolq : ∀ q : Fin (sizes s (keptDims s.length dims)).prod, column idxOut q = (sumIdx r rows q).sort (· ≤ ·) ++
        List.replicate (maxDistinct z (sizes s (keptDims s.length dims)).prod - ((sumIdx r rows q).sort (· ≤ ·)).length) (-1) := by
      intro q
      rw [ho3 q q.2, hcol q]
      rfl
    refine List.map_congr_left fun i hi' => ?_
    have hi2 : i < maxDistinct z (sizes s (keptDims s.length dims)).prod := by simpa using hi'
    congr 1
    · funext q
      rw [← hcolq q, ND.get_reshape _ _ _ _ [i, q.val] (by
        rw [ho2]
        show i * (sizes s (keptDims s.length dims)).prod + ravelIdx (sizes s (keptDims s.length dims)) (unravelIdx (sizes s (keptDims s.length dims)) q) = i * [(sizes s (keptDims s.length dims)).prod].prod + ravelIdx [(sizes s (keptDims s.length dims)).prod] [q.val]
        rw [ravelIdx_unravelIdx q.2]
        simp [ravelIdx])]
      unfold column
      rw [ho2, List.getD_eq_getElem _ _ (by simpa using hi2)]
      simp
    · funext q
      rw [h4 i hi2 q, hrows, List.map_map]
      congr 1
      refine List.map_congr_left fun k hk => ?_
      have hk : k < K := by simpa using hk
      refine Finset.sum_congr rfl fun c _ => ?_
      have hin : InB [k * (sizes s dims).prod + (c : Fin (sizes s dims).prod).val, q.val] z.shape := by
        rw [hz2]
        have h3 : (k + 1) * (sizes s dims).prod = k * (sizes s dims).prod + (sizes s dims).prod := Nat.succ_mul _ _
        have h4 : (k + 1) * (sizes s dims).prod ≤ K * (sizes s dims).prod := Nat.mul_le_mul_right _ hk
        have h5 : (c : Fin (sizes s dims).prod).val < (sizes s dims).prod := c.2
        exact List.Forall₂.cons (by omega) (List.Forall₂.cons q.2 List.Forall₂.nil)
      have : (argmaxCols z idxOut).get [k * (sizes s dims).prod + (c : Fin (sizes s dims).prod).val, q.val] =
          firstMatch (column idxOut q) (z.get [k * (sizes s dims).prod + (c : Fin (sizes s dims).prod).val, q.val]) := by
        unfold argmaxCols
        rw [ND.get_ofFn _ hin]
        rfl
      rw [this, hzp k hk q c, hcolq q]
      rfl

end Folx.Layout

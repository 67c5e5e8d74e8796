import Verif.Tree.TreeUtils
import Verif.ND.BatchProofs

/-!
# C48: the tree utilities
-/

namespace Folx.TreeU

open Folx.Interp (Err)

variable {F : Type}

/-! ### Specification -/

/-- All elements of a tree of arrays in order (leaf by leaf, row-major). -/
def flat (t : PyTree (ND F)) : List F := t.leaves.flatMap ND.data

/-- The shapes of the leaves. -/
def leafShapes (t : PyTree (ND F)) : List (List ℕ) := t.leaves.map ND.shape

/-- Same structure and same shapes. -/
def SameKind (t u : PyTree (ND F)) : Prop := t.struct = u.struct ∧ leafShapes t = leafShapes u

/-! ### Proofs -/

theorem mapE_ok {α β : Type} {f : α → Except Err β} {g : α → β} : ∀ {l : List α}, (∀ a ∈ l, f a = .ok (g a)) →
    mapE f l = .ok (l.map g)
  | [], _ => rfl
  | a :: l, h => by
    rw [mapE, h a (by simp), mapE_ok fun b hb => h b (by simp [hb])]; rfl

theorem treeMap_ok {α β : Type} {f : α → Except Err β} {g : α → β} {t : PyTree α} (h : ∀ a ∈ t.leaves, f a = .ok (g a)) :
    ∃ r, treeMap f t = .ok r ∧ r.struct = t.struct ∧ r.leaves = t.leaves.map g := by
  unfold treeMap
  rw [mapE_ok h]
  obtain ⟨u, hu⟩ := PyTree.unflatten_total t (t.leaves.map g) (by simp)
  obtain ⟨h1, h2⟩ := (PyTree.unflatten_iff _ _ _).1 hu
  exact ⟨u, hu, h1, h2⟩

theorem treeMapN_ok {α β : Type} {f : List α → Except Err β} {g : ℕ → β} {t : PyTree α} {ts : List (PyTree α)}
    (hs : ∀ u ∈ ts, u.struct = t.struct)
    (h : ∀ l (hl : l < t.leaves.length), f (t.leaves[l] :: ts.filterMap fun u => u.leaves[l]?) = .ok (g l)) :
    ∃ r, treeMapN f t ts = .ok r ∧ r.struct = t.struct ∧ r.leaves = (List.range t.leaves.length).map g := by
  unfold treeMapN
  rw [if_pos hs]
  have e : t.leaves.zipIdx.map (fun p => p.1 :: ts.filterMap fun u => u.leaves[p.2]?) =
      (List.range t.leaves.length).map fun l => (t.leaves[l]?).toList ++ ts.filterMap fun u => u.leaves[l]? := by
    refine List.ext_getElem (by simp) fun l h1 h2 => ?_
    have hl : l < t.leaves.length := by simpa using h1
    simp [List.getElem?_eq_getElem hl]
  rw [e]
  have hm : mapE f ((List.range t.leaves.length).map fun l =>
      (t.leaves[l]?).toList ++ ts.filterMap fun u => u.leaves[l]?) =
      .ok ((List.range t.leaves.length).map g) := by
    generalize hL : List.range t.leaves.length = L
    have hmem : ∀ l ∈ L, l < t.leaves.length := by subst hL; simp
    clear hL e
    induction L with
    | nil => rfl
    | cons l L ih =>
      have hl := hmem l (by simp)
      have e2 : (t.leaves[l]?).toList ++ (ts.filterMap fun u => u.leaves[l]?) =
          t.leaves[l] :: ts.filterMap fun u => u.leaves[l]? := by rw [List.getElem?_eq_getElem hl]; rfl
      rw [List.map_cons, mapE, e2, h l hl, ih fun l hl => hmem l (by simp [hl])]
      rfl
  rw [hm]
  obtain ⟨u, hu⟩ := PyTree.unflatten_total t ((List.range t.leaves.length).map g) (by simp)
  obtain ⟨h1, h2⟩ := (PyTree.unflatten_iff _ _ _).1 hu
  exact ⟨u, hu, h1, h2⟩

theorem flatMap_map_data (t : PyTree (ND F)) {G : Type} (r : PyTree (ND G)) (f : ND F → ND G)
    (h : r.leaves = t.leaves.map f) : flat r = t.leaves.flatMap fun a => (f a).data := by
  unfold flat; rw [h, List.flatMap_map]

theorem treeMapScalar {f : F → F} (t : PyTree (ND F)) : ∃ r, treeMap (fun a => .ok (a.map f)) t = .ok r ∧
    SameKind r t ∧ flat r = (flat t).map f := by
  obtain ⟨r, h1, h2, h3⟩ := treeMap_ok (f := fun a : ND F => Except.ok (a.map f)) (g := fun a => a.map f) (t := t)
    (fun a _ => rfl)
  refine ⟨r, h1, ⟨h2, ?_⟩, ?_⟩
  · unfold leafShapes; rw [h3, List.map_map]; rfl
  · rw [flatMap_map_data t r _ h3]; unfold flat; rw [List.map_flatMap]; rfl

theorem zipWith_flatMap {op : F → F → F} : ∀ {as bs : List (ND F)}, as.map ND.shape = bs.map ND.shape →
    (List.zipWith (fun a b : ND F => List.zipWith op a.data b.data) as bs).flatten =
      List.zipWith op (as.flatMap ND.data) (bs.flatMap ND.data)
  | [], [], _ => rfl
  | [], _ :: _, h => by simp at h
  | _ :: _, [], h => by simp at h
  | a :: as, b :: bs, h => by
    simp only [List.map_cons, List.cons.injEq] at h
    have ih := zipWith_flatMap (op := op) h.2
    rw [List.zipWith_cons_cons, List.flatten_cons, ih, List.flatMap_cons, List.flatMap_cons,
      List.zipWith_append (by rw [a.wf, b.wf, h.1])]

theorem treeZip {op : F → F → F} {t u : PyTree (ND F)} (h : SameKind t u) : ∃ r, treeMapN (zipLeaf op) t [u] = .ok r ∧
    SameKind r t ∧ flat r = List.zipWith op (flat t) (flat u) := by
  obtain ⟨hs, hsh⟩ := h
  have hlen : t.leaves.length = u.leaves.length := by
    have := congrArg List.length hsh; simpa [leafShapes] using this
  have hshape : ∀ l (h1 : l < t.leaves.length) (h2 : l < u.leaves.length), (t.leaves[l]).shape = (u.leaves[l]).shape := by
    intro l h1 h2
    have := congrArg (fun L => L[l]?) hsh
    simpa [leafShapes, List.getElem?_eq_getElem h1, List.getElem?_eq_getElem h2] using this
  let g : ℕ → ND F := fun l =>
    if h : l < t.leaves.length then
      ⟨(t.leaves[l]).shape, List.zipWith op (t.leaves[l]).data (u.leaves[l]'(hlen ▸ h)).data, by
        rw [List.length_zipWith, ND.wf, ND.wf, ← hshape l h (hlen ▸ h), min_self]⟩
    else ⟨[0], [], rfl⟩
  obtain ⟨r, h1, h2, h3⟩ := treeMapN_ok (f := zipLeaf op) (g := g) (t := t) (ts := [u]) (by simpa using hs.symm) (by
    intro l hl
    have hl' : l < u.leaves.length := hlen ▸ hl
    simp only [List.filterMap_cons, List.filterMap_nil, List.getElem?_eq_getElem hl']
    unfold zipLeaf zipND
    simp only
    rw [dif_pos (hshape l hl hl')]
    simp only [g, dif_pos hl])
  refine ⟨r, h1, ⟨h2, ?_⟩, ?_⟩
  · unfold leafShapes
    rw [h3, List.map_map]
    refine List.ext_getElem (by simp) fun l h4 h5 => ?_
    have hl : l < t.leaves.length := by simpa using h5
    simp [g, hl]
  · unfold flat
    rw [h3, List.flatMap_map]
    rw [← zipWith_flatMap (op := op) hsh, List.flatMap_def]
    congr 1
    refine List.ext_getElem (by simp [hlen]) fun l h4 h5 => ?_
    have hl : l < t.leaves.length := by simpa using h4
    simp [g, hl]

theorem foldl_add_eq [Ring F] (a : F) (l : List F) : l.foldl (· + ·) a = a + l.sum := by
  induction l generalizing a with
  | nil => simp
  | cons b l ih => rw [List.foldl_cons, ih, List.sum_cons, add_assoc]

theorem reduce_eq [Ring F] {s : PyTree F} (h : s.leaves ≠ []) : treeReduceAdd s = .ok s.leaves.sum := by
  unfold treeReduceAdd
  rcases hl : s.leaves with _ | ⟨a, as⟩
  · exact absurd hl h
  · simp only [foldl_add_eq, List.sum_cons]

theorem sum_map_sum [Ring F] (l : List (ND F)) : (l.map fun a => a.data.sum).sum = (l.flatMap ND.data).sum := by
  induction l with
  | nil => rfl
  | cons a l ih => simp [List.flatMap_cons, List.sum_append, ih]

theorem treeSum_eq [Ring F] {t : PyTree (ND F)} (ht : t.leaves ≠ []) : treeSum t = .ok (flat t).sum := by
  obtain ⟨s, h1, -, h3⟩ := treeMap_ok (f := fun a : ND F => Except.ok a.data.sum) (g := fun a => a.data.sum) (t := t)
    (fun a _ => rfl)
  unfold treeSum
  rw [h1]
  simp only
  rw [reduce_eq (by rw [h3]; simpa using ht), h3, sum_map_sum]; rfl

/-! ### The property: arithmetic -/

/-- **C48 (leafwise).**  Scaling, shifting, adding, subtracting and multiplying act on every element and keep
structure and shapes. -/
theorem C48_leafwise [Ring F] (t u : PyTree (ND F)) (h : SameKind t u) (x : F) :
    (∃ r, treeScale t x = .ok r ∧ SameKind r t ∧ flat r = (flat t).map (· * x)) ∧
    (∃ r, treeShift t x = .ok r ∧ SameKind r t ∧ flat r = (flat t).map (· + x)) ∧
    (∃ r, treeAdd t u = .ok r ∧ SameKind r t ∧ flat r = List.zipWith (· + ·) (flat t) (flat u)) ∧
    (∃ r, treeSub t u = .ok r ∧ SameKind r t ∧ flat r = List.zipWith (· - ·) (flat t) (flat u)) ∧
    (∃ r, treeMul t u = .ok r ∧ SameKind r t ∧ flat r = List.zipWith (· * ·) (flat t) (flat u)) :=
  ⟨treeMapScalar t, treeMapScalar t, treeZip h, treeZip h, treeZip h⟩

/-- **C48 (products).**  `tree_dot` is the sum over all elements of the products, `tree_squared_norm` that of the
squares, `tree_sum` the sum of all elements; without leaves they raise. -/
theorem C48_products [Ring F] (t u : PyTree (ND F)) (h : SameKind t u) (ht : t.leaves ≠ []) :
    treeDot t u = .ok (List.zipWith (· * ·) (flat t) (flat u)).sum ∧
    treeSquaredNorm t = .ok ((flat t).map fun a => a * a).sum ∧
    treeSum t = .ok (flat t).sum := by
  refine ⟨?_, ?_, treeSum_eq ht⟩
  · obtain ⟨r, h1, h2, h3⟩ := treeZip (op := (· * ·)) h
    have hne : r.leaves ≠ [] := by
      intro h0
      have := congrArg List.length h2.2
      rw [leafShapes, leafShapes, h0] at this
      exact ht (List.eq_nil_of_length_eq_zero (by simpa using this.symm))
    have := treeSum_eq hne
    unfold treeSum at this
    unfold treeDot treeMul
    rw [h1]
    simp only
    rw [this, h3]
  · obtain ⟨s, h1, -, h3⟩ := treeMap_ok (f := fun a : ND F => Except.ok (List.zipWith (· * ·) a.data a.data).sum)
      (g := fun a => (List.zipWith (· * ·) a.data a.data).sum) (t := t) (fun a _ => rfl)
    unfold treeSquaredNorm
    rw [h1]
    simp only
    rw [reduce_eq (by rw [h3]; simpa using ht), h3]
    congr 1
    unfold flat
    clear h3 h1 ht h
    induction t.leaves with
    | nil => rfl
    | cons a l ih =>
      rw [List.map_cons, List.sum_cons, ih, List.flatMap_cons, List.map_append, List.sum_append]
      congr 2
      rw [List.zipWith_self]

/-! ### The property: splitting and concatenating -/

theorem sliceRows_spec (x : ND F) {n : ℕ} {rest : List ℕ} (h : x.shape = n :: rest) (lo hi : ℕ) :
    ∃ y, sliceRows x lo hi = .ok y ∧ y.shape = (min hi n - lo) :: rest ∧
      y.data = (x.data.take (hi * rest.prod)).drop (lo * rest.prod) := by
  unfold sliceRows
  split
  · rename_i h'; rw [h] at h'; simp at h'
  · rename_i n' rest' h'
    rw [h] at h'
    obtain ⟨rfl, rfl⟩ := List.cons.inj h'
    exact ⟨_, rfl, rfl, rfl⟩

theorem dropRowsE_spec (x : ND F) {n : ℕ} {rest : List ℕ} (h : x.shape = n :: rest) (lo : ℕ) :
    ∃ y, dropRowsE x lo = .ok y ∧ y.shape = (n - lo) :: rest ∧ y.data = x.data.drop (lo * rest.prod) := by
  refine ⟨Batch.dropRows x lo, ?_, ?_, ?_⟩
  · unfold dropRowsE; rw [h]
  · unfold Batch.dropRows
    split
    · rename_i h'; rw [h] at h'; simp at h'
    · rename_i n' rest' h'
      rw [h] at h'
      obtain ⟨rfl, rfl⟩ := List.cons.inj h'
      rfl
  · unfold Batch.dropRows
    split
    · rename_i h'; rw [h] at h'; simp at h'
    · rename_i n' rest' h'
      rw [h] at h'
      obtain ⟨rfl, rfl⟩ := List.cons.inj h'
      rfl

theorem concatList_cons (x y : ND F) (ys : List (ND F)) : concatList (x :: y :: ys) =
    match concatList (y :: ys) with
    | .error e => .error e
    | .ok r =>
      match Batch.concatRows x r with
      | none => .error .shape
      | some z => .ok z := rfl

/-- What `tree_split` returns from a running index on: as many trees as sizes plus one, all of the structure of `t`;
leaf by leaf, their concatenation is what is left of the leaf. -/
theorem split_spec {t : PyTree (ND F)} (ht : ∀ x ∈ t.leaves, x.shape ≠ []) : ∀ (sizes : List ℕ) (idx : ℕ),
    ∃ ps, treeSplitFrom t idx sizes = .ok ps ∧ ps.length = sizes.length + 1 ∧ (∀ q ∈ ps, q.struct = t.struct) ∧
      (∀ q ∈ ps, q.leaves.length = t.leaves.length) ∧
      ∀ l (hl : l < t.leaves.length), ∃ n rest y, (t.leaves[l]).shape = n :: rest ∧
        concatList (ps.filterMap fun q => q.leaves[l]?) = .ok y ∧ y.shape = (n - idx) :: rest ∧
        y.data = (t.leaves[l]).data.drop (idx * rest.prod) := by
  have hsh : ∀ x ∈ t.leaves, ∃ n rest, x.shape = n :: rest := by
    intro x hx
    rcases h : x.shape with _ | ⟨n, rest⟩
    · exact absurd h (ht x hx)
    · exact ⟨n, rest, rfl⟩
  intro sizes
  induction sizes with
  | nil =>
    intro idx
    have h1 : ∀ x ∈ t.leaves, dropRowsE x idx = .ok (Batch.dropRows x idx) := by
      intro x hx
      obtain ⟨n, rest, h⟩ := hsh x hx
      unfold dropRowsE; rw [h]
    obtain ⟨r, hr1, hr2, hr3⟩ := treeMap_ok h1
    refine ⟨[r], by rw [treeSplitFrom, hr1], rfl, by simpa using hr2, by simp [hr3], fun l hl => ?_⟩
    obtain ⟨n, rest, h⟩ := hsh _ (List.getElem_mem hl)
    obtain ⟨y, hy1, hy2, hy3⟩ := dropRowsE_spec _ h idx
    refine ⟨n, rest, y, h, ?_, hy2, hy3⟩
    have hy : Batch.dropRows (t.leaves[l]) idx = y := by
      have := h1 _ (List.getElem_mem hl); rw [hy1] at this; exact (Except.ok.inj this).symm
    have : r.leaves[l]? = some y := by rw [hr3, List.getElem?_map, List.getElem?_eq_getElem hl, ← hy]; rfl
    simp only [List.filterMap_cons, List.filterMap_nil, this, concatList]
    rw [if_neg (by rw [hy2]; simp)]
  | cons s ss ih =>
    intro idx
    obtain ⟨ps, hp1, hp2, hp3, hp4, hp5⟩ := ih (idx + s)
    let g : ND F → ND F := fun x => match sliceRows x idx (idx + s) with | .ok y => y | .error _ => x
    have h1 : ∀ x ∈ t.leaves, sliceRows x idx (idx + s) = .ok (g x) := by
      intro x hx
      obtain ⟨n, rest, h⟩ := hsh x hx
      obtain ⟨y, hy, -⟩ := sliceRows_spec x h idx (idx + s)
      simp only [g, hy]
    obtain ⟨r, hr1, hr2, hr3⟩ := treeMap_ok h1
    refine ⟨r :: ps, by rw [treeSplitFrom, hr1]; simp only; rw [hp1], by simp [hp2], by simpa [hr2] using hp3,
      by simpa [hr3] using hp4, fun l hl => ?_⟩
    obtain ⟨n, rest, z, h, hz1, hz2, hz3⟩ := hp5 l hl
    obtain ⟨y, hy1, hy2, hy3⟩ := sliceRows_spec _ h idx (idx + s)
    have hy : g (t.leaves[l]) = y := by simp only [g, hy1]
    have hrl : r.leaves[l]? = some y := by rw [hr3, List.getElem?_map, List.getElem?_eq_getElem hl, ← hy]; rfl
    obtain ⟨w, hw1, hw2, hw3⟩ := Batch.concatRows_spec y z hy2 hz2
    refine ⟨n, rest, w, h, ?_, ?_, ?_⟩
    · rw [List.filterMap_cons, hrl]
      rcases hq : ps.filterMap (fun q => q.leaves[l]?) with _ | ⟨c, cs⟩
      · rw [hq] at hz1; simp [concatList] at hz1
      · rw [hq] at hz1
        simp only [hq]
        rw [concatList_cons, hz1]
        simp only [hw1]
    · rw [hw2]; congr 1; omega
    · rw [hw3, hy3, hz3, List.drop_take, Nat.add_mul, Nat.add_sub_cancel_left]
      conv_rhs => rw [← List.take_append_drop (s * rest.prod) ((t.leaves[l]).data.drop (idx * rest.prod))]
      rw [List.drop_drop]

/-- **C48 (splitting).**  `tree_split` returns one tree per size and one for the rest, all of the same structure, and
`tree_concat` of them is the original tree - also if the sizes exceed the length of the leaves. -/
theorem C48_split_concat (t : PyTree (ND F)) (ht : ∀ x ∈ t.leaves, x.shape ≠ []) (sizes : List ℕ) :
    ∃ ps, treeSplit t sizes = .ok ps ∧ ps.length = sizes.length + 1 ∧ (∀ q ∈ ps, q.struct = t.struct) ∧
      treeConcat ps = .ok t := by
  obtain ⟨ps, h1, h2, h3, h4, h5⟩ := split_spec ht sizes 0
  refine ⟨ps, h1, h2, h3, ?_⟩
  rcases ps with _ | ⟨q, qs⟩
  · simp at h2
  have hql : q.leaves.length = t.leaves.length := h4 q (by simp)
  have hqs : q.struct = t.struct := h3 q (by simp)
  obtain ⟨r, hr1, hr2, hr3⟩ := treeMapN_ok (f := concatList)
    (g := fun l => (t.leaves[l]?).getD ⟨[0], [], rfl⟩) (t := q) (ts := qs)
    (fun u hu => (h3 u (by simp [hu])).trans hqs.symm) (by
      intro l hl
      have hl' : l < t.leaves.length := hql ▸ hl
      obtain ⟨n, rest, y, hn, hy1, hy2, hy3⟩ := h5 l hl'
      rw [List.filterMap_cons, List.getElem?_eq_getElem hl] at hy1
      simp only at hy1
      rw [hy1]
      congr 1
      rw [List.getElem?_eq_getElem hl']
      exact ND.ext' (by rw [hy2, Option.getD_some, hn]; rfl) (by simpa using hy3))
  show treeMapN concatList q qs = _
  rw [hr1]
  congr 1
  rw [PyTree.ext_iff', hr2, hr3, hql]
  refine ⟨hqs, List.ext_getElem (by simp) fun l h6 h7 => ?_⟩
  simp [List.getElem?_eq_getElem h7]

/-- **C48 (pieces).**  Piece `k` consists of the next `sizes[k]` rows of every leaf (fewer where the leaf ends). -/
theorem C48_pieces [Inhabited F] (t : PyTree (ND F)) (ht : ∀ x ∈ t.leaves, x.shape ≠ []) (sizes : List ℕ)
    {ps : List (PyTree (ND F))} (hps : treeSplit t sizes = .ok ps) {k : ℕ} (hk : k < sizes.length)
    {l : ℕ} {x : ND F} (hx : t.leaves[l]? = some x) {n : ℕ} {rest : List ℕ} (hn : x.shape = n :: rest) :
    ∃ q y, ps[k]? = some q ∧ q.leaves[l]? = some y ∧
      y.shape = min sizes[k] (n - (sizes.take k).sum) :: rest ∧
      ∀ i < min sizes[k] (n - (sizes.take k).sum), y.take i 0 = x.take ((sizes.take k).sum + i) 0 := by
  have key : ∀ (sizes : List ℕ) (idx : ℕ) (ps : List (PyTree (ND F))) (_ : treeSplitFrom t idx sizes = .ok ps) (k : ℕ)
      (hk : k < sizes.length), ∃ q y, ps[k]? = some q ∧ q.leaves[l]? = some y ∧
        sliceRows x (idx + (sizes.take k).sum) (idx + (sizes.take k).sum + sizes[k]) = .ok y := by
    intro sizes
    induction sizes with
    | nil => intro _ _ _ k hk; simp at hk
    | cons s ss ih =>
      intro idx ps hps k hk
      let g : ND F → ND F := fun x => match sliceRows x idx (idx + s) with | .ok y => y | .error _ => x
      have h1 : ∀ x ∈ t.leaves, sliceRows x idx (idx + s) = .ok (g x) := by
        intro x hx
        rcases h : x.shape with _ | ⟨n, rest⟩
        · exact absurd h (ht x hx)
        · obtain ⟨y, hy, -⟩ := sliceRows_spec x h idx (idx + s)
          simp only [g, hy]
      obtain ⟨r, hr1, hr2, hr3⟩ := treeMap_ok h1
      obtain ⟨ps', hp1, -⟩ := split_spec ht ss (idx + s)
      rw [treeSplitFrom, hr1] at hps
      simp only [hp1] at hps
      obtain rfl := Except.ok.inj hps
      match k with
      | 0 =>
        refine ⟨r, g x, rfl, by rw [hr3, List.getElem?_map, hx]; rfl, ?_⟩
        simpa using h1 x (List.mem_of_getElem? hx)
      | k + 1 =>
        obtain ⟨q, y, hq1, hq2, hq3⟩ := ih (idx + s) ps' hp1 k (by simpa using hk)
        refine ⟨q, y, by simpa using hq1, hq2, ?_⟩
        simpa [Nat.add_assoc] using hq3
  obtain ⟨q, y, h1, h2, h3⟩ := key sizes 0 ps hps k hk
  obtain ⟨y', hy1, hy2, hy3⟩ := sliceRows_spec x hn (0 + (sizes.take k).sum) (0 + (sizes.take k).sum + sizes[k])
  obtain rfl := Except.ok.inj (h3.symm.trans hy1)
  have hshape : y.shape = min sizes[k] (n - (sizes.take k).sum) :: rest := by rw [hy2]; congr 1; omega
  refine ⟨q, y, h1, h2, hshape, fun i hi => ?_⟩
  refine ND.ext' (by rw [ND.shape_take, ND.shape_take, hshape, hn]; rfl) ?_
  rw [ND.data_take_zero _ hshape hi, ND.data_take_zero _ hn (by omega), hy3, List.drop_drop, List.drop_take,
    List.take_take, Nat.zero_add, ← Nat.add_mul, min_eq_left]
  rw [← Nat.sub_mul]
  have : 1 * rest.prod ≤ ((sizes.take k).sum + sizes[k] - ((sizes.take k).sum + i)) * rest.prod :=
    Nat.mul_le_mul_right _ (by omega)
  omega

/-! ### A non-trivial case -/

/-! ### Rows -/

theorem rowE_spec (x : ND F) {n : ℕ} {rest : List ℕ} (h : x.shape = n :: rest) {k : ℕ} (hk : k < n) (i : ℤ) (hi : i = k ∨ i = (k : ℤ) - n) :
    ∃ y, rowE x i = .ok y ∧ y.shape = rest ∧ y.data = (x.data.drop (k * rest.prod)).take rest.prod := by
  have hv : (if i < 0 then i + n else i) = (k : ℤ) := by
    rcases hi with rfl | rfl <;> split <;> omega
  unfold rowE
  split
  · rename_i h'; rw [h] at h'; simp at h'
  · rename_i n' rest' h'
    rw [h] at h'
    obtain ⟨rfl, rfl⟩ := List.cons.inj h'
    simp only [hv]
    rw [dif_pos ⟨by omega, by omega⟩]
    exact ⟨_, rfl, rfl, by simp⟩

/-- **C48 (adding an axis).**  `tree_idx(tree_expand(tree, 0), 0)` is the tree. -/
theorem C48_idx_expand (t : PyTree (ND F)) : ∃ e, treeExpand t = .ok e ∧ treeIdx e 0 = .ok t ∧ treeIdx e (-1) = .ok t := by
  obtain ⟨e, h1, h2, h3⟩ := treeMap_ok (f := fun x : ND F => (Except.ok (expandE x) : Except Err (ND F))) (g := expandE) (t := t) fun _ _ => rfl
  have key : ∀ i : ℤ, (i = ((0 : ℕ) : ℤ) ∨ i = ((0 : ℕ) : ℤ) - (1 : ℕ)) → treeIdx e i = .ok t := fun i hi => by
    obtain ⟨r, r1, r2, r3⟩ := treeMap_ok (f := fun x : ND F => rowE x i) (g := fun x => match rowE x i with | .ok y => y | .error _ => x) (t := e) fun a ha => by
      rw [h3] at ha
      obtain ⟨x, -, rfl⟩ := List.mem_map.mp ha
      obtain ⟨y, y1, -, -⟩ := rowE_spec (expandE x) rfl Nat.one_pos i hi
      rw [y1]
    show treeMap _ e = _
    rw [r1]
    congr 1
    rw [PyTree.ext_iff', r2, h2, r3, h3, List.map_map]
    refine ⟨rfl, (List.map_congr_left fun x _ => ?_).trans (List.map_id _)⟩
    obtain ⟨y, y1, y2, y3⟩ := rowE_spec (expandE x) rfl Nat.one_pos i hi
    show (match rowE (expandE x) i with | .ok y => y | .error _ => expandE x) = x
    rw [y1]
    refine ND.ext' y2 (y3.trans ?_)
    show (x.data.drop (0 * x.shape.prod)).take x.shape.prod = _
    rw [Nat.zero_mul, List.drop_zero, ← x.wf, List.take_length]
  exact ⟨e, h1, key 0 (Or.inl rfl), key (-1) (Or.inr rfl)⟩

/-- **C48 (taking the last row off).**  `tree_take(tree, slice(None, -1), 0)` and `tree_take(tree, -1, 0)` are all rows but the last and the last row: put together again they are the tree. -/
theorem C48_take (t : PyTree (ND F)) (ht : ∀ x ∈ t.leaves, ∃ n rest, x.shape = (n + 1) :: rest) :
    ∃ a b e, treeTake t (.upto 1) = .ok a ∧ treeTake t (.int (-1)) = .ok b ∧ treeExpand b = .ok e ∧ treeConcat [a, e] = .ok t ∧
      ∀ l (hl : l < t.leaves.length), ∃ x y, a.leaves[l]? = some x ∧ b.leaves[l]? = some y ∧ (t.leaves[l]).shape = (x.shape.headD 0 + 1) :: y.shape := by
  obtain ⟨a, a1, a2, a3⟩ := treeMap_ok (f := fun x : ND F => sliceRows x 0 (x.shape.headD 0 - 1)) (g := fun x => match sliceRows x 0 (x.shape.headD 0 - 1) with | .ok y => y | .error _ => x) (t := t)
    fun x hx => by
      obtain ⟨n, rest, h⟩ := ht x hx
      obtain ⟨y, y1, -, -⟩ := sliceRows_spec x h 0 (x.shape.headD 0 - 1)
      rw [y1]
  obtain ⟨b, b1, b2, b3⟩ := treeMap_ok (f := fun x : ND F => rowE x (-1)) (g := fun x => match rowE x (-1) with | .ok y => y | .error _ => x) (t := t)
    fun x hx => by
      obtain ⟨n, rest, h⟩ := ht x hx
      obtain ⟨y, y1, -, -⟩ := rowE_spec x h (Nat.lt_succ_self n) (-1) (Or.inr (by omega))
      rw [y1]
  obtain ⟨e, e1, e2, e3⟩ := treeMap_ok (f := fun x : ND F => (Except.ok (expandE x) : Except Err (ND F))) (g := expandE) (t := b) fun _ _ => rfl
  have hal : a.leaves.length = t.leaves.length := by rw [a3, List.length_map]
  have leaf : ∀ l (hl : l < t.leaves.length), ∃ n rest x y, (t.leaves[l]).shape = (n + 1) :: rest ∧ a.leaves[l]? = some x ∧ b.leaves[l]? = some y ∧
      x.shape = n :: rest ∧ x.data = (t.leaves[l]).data.take (n * rest.prod) ∧ y.shape = rest ∧ y.data = (t.leaves[l]).data.drop (n * rest.prod) := by
    intro l hl
    obtain ⟨n, rest, h⟩ := ht _ (List.getElem_mem hl)
    obtain ⟨x, x1, x2, x3⟩ := sliceRows_spec _ h 0 ((t.leaves[l]).shape.headD 0 - 1)
    obtain ⟨y, y1, y2, y3⟩ := rowE_spec _ h (Nat.lt_succ_self n) (-1) (Or.inr (by omega))
    have hh : (t.leaves[l]).shape.headD 0 - 1 = n := by rw [h]; rfl
    refine ⟨n, rest, x, y, h, ?_, ?_, ?_, ?_, y2, ?_⟩
    · rw [a3, List.getElem?_map, List.getElem?_eq_getElem hl, Option.map_some, x1]
    · rw [b3, List.getElem?_map, List.getElem?_eq_getElem hl, Option.map_some, y1]
    · rw [x2, hh]; congr 1; omega
    · rw [x3, hh, Nat.zero_mul, List.drop_zero]
    · rw [y3]
      refine List.take_of_length_le ?_
      rw [List.length_drop, (t.leaves[l]).wf, h, List.prod_cons, Nat.add_mul, one_mul, Nat.add_sub_cancel_left]
  refine ⟨a, b, e, a1, b1, e1, ?_, fun l hl => ?_⟩
  · obtain ⟨r, r1, r2, r3⟩ := treeMapN_ok (f := concatList) (g := fun l => (t.leaves[l]?).getD ⟨[0], [], rfl⟩) (t := a) (ts := [e])
      (fun u hu => by
        rw [List.mem_singleton.mp hu, e2, b2, a2]) (by
        intro l hl
        have hl' : l < t.leaves.length := hal ▸ hl
        obtain ⟨n, rest, x, y, h, hx, hy, x2, x3, y2, y3⟩ := leaf l hl'
        have hx' : a.leaves[l] = x := by
          rw [List.getElem?_eq_getElem hl] at hx
          exact Option.some.inj hx
        have he : e.leaves[l]? = some (expandE y) := by rw [e3, List.getElem?_map, hy]; rfl
        obtain ⟨z, z1, z2, z3⟩ := Batch.concatRows_spec x (expandE y) x2 (show (expandE y).shape = 1 :: rest by show 1 :: y.shape = _; rw [y2])
        rw [List.filterMap_cons, he, List.filterMap_nil, hx', concatList_cons]
        have : concatList [expandE y] = .ok (expandE y) := if_neg (by show ¬ (1 :: y.shape = []); simp)
        rw [this]
        dsimp only
        rw [z1]
        rw [List.getElem?_eq_getElem hl']
        refine congrArg Except.ok (show z = t.leaves[l] from ND.ext' (z2.trans h.symm) (z3.trans ?_))
        show x.data ++ y.data = (t.leaves[l]).data
        rw [x3, y3, List.take_append_drop])
    show treeMapN concatList a [e] = _
    rw [r1]
    congr 1
    rw [PyTree.ext_iff', r2, a2, r3, hal]
    refine ⟨rfl, List.ext_getElem (by simp) fun l h1 h2 => ?_⟩
    rw [List.getElem_map, List.getElem_range, List.getElem?_eq_getElem h2, Option.getD_some]
  · obtain ⟨n, rest, x, y, h, hx, hy, x2, _, y2, _⟩ := leaf l hl
    exact ⟨x, y, hx, hy, by rw [h, x2, y2]; rfl⟩

/-- `(x, [y])` with `x` of shape `(3, 2)` and `y` of shape `(3,)`. -/
def Demo.tree : PyTree (ND ℤ) :=
  .node [.leaf ⟨[3, 2], [1, 2, 3, 4, 5, 6], rfl⟩, .node [.leaf ⟨[3], [7, 8, 9], rfl⟩]]

example : SameKind Demo.tree Demo.tree ∧ Demo.tree.leaves ≠ [] ∧ (∀ x ∈ Demo.tree.leaves, x.shape ≠ []) ∧
    flat Demo.tree = [1, 2, 3, 4, 5, 6, 7, 8, 9] := by
  refine ⟨⟨rfl, rfl⟩, ?_, ?_, ?_⟩ <;> simp [Demo.tree, flat]

example : (match treeSplit Demo.tree [1, 5] with
    | .ok ps => ps.map fun p => (leafShapes p, flat p)
    | .error _ => []) =
    [([[1, 2], [1]], [1, 2, 7]), ([[2, 2], [2]], [3, 4, 5, 6, 8, 9]), ([[0, 2], [0]], [])] := by
  simp [treeSplit, treeSplitFrom, treeMap, mapE, Demo.tree, sliceRows, dropRowsE, Batch.dropRows, PyTree.unflatten,
    PyTree.fill, PyTree.fillAll, leafShapes, flat]
  rfl

/-- The last rows of the leaves, and the others. -/
example : (match treeTake Demo.tree (.int (-1)) with
    | .ok p => (leafShapes p, flat p)
    | .error _ => ([], [])) = ([[2], []], [5, 6, 9]) := by
  simp [treeTake, treeMap, mapE, Demo.tree, rowE, PyTree.unflatten, PyTree.fill, PyTree.fillAll, leafShapes, flat]

example : (match treeTake Demo.tree (.upto 1) with
    | .ok p => (leafShapes p, flat p)
    | .error _ => ([], [])) = ([[2, 2], [2]], [1, 2, 3, 4, 7, 8]) := by
  simp [treeTake, treeMap, mapE, Demo.tree, sliceRows, PyTree.unflatten, PyTree.fill, PyTree.fillAll, leafShapes, flat]

example : ∀ x ∈ Demo.tree.leaves, ∃ n rest, x.shape = (n + 1) :: rest := by
  simp [Demo.tree]

end Folx.TreeU

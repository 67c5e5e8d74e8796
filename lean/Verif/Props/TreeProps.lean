import Verif.Tree.TreeProofs

/-!
# Properties C32 and C33: `ravel` and `split_args`
-/

namespace Folx

open Folx.Interp (Err)

/-! ## C32 -/

section C32
variable {F : Type}

/-- **C32 (unravel ∘ ravel).** -/
theorem C32_unravel_ravel (t : PyTree (PArr F)) (flat : List F) (unravel : List F → Except Err (PyTree (PArr F)))
    (h : ravel t = .ok (flat, unravel)) : unravel flat = .ok t := by
  unfold ravel at h
  split at h
  · simp at h
  rename_i fl hfl
  simp only [Except.ok.injEq, Prod.mk.injEq] at h
  obtain ⟨rfl, rfl⟩ := h
  unfold ravelLeaves at hfl
  split at hfl
  · simp at hfl
  · have hfl := Except.ok.inj hfl
    have := unravelFrom_flat [] t.leaves []
    simp only [List.nil_append, List.append_nil, List.length_nil] at this
    simp only [← hfl, this]
    exact (PyTree.unflatten_iff _ _ _).mpr ⟨rfl, rfl⟩

/-- **C32 (ravel ∘ unravel).** Every vector of the right length unravels to a tree of the same structure and leaf
sizes, whose flattening is that vector. -/
theorem C32_ravel_unravel {E : Type} (t : PyTree (PArr F)) (flat : List F)
    (unravel : List E → Except Err (PyTree (PArr E))) (h : ravel t = .ok (flat, unravel)) (arr : List E)
    (hl : arr.length = flat.length) :
    ∃ t' : PyTree (PArr E), unravel arr = .ok t' ∧ t'.struct = t.struct ∧
      t'.leaves.map (fun a => a.1) = t.leaves.map (fun a => a.1) ∧
      ∃ un : List E → Except Err (PyTree (PArr E)), ravel t' = .ok (arr, un) := by
  unfold ravel at h
  split at h
  · simp at h
  rename_i fl hfl
  simp only [Except.ok.injEq, Prod.mk.injEq] at h
  obtain ⟨rfl, rfl⟩ := h
  unfold ravelLeaves at hfl
  split at hfl
  · simp at hfl
  · rename_i hne
    have hfl := Except.ok.inj hfl
    have hlen : arr.length = totalSize t.leaves := by rw [hl, ← hfl, length_flat]
    obtain ⟨ls, hls⟩ := unravelFrom_total arr (t.leaves.map fun a => a.1) 0 (by
      rw [hlen]; simp [totalSize])
    obtain ⟨h1, h2⟩ := unravelFrom_inv arr _ 0 ls hls
    obtain ⟨t', ht'⟩ := PyTree.unflatten_total t ls (by
      have := congrArg List.length h1
      simpa using this)
    obtain ⟨h3, h4⟩ := (PyTree.unflatten_iff _ _ _).mp ht'
    have hr : ravelLeaves t'.leaves = .ok arr := by
      unfold ravelLeaves
      rw [h4, if_neg (by
        intro hc
        rw [hc] at h1
        simp only [List.map_nil] at h1
        exact hne (List.map_eq_nil_iff.mp h1.symm)), h2]
      have : (arr.drop 0).take (t.leaves.map fun a => a.1).sum = arr := by
        rw [List.drop_zero, List.take_of_length_le (by rw [hlen]; rfl)]
      rw [this]
    refine ⟨t', ?_, h3, ?_, ?_⟩
    · simp only [hls, ht']
    · rw [h4, h1]
    · unfold ravel
      rw [hr]
      exact ⟨_, rfl⟩

/-- **C32 (layout).** Element `p` of leaf `k` sits in the flat vector right after all elements of the previous
leaves, at `size₀ + … + sizeₖ₋₁ + p`. -/
theorem C32_blocks (t : PyTree (PArr F)) (flat : List F) (un : List F → Except Err (PyTree (PArr F)))
    (h : ravel t = .ok (flat, un)) (k : ℕ) (hk : k < t.leaves.length) (p : Fin (t.leaves[k]).1) :
    flat[((t.leaves.take k).map fun a => a.1).sum + p]? = some ((t.leaves[k]).2 p) ∧
    flat.length = (t.leaves.map fun a => a.1).sum := by
  unfold ravel at h
  split at h
  · simp at h
  rename_i fl hfl
  simp only [Except.ok.injEq, Prod.mk.injEq] at h
  obtain ⟨rfl, rfl⟩ := h
  unfold ravelLeaves at hfl
  split at hfl
  · simp at hfl
  · have hfl := Except.ok.inj hfl
    rw [← hfl]
    refine ⟨?_, length_flat _⟩
    generalize t.leaves = xs at hk p
    clear hfl
    have hsplit : xs = xs.take k ++ xs[k] :: xs.drop (k + 1) := by
      rw [List.getElem_cons_drop, List.take_append_drop]
    have hlen := length_flat (xs.take k)
    unfold totalSize at hlen
    rw [← hlen]
    have e : (xs.flatMap fun a => List.ofFn a.2) = ((xs.take k).flatMap fun a => List.ofFn a.2) ++
        (List.ofFn (xs[k]).2 ++ ((xs.drop (k + 1)).flatMap fun a => List.ofFn a.2)) := by
      have h1 := congrArg (fun l : List (PArr F) => l.flatMap fun a => List.ofFn a.2) hsplit
      simpa only [List.flatMap_append, List.flatMap_cons] using h1
    rw [e, List.getElem?_append_right (by omega), Nat.add_sub_cancel_left, List.getElem?_append_left (by simp)]
    simp

/-- **C32 (misuse).** A vector that is too short is rejected, an empty tree cannot be flattened. -/
theorem C32_rejects {E : Type} (t : PyTree (PArr F)) :
    (∀ (flat : List F) (unravel : List E → Except Err (PyTree (PArr E))), ravel t = .ok (flat, unravel) →
      ∀ arr : List E, arr.length < flat.length → ∃ e, unravel arr = .error e) ∧
    (t.leaves = [] → ∃ e, ravel (E := E) t = .error e) := by
  constructor
  · intro flat unravel h arr hl
    unfold ravel at h
    split at h
    · simp at h
    rename_i fl hfl
    simp only [Except.ok.injEq, Prod.mk.injEq] at h
    obtain ⟨rfl, rfl⟩ := h
    unfold ravelLeaves at hfl
    split at hfl
    · simp at hfl
    · have hfl := Except.ok.inj hfl
      have hlen : arr.length < totalSize t.leaves := by rw [← hfl, length_flat] at hl; exact hl
      obtain ⟨e, he⟩ := unravelFrom_short arr (t.leaves.map fun a => a.1) 0 (by
        rw [Nat.zero_add]; exact hlen) (by omega)
      exact ⟨e, by simp only [he]⟩
  · intro h
    exact ⟨.shape, by unfold ravel ravelLeaves; rw [if_pos h]⟩

/-- A nested tree with leaves of sizes 2, 0 and 1. -/
def exTree : PyTree (PArr ℤ) :=
  .node [.leaf ⟨2, ![1, 2]⟩, .node [.leaf ⟨0, ![]⟩, .leaf ⟨1, ![3]⟩]]

example : ∃ un, ravel (E := ℤ) exTree = .ok ([1, 2, 3], un) := by
  have h : ravelLeaves exTree.leaves = .ok [1, 2, 3] := by
    unfold ravelLeaves exTree
    simp
  unfold ravel
  rw [h]
  exact ⟨_, rfl⟩

end C32

/-! ## C33 -/

section C33
variable {α : Type}

/-- **C33 (identity).** Merging the split parts gives the original arguments, nesting included. -/
theorem C33_identity (isF : α → Bool) (args : PyTree α) :
    (splitArgs isF args).2.2 (splitArgs isF args).1 (splitArgs isF args).2.1 = .ok args := by
  unfold splitArgs
  simp only [mergeMask_split]
  exact (PyTree.unflatten_iff _ _ _).mpr ⟨rfl, rfl⟩

/-- **C33 (replacement).** Merging arbitrary new values yields arguments of the same structure, in which the new
values appear in order at the places of the selected (resp. other) arguments. -/
theorem C33_replacement (isF : α → Bool) (args : PyTree α) (as ex : List α) (r : PyTree α)
    (h : (splitArgs isF args).2.2 as ex = .ok r) :
    r.struct = args.struct ∧ r.leaves.length = args.leaves.length ∧
    ((r.leaves.zip (args.leaves.map isF)).filter (fun p => p.2)).map Prod.fst =
      as.take (args.leaves.countP isF) ∧
    ((r.leaves.zip (args.leaves.map isF)).filter (fun p => !p.2)).map Prod.fst =
      ex.take (args.leaves.countP fun a => !isF a) := by
  unfold splitArgs at h
  simp only at h
  split at h
  · simp at h
  rename_i ls hls
  obtain ⟨h1, h2⟩ := (PyTree.unflatten_iff _ _ _).mp h
  obtain ⟨s1, s2, s3⟩ := mergeMask_spec _ _ _ _ hls
  refine ⟨h1, by rw [h2, s1, List.length_map], ?_, ?_⟩
  · rw [h2, s2]
    congr 1
    rw [List.count, List.countP_map]
    congr 1
    funext a
    simp
  · rw [h2, s3]
    congr 1
    rw [List.count, List.countP_map]
    congr 1
    funext a
    simp

/-- **C33 (pointwise).** Replacing each selected argument `a` by `f a` and each other by `g a`. -/
theorem C33_pointwise (isF : α → Bool) (f g : α → α) (args : PyTree α) :
    ∃ r, (splitArgs isF args).2.2 ((splitArgs isF args).1.map f) ((splitArgs isF args).2.1.map g) = .ok r ∧
      r.struct = args.struct ∧ r.leaves = args.leaves.map fun a => if isF a then f a else g a := by
  unfold splitArgs
  simp only [mergeMask_new]
  obtain ⟨u, hu⟩ := PyTree.unflatten_total args (args.leaves.map fun a => if isF a then f a else g a) (by simp)
  obtain ⟨h1, h2⟩ := (PyTree.unflatten_iff _ _ _).mp hu
  exact ⟨u, hu, h1, h2⟩

/-- **C33 (partition).** Every argument lands in exactly one part, in order. -/
theorem C33_partition (isF : α → Bool) (args : PyTree α) :
    (∀ a ∈ (splitArgs isF args).1, isF a = true) ∧ (∀ a ∈ (splitArgs isF args).2.1, isF a = false) ∧
    (splitArgs isF args).1.Sublist args.leaves ∧ (splitArgs isF args).2.1.Sublist args.leaves ∧
    ((splitArgs isF args).1 ++ (splitArgs isF args).2.1).Perm args.leaves := by
  unfold splitArgs
  refine ⟨fun a h => (List.mem_filter.mp h).2, fun a h => by simpa using (List.mem_filter.mp h).2,
    List.filter_sublist, List.filter_sublist, List.filter_append_perm _ _⟩

/-- Three arguments, the first and the last (nested) selected. -/
example : (splitArgs (fun n : ℤ => decide (0 < n)) (.node [.leaf 1, .leaf (-2), .node [.leaf 3]])).2.2
    [10, 30] [-20] = .ok (.node [.leaf 10, .leaf (-20), .node [.leaf 30]]) := by
  unfold splitArgs
  simp [mergeMask, PyTree.unflatten, PyTree.fill, PyTree.fillAll]

end C33

end Folx

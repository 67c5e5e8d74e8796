import Verif.Tree.PyTree

/-! # Lemmas about pytrees, `ravel` and `split_args` -/

namespace Folx

open Folx.Interp (Err)

namespace PyTree
variable {α β : Type}

@[simp] theorem leaves_leaf (a : α) : (leaf a).leaves = [a] := by rw [leaves]

@[simp] theorem leaves_node (cs : List (PyTree α)) : (node cs).leaves = cs.flatMap leaves := by
  rw [leaves, List.flatMap_eq_foldl, List.flatMap_eq_foldl]
  conv_rhs => rw [← List.attach_map_subtype_val cs, List.foldl_map]

@[simp] theorem struct_leaf (a : α) : (leaf a).struct = leaf () := by rw [struct]

@[simp] theorem struct_node (cs : List (PyTree α)) : (node cs).struct = node (cs.map struct) := by
  rw [struct]
  congr 1
  conv_rhs => rw [← List.attach_map_subtype_val cs, List.map_map]
  rfl

mutual
theorem fill_leaves : (t : PyTree α) → (rest : List α) → fill t.struct (t.leaves ++ rest) = .ok (t, rest)
  | leaf a, rest => by simp [fill]
  | node cs, rest => by simp [fill, fillAll_leaves cs rest]
theorem fillAll_leaves : (cs : List (PyTree α)) → (rest : List α) →
    fillAll (cs.map struct) (cs.flatMap leaves ++ rest) = .ok (cs, rest)
  | [], rest => by simp [fillAll]
  | c :: cs, rest => by
    simp only [List.map_cons, List.flatMap_cons, List.append_assoc, fillAll]
    rw [fill_leaves c]
    simp only
    rw [fillAll_leaves cs]
end

mutual
theorem fill_inv : (s : PyTree Unit) → (l : List α) → (t : PyTree α) → (rest : List α) →
    fill s l = .ok (t, rest) → t.struct = s ∧ l = t.leaves ++ rest
  | leaf _, [], _, _, h => by simp [fill] at h
  | leaf (), a :: l, t, rest, h => by
    simp only [fill, Except.ok.injEq, Prod.mk.injEq] at h
    obtain ⟨rfl, rfl⟩ := h
    simp
  | node cs, l, t, rest, h => by
    simp only [fill] at h
    split at h
    · simp at h
    · rename_i ts r' hts
      simp only [Except.ok.injEq, Prod.mk.injEq] at h
      obtain ⟨rfl, rfl⟩ := h
      obtain ⟨h1, h2⟩ := fillAll_inv cs l ts r' hts
      simp [h1, h2]
theorem fillAll_inv : (cs : List (PyTree Unit)) → (l : List α) → (ts : List (PyTree α)) → (rest : List α) →
    fillAll cs l = .ok (ts, rest) → ts.map struct = cs ∧ l = ts.flatMap leaves ++ rest
  | [], l, ts, rest, h => by
    simp only [fillAll, Except.ok.injEq, Prod.mk.injEq] at h
    obtain ⟨rfl, rfl⟩ := h
    simp
  | c :: cs, l, ts, rest, h => by
    simp only [fillAll] at h
    split at h
    · simp at h
    · rename_i t r1 h1
      split at h
      · simp at h
      · rename_i ts' r2 h2
        simp only [Except.ok.injEq, Prod.mk.injEq] at h
        obtain ⟨rfl, rfl⟩ := h
        obtain ⟨a1, a2⟩ := fill_inv c l t r1 h1
        obtain ⟨b1, b2⟩ := fillAll_inv cs r1 ts' r2 h2
        simp [a1, a2, b1, b2]
end

theorem unflatten_iff (s : PyTree Unit) (l : List α) (t : PyTree α) :
    s.unflatten l = .ok t ↔ t.struct = s ∧ t.leaves = l := by
  unfold unflatten
  constructor
  · intro h
    split at h
    · simp at h
    · rename_i t' ht'
      simp only [Except.ok.injEq] at h
      subst h
      obtain ⟨h1, h2⟩ := fill_inv _ _ _ _ ht'
      simp [h1, h2]
    · simp at h
  · rintro ⟨rfl, rfl⟩
    have := fill_leaves t []
    rw [List.append_nil] at this
    rw [this]

/-- Trees are determined by structure and leaves. -/
theorem ext_iff' (s t : PyTree α) : s = t ↔ s.struct = t.struct ∧ s.leaves = t.leaves := by
  constructor
  · rintro rfl; exact ⟨rfl, rfl⟩
  · rintro ⟨h1, h2⟩
    have a := (unflatten_iff t.struct t.leaves s).mpr ⟨h1, h2⟩
    have b := (unflatten_iff t.struct t.leaves t).mpr ⟨rfl, rfl⟩
    rw [a] at b
    exact Except.ok.inj b

mutual
theorem fill_total : (t : PyTree α) → (l : List β) → t.leaves.length ≤ l.length →
    ∃ u, fill t.struct l = .ok (u, l.drop t.leaves.length)
  | leaf a, [], h => by simp at h
  | leaf a, b :: l, _ => ⟨leaf b, by simp [fill]⟩
  | node cs, l, h => by
    obtain ⟨us, hu⟩ := fillAll_total cs l (by simpa using h)
    exact ⟨node us, by simp [fill, hu]⟩
theorem fillAll_total : (cs : List (PyTree α)) → (l : List β) → (cs.flatMap leaves).length ≤ l.length →
    ∃ us, fillAll (cs.map struct) l = .ok (us, l.drop (cs.flatMap leaves).length)
  | [], l, _ => ⟨[], by simp [fillAll]⟩
  | c :: cs, l, h => by
    simp only [List.flatMap_cons, List.length_append] at h
    obtain ⟨u, hu⟩ := fill_total c l (by omega)
    obtain ⟨us, hus⟩ := fillAll_total cs (l.drop c.leaves.length) (by
      rw [List.length_drop]; omega)
    refine ⟨u :: us, ?_⟩
    simp only [List.map_cons, fillAll, hu, hus, List.drop_drop, List.flatMap_cons, List.length_append]
end

/-- Unflattening the right number of leaves succeeds. -/
theorem unflatten_total (t : PyTree α) (l : List β) (h : l.length = t.leaves.length) :
    ∃ u : PyTree β, t.struct.unflatten l = .ok u := by
  obtain ⟨u, hu⟩ := fill_total t l (by omega)
  rw [← h, List.drop_length] at hu
  exact ⟨u, by unfold unflatten; rw [hu]⟩

end PyTree

/-! ### ravel -/

section Ravel
variable {F E : Type}

/-- Number of elements of a list of arrays. -/
def totalSize (xs : List (PArr F)) : ℕ := (xs.map fun a => a.1).sum

theorem length_flat (xs : List (PArr F)) : (xs.flatMap fun a => List.ofFn a.2).length = totalSize xs := by
  induction xs with
  | nil => rfl
  | cons a xs ih => simp [totalSize] at ih ⊢

theorem unravelFrom_flat (pre : List F) : ∀ (xs : List (PArr F)) (post : List F),
    unravelFrom (pre ++ (xs.flatMap fun a => List.ofFn a.2) ++ post) pre.length (xs.map fun a => a.1) = .ok xs
  | [], _ => rfl
  | a :: xs, post => by
    have hp : ((pre ++ ((a :: xs).flatMap fun a => List.ofFn a.2) ++ post).drop pre.length).take a.1 =
        List.ofFn a.2 := by
      simp only [List.flatMap_cons, List.append_assoc, List.drop_left]
      rw [List.take_append_of_le_length (by simp)]
      simp
    have ih := unravelFrom_flat (pre ++ List.ofFn a.2) xs post
    rw [List.length_append, List.length_ofFn] at ih
    simp only [List.append_assoc] at ih
    simp only [List.map_cons, unravelFrom]
    have hl : (((pre ++ ((a :: xs).flatMap fun a => List.ofFn a.2) ++ post).drop pre.length).take a.1).length
        = a.1 := by rw [hp, List.length_ofFn]
    rw [dif_pos hl]
    have e : pre ++ ((a :: xs).flatMap fun a => List.ofFn a.2) ++ post =
        pre ++ (List.ofFn a.2 ++ ((xs.flatMap fun a => List.ofFn a.2) ++ post)) := by simp
    have e2 : unravelFrom (pre ++ ((a :: xs).flatMap fun a => List.ofFn a.2) ++ post) (pre.length + a.1)
        (xs.map fun a => a.1) = .ok xs := by rw [e]; exact ih
    rw [e2]
    simp only [Except.ok.injEq, List.cons.injEq, and_true]
    obtain ⟨m, f⟩ := a
    congr 1
    funext i
    simp only [List.get_eq_getElem, Fin.val_cast]
    have := congrArg (fun l => l[i.val]?) hp
    simp only at this
    rw [List.getElem?_eq_getElem (by rw [hl]; exact i.2), List.getElem?_eq_getElem (by simp)] at this
    simpa using Option.some.inj this

/-- Arrays from consecutive blocks of `arr`. -/
theorem unravelFrom_inv (arr : List E) : ∀ (sizes : List ℕ) (idx : ℕ) (ls : List (PArr E)),
    unravelFrom arr idx sizes = .ok ls → ls.map (fun a => a.1) = sizes ∧
      (ls.flatMap fun a => List.ofFn a.2) = (arr.drop idx).take sizes.sum
  | [], idx, ls, h => by
    simp only [unravelFrom, Except.ok.injEq] at h
    subst h; simp
  | s :: ss, idx, ls, h => by
    simp only [unravelFrom] at h
    split at h
    · rename_i hp
      split at h
      · simp at h
      · rename_i rest hr
        simp only [Except.ok.injEq] at h
        subst h
        obtain ⟨h1, h2⟩ := unravelFrom_inv arr ss (idx + s) rest hr
        refine ⟨by simp [h1], ?_⟩
        rw [List.flatMap_cons, h2]
        have hof : List.ofFn (fun i : Fin s => ((arr.drop idx).take s).get (i.cast hp.symm)) =
            (arr.drop idx).take s := by
          apply List.ext_getElem (by simp [hp])
          intro i h1 h2
          simp
        rw [hof, List.sum_cons, List.take_add, List.drop_drop]
    · simp at h

theorem unravelFrom_total (arr : List E) : ∀ (sizes : List ℕ) (idx : ℕ), idx + sizes.sum ≤ arr.length →
    ∃ ls, unravelFrom arr idx sizes = .ok ls
  | [], _, _ => ⟨[], rfl⟩
  | s :: ss, idx, h => by
    simp only [List.sum_cons] at h
    obtain ⟨ls, hl⟩ := unravelFrom_total arr ss (idx + s) (by omega)
    refine ⟨⟨s, fun i => ((arr.drop idx).take s).get (i.cast (by simp; omega))⟩ :: ls, ?_⟩
    unfold unravelFrom
    rw [dif_pos (by simp; omega), hl]

theorem unravelFrom_short (arr : List E) (sizes : List ℕ) (idx : ℕ) (h : arr.length < idx + sizes.sum)
    (hne : idx ≤ arr.length) : ∃ e, unravelFrom arr idx sizes = .error e := by
  cases hu : unravelFrom arr idx sizes with
  | error e => exact ⟨e, rfl⟩
  | ok ls =>
    obtain ⟨h1, h2⟩ := unravelFrom_inv arr sizes idx ls hu
    have := congrArg List.length h2
    rw [length_flat, totalSize, h1] at this
    simp only [List.length_take, List.length_drop] at this
    omega

end Ravel

/-! ### split and merge -/

section Split
variable {α : Type}

theorem mergeMask_split (isF : α → Bool) : ∀ l : List α,
    mergeMask (l.map isF) (l.filter isF) (l.filter fun a => !isF a) = .ok l
  | [] => rfl
  | a :: l => by
    cases h : isF a with
    | true => simp [mergeMask, h, mergeMask_split isF l]
    | false => simp [mergeMask, h, mergeMask_split isF l]

/-- Merging new values puts them at the selected places in order. -/
theorem mergeMask_new (isF : α → Bool) (f g : α → α) : ∀ l : List α,
    mergeMask (l.map isF) ((l.filter isF).map f) ((l.filter fun a => !isF a).map g) =
      .ok (l.map fun a => if isF a then f a else g a)
  | [] => rfl
  | a :: l => by
    cases h : isF a with
    | true => simp [mergeMask, h, mergeMask_new isF f g l]
    | false => simp [mergeMask, h, mergeMask_new isF f g l]

/-- The general specification of `merge`. -/
theorem mergeMask_spec : ∀ (ms : List Bool) (as ex : List α) (r : List α), mergeMask ms as ex = .ok r →
    r.length = ms.length ∧
    ((r.zip ms).filter (fun p => p.2)).map Prod.fst = as.take (ms.count true) ∧
    ((r.zip ms).filter (fun p => !p.2)).map Prod.fst = ex.take (ms.count false)
  | [], as, ex, r, h => by
    simp only [mergeMask, Except.ok.injEq] at h
    subst h; simp
  | true :: ms, [], ex, r, h => by simp [mergeMask] at h
  | true :: ms, a :: as, ex, r, h => by
    simp only [mergeMask] at h
    split at h
    · simp at h
    · rename_i r' hr
      simp only [Except.ok.injEq] at h
      subst h
      obtain ⟨h1, h2, h3⟩ := mergeMask_spec ms as ex r' hr
      simp [h1, h2, h3]
  | false :: ms, as, [], r, h => by simp [mergeMask] at h
  | false :: ms, as, x :: ex, r, h => by
    simp only [mergeMask] at h
    split at h
    · simp at h
    · rename_i r' hr
      simp only [Except.ok.injEq] at h
      subst h
      obtain ⟨h1, h2, h3⟩ := mergeMask_spec ms as ex r' hr
      simp [h1, h2, h3]

end Split

end Folx

import Verif.Interp.Entry

/-!
# Paths in pytrees: specification of leaf positions and of prefix broadcasting, and lemmas
-/

namespace Folx

open Folx.Interp

namespace PyTree
variable {α β γ : Type}

/-- The leaf reached by following the child numbers of the path, if there is one. -/
def at? : PyTree α → List ℕ → Option α
  | leaf a, [] => some a
  | node cs, i :: p =>
    match cs[i]? with
    | some c => c.at? p
    | none => none
  | leaf _, _ :: _ => none
  | node _, [] => none

/-- The leaf of a *prefix tree* responsible for the path: the first leaf met on the way (as for `in_axes` of
`jax.vmap`). -/
def prefixAt : PyTree α → List ℕ → Option α
  | leaf a, _ => some a
  | node cs, i :: p =>
    match cs[i]? with
    | some c => c.prefixAt p
    | none => none
  | node _, [] => none

@[simp] theorem tmap_leaf (f : α → β) (a : α) : (leaf a).tmap f = leaf (f a) := by rw [tmap]

@[simp] theorem tmap_node (f : α → β) (cs : List (PyTree α)) : (node cs).tmap f = node (cs.map (tmap f)) := by
  rw [tmap]
  congr 1
  conv_rhs => rw [← List.attach_map_subtype_val cs, List.map_map]
  rfl

mutual
theorem struct_tmap (f : α → β) : (t : PyTree α) → (t.tmap f).struct = t.struct
  | leaf a => by simp
  | node cs => by
    rw [tmap_node, struct_node, struct_node, structs_tmap f cs]
theorem structs_tmap (f : α → β) : (cs : List (PyTree α)) → (cs.map (tmap f)).map struct = cs.map struct
  | [] => rfl
  | c :: cs => by
    rw [List.map_cons, List.map_cons, List.map_cons, struct_tmap f c, structs_tmap f cs]
end

mutual
theorem struct_unit : (t : PyTree Unit) → t.struct = t
  | leaf () => by simp
  | node cs => by rw [struct_node, structs_unit cs]
theorem structs_unit : (cs : List (PyTree Unit)) → cs.map struct = cs
  | [] => rfl
  | c :: cs => by rw [List.map_cons, struct_unit c, structs_unit cs]
end

mutual
theorem leaves_tmap (f : α → β) : (t : PyTree α) → (t.tmap f).leaves = t.leaves.map f
  | leaf a => by simp
  | node cs => by
    rw [tmap_node, leaves_node, leaves_node, leavesAll_tmap f cs]
theorem leavesAll_tmap (f : α → β) : (cs : List (PyTree α)) → (cs.map (tmap f)).flatMap leaves = (cs.flatMap leaves).map f
  | [] => rfl
  | c :: cs => by
    rw [List.map_cons, List.flatMap_cons, List.flatMap_cons, leaves_tmap f c, leavesAll_tmap f cs, List.map_append]
end

mutual
theorem leaves_length_struct : (t : PyTree α) → t.struct.leaves.length = t.leaves.length
  | leaf a => by simp
  | node cs => by
    rw [struct_node, leaves_node, leaves_node, leavesAll_length_struct cs]
theorem leavesAll_length_struct : (cs : List (PyTree α)) →
    ((cs.map struct).flatMap leaves).length = (cs.flatMap leaves).length
  | [] => rfl
  | c :: cs => by
    rw [List.map_cons, List.flatMap_cons, List.flatMap_cons, List.length_append, List.length_append,
      leaves_length_struct c, leavesAll_length_struct cs]
end

theorem leaves_length_eq (s : PyTree α) (t : PyTree β) (h : s.struct = t.struct) : s.leaves.length = t.leaves.length := by
  rw [← leaves_length_struct s, h, leaves_length_struct t]

theorem leavesAll_length_eq (s : List (PyTree α)) (t : List (PyTree β)) (h : s.map struct = t.map struct) :
    (s.flatMap leaves).length = (t.flatMap leaves).length := by
  rw [← leavesAll_length_struct s, h, leavesAll_length_struct t]

theorem forall₂_split {R : α → β → Prop} : ∀ (a : List α) (c : List β) (b : List α) (d : List β), a.length = c.length →
    (List.Forall₂ R (a ++ b) (c ++ d) ↔ List.Forall₂ R a c ∧ List.Forall₂ R b d)
  | [], [], b, d, _ => by simp
  | [], _ :: _, _, _, h => by simp at h
  | _ :: _, [], _, _, h => by simp at h
  | x :: a, y :: c, b, d, h => by
    rw [List.cons_append, List.cons_append, List.forall₂_cons, List.forall₂_cons,
      forall₂_split a c b d (by simpa using h), and_assoc]

mutual
/-- Two trees of the same structure have related leaves iff they have related leaves at every path. -/
theorem forall₂_iff_paths (R : α → β → Prop) : (s : PyTree α) → (t : PyTree β) → s.struct = t.struct →
    (List.Forall₂ R s.leaves t.leaves ↔ ∀ path a b, s.at? path = some a → t.at? path = some b → R a b)
  | leaf a, leaf b, _ => by
    constructor
    · intro h path x y hx hy
      rw [leaves_leaf, leaves_leaf, List.forall₂_cons] at h
      cases path with
      | nil =>
        rw [at?] at hx hy
        exact Option.some.inj hx ▸ Option.some.inj hy ▸ h.1
      | cons i p => simp [at?] at hx
    · intro h
      rw [leaves_leaf, leaves_leaf, List.forall₂_cons]
      exact ⟨h [] a b (by rw [at?]) (by rw [at?]), .nil⟩
  | leaf a, node ts, h => by simp at h
  | node ss, leaf b, h => by simp at h
  | node ss, node ts, h => by
    have h' : ss.map struct = ts.map struct := by
      rw [struct_node, struct_node] at h
      exact node.inj h
    rw [leaves_node, leaves_node, forall₂_iff_pathsAll R ss ts h']
    constructor
    · intro hh path a b ha hb
      cases path with
      | nil => simp [at?] at ha
      | cons i p =>
        rw [at?] at ha hb
        cases hs : ss[i]? with
        | none => rw [hs] at ha; simp at ha
        | some s =>
          cases ht : ts[i]? with
          | none => rw [ht] at hb; simp at hb
          | some t =>
            rw [hs] at ha
            rw [ht] at hb
            exact hh i s t hs ht p a b ha hb
    · intro hh i s t hs ht p a b ha hb
      refine hh (i :: p) a b ?_ ?_
      · rw [at?, hs]; exact ha
      · rw [at?, ht]; exact hb
theorem forall₂_iff_pathsAll (R : α → β → Prop) : (ss : List (PyTree α)) → (ts : List (PyTree β)) →
    ss.map struct = ts.map struct →
    (List.Forall₂ R (ss.flatMap leaves) (ts.flatMap leaves) ↔
      ∀ (i : ℕ) s t, ss[i]? = some s → ts[i]? = some t → ∀ path a b, s.at? path = some a → t.at? path = some b → R a b)
  | [], [], _ => by simp
  | [], _ :: _, h => by simp at h
  | _ :: _, [], h => by simp at h
  | s :: ss, t :: ts, h => by
    rw [List.map_cons, List.map_cons] at h
    obtain ⟨h1, h2⟩ := List.cons.inj h
    rw [List.flatMap_cons, List.flatMap_cons, forall₂_split _ _ _ _ (leaves_length_eq s t h1),
      forall₂_iff_paths R s t h1, forall₂_iff_pathsAll R ss ts h2]
    constructor
    · rintro ⟨k1, k2⟩ i s' t' hs ht
      cases i with
      | zero =>
        simp only [List.getElem?_cons_zero, Option.some.injEq] at hs ht
        subst hs ht
        exact k1
      | succ i => exact k2 i s' t' hs ht
    · intro k
      exact ⟨k 0 s t rfl rfl, fun i s' t' hs ht => k (i + 1) s' t' hs ht⟩
end

mutual
/-- Trees of the same structure have leaves at the same paths. -/
theorem at?_some : (s : PyTree γ) → (t : PyTree β) → s.struct = t.struct → ∀ path a, s.at? path = some a →
    ∃ b, t.at? path = some b
  | leaf a, leaf b, _ => by
    intro path x hx
    cases path with
    | nil => exact ⟨b, by rw [at?]⟩
    | cons i p => simp [at?] at hx
  | leaf a, node ts, h => by simp at h
  | node ss, leaf b, h => by simp at h
  | node ss, node ts, h => by
    intro path x hx
    rw [struct_node, struct_node] at h
    cases path with
    | nil => simp [at?] at hx
    | cons i p =>
      rw [at?] at hx ⊢
      cases hi : ss[i]? with
      | none => rw [hi] at hx; simp at hx
      | some q =>
        rw [hi] at hx
        obtain ⟨t, ht, hh⟩ := at?_someAll ss ts (node.inj h) i q hi
        rw [ht]
        exact hh p x hx
theorem at?_someAll : (ss : List (PyTree γ)) → (ts : List (PyTree β)) → ss.map struct = ts.map struct →
    ∀ (i : ℕ) s, ss[i]? = some s → ∃ t, ts[i]? = some t ∧ ∀ path a, s.at? path = some a → ∃ b, t.at? path = some b
  | [], [], _ => by simp
  | [], _ :: _, h => by simp at h
  | _ :: _, [], h => by simp at h
  | s :: ss, t :: ts, h => by
    rw [List.map_cons, List.map_cons] at h
    obtain ⟨h1, h2⟩ := List.cons.inj h
    intro i s' hs
    cases i with
    | zero =>
      simp only [List.getElem?_cons_zero, Option.some.injEq] at hs
      subst hs
      exact ⟨t, rfl, at?_some s t h1⟩
    | succ i => exact at?_someAll ss ts h2 i s' hs
end

mutual
/-- What prefix broadcasting pairs up, as a tree. -/
theorem pairUp_tree : (w : PyTree α) → (s : PyTree β) → (l : List (α × β)) → w.pairUp s = .ok l →
    ∃ q : PyTree (α × β), q.struct = s.struct ∧ q.leaves = l ∧
      ∀ path ab, q.at? path = some ab → w.prefixAt path = some ab.1 ∧ s.at? path = some ab.2
  | leaf a, s, l, h => by
    rw [pairUp] at h
    refine ⟨s.tmap fun b => (a, b), struct_tmap _ s, ?_, ?_⟩
    · rw [leaves_tmap]
      exact Except.ok.inj h
    · have key := (forall₂_iff_paths (fun (ab : α × β) b => ab = (a, b)) (s.tmap fun b => (a, b)) s (struct_tmap _ s)).mp (by
        rw [leaves_tmap, List.forall₂_map_left_iff]
        exact List.forall₂_same.mpr fun _ _ => rfl)
      have ex := at?_some (s.tmap fun b => (a, b)) s (struct_tmap _ s)
      intro path ab hq
      obtain ⟨b, hb⟩ := ex path ab hq
      obtain rfl := key path ab b hq hb
      exact ⟨by rw [prefixAt], hb⟩
  | node ws, leaf b, l, h => by rw [pairUp] at h; cases h
  | node ws, node ss, l, h => by
    rw [pairUp] at h
    obtain ⟨qs, h1, h2, h3⟩ := pairUpAll_tree ws ss l h
    refine ⟨node qs, by rw [struct_node, struct_node, h1], by rw [leaves_node, h2], ?_⟩
    intro path ab hq
    cases path with
    | nil => simp [at?] at hq
    | cons i p =>
      rw [at?] at hq
      cases hi : qs[i]? with
      | none => rw [hi] at hq; simp at hq
      | some q =>
        rw [hi] at hq
        obtain ⟨w, s, e1, e2, e3⟩ := h3 i q hi
        rw [prefixAt, at?, e1, e2]
        exact e3 p ab hq
theorem pairUpAll_tree : (ws : List (PyTree α)) → (ss : List (PyTree β)) → (l : List (α × β)) → pairUpAll ws ss = .ok l →
    ∃ qs : List (PyTree (α × β)), qs.map struct = ss.map struct ∧ qs.flatMap leaves = l ∧
      ∀ (i : ℕ) q, qs[i]? = some q → ∃ w s, ws[i]? = some w ∧ ss[i]? = some s ∧
        ∀ path ab, q.at? path = some ab → w.prefixAt path = some ab.1 ∧ s.at? path = some ab.2
  | [], [], l, h => by
    rw [pairUpAll] at h
    exact ⟨[], rfl, Except.ok.inj h, by simp⟩
  | [], _ :: _, l, h => by simp [pairUpAll] at h
  | _ :: _, [], l, h => by simp [pairUpAll] at h
  | w :: ws, s :: ss, l, h => by
    rw [pairUpAll] at h
    split at h
    · cases h
    rename_i l1 hl1
    split at h
    · cases h
    rename_i l2 hl2
    obtain ⟨q, a1, a2, a3⟩ := pairUp_tree w s l1 hl1
    obtain ⟨qs, b1, b2, b3⟩ := pairUpAll_tree ws ss l2 hl2
    refine ⟨q :: qs, by rw [List.map_cons, List.map_cons, a1, b1], by rw [List.flatMap_cons, a2, b2]; exact Except.ok.inj h, ?_⟩
    intro i q' hq'
    cases i with
    | zero =>
      simp only [List.getElem?_cons_zero, Option.some.injEq] at hq'
      subst hq'
      exact ⟨w, s, rfl, rfl, a3⟩
    | succ i => exact b3 i q' hq'
end

end PyTree

end Folx

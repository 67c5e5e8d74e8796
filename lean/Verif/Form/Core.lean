import Verif.Form.Spec

/-! # The first-order rules: the form of the result -/

namespace Folx

open Folx.Interp (Err)

variable {P Q F : Type}

/-! ### Computations that fail alike -/

theorem ExRel.elim {α β : Type} {R : α → β → Prop} {x : Except Err α} {y : Except Err β} (h : ExRel R x y) :
    (∃ e, x = .error e ∧ y = .error e) ∨ ∃ a b, x = .ok a ∧ y = .ok b ∧ R a b := by
  cases h with
  | error e => exact Or.inl ⟨e, rfl, rfl⟩
  | ok h => exact Or.inr ⟨_, _, rfl, rfl, h⟩

theorem ExRel.mono {α β : Type} {R S : α → β → Prop} {x : Except Err α} {y : Except Err β}
    (h : ExRel R x y) (hRS : ∀ a b, R a b → S a b) : ExRel S x y := by
  cases h with
  | error e => exact .error e
  | ok h => exact .ok (hRS _ _ h)

theorem ExRel.rfl' {α : Type} {R : α → α → Prop} (hR : ∀ a, R a a) (x : Except Err α) : ExRel R x x := by
  cases x with
  | error e => exact .error e
  | ok a => exact .ok (hR a)

theorem ExRel.isOk {α β : Type} {R : α → β → Prop} {x : Except Err α} {y : Except Err β} (h : ExRel R x y) :
    x.isOk = y.isOk := by
  cases h <;> rfl

theorem seqFin_rel : {k : ℕ} → {β γ : Fin k → Type} → (R : (a : Fin k) → β a → γ a → Prop) →
    (f : (a : Fin k) → Except Err (β a)) → (g : (a : Fin k) → Except Err (γ a)) → (∀ a, ExRel (R a) (f a) (g a)) →
    ExRel (fun x y => ∀ a, R a (x a) (y a)) (seqFin f) (seqFin g)
  | 0, _, _, _, _, _, _ => .ok fun a => a.elim0
  | k + 1, β, γ, R, f, g, h => by
    unfold seqFin
    obtain ⟨e, h1, h2⟩ | ⟨x, y, h1, h2, hxy⟩ := (h 0).elim
    · rw [h1, h2]; exact .error e
    rw [h1, h2]
    obtain ⟨e, h1, h2⟩ | ⟨xs, ys, h1, h2, hs⟩ := (seqFin_rel (fun a => R a.succ) _ _ fun a => h a.succ).elim
    · rw [h1, h2]; exact .error e
    rw [h1, h2]
    refine .ok fun a => ?_
    refine Fin.cases ?_ (fun a => ?_) a
    · exact hxy
    · exact hs a

/-! ### Jacobians -/

theorem arange_length (m : ℕ) : (arange (P := P) m).length = m := by simp [arange]

theorem Jac.Same.refl (J : Jac P F) : J.Same J := ⟨rfl, rfl⟩

theorem Jac.Same.symm {J J' : Jac P F} (h : J.Same J') : J'.Same J := ⟨h.1.symm, h.2.symm⟩

theorem Jac.Same.trans {J J' J'' : Jac P F} (h : J.Same J') (h' : J'.Same J'') : J.Same J'' :=
  ⟨h.1.trans h'.1, h.2.trans h'.2⟩

theorem Jac.same_dense {r r' : List (P → F)} : (Jac.dense r).Same (Jac.dense r') ↔ r.length = r'.length := by
  constructor
  · intro h
    have := congrArg List.length h.2
    simpa [Jac.mask, arange_length] using this
  · intro h
    exact ⟨rfl, by simp only [Jac.mask, h]⟩

theorem Jac.same_sparse {r r' : List (Row P F)} :
    (Jac.sparse r).Same (Jac.sparse r') ↔ r.map Row.idx = r'.map Row.idx :=
  ⟨fun h => h.2, fun h => ⟨rfl, h⟩⟩

/-- The two cases. -/
theorem Jac.Same.cases {J J' : Jac P F} (h : J.Same J') :
    (∃ r r', J = .dense r ∧ J' = .dense r' ∧ r.length = r'.length) ∨
      ∃ r r', J = .sparse r ∧ J' = .sparse r' ∧ r.map Row.idx = r'.map Row.idx := by
  cases J with
  | dense r =>
    cases J' with
    | dense r' => exact Or.inl ⟨r, r', rfl, rfl, Jac.same_dense.mp h⟩
    | sparse r' => exact absurd h.1 (by simp [Jac.weak])
  | sparse r =>
    cases J' with
    | dense r' => exact absurd h.1 (by simp [Jac.weak])
    | sparse r' => exact Or.inr ⟨r, r', rfl, rfl, Jac.same_sparse.mp h⟩

theorem map_idx_congr {r r' : List (Row P F)} (h : r.map Row.idx = r'.map Row.idx) {β : Type} (G : (P → ℤ) → β) :
    r.map (fun s => G s.idx) = r'.map fun s => G s.idx := by
  have := congrArg (List.map G) h
  rwa [List.map_map, List.map_map] at this

theorem length_of_idx {r r' : List (Row P F)} (h : r.map Row.idx = r'.map Row.idx) : r.length = r'.length := by
  simpa using congrArg List.length h

theorem maxN_congr [Fintype P] {r r' : List (Row P F)} (h : r.map Row.idx = r'.map Row.idx) :
    Jac.maxN r = Jac.maxN r' := by
  have key : ∀ r : List (Row P F), Jac.maxN r = (r.map Row.idx).foldr
      (fun i m => max (Finset.univ.sup fun p => ((i p : ℤ) : WithBot ℤ)) m) ⊥ := fun r => by
    rw [List.foldr_map]; rfl
  rw [key, key, h]

theorem srows_idx {J J' : Jac P F} [CommRing F] (h : J.Same J') : J.srows.map Row.idx = J'.srows.map Row.idx := by
  have key : ∀ (l : List (P → ℤ)) (r : List (P → F)), l.length = r.length → (l.zipWith Row.mk r).map Row.idx = l := by
    intro l
    induction l with
    | nil => intro r _; simp
    | cons a l ih =>
      intro r hr
      cases r with
      | nil => simp at hr
      | cons b r => simp only [List.zipWith_cons_cons, List.map_cons, ih r (by simpa using hr)]
  rcases h.cases with ⟨r, r', rfl, rfl, hl⟩ | ⟨r, r', rfl, rfl, hl⟩
  · show ((arange r.length).zipWith Row.mk r).map Row.idx = ((arange r'.length).zipWith Row.mk r').map Row.idx
    rw [key _ _ (arange_length _), key _ _ (arange_length _), hl]
  · exact hl

theorem getIndexMask_congr {r r' : List (Row P F)} (h : r.map Row.idx = r'.map Row.idx) (outs : List (P → ℤ)) :
    Jac.getIndexMask r outs = Jac.getIndexMask r' outs := by
  unfold Jac.getIndexMask
  rw [map_idx_congr h fun i p => matchIdx (outs.map (· p)) (i p)]

theorem segSum_length [AddCommMonoid F] (m : ℕ) (ids : List (P → ℤ)) (vals : List (P → F)) :
    (segSum m ids vals).length = m := by simp [segSum]

theorem constructSparse_rel [AddCommMonoid F] {r r' : List (Row P F)} (h : r.map Row.idx = r'.map Row.idx)
    (outs : List (P → ℤ)) : ExRel (fun a b => a.length = b.length) (Jac.constructSparse r outs) (Jac.constructSparse r' outs) := by
  unfold Jac.constructSparse
  split
  · exact .ok rfl
  · rw [getIndexMask_congr h]
    cases Jac.getIndexMask r' outs with
    | error e => exact .error e
    | ok ids => exact .ok (by simp only [Jac.materializeForIdx, segSum_length])

theorem denseArray_rel [AddCommMonoid F] [Fintype P] {J J' : Jac P F} (h : J.Same J') :
    ExRel (fun a b => a.length = b.length) J.denseArray J'.denseArray := by
  rcases h.cases with ⟨r, r', rfl, rfl, hl⟩ | ⟨r, r', rfl, rfl, hl⟩
  · exact .ok hl
  · unfold Jac.denseArray
    dsimp only
    rw [maxN_congr hl]
    cases Jac.maxN r' with
    | bot => exact .error _
    | coe m => exact constructSparse_rel hl _

theorem extendTo_length [Zero F] (r : List (P → F)) (m : ℕ) : (extendTo r m).length = r.length + (m - r.length) := by
  simp [extendTo]

theorem addJacobians_length [AddCommMonoid F] (a b : List (P → F)) :
    (addJacobians a b).length = max a.length b.length := by
  simp only [addJacobians, List.length_map, List.length_zip, extendTo_length]
  omega

theorem brdcastRows_idx (l l' : List (Row P F)) (h : l.map Row.idx = l'.map Row.idx) (m : ℕ) :
    (brdcastRows l m).map Row.idx = (brdcastRows l' m).map Row.idx := by
  match l, l' with
  | [], [] => rfl
  | [], _ :: _ => simp at h
  | _ :: _, [] => simp at h
  | [a], [b] =>
    have : a.idx = b.idx := by simpa using h
    simp [brdcastRows, this]
  | [_], _ :: _ :: _ => simp at h
  | _ :: _ :: _, [_] => simp at h
  | _ :: _ :: _, _ :: _ :: _ => exact h

theorem zip_idx {l l' k k' : List (Row P F)} (h : l.map Row.idx = l'.map Row.idx) (hk : k.map Row.idx = k'.map Row.idx) :
    (l.zip k).map (fun r => (r.1.idx, r.2.idx)) = (l'.zip k').map fun r => (r.1.idx, r.2.idx) := by
  have key : ∀ l k : List (Row P F), (l.zip k).map (fun r => (r.1.idx, r.2.idx)) = (l.map Row.idx).zip (k.map Row.idx) := by
    intro l k
    rw [List.zip_map]
    rfl
  rw [key, key, h, hk]

theorem add_rel [AddCommMonoid F] [Fintype P] [DecidableEq P] {J1 J1' J2 J2' : Jac P F} (h1 : J1.Same J1') (h2 : J2.Same J2') :
    ExRel Jac.Same (J1.add J2) (J1'.add J2') := by
  have dense_case : ∀ J1 J1' J2 J2' : Jac P F, J1.Same J1' → J2.Same J2' →
      ExRel Jac.Same (match J1.denseArray, J2.denseArray with
        | .ok a, .ok b => .ok (Jac.dense (addJacobians a b)) | .error e, _ => .error e | _, .error e => .error e)
      (match J1'.denseArray, J2'.denseArray with
        | .ok a, .ok b => .ok (Jac.dense (addJacobians a b)) | .error e, _ => .error e | _, .error e => .error e) := by
    intro J1 J1' J2 J2' h1 h2
    have k1 := denseArray_rel h1
    have k2 := denseArray_rel h2
    generalize J1.denseArray = a at *
    generalize J1'.denseArray = a' at *
    generalize J2.denseArray = b at *
    generalize J2'.denseArray = b' at *
    cases k1 with
    | error e => exact .error e
    | ok ha =>
      cases k2 with
      | error e => exact .error e
      | ok hb => exact .ok (Jac.same_dense.mpr (by rw [addJacobians_length, addJacobians_length, ha, hb]))
  rcases h1.cases with ⟨r1, r1', rfl, rfl, hl1⟩ | ⟨r1, r1', rfl, rfl, hl1⟩
  · exact dense_case _ _ _ _ h1 h2
  · rcases h2.cases with ⟨r2, r2', rfl, rfl, hl2⟩ | ⟨r2, r2', rfl, rfl, hl2⟩
    · exact dense_case _ _ _ _ h1 h2
    · unfold Jac.add
      dsimp only
      rw [length_of_idx hl1, length_of_idx hl2]
      cases brdcastLen r1'.length r2'.length with
      | none => exact .error _
      | some m =>
        dsimp only
        have hz := zip_idx (brdcastRows_idx _ _ hl1 m) (brdcastRows_idx _ _ hl2 m)
        have hiff : (∀ r ∈ (brdcastRows r1 m).zip (brdcastRows r2 m), ∀ p, r.2.idx p = r.1.idx p) ↔
            ∀ r ∈ (brdcastRows r1' m).zip (brdcastRows r2' m), ∀ p, r.2.idx p = r.1.idx p := by
          have key : ∀ l : List (Row P F × Row P F), (∀ r ∈ l, ∀ p, r.2.idx p = r.1.idx p) ↔
              ∀ s ∈ l.map (fun r : Row P F × Row P F => ((r.1.idx, r.2.idx) : (P → ℤ) × (P → ℤ))), ∀ p, s.2 p = s.1 p := by
            intro l; rw [List.forall_mem_map]
          rw [key, key, hz]
        by_cases hc : ∀ r ∈ (brdcastRows r1 m).zip (brdcastRows r2 m), ∀ p, r.2.idx p = r.1.idx p
        · rw [if_pos hc, if_pos (hiff.mp hc)]
          refine .ok (Jac.same_sparse.mpr ?_)
          rw [List.map_map, List.map_map]
          have := congrArg (List.map Prod.fst) hz
          rwa [List.map_map, List.map_map] at this
        · rw [if_neg hc, if_neg (fun h => hc (hiff.mpr h))]
          exact .ok (Jac.same_sparse.mpr (by rw [List.map_append, List.map_append, hl1, hl2]))

end Folx

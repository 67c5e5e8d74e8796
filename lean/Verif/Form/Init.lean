import Verif.Form.Run
import Verif.Interp.Init

/-!
# The form of results is static: initialisation
-/

namespace Folx

open Folx.Interp

variable {F : Type}

theorem zipLeaves_rel {A A' B C C' : Type} {R : A → A' → Prop} {S : C → C' → Prop} {f : A → B → Except Err C}
    {g : A' → B → Except Err C'} (h : ∀ a a' b, R a a' → ExRel S (f a b) (g a' b)) :
    ∀ {as : List A} {as' : List A'} (bs : List B), List.Forall₂ R as as' →
      ExRel (List.Forall₂ S) (zipLeaves f as bs) (zipLeaves g as' bs)
  | _, _, [], .nil => .ok .nil
  | _, _, _ :: _, .nil => .error _
  | _, _, [], .cons _ _ => .error _
  | _, _, b :: bs, .cons h1 t => by
    unfold zipLeaves
    obtain ⟨e, k1, k2⟩ | ⟨x, y, k1, k2, hxy⟩ := (h _ _ b h1).elim
    · rw [k1, k2]; exact .error e
    rw [k1, k2]
    dsimp only
    obtain ⟨e, k1, k2⟩ | ⟨xs, ys, k1, k2, hxys⟩ := (zipLeaves_rel h bs t).elim
    · rw [k1, k2]; exact .error e
    rw [k1, k2]
    exact .ok (.cons hxy hxys)

theorem sparseLeaf_same [Zero F] {a a' : PArr F} (h : PArr.Same a a') (w : PArr F) (idx : PArr ℤ) :
    ExRel PVal.Same (sparseLeaf a w idx) (sparseLeaf a' w idx) := by
  obtain ⟨m, x⟩ := a
  obtain ⟨m', x'⟩ := a'
  obtain rfl : m = m' := h
  unfold sparseLeaf
  dsimp only
  cases castTo (β := fun m => Fin m → F) m w with
  | error e => exact .error e
  | ok w' =>
    cases castTo (β := fun m => Fin m → ℤ) m idx with
    | error e => exact .error e
    | ok i => exact .ok rfl

theorem denseLeaf_same [Zero F] (n : ℕ) {a a' : PArr F} (h : PArr.Same a a') (cols : PArr (List F)) :
    ExRel PVal.Same (denseLeaf n a cols) (denseLeaf n a' cols) := by
  obtain ⟨m, x⟩ := a
  obtain ⟨m', x'⟩ := a'
  obtain rfl : m = m' := h
  unfold denseLeaf
  dsimp only
  cases castTo (β := fun m => Fin m → List F) m cols with
  | error e => exact .error e
  | ok c => exact .ok rfl

theorem sizes_same {l l' : List (PArr F)} (h : List.Forall₂ PArr.Same l l') : (l.map fun a => a.1) = l'.map fun a => a.1 := by
  induction h with
  | nil => rfl
  | cons h _ ih => rw [List.map_cons, List.map_cons, ih, show _ = _ from h]

theorem ravelLeaves_same {l l' : List (PArr F)} (h : List.Forall₂ PArr.Same l l') :
    ExRel (fun a b => a.length = b.length) (ravelLeaves l) (ravelLeaves l') := by
  unfold ravelLeaves
  have : (l = []) = (l' = []) := by
    rw [← List.length_eq_zero_iff, ← List.length_eq_zero_iff, h.length_eq]
  simp only [this]
  split
  · exact .error _
  · exact .ok (stackArrs_same h)

/-- The initial values for arguments of the same form have the same form. -/
theorem initState_same [Zero F] [One F] (sparsity : Bool) (weights : Weights F) {args args' : List (PVal F)}
    (h : List.Forall₂ PVal.Same args args') :
    ExRel (List.Forall₂ PVal.Same) (initState sparsity weights args) (initState sparsity weights args') := by
  unfold initState
  rw [any_same h]
  split
  · exact .ok h
  · have hx : List.Forall₂ PArr.Same (args.map fun v => (⟨v.1, v.2.x⟩ : PArr F)) (args'.map fun v => ⟨v.1, v.2.x⟩) :=
      forall₂_map_same (f := fun v : PVal F => (⟨v.1, v.2.x⟩ : PArr F)) (fun _ _ h => val_same h) h
    dsimp only
    rw [sizes_same hx]
    obtain ⟨e, k1, k2⟩ | ⟨f, f', k1, k2, hf⟩ := (ravelLeaves_same hx).elim
    · rw [k1, k2]; exact .error e
    rw [k1, k2]
    dsimp only
    cases weightArrs weights _ with
    | error e => exact .error e
    | ok ws =>
      dsimp only
      split
      · rw [hf]
        cases unravelFrom _ 0 _ with
        | error e => exact .error e
        | ok idx => exact zipLeaves_rel (fun a a' b h => sparseLeaf_same h b.1 b.2) _ hx
      · cases ravelLeaves ws with
        | error e => exact .error e
        | ok wf =>
          dsimp only
          cases unravelFrom _ 0 _ with
          | error e => exact .error e
          | ok cols => exact zipLeaves_rel (fun a a' b h => denseLeaf_same _ h b) _ hx

end Folx

import Verif.ND.WrapSpec
import Verif.ND.RuleSpecProofs

/-!
# Arrays with shapes and arrays by positions

The interpreter (`Verif/Interp`) handles arrays by size; the array-level rules (`Verif/ND`) handle arrays with shapes.  An array of shape `s` by positions is the array with
its elements in row-major order.
-/

namespace Folx.Layout
open Vmap Dot

section
variable {F : Type} [CommRing F] [Inhabited F]

/-- A Jacobian by positions as arrays of shape `(rows, *s)` (`api.py:19-46`). -/
def jacArr (s : List ℕ) : Jac (Fin s.prod) F → ArrJac F
  | .dense rows => ⟨ND.ofFn (rows.length :: s) fun w => if h : ravelIdx s w.tail < s.prod then (rows.getD (w.headD 0) fun _ => 0) ⟨_, h⟩ else 0, none⟩
  | .sparse rows => ⟨ND.ofFn (rows.length :: s) fun w => if h : ravelIdx s w.tail < s.prod then (rows.getD (w.headD 0) ⟨fun _ => 0, fun _ => 0⟩).val ⟨_, h⟩ else 0,
      some (ND.ofFn (rows.length :: s) fun w => if h : ravelIdx s w.tail < s.prod then (rows.getD (w.headD 0) ⟨fun _ => 0, fun _ => 0⟩).idx ⟨_, h⟩ else 0)⟩

/-- A triple by positions as arrays of shape `s`. -/
def tripArr (s : List ℕ) (t : Trip (Fin s.prod) F) : ArrTrip F := ⟨toND s t.x, jacArr s t.jac, toND s t.lapl⟩

/-- Arrays of shape `s` by positions. -/
def arrTrip (s : List ℕ) (t : ArrTrip F) : Trip (Fin s.prod) F := ⟨vecOf t.x s.prod, t.jac.rep s, vecOf t.lapl s.prod⟩

variable {s : List ℕ}

theorem jacArr_shape (J : Jac (Fin s.prod) F) : (jacArr s J).data.shape = J.nrows :: s ∧ ∀ m, (jacArr s J).idx = some m → m.shape = J.nrows :: s := by
  cases J with
  | dense rows => exact ⟨rfl, fun m h => by cases h⟩
  | sparse rows => exact ⟨rfl, fun m h => by cases h; rfl⟩

theorem rep_jacArr (J : Jac (Fin s.prod) F) : (jacArr s J).rep s = J := by
  have hin : ∀ {K k : ℕ} (p : Fin s.prod), k < K → InB (k :: unravelIdx s p) (K :: s) := fun p hk => List.Forall₂.cons hk (inB_unravelIdx p.2)
  cases J with
  | dense rows =>
    show Jac.dense _ = _
    congr 1
    refine List.ext_getElem (by simp [jacArr]) fun k h1 h2 => ?_
    rw [List.getElem_map, List.getElem_range]
    funext p
    refine (ND.get_ofFn _ (hin p h2)).trans ?_
    show (if h : ravelIdx s (unravelIdx s p) < s.prod then (rows.getD k fun _ => 0) ⟨_, h⟩ else 0) = _
    rw [List.getD_eq_getElem _ _ h2]
    simp only [ravelIdx_unravelIdx p.2]
    rw [dif_pos p.2]
  | sparse rows =>
    show Jac.sparse _ = _
    congr 1
    refine List.ext_getElem (by simp [jacArr]) fun k h1 h2 => ?_
    rw [List.getElem_map, List.getElem_range]
    have e : rows[k] = ⟨rows[k].idx, rows[k].val⟩ := rfl
    rw [e]
    congr 1
    · funext p
      refine (ND.get_ofFn _ (hin p h2)).trans ?_
      show (if h : ravelIdx s (unravelIdx s p) < s.prod then (rows.getD k ⟨fun _ => 0, fun _ => 0⟩).idx ⟨_, h⟩ else 0) = _
      rw [List.getD_eq_getElem _ _ h2]
      simp only [ravelIdx_unravelIdx p.2]
      rw [dif_pos p.2]
    · funext p
      refine (ND.get_ofFn _ (hin p h2)).trans ?_
      show (if h : ravelIdx s (unravelIdx s p) < s.prod then (rows.getD k ⟨fun _ => 0, fun _ => 0⟩).val ⟨_, h⟩ else 0) = _
      rw [List.getD_eq_getElem _ _ h2]
      simp only [ravelIdx_unravelIdx p.2]
      rw [dif_pos p.2]

end

section
variable {X : Type} [NormedAddCommGroup X] [NormedSpace ℝ X] {F : Type} [RCLike F] [Inhabited F] {s : List ℕ} {B : Base X} {u : X → Fin s.prod → F}

theorem arrRep_of_tripRep (h0 : 0 ∉ s) {t : Trip (Fin s.prod) F} (hr : t.jac.weak = true → 0 < t.jac.nrows) (h : TripRep B t u) : ArrRep B s (tripArr s t) u := by
  obtain ⟨h1, h2, D, H, h3, h4, h5⟩ := h
  obtain ⟨hd, hi⟩ := jacArr_shape t.jac
  refine ⟨⟨rfl, ?_, rfl, fun hw => ?_, h0⟩, fun p hp => ?_, D, H, h3, fun i p hp => ?_, fun p hp => ?_⟩
  · refine (ArrJac.rep_wf hd fun m hm => (hi m hm).trans hd.symm).mp ?_
    rw [rep_jacArr]
    exact h2
  · have : (tripArr s t).jac.data.shape = t.jac.nrows :: s := hd
    rw [this]
    refine hr ?_
    have hw : (jacArr s t.jac).idx ≠ none := hw
    cases hj : t.jac with
    | dense _ => rw [hj] at hw; exact absurd rfl hw
    | sparse _ => rfl
  · rw [← h1]; rfl
  · have e := ArrJac.rep_den (jacArr s t.jac) s i ⟨ravelIdx s p, ravelIdx_lt hp⟩
    rw [rep_jacArr, h4] at e
    rw [toND_get _ _ hp, e]
    show (jacArr s t.jac).entry i p = _
    rw [unravelIdx_ravelIdx hp]
  · rw [← h5]; rfl

theorem tripRep_of_arrRep {t : ArrTrip F} (h : ArrRep B s t u) : TripRep B (arrTrip s t) u := by
  obtain ⟨h1, h2, D, H, h3, h4, h5⟩ := h
  refine ⟨?_, ?_, D, H, h3, fun i => ?_, ?_⟩
  · funext q
    show vecOf t.x s.prod q = _
    rw [vecOf_get _ _ h1.x, h2 _ (inB_unravelIdx q.2), toND_get _ _ (inB_unravelIdx q.2)]
    congr 1
    exact Fin.ext (ravelIdx_unravelIdx q.2)
  · obtain ⟨⟨K, hK⟩, hm⟩ := h1.jac
    refine (ArrJac.rep_wf hK fun m hm' => ?_).mpr h1.jac
    rw [hm'] at hm
    exact hm.1
  · funext q
    show (t.jac.rep s).den i q = _
    rw [ArrJac.rep_den, h4 _ _ (inB_unravelIdx q.2), toND_get _ _ (inB_unravelIdx q.2)]
    exact congrArg (D (B.dir i)) (Fin.ext (ravelIdx_unravelIdx q.2))
  · funext q
    show vecOf t.lapl s.prod q = _
    rw [vecOf_get _ _ h1.lapl, h5 _ (inB_unravelIdx q.2), toND_get _ _ (inB_unravelIdx q.2)]
    exact congrArg (∑ i, H (B.dir i) (B.dir i)) (Fin.ext (ravelIdx_unravelIdx q.2))

end

end Folx.Layout

import Verif.ND.ElemArr
import Verif.ND.CallTotal

/-! # Calls of the elementwise entries -/

namespace Folx.Layout
open Vmap Dot Filter Topology

theorem broadcasts_unique {S S' : List (List ℕ)} {b b' : List ℕ} (h : Broadcasts S b) (h' : Broadcasts S' b') (he : ∀ s, s ∈ S ↔ s ∈ S') : b = b' := by
  have := h.congr he
  rw [← broadcastShapes_iff] at this h'
  exact Option.some.inj (this.symm.trans h')

theorem dimBack_replicate (j : ℕ) (s : List ℕ) (i : ℕ) : dimBack (List.replicate j 1 ++ s) i = dimBack s i := by
  unfold dimBack
  rw [List.reverse_append, List.reverse_replicate]
  by_cases h : i < s.length
  · rw [List.getD_append _ _ _ _ (by simpa using h)]
  · push Not at h
    rw [List.getD_append_right _ _ _ _ (by simpa using h), List.getD_eq_default s.reverse _ (by simpa using h)]
    by_cases h2 : i - s.reverse.length < j
    · rw [List.getD_eq_getElem _ _ (by simpa using h2)]
      simp
    · rw [List.getD_eq_default _ _ (by simp at h2 ⊢; omega)]

theorem eq_of_back {s t : List ℕ} (hl : s.length ≤ t.length) (h : ∀ i, dimBack s i = dimBack t i) : t = List.replicate (t.length - s.length) 1 ++ s := by
  refine List.ext_getElem (by simp; omega) fun i h1 h2 => ?_
  have e1 : ∀ (l : List ℕ) (hi : i < l.length), l[i] = dimBack l (l.length - 1 - i) := by
    intro l hi
    rw [← dimBack_getD hi, List.getD_eq_getElem _ _ hi]
  have e2 : (List.replicate (t.length - s.length) 1 ++ s).length = t.length := by simp; omega
  rw [e1 _ h1, e1 _ h2, dimBack_replicate, e2, h]

/-- The operands with derivatives have all of the axes of the result that are not 1. -/
theorem batch_ones {S : List (List ℕ)} {b' out : List ℕ} (hb : Broadcasts S b') (hS : S ≠ []) (h : ∀ s ∈ S, ∃ j, out = List.replicate j 1 ++ s) : ∃ j, out = List.replicate j 1 ++ b' := by
  have hback : ∀ s ∈ S, ∀ i, dimBack s i = dimBack out i := by
    intro s hs i
    obtain ⟨j, hj⟩ := h s hs
    rw [hj, dimBack_replicate]
  refine ⟨_, eq_of_back ?_ fun i => ?_⟩
  · rcases hb.rank_eq with h1 | ⟨s, h1, h2⟩
    · rw [h1]; simp
    · obtain ⟨j, hj⟩ := h s h1
      rw [← h2, hj]
      simp
  · rcases hb.tight i with h1 | ⟨s, h1, h2⟩
    · obtain ⟨s, hs⟩ := List.exists_mem_of_ne_nil S hS
      rcases hb.compat s hs i with h2 | h2
      · rw [h1, ← hback s hs, h2]
      · rw [← h2, hback s hs]
    · rw [← h2, hback s h1]

section
variable {X : Type} [NormedAddCommGroup X] [NormedSpace ℝ X] {B : Base X} {T : ℕ}
variable {m : ℕ} {nm : String} {fn : (Fin (m + 1) → ℝ) → ℝ} {flags : Flags} {d : Bool} {dom : (Fin (m + 1) → ℝ) → Prop} {fil : Bool} {junk : ℝ}
  {shape : Fin (m + 1) → List ℕ} {out b : List ℕ} {x : (i : Fin (m + 1)) → Fin (shape i).prod → ℝ}
  {o : (i : Fin (m + 1)) → Opd ℝ (shape i).prod} {uo : (i : Fin (m + 1)) → X → Fin (shape i).prod → ℝ}

theorem entry_total {φ} (hn : 0 < B.n) (hb : Broadcasts (List.ofFn shape) out)
    (hT : ((⟨nm, m + 1, fn, flags, d, dom⟩ : ElemEntry).arr fil junk shape out).Truthful (m := m) (fun _ => none) b φ x)
    (hsafe : ((⟨nm, m + 1, fn, flags, d, dom⟩ : ElemEntry).arr fil junk shape out).SparseSafe (m := m) (fun _ => none) b) (hc : CallOk B o uo x)
    (hd : ∀ i t, o i = .lapl t → arrInv T B.n _ t.jac) (hm : m ≤ 1) (hdot : flags.has Flags.DOT_PRODUCT = false)
    (hext : (∀ i, (o i).isLapl = true) ∨ flags.has Flags.LINEAR_IN_ONE = true ∨ ∀ i, (o i).isLapl = true → ∃ j, out = List.replicate j 1 ++ shape i) :
    ∃ t, ((⟨nm, m + 1, fn, flags, d, dom⟩ : ElemEntry).arr fil junk shape out).call (fun _ => none) T o = some (.lapl t) ∧
      TripRep B t (fun y => ((⟨nm, m + 1, fn, flags, d, dom⟩ : ElemEntry).arr fil junk shape out).fwd fun i => uo i y) ∧ arrInv T B.n _ t.jac := by
  have ho : ∀ i, otherShape (shape i) ((InAxes.axes []).second (shape i).length) = shape i := fun i => otherShape_nil _
  obtain rfl : out = b := broadcasts_unique hb hT.batch.argShape fun s => by
    show _ ↔ s ∈ List.ofFn fun a => otherShape (shape a) ((InAxes.axes []).second (shape a).length)
    rw [show (fun a => otherShape (shape a) ((InAxes.axes []).second (shape a).length)) = shape from funext ho]
  refine call_total hn hT hsafe hc hd (Or.inr ⟨hm, Or.inr rfl⟩) hdot (Or.inr fun i t _ ⟨dims, mm, h, _⟩ => ?_) ?_
  · exact absurd h (by show reducedAxes (shape i) ((InAxes.axes []).first _) ≠ _; simp [InAxes.first, reducedAxes])
  · rcases hext with h | h | h
    · refine Or.inr fun b' hb' => ⟨0, ?_⟩
      refine broadcasts_unique hb hb'.argShape fun s => ?_
      show _ ↔ s ∈ List.ofFn fun a => otherShape (shape ((actsOf o).get a)) ((InAxes.axes []).second (shape ((actsOf o).get a)).length)
      rw [show (fun a => otherShape (shape ((actsOf o).get a)) ((InAxes.axes []).second (shape ((actsOf o).get a)).length)) = fun a => shape ((actsOf o).get a) from funext fun a => ho _]
      constructor
      · intro hs
        obtain ⟨i, rfl⟩ := (List.mem_ofFn' _ _).mp hs
        obtain ⟨a, rfl⟩ := acts_range.mpr ((mem_actsOf o i).mpr (h i))
        exact (List.mem_ofFn' _ _).mpr ⟨a, rfl⟩
      · intro hs
        obtain ⟨a, rfl⟩ := (List.mem_ofFn' _ _).mp hs
        exact (List.mem_ofFn' _ _).mpr ⟨_, rfl⟩
    · exact Or.inl h
    · refine Or.inr fun b' hb' => batch_ones hb'.argShape ?_ fun s hs => ?_
      · obtain ⟨i, hi⟩ := hc.some
        have : 0 < (actsOf o).length := List.length_pos_of_mem ((mem_actsOf o i).mpr hi)
        intro hnil
        have := congrArg List.length hnil
        rw [List.length_ofFn, List.length_nil] at this
        omega
      · obtain ⟨a, rfl⟩ := (List.mem_ofFn' _ _).mp hs
        obtain ⟨j, hj⟩ := h ((actsOf o).get a) ((mem_actsOf o _).mp (List.get_mem _ _))
        exact ⟨j, hj.trans (congrArg (fun s => List.replicate j 1 ++ s) (ho _).symm)⟩

end

end Folx.Layout

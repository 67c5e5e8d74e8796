import Verif.Core.ScatterProofs
import Verif.Core.HessTotal

/-! # When the rule of `scatter_p` returns -/

namespace Folx

open Folx.Interp (Err)

variable {P₀ Q F : Type} [CommRing F]

/-- A sparse Jacobian has at least one storage row. -/
def Jac.Filled (J : Jac P₀ F) : Prop := J.weak = true → J.nrows ≠ 0

theorem Jac.Filled.denseArray [Fintype P₀] [Nonempty P₀] {J : Jac P₀ F} (h : J.Filled) :
    ∃ rows, J.denseArray = .ok rows :=
  Jac.denseArray_ok J fun rows hj hr => h (by rw [hj]; rfl) (by rw [hj, hr]; rfl)

theorem denseJvp_total {k : ℕ} {P : Fin k → Type} [∀ a, Fintype (P a)] [∀ a, DecidableEq (P a)]
    [∀ a, Nonempty (P a)] [Fintype Q]
    (I : Inst k P Q F) (args : (a : Fin k) → Trip (P a) F) (h : ∀ a, (args a).jac.Filled) :
    ∃ o, denseJvp I args = .ok o := by
  obtain ⟨rows, hr⟩ := seqFin_total (fun a => (args a).jac.denseArray) fun a => (h a).denseArray
  unfold denseJvp
  rw [hr]
  simp only
  split
  · exact ⟨_, rfl⟩
  · split <;> exact ⟨_, rfl⟩

theorem sparseDiag_total [Fintype P₀] [DecidableEq P₀] [Fintype Q] [DecidableEq Q] (I : Inst 1 (fun _ => P₀) Q F)
    (hm : I.multi = false) (arg : Trip P₀ F) (hf : arg.jac.Filled) (hw : arg.jac.weak = true) :
    ∃ o, sparseDiag I (fun _ => arg) = .ok o ∧ o.jac.Filled := by
  have hne : arg.jac.srows ≠ [] := by
    intro he
    apply hf hw
    rw [← srows_length, he]; rfl
  unfold sparseDiag
  rw [hm]
  simp only [Bool.false_eq_true, if_false, dite_true]
  split
  · exact ⟨_, rfl, fun _ => by simpa [Jac.nrows] using hne⟩
  · exact ⟨_, rfl, fun _ => by simpa [Jac.nrows] using hne⟩

theorem Jac.add_total [Fintype P₀] [DecidableEq P₀] [Nonempty P₀] (a b : Jac P₀ F) (ha : a.Filled) (hb : b.Filled)
    (h : a.weak = false ∨ b.weak = false) : ∃ j, a.add b = .ok j := by
  obtain ⟨ra, hra⟩ := ha.denseArray
  obtain ⟨rb, hrb⟩ := hb.denseArray
  cases a with
  | dense r1 =>
    refine ⟨.dense (addJacobians ra rb), ?_⟩
    simp only [Jac.add, hra, hrb]
  | sparse r1 =>
    cases b with
    | dense r2 =>
      refine ⟨.dense (addJacobians ra rb), ?_⟩
      simp only [Jac.add, hra, hrb]
    | sparse r2 => simp [Jac.weak] at h

/-- The segment rule returns if the indices are known, the last element is among those written to, and some input index
is stored. -/
theorem sparseSegment_total [Fintype P₀] [DecidableEq P₀] [Nonempty P₀] [Fintype Q] (I : Inst 1 (fun _ => P₀) Q F)
    (g : Seg P₀ Q) (T : ℕ) (arg : Trip P₀ F) (hf : arg.jac.Filled) (hw : arg.jac.weak = true) (hcon : g.concrete = true)
    (hN : g.numSegments = g.N) (hidx : ∃ r ∈ arg.jac.srows, ∃ u, 0 ≤ r.idx u) :
    ∃ o, sparseSegment I g T arg = .ok o ∧ o.jac.Filled := by
  obtain ⟨r, hr, u, hu⟩ := hidx
  unfold sparseSegment
  simp only
  have hle := Jac.le_maxN arg.jac.srows r hr u
  split
  · rename_i hm; rw [hm] at hle; exact absurd hle (WithBot.not_coe_le_bot _)
  rename_i m hm
  rw [hm] at hle
  have hle : r.idx u ≤ m := WithBot.coe_le_coe.mp hle
  rw [if_neg (by rw [hcon]; simp)]
  split
  · obtain ⟨o, ho⟩ := denseJvp_total I (fun _ => arg) (fun _ => hf)
    refine ⟨o, ho, ?_⟩
    obtain ⟨rows, hrows⟩ := denseJvp_dense I _ o ho
    intro hw'
    rw [hrows] at hw'; simp [Jac.weak] at hw'
  · have hpos : 0 < segMaxOut g arg.jac.srows (m + 1).toNat := by
      have hc := segCount_pos g arg.jac.srows u r hr (r.idx u).toNat (by omega)
      have h1 : 0 < ((Finset.range (m + 1).toNat).filter fun i => 0 < segCount g arg.jac.srows (g.ids u) i).card := by
        rw [Finset.card_pos]
        exact ⟨(r.idx u).toNat, by rw [Finset.mem_filter, Finset.mem_range]; exact ⟨by omega, hc⟩⟩
      exact lt_of_lt_of_le h1 (Finset.le_sup
        (f := fun s => ((Finset.range (m + 1).toNat).filter fun i => 0 < segCount g arg.jac.srows s i).card)
        (Finset.mem_range.mpr (g.lt_numSegments u)))
    unfold Jac.getIndexMask
    rw [if_neg (by
      intro he
      have := congrArg List.length he
      simp at this; omega)]
    simp only
    refine ⟨_, rfl, fun _ => ?_⟩
    simp only [Jac.nrows, List.length_map, List.length_range]
    omega

section Two
variable {P : Fin 2 → Type} [∀ a, Fintype (P a)] [∀ a, DecidableEq (P a)] [∀ a, Nonempty (P a)]

theorem scatter_total (c : Scatter (P 0) (P 1)) (π : (a : Fin 2) → P 0 → P a) (T : ℕ)
    (args : (a : Fin 2) → Trip (P a) F) (hf : ∀ a, (args a).jac.Filled)
    (hs : (args 0).jac.weak = false → (args 1).jac.weak = true → c.updScalar = none → ∀ g, c.seg = some g →
      g.concrete = true ∧ g.numSegments = g.N ∧ ∃ r ∈ (args 1).jac.srows, ∃ u, 0 ≤ r.idx u) :
    ∃ t, (scatterInst c π : HInst 2 P (P 0) F).wrapped T args = .ok t := by
  set I : HInst 2 P (P 0) F := scatterInst c π with hI
  have hhess : I.hessianTransform T args = .ok fun _ => 0 := by
    unfold HInst.hessianTransform
    rw [if_pos (show I.flags.has Flags.LINEAR = true by show scatterFlags.has Flags.LINEAR = true; decide)]
  have hix : I.flags.has Flags.INDEXING = true := by
    show scatterFlags.has Flags.INDEXING = true; decide
  suffices ∃ o, jvpRule I.toInst T args = .ok o by
    obtain ⟨o, ho⟩ := this
    unfold HInst.wrapped
    rw [ho, hhess]
    exact ⟨_, rfl⟩
  have hd : ∀ a, ∀ x, ∃ o, denseJvp (I.toInst.single x a) (fun _ => args a) = .ok o ∧ o.jac.Filled ∧
      o.jac.weak = false := by
    intro a x
    obtain ⟨o, ho⟩ := denseJvp_total (I.toInst.single x a) (fun _ => args a) (fun _ => hf a)
    obtain ⟨rows, hrows⟩ := denseJvp_dense _ _ o ho
    have hw : o.jac.weak = false := by rw [hrows]; rfl
    exact ⟨o, ho, fun h => by rw [hw] at h; simp at h, hw⟩
  unfold jvpRule
  split
  · unfold parallelJvp
    split
    · exact denseJvp_total I.toInst args hf
    · unfold sparseIndex
      split
      · rw [if_neg (by show ¬ (false = true); simp)]
        exact ⟨_, rfl⟩
      · exact denseJvp_total I.toInst args hf
  · rename_i hnp
    simp only [not_or, not_and] at hnp
    have hmixed : (args 0).jac.weak ≠ (args 1).jac.weak := by
      intro he
      rcases Bool.eq_false_or_eq_true (args 0).jac.weak with hw | hw
      · refine (hnp.2 ?_).1 hix
        simp only [allWeak, decide_eq_true_eq]
        intro a
        fin_cases a
        · exact hw
        · exact he ▸ hw
      · apply hnp.1
        simp only [anyWeak, decide_eq_false_iff_not, not_exists]
        intro a
        fin_cases a
        · show ¬ (args 0).jac.weak = true
          rw [hw]; simp
        · show ¬ (args 1).jac.weak = true
          rw [← he, hw]; simp
    set x : (a : Fin 2) → P a → F := fun a => (args a).x with hx
    have hfl : ∀ a, (I.toInst.single x a).flags.has Flags.SCATTER = true := fun a => by
      show scatterFlags.has Flags.SCATTER = true; decide
    have h0 : ∃ o, singleJvp (I.toInst.single x 0) T (args 0) = .ok o ∧ o.jac.Filled ∧
        ((args 0).jac.weak = false → o.jac.weak = false) := by
      unfold singleJvp
      split
      · rename_i hw
        unfold sparseSingle
        cases hsc : c.opScalar with
        | some p =>
          have hax : (I.toInst.single x 0).ax 0 = .elem fun _ => p := by
            show rangeAxes c.opScalar = _
            rw [hsc]; rfl
          rw [hax]
          obtain ⟨o, h1, h2⟩ := sparseDiag_total { I.toInst.single x 0 with π := fun _ _ => p } rfl (args 0) (hf 0) hw
          exact ⟨o, h1, h2, fun h => by rw [hw] at h; simp at h⟩
        | none =>
          have hax : (I.toInst.single x 0).ax 0 = rangeAxes none := by
            show rangeAxes c.opScalar = _
            rw [hsc]
          rw [hax]
          simp only [rangeAxes]
          rw [if_pos (hfl 0)]
          unfold sparseScatter
          have hro : (I.toInst.single x 0).role 0 = .operand := rfl
          have hlin : (I.toInst.single x 0).flags.has Flags.LINEAR = true := by
            show scatterFlags.has Flags.LINEAR = true; decide
          have hsa : (I.toInst.single x 0).same 0 = some (Equiv.refl _) := rfl
          rw [hro]
          simp only
          rw [if_pos hlin, hsa]
          refine ⟨_, rfl, fun _ => ?_, fun h => by rw [hw] at h; simp at h⟩
          simp only [Jac.nrows, List.length_map]
          rw [srows_length]
          exact hf 0 hw
      · obtain ⟨o, h1, h2, h3⟩ := hd 0 x
        exact ⟨o, h1, h2, fun _ => h3⟩
    have h1 : ∃ o, singleJvp (I.toInst.single x 1) T (args 1) = .ok o ∧ o.jac.Filled ∧
        ((args 1).jac.weak = false → o.jac.weak = false) := by
      unfold singleJvp
      split
      · rename_i hw
        have hw0 : (args 0).jac.weak = false := by
          rcases Bool.eq_false_or_eq_true (args 0).jac.weak with hw' | hw'
          · exact absurd (hw'.trans hw.symm) hmixed
          · exact hw'
        unfold sparseSingle
        cases hsc : c.updScalar with
        | some p =>
          have hax : (I.toInst.single x 1).ax 0 = .elem fun _ => p := by
            show rangeAxes c.updScalar = _
            rw [hsc]; rfl
          rw [hax]
          obtain ⟨o, h1, h2⟩ := sparseDiag_total { I.toInst.single x 1 with π := fun _ _ => p } rfl (args 1) (hf 1) hw
          exact ⟨o, h1, h2, fun h => by rw [hw] at h; simp at h⟩
        | none =>
          have hax : (I.toInst.single x 1).ax 0 = rangeAxes none := by
            show rangeAxes c.updScalar = _
            rw [hsc]
          rw [hax]
          simp only [rangeAxes]
          rw [if_pos (hfl 1)]
          unfold sparseScatter
          have hro : (I.toInst.single x 1).role 0 = .updates := rfl
          have hsg : (I.toInst.single x 1).seg 0 = c.seg := rfl
          rw [hro]
          simp only
          rw [hsg]
          cases hg : c.seg with
          | none =>
            obtain ⟨o, h1, h2, h3⟩ := hd 1 x
            exact ⟨o, h1, h2, fun _ => h3⟩
          | some g =>
            obtain ⟨g1, g2, g3⟩ := hs hw0 hw hsc g hg
            obtain ⟨o, h1, h2⟩ := sparseSegment_total (I.toInst.single x 1) g T (args 1) (hf 1) hw g1 g2 g3
            exact ⟨o, h1, h2, fun h => by rw [hw] at h; simp at h⟩
      · obtain ⟨o, h1, h2, h3⟩ := hd 1 x
        exact ⟨o, h1, h2, fun _ => h3⟩
    obtain ⟨o₀, e0, f0, w0⟩ := h0
    obtain ⟨o₁, e1, f1, w1⟩ := h1
    obtain ⟨j, hj⟩ := Jac.add_total o₀.jac o₁.jac f0 f1 (by
      rcases Bool.eq_false_or_eq_true (args 0).jac.weak with hw | hw
      · right
        apply w1
        rcases Bool.eq_false_or_eq_true (args 1).jac.weak with hw' | hw'
        · exact absurd (hw.trans hw'.symm) hmixed
        · exact hw'
      · exact Or.inl (w0 hw))
    refine ⟨⟨o₀.y, j, fun q => o₀.lapl q + o₁.lapl q⟩, ?_⟩
    unfold oneByOne
    rw [List.ofFn_succ, List.ofFn_succ, List.ofFn_zero]
    have e : (0 : Fin 1).succ = (1 : Fin 2) := rfl
    rw [e, e0, e1]
    simp [accumulate, hj]

end Two

end Folx

import Verif.Core.HessTotal
import Verif.Core.Custom

/-!
# How custom rules are called
-/

namespace Folx

open Folx.Interp (Err)

variable {k : ℕ} {P : Fin k → Type} {Q F : Type} [CommRing F]

namespace HInst
variable (I : HInst k P Q F) [∀ a, Fintype (P a)]

/-- The slice at `v` has nothing to contribute: no argument depends on any input there (for functions linear in
each argument: no input is shared by all arguments). -/
def NothingAt (args : (a : Fin k) → Trip (P a) F) (v : I.V) : Prop :=
  ∀ i, if I.flags.has Flags.LINEAR_IN_ONE = true then ∃ a, I.sliceDen args v i a = 0
    else ∀ a, I.sliceDen args v i a = 0

/-- The calls the second-order term makes: one per slice, on arguments with the same content and with an index
list that loses nothing; slices with nothing to contribute may be skipped.  The arguments are the given ones or have
dense Jacobians. -/
theorem vmapped_calls' (n : ℕ) (hn : 0 < n) (T : ℕ) (args : (a : Fin k) → Trip (P a) F) (hk : 0 < k)
    (hwf : ∀ a, (args a).jac.Wf n) (hmix : I.MixOk T args) (hnf : ¬ (I.flags.has Flags.LINEAR_IN_FIRST = true ∧
      I.firstIsLapl = true ∧ k = 1))
    (h : Q → F) (hh : I.vmappedJHJ T args = .ok h) :
    ∃ (args' : (a : Fin k) → Trip (P a) F) (idx : I.V → Option (List ℤ)),
      (∀ a, (args' a).x = (args a).x ∧ (args' a).jac.Wf n ∧ ∀ i p, (args' a).jac.den i p = (args a).jac.den i p) ∧
      (args' = args ∨ ∀ a, (args' a).jac.weak = false) ∧
      ∀ v, (I.NothingAt args v ∧ ∀ q, (I.out q).1 = v → h q = 0) ∨
        (I.flags.has Flags.LINEAR_IN_ONE = false → IdxOk (fun a => (I.sliceArgs args' v a).jac) (idx v)) ∧
          ∃ r, I.hessTransform v (I.sliceArgs args' v) (idx v) = .ok r ∧
            ∀ q, (I.out q).1 = v → h q = r (I.out q).2 := by
  unfold vmappedJHJ at hh
  dsimp only at hh
  split at hh
  · simp at hh
  rename_i args' hargs'
  set densify := (I.findOutIdx T args).2 && !I.flags.has Flags.SPARSE_JHJ with hdens
  have hA : (∀ a, (args' a).x = (args a).x) ∧ (∀ a, (args' a).jac.Wf n) ∧
      ∀ a i p, (args' a).jac.den i p = (args a).jac.den i p := by
    split at hargs'
    · exact denseArgs_spec n hn args args' hwf hargs'
    · simp only [Except.ok.injEq] at hargs'
      subst hargs'
      exact ⟨fun _ => rfl, hwf, fun _ _ _ => rfl⟩
  obtain ⟨hAx, hAwf, hAden⟩ := hA
  set outIdx := if densify = true then none else (I.findOutIdx T args).1 with hout
  have hcase : outIdx = none ∨ (anyWeak args = true ∧ outIdx = some (I.idxAt args) ∧ args' = args) := by
    by_cases hd : densify = true
    · left; rw [hout, if_pos hd]
    · cases hw : anyWeak args with
      | false => left; rw [hout, if_neg hd, I.findOutIdx_strong T args hw]
      | true =>
        right
        rw [if_neg hd] at hargs'
        simp only [Except.ok.injEq] at hargs'
        exact ⟨rfl, by rw [hout, if_neg hd, I.findOutIdx_weak T args hw], hargs'.symm⟩
  refine ⟨args', fun v => outIdx.map fun f => f v, fun a => ⟨hAx a, hAwf a, hAden a⟩, ?_, ?_⟩
  · split at hargs'
    · right
      unfold denseArgs at hargs'
      split at hargs'
      · simp at hargs'
      · obtain rfl := Except.ok.inj hargs'
        exact fun _ => rfl
    · exact Or.inl (Except.ok.inj hargs').symm
  have hzero : ∀ v, I.mergedIdx args v = ∅ → I.NothingAt args v := by
    intro v hv i
    have hnm : (i : ℤ) ∉ I.mergedIdx args v := by rw [hv]; simp
    split
    · rename_i hf
      rw [I.mem_merged_inter n args hwf hf hk] at hnm
      push Not at hnm
      obtain ⟨a, ha⟩ := hnm
      exact ⟨a, I.slice_den_zero n args v a i (ha (by simp))⟩
    · rename_i hf
      rw [I.mem_merged_union n args hwf (by simpa using hf)] at hnm
      push Not at hnm
      exact fun a => I.slice_den_zero n args v a i (hnm a (by simp))
  by_cases hcond : outIdx.isSome = true ∧ I.idxWidth args = 0
  · rw [if_pos hcond] at hh
    simp only [Except.ok.injEq] at hh
    subst hh
    intro v
    refine Or.inl ⟨hzero v ?_, fun _ _ => rfl⟩
    have := I.card_le_width args v
    rw [hcond.2] at this
    exact Finset.card_eq_zero.mp (by omega)
  · rw [if_neg hcond] at hh
    have hw0 : outIdx.isSome = true → I.idxWidth args ≠ 0 := fun h1 h2 => hcond ⟨h1, h2⟩
    split at hh
    · rename_i hall
      simp only [Except.ok.injEq] at hh
      subst hh
      intro v
      have hv := hall v
      by_cases hkp : I.keptPos outIdx (I.findOutIdx T args).2 v
      · right
        simp only [hkp, if_true] at hv
        refine ⟨?_, ?_⟩
        · intro hf
          rcases hcase with he | ⟨hw, he, ha⟩
          · rw [he]; trivial
          · rw [he, ha]
            have hw0' := hw0 (by rw [he]; rfl)
            refine I.idxOk_union n args hwf hf ?_ v hw0'
            rcases hmix with h1 | h1 | h1 | h1 | ⟨h1, h2⟩
            · exact h1
            · rw [hw] at h1; cases h1
            · rw [hf] at h1; cases h1
            · exact absurd h1 hnf
            · exfalso
              have hd : densify = true := by rw [hdens, h1, h2]; rfl
              rw [hout, if_pos hd] at he
              cases he
        · cases hr : I.hessTransform v (I.sliceArgs args' v) (outIdx.map fun f => f v) with
          | error e => rw [hr] at hv; cases hv
          | ok r =>
            refine ⟨r, rfl, ?_⟩
            intro q hq
            subst hq
            simp only [hkp, if_true, hr]
            rfl
      · left
        refine ⟨?_, ?_⟩
        · unfold keptPos at hkp
          rcases hcase with he | ⟨hw, he, _⟩
          · rw [he] at hkp; simp at hkp
          · rw [he] at hkp
            dsimp only at hkp
            split at hkp
            · apply hzero
              rw [Finset.eq_empty_iff_forall_notMem]
              intro z hz
              apply hkp
              refine ⟨z, ((I.mem_idxAt_nonneg args _ z).mpr hz).1, ?_⟩
              have := I.merged_nonneg args _ z hz
              omega
            · exact absurd trivial hkp
        · intro q hq
          subst hq
          simp only [hkp, if_false]
          rfl
    · simp at hh

theorem vmapped_calls (n : ℕ) (hn : 0 < n) (T : ℕ) (args : (a : Fin k) → Trip (P a) F) (hk : 0 < k)
    (hwf : ∀ a, (args a).jac.Wf n) (hmix : I.MixOk T args) (hnf : ¬ (I.flags.has Flags.LINEAR_IN_FIRST = true ∧
      I.firstIsLapl = true ∧ k = 1))
    (h : Q → F) (hh : I.vmappedJHJ T args = .ok h) :
    ∃ (args' : (a : Fin k) → Trip (P a) F) (idx : I.V → Option (List ℤ)),
      (∀ a, (args' a).x = (args a).x ∧ (args' a).jac.Wf n ∧ ∀ i p, (args' a).jac.den i p = (args a).jac.den i p) ∧
      ∀ v, (I.NothingAt args v ∧ ∀ q, (I.out q).1 = v → h q = 0) ∨
        (I.flags.has Flags.LINEAR_IN_ONE = false → IdxOk (fun a => (I.sliceArgs args' v a).jac) (idx v)) ∧
          ∃ r, I.hessTransform v (I.sliceArgs args' v) (idx v) = .ok r ∧
            ∀ q, (I.out q).1 = v → h q = r (I.out q).2 := by
  obtain ⟨args', idx, h1, _, h2⟩ := I.vmapped_calls' n hn T args hk hwf hmix hnf h hh
  exact ⟨args', idx, h1, h2⟩

end HInst

/-! ## Elementwise functions with second-order rule -/

section Elem

theorem elemH_lawful (φ : Q → (Fin k → F) → F) (D : Q → (Fin k → F) → Fin k → F)
    (D2 : Q → (Fin k → F) → Fin k → Fin k → F) (π : (a : Fin k) → Q → P a)
    (same : (a : Fin k) → Option (Q ≃ P a)) (flags : Flags) (firstIsLapl c2r : Bool) [Fintype Q]
    (custom : Option (CustomRule k (fun _ => 1) Q Unit F))
    (hflags : flags.has Flags.INDEXING = false) (hsc : flags.has Flags.SCATTER = false)
    (hsame : ∀ a e, same a = some e → ∀ q, e q = π a q) (x : (a : Fin k) → P a → F) :
    (elemHInst φ D D2 π same flags firstIsLapl c2r custom).toInst.Lawful x where
  elem _ t q h := by
    show (∑ a, D q (fun b => x b (π b q)) a * t a (π a q)) = 0
    exact Finset.sum_eq_zero fun a _ => by
      have : t a (π a q) = 0 := h a
      rw [this, mul_zero]
  elem_ax _ a := rfl
  ax_elem a π' h t q ht := by
    have h : ArgAx.elem (π a) = ArgAx.elem π' := h
    cases h
    show (∑ b, D q (fun b => x b (π b q)) b * (Pi.single a t : (a : Fin k) → P a → F) b (π b q)) = 0
    apply Finset.sum_eq_zero
    intro b _
    by_cases hb : b = a
    · subst hb; rw [Pi.single_eq_same, ht, mul_zero]
    · rw [Pi.single_eq_of_ne hb]; simp
  ax_red a r h := by cases h
  ax_surj a r h := by cases h
  same_elem _ a e h := hsame a e h
  same_ax a π' h e he q := by
    have h : ArgAx.elem (π a) = ArgAx.elem π' := h
    cases h
    exact hsame a e he q
  index h := by
    have h : flags.has Flags.INDEXING = true := h
    rw [hflags] at h; simp at h
  sum _ a r h := by cases h
  noScatter := hsc

end Elem

end Folx

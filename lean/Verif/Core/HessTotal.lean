import Verif.Core.WrappedProofs

/-!
# When the second-order term is computed without raising
-/

namespace Folx

open Folx.Interp (Err)

variable {k : ℕ} {P : Fin k → Type} {Q F : Type} [CommRing F]

theorem seqFin_total : ∀ {k : ℕ} {β : Fin k → Type} (f : (a : Fin k) → Except Err (β a)),
    (∀ a, ∃ x, f a = .ok x) → ∃ xs, seqFin f = .ok xs
  | 0, _, _, _ => ⟨_, rfl⟩
  | k + 1, _, f, h => by
    obtain ⟨x, hx⟩ := h 0
    obtain ⟨xs, hxs⟩ := seqFin_total (fun a : Fin k => f a.succ) fun a => h a.succ
    exact ⟨Fin.cons x xs, by simp only [seqFin, hx, hxs]⟩

theorem constructFor_some_total {P₀ : Type} [Fintype P₀] (J : Jac P₀ F) (is : List ℤ) :
    ∃ rows, J.constructFor (some is) = .ok rows := by
  unfold Jac.constructFor
  simp only
  split
  · exact ⟨_, rfl⟩
  · rename_i hne
    cases J with
    | dense rows => exact ⟨_, rfl⟩
    | sparse rows =>
      simp only [Jac.constructSparse, Jac.getIndexMask]
      have : ¬ (is.map fun i (_ : P₀) => i) = [] := by simpa using hne
      simp only [this, if_false]
      exact ⟨_, rfl⟩

theorem reducedJacobians_total {dim : Fin k → ℕ} (js : (a : Fin k) → Jac (Fin (dim a)) F)
    (idx : Option (List ℤ)) (h : idx = none → ∀ a, (js a).weak = false) :
    ∃ rows, reducedJacobians js idx = .ok rows := by
  cases idx with
  | none =>
    have hd : ∀ a, ∃ r, (js a).denseArray = .ok r := by
      intro a
      have := h rfl a
      cases hj : js a with
      | dense r => exact ⟨r, rfl⟩
      | sparse _ => rw [hj] at this; simp [Jac.weak] at this
    obtain ⟨xs, hxs⟩ := seqFin_total _ hd
    exact ⟨_, by simp only [reducedJacobians, hxs]; rfl⟩
  | some is => exact seqFin_total _ fun a => constructFor_some_total _ is

namespace HInst
variable (I : HInst k P Q F) [∀ a, Fintype (P a)]

/-- A custom rule that does not raise, given index sets for sparse arguments. -/
def CustomTotal {dim : Fin k → ℕ} {V O : Type} (c : CustomRule k dim V O F) : Prop :=
  ∀ v sargs idx, (idx = none → ∀ a, (sargs a).jac.weak = false) → ∃ res, c v sargs idx = .ok res

/-- The second-order term is computed without raising for every function whose custom rule (if any) does not raise, as
long as sparse arguments have at least one element and one storage row; functions flagged as products must have at most two
arguments, of equal size. -/
theorem hessian_returns (T : ℕ) (args : (a : Fin k) → Trip (P a) F) (hk : 0 < k)
    (hrows : ∀ a, (args a).jac.weak = true → Nonempty (P a) ∧ (args a).jac.nrows ≠ 0)
    (hcust : ∀ c, I.custom = some c → CustomTotal c) (hbil : I.BilinearOk)
    (hm2 : I.flags.has Flags.MULTIPLICATION = true → k ≤ 2)
    (hmd : I.flags.has Flags.MULTIPLICATION = true → ∀ a0 a1 : Fin k, a0.val = 0 → a1.val = 1 → I.dim a0 = I.dim a1) :
    ∃ h, I.hessianTransform T args = .ok h := by
  unfold hessianTransform
  split
  · exact ⟨_, rfl⟩
  split
  · exact ⟨_, rfl⟩
  split
  · exact ⟨_, rfl⟩
  rename_i h1 h2 h3
  unfold vmappedJHJ
  simp only
  have hda : ∃ args', denseArgs args = .ok args' := by
    unfold denseArgs
    obtain ⟨xs, hxs⟩ := seqFin_total (fun a => (args a).jac.denseArray) (by
      intro a
      cases hj : (args a).jac with
      | dense r => exact ⟨r, rfl⟩
      | sparse r =>
        have := hrows a (by rw [hj]; rfl)
        rw [hj] at this
        obtain ⟨hne, hr⟩ := this
        exact Jac.denseArray_ok _ (by
          rintro r' h; cases h
          intro hc; apply hr; rw [hc]; rfl))
    exact ⟨_, by rw [hxs]⟩
  obtain ⟨dargs, hdargs⟩ := hda
  have key : ∀ (args' : (a : Fin k) → Trip (P a) F) (oi : Option (I.V → List ℤ)) (b : Bool),
      (oi = none → ∀ a, (args' a).jac.weak = false) → ∃ h,
      (if oi.isSome = true ∧ I.idxWidth args = 0 then .ok fun _ => 0
      else
        if ∀ v, Except.isOk (if I.keptPos oi b v then
            I.hessTransform v (I.sliceArgs args' v) (oi.map fun f => f v)
          else .ok fun _ => 0) = true then
          (.ok fun q => ((Except.toOption (if I.keptPos oi b (I.out q).1 then
            I.hessTransform (I.out q).1 (I.sliceArgs args' (I.out q).1) (oi.map fun f => f (I.out q).1)
          else .ok fun _ => 0)).getD fun _ => 0) (I.out q).2 : Except Err (Q → F))
        else .error .other) = .ok h := by
    intro args' oi b hw
    split
    · exact ⟨_, rfl⟩
    · have hall : ∀ v, Except.isOk (if I.keptPos oi b v then
            I.hessTransform v (I.sliceArgs args' v) (oi.map fun f => f v)
          else .ok fun _ => 0) = true := by
        intro v
        split
        · have hweak : (oi.map fun f => f v) = none → ∀ a, (I.sliceArgs args' v a).jac.weak = false := by
            intro ho a
            have := hw (by simpa using ho) a
            show (sliceJac _ _ (args' a).jac).weak = false
            cases hj : (args' a).jac with
            | dense r => rfl
            | sparse r => rw [hj] at this; simp [Jac.weak] at this
          obtain ⟨rows, hr⟩ := reducedJacobians_total (fun a => (I.sliceArgs args' v a).jac)
            (oi.map fun f => f v) hweak
          unfold hessTransform
          cases hcu : I.custom with
          | some c =>
            obtain ⟨res, hres⟩ := hcust c hcu v (I.sliceArgs args' v) _ hweak
            simp only [hres]
            rfl
          | none =>
          simp only
          split
          · rename_i hm
            have hlio := has_mult_lio _ hm
            have hk2 : k = 2 := by
              have := hm2 hm
              have : k ≠ 1 := fun hk1 => h2 ⟨hlio, hk1⟩
              omega
            unfold dotJHJ
            simp only [hk2, dif_pos, hr]
            have hd := hmd hm ⟨0, by omega⟩ ⟨1, by omega⟩ rfl rfl
            rw [dif_pos hd]
            rfl
          · rename_i hm
            split
            · rename_i hlio
              rcases hbil hlio with h | h | h
              · exact absurd h h1
              · exact absurd ⟨hlio, h⟩ h2
              · exact absurd h.1 hm
            · unfold generalJHJ
              rw [hr]
              rfl
        · rfl
      rw [if_pos hall]
      exact ⟨_, rfl⟩
  by_cases hden : ((I.findOutIdx T args).2 && !I.flags.has Flags.SPARSE_JHJ) = true
  · simp only [hden, if_true, hdargs]
    refine key dargs none _ fun _ a => ?_
    unfold denseArgs at hdargs
    split at hdargs
    · simp at hdargs
    · simp only [Except.ok.injEq] at hdargs
      rw [← hdargs]; rfl
  · simp only [hden]
    refine key args _ _ fun hn a => ?_
    by_contra hc
    simp only [Bool.not_eq_false] at hc
    have : anyWeak args = true := by simp only [anyWeak, decide_eq_true_eq]; exact ⟨a, hc⟩
    simp only [Bool.false_eq_true, if_false, I.findOutIdx_weak T args this] at hn
    simp at hn

theorem hessian_total (n T : ℕ) (args : (a : Fin k) → Trip (P a) F) (hk : 0 < k)
    (hrows : ∀ a, (args a).jac.weak = true → Nonempty (P a) ∧ (args a).jac.nrows ≠ 0)
    (hcust : ∀ c, I.custom = some c → CustomTotal c) (hbil : I.BilinearOk) (hI : I.HLawful n fun a => (args a).x) :
    ∃ h, I.hessianTransform T args = .ok h :=
  I.hessian_returns T args hk hrows hcust hbil hI.mult_arity fun hm a0 a1 h0 h1 => (hI.mult hm a0 a1 h0 h1).1

end HInst

end Folx

import Verif.Core.ReturnProofs
import Verif.Prog.Wrapped

/-!
# When the first-order rule raises with sparse operands

The converse of `Core/ReturnProofs`: in the two situations excluded there the rule does raise.
-/

namespace Folx

open Folx.Interp (Err)

variable {k : ℕ} {P : Fin k → Type} {P₀ Q F : Type} [CommRing F]

theorem Jac.not_live {J : Jac P₀ F} (h : ¬ J.Live) : J.weak = true ∧ ∀ p, ∀ r ∈ J.srows, r.idx p = -1 := by
  cases J with
  | dense _ => exact absurd trivial h
  | sparse rows =>
    refine ⟨rfl, fun p r hr => ?_⟩
    by_contra hc
    exact h ⟨p, r, hr, hc⟩

/-- A reduction of an operand that stores no index of an input raises (`api.py:128`: `argmax` along an axis of length 0). -/
theorem sparseReduce_raises [Fintype P₀] [DecidableEq P₀] [Nonempty P₀] [Fintype Q] (I : Inst 1 (fun _ => P₀) Q F)
    (r : Red P₀ Q) (T : ℕ) (arg : Trip P₀ F) (h : ¬ arg.jac.Live) : sparseReduce I r T arg = .error .emptyArgmax := by
  have hK : Nonempty r.K := ⟨(r.split (Classical.arbitrary P₀)).1⟩
  obtain ⟨-, hi⟩ := Jac.not_live h
  have he : ∀ u : r.K, redIdx r arg.jac.srows u = ∅ := by
    intro u
    rw [Finset.eq_empty_iff_forall_notMem]
    intro z hz
    obtain ⟨hne, row, hrow, c, hc⟩ := (mem_redIdx ..).mp hz
    exact hne (hc ▸ hi _ row hrow)
  have hU : (Finset.univ.sup fun u : r.K => (redIdx r arg.jac.srows u).card) = 0 := by
    rw [← Nat.le_zero]
    exact Finset.sup_le fun u _ => by rw [he u]; simp
  have hj : jacobianForReduction r arg.jac.srows = .error .emptyArgmax := by
    unfold jacobianForReduction
    rw [if_neg Fintype.card_ne_zero]
    dsimp only
    unfold Jac.getIndexMask
    rw [hU, if_pos (by simp)]
  unfold sparseReduce
  rw [hj]

theorem sparseDiag_one_weak [Fintype P₀] [DecidableEq P₀] [Fintype Q] [DecidableEq Q] (I : Inst 1 (fun _ => P₀) Q F)
    (arg : Trip P₀ F) (o : JvpOut Q F) (h : sparseDiag I (fun _ => arg) = .ok o) : o.jac.weak = true := by
  unfold sparseDiag at h
  split at h
  · simp at h
  · simp only [dite_true] at h
    split at h
    · obtain rfl := Except.ok.inj h
      rfl
    · obtain rfl := Except.ok.inj h
      rfl

/-- A reduction below the threshold keeps the Jacobian sparse. -/
theorem sparseReduce_sparse [Fintype P₀] [DecidableEq P₀] [Fintype Q] (I : Inst 1 (fun _ => P₀) Q F)
    (r : Red P₀ Q) (T : ℕ) (arg : Trip P₀ F) (o : JvpOut Q F) (ho : sparseReduce I r T arg = .ok o)
    (hT : ¬ T < r.deps arg.jac.srows) : o.jac.weak = true := by
  unfold sparseReduce at ho
  split at ho
  · simp at ho
  · rename_i g m hj
    have hm : m.length = r.deps arg.jac.srows := by
      unfold jacobianForReduction at hj
      split at hj
      · simp at hj
      · dsimp only at hj
        split at hj
        · simp at hj
        · obtain ⟨-, rfl⟩ := Prod.mk.inj (Except.ok.inj hj)
          rw [List.length_map, List.length_range]
          rfl
    rw [if_neg (by rw [hm]; exact hT)] at ho
    split at ho
    · simp at ho
    · obtain rfl := Except.ok.inj ho
      rfl

section Rule
variable [∀ a, Fintype (P a)] [∀ a, DecidableEq (P a)] [∀ a, Nonempty (P a)] [Fintype Q] [DecidableEq Q] [Nonempty Q]

/-- One operand, reduced along axes, storing no index. -/
theorem singleJvp_raises (I : Inst k P Q F) (T : ℕ) (args : (a : Fin k) → Trip (P a) F)
    (h1 : I.flags.has Flags.SCATTER = false) (h2 : I.flags.has Flags.SUMMATION = false) (a : Fin k) (r : Red (P a) Q)
    (hr : I.ax a = .red r) (hl : ¬ (args a).jac.Live) :
    singleJvp (I.single (fun a => (args a).x) a) T (args a) = .error .emptyArgmax := by
  unfold singleJvp
  rw [if_pos (Jac.not_live hl).1]
  unfold sparseSingle
  have hax : (I.single (fun a => (args a).x) a).ax 0 = .red r := hr
  have e1 : (I.single (fun a => (args a).x) a).flags.has Flags.SCATTER = false := h1
  have e2 : (I.single (fun a => (args a).x) a).flags.has Flags.SUMMATION = false := h2
  rw [hax]
  dsimp only
  rw [e1, e2]
  exact sparseReduce_raises _ r T (args a) hl

/-- The number of rows an operand contributes alone. -/
theorem singleJvp_rows (I : Inst k P Q F) (T : ℕ) (args : (a : Fin k) → Trip (P a) F)
    (hI : I.Sums fun a => (args a).x) (hm : I.multi = false) (h2 : I.flags.has Flags.SUMMATION = false) (a : Fin k)
    (h : (args a).jac.Filled) (hl : ∀ r, I.ax a = .red r → (args a).jac.Live) (o : JvpOut Q F)
    (ho : singleJvp (I.single (fun a => (args a).x) a) T (args a) = .ok o) (m : ℕ) (hs : I.soloRows T args a = some m) :
    o.jac.weak = true ∧ o.jac.nrows = m := by
  obtain ⟨o', ho', -, -, h4⟩ := singleJvp_returns I T args hI hm a h fun _ => hl
  obtain rfl : o' = o := Except.ok.inj (ho'.symm.trans ho)
  suffices hw : o'.jac.weak = true by
    exact ⟨hw, Option.some.inj ((h4 h2 hw).symm.trans hs)⟩
  have hwa : (args a).jac.weak = true := by
    by_contra hc
    unfold Inst.soloRows at hs
    rw [if_neg hc] at hs
    simp at hs
  unfold Inst.soloRows at hs
  rw [if_pos hwa] at hs
  unfold singleJvp at ho
  rw [if_pos hwa] at ho
  unfold sparseSingle at ho
  have hax : (I.single (fun a => (args a).x) a).ax 0 = I.ax a := rfl
  have e1 : (I.single (fun a => (args a).x) a).flags.has Flags.SCATTER = false := hI.noScatter
  have e2 : (I.single (fun a => (args a).x) a).flags.has Flags.SUMMATION = false := h2
  rw [hax] at ho
  cases he : I.ax a with
  | elem π =>
    rw [he] at ho
    exact sparseDiag_one_weak _ _ _ ho
  | red r =>
    rw [he] at ho hs
    dsimp only at ho hs
    rw [e1, e2] at ho
    refine sparseReduce_sparse _ r T _ _ ho fun hT => ?_
    rw [if_pos hT] at hs
    simp at hs

theorem Jac.add_raises [Fintype P₀] [DecidableEq P₀] (a b : Jac P₀ F) (ha : a.weak = true) (hb : b.weak = true)
    (h : ¬ (a.nrows = b.nrows ∨ a.nrows = 1 ∨ b.nrows = 1)) : a.add b = .error .shape := by
  cases a with
  | dense _ => simp [Jac.weak] at ha
  | sparse r1 =>
  cases b with
  | dense _ => simp [Jac.weak] at hb
  | sparse r2 =>
    have h : ¬ (r1.length = r2.length ∨ r1.length = 1 ∨ r2.length = 1) := h
    rw [not_or, not_or] at h
    have hb : brdcastLen r1.length r2.length = none := by
      unfold brdcastLen
      rw [if_neg h.1, if_neg h.2.1, if_neg h.2.2]
    simp only [Jac.add, hb]

omit [Nonempty Q] in
theorem accumulate_error (e : Err) : ∀ (l : List (Except Err (JvpOut Q F))) (acc : Option (JvpOut Q F)),
    .error e ∈ l → ∃ e', accumulate l acc = .error e'
  | [], _, h => by simp at h
  | .error e' :: _, _, _ => ⟨e', rfl⟩
  | .ok o :: rest, none, h => by
    have h : .error e ∈ rest := by simpa using h
    exact accumulate_error e rest (some o) h
  | .ok o :: rest, some acc, h => by
    have h : .error e ∈ rest := by simpa using h
    unfold accumulate
    split
    · exact ⟨_, rfl⟩
    · exact accumulate_error e rest _ h

/-- **Exactly when** the first-order rule of a function of at most two derivative-carrying operands returns. -/
theorem jvpRule_returns_iff (I : Inst k P Q F) (T : ℕ) (hk : 0 < k) (h2 : k ≤ 2) (args : (a : Fin k) → Trip (P a) F)
    (hI : I.Sums fun a => (args a).x) (hm : I.multi = false) (h : ∀ a, (args a).jac.Filled) :
    (∃ o, jvpRule I T args = .ok o) ↔
      (I.takesReduction args → ∀ a r, I.ax a = .red r → (args a).jac.Live) ∧ (takesOneByOne I args → I.NoClash T args) := by
  constructor
  · rintro ⟨o, ho⟩
    have hred : I.takesReduction args → ∀ a r, I.ax a = .red r → (args a).jac.Live := by
      intro ht a r hr
      by_contra hl
      have hwa := (Jac.not_live hl).1
      have herr := singleJvp_raises I T args hI.noScatter ht.1 a r hr hl
      by_cases hone : takesOneByOne I args
      · unfold jvpRule at ho
        rw [if_neg hone] at ho
        unfold oneByOne at ho
        obtain ⟨e', he'⟩ := accumulate_error .emptyArgmax (List.ofFn fun a : Fin k =>
          singleJvp (I.single (fun a => (args a).x) a) T (args a)) none (List.mem_ofFn.mpr ⟨a, herr⟩)
        rw [he'] at ho
        simp at ho
      · rcases ht.2 with hc | ⟨hni, hne⟩
        · exact hone hc
        · unfold takesOneByOne at hone
          have hone' := not_not.mp hone
          unfold jvpRule at ho
          rw [if_pos hone'] at ho
          rcases hone' with hc | ⟨hall, hc⟩
          · have : anyWeak args = true := decide_eq_true ⟨a, hwa⟩
            rw [this] at hc
            simp at hc
          · have hk1 : k = 1 := by
              rcases hc with hc | hc | hc
              · rw [hni] at hc; simp at hc
              · rw [hne] at hc; simp at hc
              · exact hc
            subst hk1
            obtain rfl : a = 0 := Subsingleton.elim _ _
            unfold parallelJvp at ho
            rw [if_neg (by rw [hall]; simp), hni, if_neg (by simp), hne, if_neg (by simp), dif_pos rfl] at ho
            unfold singleJvp at herr
            rw [if_pos hwa] at herr
            have := ho.symm.trans herr
            simp at this
    refine ⟨hred, fun hone => ?_⟩
    have hns : I.flags.has Flags.SUMMATION = false := by
      by_contra hsum
      have hk1 := hI.one (by simpa using hsum)
      exact not_oneByOne_single I hk1 args hone
    have hlive := hred ⟨hns, Or.inl hone⟩
    have hk2 : k = 2 := by
      by_contra hc
      exact not_oneByOne_single I (by omega) args hone
    subst hk2
    refine Or.inr ⟨rfl, ?_⟩
    have key : ∀ m m', I.soloRows T args 0 = some m → I.soloRows T args 1 = some m' → m = m' ∨ m = 1 ∨ m' = 1 := by
      intro m m' e0 e1
      unfold jvpRule at ho
      rw [if_neg hone] at ho
      unfold oneByOne at ho
      choose s hs1 _ _ _ using fun a => singleJvp_returns I T args hI hm a (h a) fun _ => hlive a
      obtain ⟨w0, n0⟩ := singleJvp_rows I T args hI hm hns 0 (h 0) (hlive 0) _ (hs1 0) m e0
      obtain ⟨w1, n1⟩ := singleJvp_rows I T args hI hm hns 1 (h 1) (hlive 1) _ (hs1 1) m' e1
      by_contra hc
      have hadd := Jac.add_raises (s 0).jac (s 1).jac w0 w1 (by rw [n0, n1]; exact hc)
      rw [List.ofFn_succ, List.ofFn_succ, List.ofFn_zero, hs1] at ho
      have e : singleJvp (I.single (fun a => (args a).x) (Fin.succ 0)) T (args (Fin.succ 0)) = .ok (s 1) := hs1 1
      rw [e] at ho
      simp only [accumulate, hadd] at ho
      simp at ho
    intro a b m m' ea eb
    have hv : ∀ c : Fin 2, c = 0 ∨ c = 1 := by decide
    rcases hv a with rfl | rfl <;> rcases hv b with rfl | rfl
    · exact Or.inl (Option.some.inj (ea.symm.trans eb))
    · exact key m m' ea eb
    · rcases key m' m eb ea with h | h | h
      · exact Or.inl h.symm
      · exact Or.inr (Or.inr h)
      · exact Or.inr (Or.inl h)
    · exact Or.inl (Option.some.inj (ea.symm.trans eb))
  · rintro ⟨h3, h4⟩
    obtain ⟨o, ho, -⟩ := jvpRule_returns I T hk args hI hm h h3 h4
    exact ⟨o, ho⟩

end Rule

end Folx

import Verif.Core.HessSpec
import Mathlib.Data.Int.Interval

/-! # A whole wrapped function is exact; which dense Jacobians can occur -/

namespace Folx

open Folx.Interp (Err)

variable {k : ℕ} {P : Fin k → Type} {P₀ Q F : Type} [CommRing F]

/-- What a wrapped function must return (specification): value, pushed-forward Jacobian, and
`D f(laplacian) + ∑ᵢ D²f(∂ᵢ, ∂ᵢ)`. -/
structure WrapSpec (n : ℕ) (I : HInst k P Q F) (args : (a : Fin k) → Trip (P a) F) (t : Trip Q F) : Prop where
  x : t.x = I.fwd fun a => (args a).x
  jac : ∀ i q, t.jac.den i q = I.jvp (fun a => (args a).x) (fun a => (args a).jac.den i) q
  lapl : ∀ q, t.lapl q = I.jvp (fun a => (args a).x) (fun a => (args a).lapl) q +
    ∑ i ∈ Finset.range n, I.hess (I.out q).1 (I.sliceX (fun a => (args a).x) (I.out q).1)
      (I.sliceDen args (I.out q).1 i) (I.sliceDen args (I.out q).1 i) (I.out q).2
  wf : t.jac.Wf n

/-- The argument-by-argument path of the first-order rule is taken. -/
def takesOneByOne (I : Inst k P Q F) (args : (a : Fin k) → Trip (P a) F) : Prop :=
  ¬ (anyWeak args = false ∨
      (allWeak args = true ∧ (I.flags.has Flags.INDEXING = true ∨ I.elem = true ∨ k = 1)))

section
variable [∀ a, Fintype (P a)] [∀ a, DecidableEq (P a)] [Fintype Q] [DecidableEq Q]

theorem jvpRule_spec' (n : ℕ) (hn : 0 < n) (I : Inst k P Q F) (T : ℕ) (args : (a : Fin k) → Trip (P a) F)
    (hI : I.Lawful fun a => (args a).x) (hok : takesOneByOne I args → OneByOneOk I args)
    (hwf : ∀ a, (args a).jac.Wf n) (o : JvpOut Q F) (h : jvpRule I T args = .ok o) :
    JvpSpec n I args o := by
  unfold jvpRule at h
  split at h
  · exact parallelJvp_spec n hn I T args hI hwf o h
  · rename_i hc
    exact oneByOne_spec n hn I T args hI (hok hc) hwf o h

theorem wrapped_spec (n : ℕ) (hn : 0 < n) (hk : 0 < k) (I : HInst k P Q F) (T : ℕ)
    (args : (a : Fin k) → Trip (P a) F)
    (hI : I.toInst.Lawful fun a => (args a).x) (hH : I.HLawful n fun a => (args a).x)
    (hok : takesOneByOne I.toInst args → OneByOneOk I.toInst args) (hbil : I.BilinearOk)
    (hmix : Nonempty Q → I.MixOk T args)
    (hwf : ∀ a, (args a).jac.Wf n) (t : Trip Q F) (h : I.wrapped T args = .ok t) : WrapSpec n I args t := by
  unfold HInst.wrapped at h
  split at h
  · simp at h
  · rename_i o ho
    split at h
    · simp at h
    · rename_i r hr
      simp only [Except.ok.injEq] at h
      subst h
      obtain ⟨h1, h2, h3, h4⟩ := jvpRule_spec' n hn I.toInst T args hI hok hwf o ho
      refine ⟨h1, h2, fun q => ?_, h4⟩
      have := I.hessian_spec n hn T args hk hwf hH hbil (hmix ⟨q⟩) r hr q
      show o.lapl q + r q = _
      rw [this, h3]

end

/-! ### Row counts of dense Jacobians -/

/-- A dense Jacobian has at least `min T n` rows. -/
def Jac.Big (T n : ℕ) : Jac P₀ F → Prop
  | .dense rows => T ≤ rows.length ∨ n ≤ rows.length
  | .sparse _ => True

theorem Jac.Big.mono {T n a b : ℕ} (hab : a ≤ b) (h : T ≤ a ∨ n ≤ a) : T ≤ b ∨ n ≤ b := by omega

theorem Jac.Big.of_weak {T n : ℕ} {J : Jac P₀ F} (h : J.weak = true) : J.Big T n := by
  cases J with
  | dense _ => simp [Jac.weak] at h
  | sparse _ => trivial

theorem add_big [Fintype P₀] [DecidableEq P₀] (T n : ℕ) (a b c : Jac P₀ F) (ha : a.Big T n) (hb : b.Big T n)
    (h : a.add b = .ok c) : c.Big T n := by
  have key : ∀ (x y : Jac P₀ F) (r : List (P₀ → F)), x = .dense r ∨ y = .dense r →
      (T ≤ r.length ∨ n ≤ r.length) →
      (match x.denseArray, y.denseArray with
        | .ok a, .ok b => .ok (Jac.dense (addJacobians a b))
        | .error e, _ => .error e
        | _, .error e => .error e) = (.ok c : Except Err (Jac P₀ F)) → c.Big T n := by
    intro x y r hr hbig hxy
    cases hx : x.denseArray with
    | error e => rw [hx] at hxy; simp at hxy
    | ok u =>
      cases hy : y.denseArray with
      | error e => rw [hx, hy] at hxy; simp at hxy
      | ok w =>
        rw [hx, hy] at hxy
        simp only [Except.ok.injEq] at hxy
        subst hxy
        show T ≤ (addJacobians u w).length ∨ n ≤ (addJacobians u w).length
        rw [Jac.addJacobians_length]
        rcases hr with rfl | rfl
        · simp only [Jac.denseArray, Except.ok.injEq] at hx
          subst hx
          omega
        · simp only [Jac.denseArray, Except.ok.injEq] at hy
          subst hy
          omega
  match a, b, h with
  | .sparse r1, .sparse r2, h =>
    simp only [Jac.add] at h
    split at h
    · simp at h
    · split at h <;> (simp only [Except.ok.injEq] at h; subst h; trivial)
  | .dense r1, .dense r2, h => exact key (.dense r1) (.dense r2) r1 (Or.inl rfl) ha h
  | .dense r1, .sparse r2, h => exact key (.dense r1) (.sparse r2) r1 (Or.inl rfl) ha h
  | .sparse r1, .dense r2, h => exact key (.sparse r1) (.dense r2) r2 (Or.inr rfl) hb h

theorem accumulate_big [Fintype Q] [DecidableEq Q] (T n : ℕ) :
    ∀ (l : List (Except Err (JvpOut Q F))) (acc : Option (JvpOut Q F)) (o : JvpOut Q F),
      (∀ r ∈ l, ∀ o, r = .ok o → o.jac.Big T n) → (∀ o, acc = some o → o.jac.Big T n) →
      accumulate l acc = .ok (some o) → o.jac.Big T n
  | [], acc, o, _, hacc, h => by
    simp only [accumulate, Except.ok.injEq] at h
    exact hacc o h
  | .error e :: _, _, _, _, _, h => by simp [accumulate] at h
  | .ok r :: rest, none, o, hl, _, h => by
    simp only [accumulate] at h
    exact accumulate_big T n rest (some r) o (fun r' hr' => hl r' (by simp [hr']))
      (fun o' ho' => by cases ho'; exact hl _ (by simp) _ rfl) h
  | .ok r :: rest, some acc, o, hl, hacc, h => by
    simp only [accumulate] at h
    split at h
    · simp at h
    · rename_i j hj
      refine accumulate_big T n rest _ o (fun r' hr' => hl r' (by simp [hr'])) ?_ h
      intro o' ho'
      cases ho'
      exact add_big T n acc.jac r.jac j (hacc acc rfl) (hl _ (by simp) _ rfl) hj

theorem denseArray_big [Fintype P₀] (T n : ℕ) (J : Jac P₀ F) (rows : List (P₀ → F))
    (h : J.denseArray = .ok rows) (hw : J.weak = false) (hb : J.Big T n) : T ≤ rows.length ∨ n ≤ rows.length := by
  cases J with
  | sparse _ => simp [Jac.weak] at hw
  | dense r =>
    simp only [Jac.denseArray, Except.ok.injEq] at h
    subst h
    exact hb

/-- The dense rule returns as many rows as its longest argument. -/
theorem denseJvp_rows [∀ a, Fintype (P a)] [∀ a, DecidableEq (P a)] [Fintype Q]
    (I : Inst k P Q F) (args : (a : Fin k) → Trip (P a) F) (o : JvpOut Q F) (h : denseJvp I args = .ok o) :
    ∃ (rows : (a : Fin k) → List (P a → F)) (res : List (Q → F)),
      (∀ a, (args a).jac.denseArray = .ok (rows a)) ∧ o.jac = .dense res ∧
      ∀ a, (rows a).length ≤ res.length := by
  unfold denseJvp at h
  split at h
  · simp at h
  rename_i rows hrows
  refine ⟨rows, ?_⟩
  have hsplit : ∃ res, (denseSplit I args rows).jac = .dense res ∧ ∀ a, (rows a).length ≤ res.length := by
    refine ⟨_, rfl, fun a => ?_⟩
    rw [List.length_map, List.length_range]
    exact length_le_maxLen rows a
  split at h
  · rename_i hk
    simp only [Except.ok.injEq] at h
    subst h
    unfold denseElementwise
    split
    · obtain ⟨res, h1, h2⟩ := hsplit
      exact ⟨res, seqFin_ok _ _ hrows, h1, h2⟩
    · refine ⟨_, seqFin_ok _ _ hrows, rfl, fun a => ?_⟩
      rw [List.length_map]
      have : a = ⟨0, by omega⟩ := Fin.ext (by have := a.2; have := hk.2; simp; omega)
      rw [this]
  · obtain ⟨res, h1, h2⟩ := hsplit
    split at h
    · simp only [Except.ok.injEq] at h
      subst h
      rw [denseJoint_eq]
      exact ⟨res, seqFin_ok _ _ hrows, h1, h2⟩
    · simp only [Except.ok.injEq] at h
      subst h
      exact ⟨res, seqFin_ok _ _ hrows, h1, h2⟩

theorem denseJvp_big [∀ a, Fintype (P a)] [∀ a, DecidableEq (P a)] [Fintype Q] (T n : ℕ)
    (I : Inst k P Q F) (args : (a : Fin k) → Trip (P a) F) (a : Fin k) (hw : (args a).jac.weak = false)
    (hb : (args a).jac.Big T n) (o : JvpOut Q F) (h : denseJvp I args = .ok o) : o.jac.Big T n := by
  obtain ⟨rows, res, h1, h2, h3⟩ := denseJvp_rows I args o h
  rw [h2]
  have := denseArray_big T n _ _ (h1 a) hw hb
  have := h3 a
  show T ≤ res.length ∨ n ≤ res.length
  omega

/-- Cardinality bound for sets of indices below `m`. -/
theorem card_le_of_mem (s : Finset ℤ) (lo hi : ℤ) (h : ∀ z ∈ s, lo ≤ z ∧ z ≤ hi) :
    s.card ≤ (hi + 1 - lo).toNat := by
  calc s.card ≤ (Finset.Icc lo hi).card := Finset.card_le_card fun z hz => Finset.mem_Icc.mpr (h z hz)
    _ = _ := by rw [Int.card_Icc]

theorem idx_le_maxN [Fintype P₀] (rows : List (Row P₀ F)) (m : ℤ) (hm : Jac.maxN rows = (m : WithBot ℤ))
    (r : Row P₀ F) (hr : r ∈ rows) (p : P₀) : r.idx p ≤ m := by
  have := Jac.le_maxN rows r hr p
  rw [hm] at this
  exact WithBot.coe_le_coe.mp this

theorem sparseSum_big [Fintype P₀] [Fintype Q] (r : Red P₀ Q) (T n : ℕ) (arg : Trip P₀ F)
    (hwf : arg.jac.Wf n) (o : JvpOut Q F) (h : sparseSum r T arg = .ok o) : o.jac.Big T n := by
  unfold sparseSum at h
  simp only at h
  split at h
  · simp at h
  split at h
  · rename_i hgt
    split at h
    · simp at h
    · rename_i m hm
      simp only [Except.ok.injEq] at h
      subst h
      left
      rw [List.length_map, List.length_range]
      by_contra hc
      have hlt := lt_of_lt_of_le hgt (Finset.sup_le (a := T) fun q _ => ?_)
      · omega
      · have hc' : (sumIdx r arg.jac.srows q).card ≤ (m + 1 - (-1)).toNat := by
          apply card_le_of_mem
          intro z hz
          obtain ⟨row, hrow, c, rfl⟩ := (mem_sumIdx r _ q z).mp hz
          refine ⟨?_, idx_le_maxN _ m hm row hrow _⟩
          have := srows_wf _ hwf row hrow (r.split.symm (r.κ q, c))
          by_contra hc
          have := (this.2 (by omega)).1
          omega
        have hm1 : -1 ≤ m := by
          by_contra hm1
          -- every index is at least -1
          have hne : arg.jac.srows ≠ [] := by
            intro he; rw [he] at hm; simp [Jac.maxN] at hm
          obtain ⟨row, hrow⟩ := List.exists_mem_of_ne_nil _ hne
          have : IsEmpty P₀ := by
            by_contra hE
            rw [not_isEmpty_iff] at hE
            have h1 := idx_le_maxN _ m hm row hrow (Classical.arbitrary P₀)
            have h2 := srows_wf _ hwf row hrow (Classical.arbitrary P₀)
            have := (h2.2 (by omega)).1
            omega
          have : Jac.maxN arg.jac.srows = ⊥ := by
            clear hm hgt hrow hne
            induction arg.jac.srows with
            | nil => rfl
            | cons a l ih =>
              unfold Jac.maxN at ih ⊢
              simp only [List.foldr_cons, ih]
              simp
          rw [this] at hm
          cases hm
        omega
  · simp only [Except.ok.injEq] at h
    subst h
    trivial

theorem sparseReduce_big [Fintype P₀] [DecidableEq P₀] [Fintype Q]
    (I : Inst 1 (fun _ => P₀) Q F) (r : Red P₀ Q) (T n : ℕ) (arg : Trip P₀ F) (hw : arg.jac.weak = true)
    (hwf : arg.jac.Wf n) (o : JvpOut Q F) (h : sparseReduce I r T arg = .ok o) : o.jac.Big T n := by
  unfold sparseReduce at h
  split at h
  · simp at h
  rename_i gradTan outMask hj
  split at h
  · rename_i hgt
    obtain ⟨rows, res, h1, h2, h3⟩ := denseJvp_rows I (fun _ => arg) o h
    rw [h2]
    left
    have h1 := h1 0
    have h3 := h3 0
    refine le_trans ?_ h3
    -- the masks list more than `T` distinct indices
    unfold jacobianForReduction at hj
    split at hj
    · simp at hj
    simp only at hj
    split at hj
    · simp at hj
    simp only [Except.ok.injEq, Prod.mk.injEq] at hj
    rw [← hj.2, List.length_map, List.length_range] at hgt
    cases hJ : arg.jac with
    | dense _ => rw [hJ] at hw; simp [Jac.weak] at hw
    | sparse srows =>
      rw [hJ] at h1
      have hs : arg.jac.srows = srows := by rw [hJ]; rfl
      rw [hs] at hgt
      simp only [Jac.denseArray] at h1
      split at h1
      · simp at h1
      · rename_i m hm
        have hlen : rows 0 = rows 0 ∧ (m + 1).toNat ≤ (rows 0).length := by
          refine ⟨rfl, ?_⟩
          unfold Jac.constructSparse at h1
          split at h1
          · rename_i he
            have : (m + 1).toNat = 0 := by
              have := congrArg List.length he
              simpa [arange] using this
            omega
          · unfold Jac.getIndexMask at h1
            rename_i he
            simp only [he, if_false, Except.ok.injEq] at h1
            rw [← h1]
            simp [Jac.materializeForIdx, arange]
        by_contra hc
        have hlt := lt_of_lt_of_le hgt (Finset.sup_le (a := T) fun u _ => ?_)
        · omega
        · have hc' : (redIdx r srows u).card ≤ (m + 1 - 0).toNat := by
            apply card_le_of_mem
            intro z hz
            obtain ⟨hz1, row, hrow, c, rfl⟩ := (mem_redIdx r _ u z).mp hz
            refine ⟨?_, idx_le_maxN _ m hm row hrow _⟩
            rw [hJ] at hwf
            have := hwf row hrow (r.split.symm (u, c))
            by_contra hc
            exact hz1 (this.2 (by omega)).1
          omega
  · split at h
    · simp at h
    · simp only [Except.ok.injEq] at h
      subst h
      trivial

theorem sparseDiag_weak [∀ a, DecidableEq (P a)] [Fintype Q] [DecidableEq Q]
    (I : Inst k P Q F) (args : (a : Fin k) → Trip (P a) F) (o : JvpOut Q F) (h : sparseDiag I args = .ok o) :
    o.jac.weak = true := by
  unfold sparseDiag at h
  split at h
  · simp at h
  simp only at h
  split at h
  · split at h <;> (simp only [Except.ok.injEq] at h; subst h; rfl)
  · simp only [Except.ok.injEq] at h; subst h; rfl

theorem sparseSingle_big [Fintype P₀] [DecidableEq P₀] [Fintype Q] [DecidableEq Q]
    (I : Inst 1 (fun _ => P₀) Q F) (T n : ℕ) (arg : Trip P₀ F) (hns : I.flags.has Flags.SCATTER = false)
    (hw : arg.jac.weak = true) (hwf : arg.jac.Wf n)
    (o : JvpOut Q F) (h : sparseSingle I T arg = .ok o) : o.jac.Big T n := by
  unfold sparseSingle at h
  split at h
  · exact Jac.Big.of_weak (sparseDiag_weak _ _ o h)
  · rw [hns] at h
    simp only [Bool.false_eq_true, if_false] at h
    split at h
    · exact sparseSum_big _ T n arg hwf o h
    · exact sparseReduce_big I _ T n arg hw hwf o h

theorem singleJvp_big [Fintype P₀] [DecidableEq P₀] [Fintype Q] [DecidableEq Q]
    (I : Inst 1 (fun _ => P₀) Q F) (T n : ℕ) (arg : Trip P₀ F) (hns : I.flags.has Flags.SCATTER = false)
    (hwf : arg.jac.Wf n) (hb : arg.jac.Big T n)
    (o : JvpOut Q F) (h : singleJvp I T arg = .ok o) : o.jac.Big T n := by
  unfold singleJvp at h
  split at h
  · rename_i hw
    exact sparseSingle_big I T n arg hns hw hwf o h
  · rename_i hw
    exact denseJvp_big T n I (fun _ => arg) 0 (by simpa using hw) hb o h

/-- Only a dynamic indexing operation on sparse arguments creates a short dense Jacobian. -/
theorem jvpRule_big [∀ a, Fintype (P a)] [∀ a, DecidableEq (P a)] [Fintype Q] [DecidableEq Q]
    (I : Inst k P Q F) (T n : ℕ) (hk : 0 < k) (args : (a : Fin k) → Trip (P a) F)
    (hns : I.flags.has Flags.SCATTER = false)
    (hst : I.flags.has Flags.INDEXING = true → I.static = true)
    (hwf : ∀ a, (args a).jac.Wf n) (hb : ∀ a, (args a).jac.Big T n)
    (o : JvpOut Q F) (h : jvpRule I T args = .ok o) : o.jac.Big T n := by
  unfold jvpRule at h
  split at h
  · rename_i hc
    unfold parallelJvp at h
    split at h
    · rename_i hall
      have hany : anyWeak args = false := by
        rcases hc with hc | hc
        · exact hc
        · rw [hall] at hc; simp at hc
      have hw : (args ⟨0, hk⟩).jac.weak = false := by
        unfold anyWeak at hany
        simp only [decide_eq_false_iff_not, not_exists] at hany
        simpa using hany ⟨0, hk⟩
      exact denseJvp_big T n I args _ hw (hb _) o h
    rename_i hall
    split at h
    · rename_i hidx
      unfold sparseIndex at h
      rw [hst hidx] at h
      simp only [if_true] at h
      split at h
      · simp at h
      · simp only [Except.ok.injEq] at h; subst h; trivial
    split at h
    · exact Jac.Big.of_weak (sparseDiag_weak _ _ o h)
    split at h
    · have hw : allWeak args = true := by simpa using hall
      unfold allWeak at hw
      simp only [decide_eq_true_eq] at hw
      exact sparseSingle_big _ T n _ hns (hw _) (hwf _) o h
    · rename_i h1 h2 h3
      rcases hc with hc | ⟨_, hc | hc | hc⟩
      · have hw : (args ⟨0, hk⟩).jac.weak = false := by
          unfold anyWeak at hc
          simp only [decide_eq_false_iff_not, not_exists] at hc
          simpa using hc ⟨0, hk⟩
        exact denseJvp_big T n I args _ hw (hb _) o h
      · exact absurd hc h1
      · exact absurd hc h2
      · exact absurd hc h3
  · unfold oneByOne at h
    split at h
    · simp at h
    · simp at h
    · rename_i o' hacc
      simp only [Except.ok.injEq] at h
      subst h
      refine accumulate_big T n _ none o' ?_ (by simp) hacc
      intro r hr o ho
      obtain ⟨a, rfl⟩ := (List.mem_ofFn' _ _).mp hr
      exact singleJvp_big _ T n (args a) hns (hwf a) (hb a) o ho

/-! ### Mixed arguments are harmless if the dense Jacobians are long enough -/

theorem dense_mem_posIdx {K₀ : Type} {d : ℕ} (e : P₀ ≃ K₀ × Fin d) (hd : 0 < d) (rows : List (P₀ → F)) (u : K₀)
    (i : ℕ) (hi : i < rows.length) : (i : ℤ) ∈ HInst.posIdx e (.dense rows) u := by
  rw [mem_posIdx]
  simp only [Jac.srows]
  rw [zipWith_eq_range]
  exact ⟨_, List.mem_map_of_mem (List.mem_range.mpr hi), ⟨0, hd⟩, rfl⟩

theorem HInst.mixOk_of_big [∀ a, Fintype (P a)] (I : HInst k P Q F) (T n : ℕ)
    (args : (a : Fin k) → Trip (P a) F) (hV : Nonempty I.V) (hdim : ∀ a, 0 < I.dim a)
    (hκ : ∀ a, Function.Surjective (I.hκ a)) (hwf : ∀ a, (args a).jac.Wf n)
    (hb : ∀ a, (args a).jac.Big T n)
    (hsp : I.flags.has Flags.SPARSE_JHJ = true → I.flags.has Flags.LINEAR_IN_ONE = true) :
    I.MixOk T args := by
  by_cases hlio : I.flags.has Flags.LINEAR_IN_ONE = true
  · exact Or.inr (Or.inr (Or.inl hlio))
  by_cases hall : allWeak args = true
  · exact Or.inl hall
  by_cases hany : anyWeak args = false
  · exact Or.inr (Or.inl hany)
  have hlio' : I.flags.has Flags.LINEAR_IN_ONE = false := by simpa using hlio
  have hsp' : I.flags.has Flags.SPARSE_JHJ = false := by
    by_contra hc
    exact hlio (hsp (by simpa using hc))
  refine Or.inr (Or.inr (Or.inr (Or.inr ⟨?_, hsp'⟩)))
  -- the dense argument with the most rows
  unfold allWeak at hall
  simp only [decide_eq_true_eq, not_forall] at hall
  obtain ⟨a0, ha0⟩ := hall
  let S : Finset (Fin k) := Finset.univ.filter fun a => (args a).jac.weak = false
  have hS : S.Nonempty := ⟨a0, by simp [S]; simpa using ha0⟩
  obtain ⟨a, haS, hamax⟩ := S.exists_max_image (fun a => (args a).jac.nrows) hS
  have haw : (args a).jac.weak = false := by simpa [S] using haS
  obtain ⟨rows, hrows⟩ : ∃ rows, (args a).jac = .dense rows := by
    cases h : (args a).jac with
    | dense r => exact ⟨r, rfl⟩
    | sparse r => rw [h] at haw; simp [Jac.weak] at haw
  set R := rows.length with hR
  have hbig : T ≤ R ∨ n ≤ R := by have := hb a; rw [hrows] at this; exact this
  have hsub : ∀ v, (Finset.range R).image (fun i : ℕ => (i : ℤ)) ⊆ I.mergedIdx args v := by
    intro v z hz
    obtain ⟨i, hi, rfl⟩ := Finset.mem_image.mp hz
    rw [I.mem_merged_union n args hwf hlio']
    refine ⟨a, by simp, ?_⟩
    rw [hrows]
    exact dense_mem_posIdx _ (hdim a) rows _ i (by simpa using hi)
  have hcardR : ((Finset.range R).image (fun i : ℕ => (i : ℤ))).card = R := by
    rw [Finset.card_image_of_injective _ Nat.cast_injective, Finset.card_range]
  have hR_le : R ≤ I.idxWidth args := by
    obtain ⟨v⟩ := hV
    calc R = _ := hcardR.symm
      _ ≤ _ := Finset.card_le_card (hsub v)
      _ ≤ _ := I.card_le_width args v
  unfold HInst.findOutIdx
  rw [if_neg hany]
  show decide (I.idxWidth args ≥ HInst.maxSize args ∨ I.idxWidth args > T) = true
  rw [decide_eq_true_eq]
  by_cases hex : ∃ v, ∃ z ∈ I.mergedIdx args v, (R : ℤ) ≤ z
  · right
    obtain ⟨v, z, hz, hzR⟩ := hex
    have hzn : z < n := by
      obtain ⟨b, _, hb'⟩ := (I.mem_merged_union n args hwf hlio' v z).mp hz
      exact (posIdx_wf _ _ n (hwf b) _ z hb').2
    have hTR : T ≤ R := by omega
    have hcard : R + 1 ≤ (I.mergedIdx args v).card := by
      have hnot : z ∉ (Finset.range R).image (fun i : ℕ => (i : ℤ)) := by
        intro h
        obtain ⟨i, hi, rfl⟩ := Finset.mem_image.mp h
        simp at hi
        omega
      calc R + 1 = (insert z ((Finset.range R).image (fun i : ℕ => (i : ℤ)))).card := by
            rw [Finset.card_insert_of_notMem hnot, hcardR]
        _ ≤ _ := Finset.card_le_card (Finset.insert_subset hz (hsub v))
    have := I.card_le_width args v
    omega
  · left
    push Not at hex
    refine le_trans (Finset.sup_le fun b _ => ?_) hR_le
    cases hJ : (args b).jac with
    | dense r =>
      have := hamax b (Finset.mem_filter.mpr ⟨Finset.mem_univ _, by rw [hJ]; rfl⟩)
      rw [hJ, hrows] at this
      exact this
    | sparse r =>
      simp only [HInst.nUnique]
      rw [← hcardR]
      apply Finset.card_le_card
      intro z hz
      obtain ⟨h1, h0⟩ := Finset.mem_filter.mp hz
      rw [mem_foldr_union] at h1
      obtain ⟨row, hrow, hp⟩ := h1
      obtain ⟨p, _, rfl⟩ := Finset.mem_image.mp hp
      obtain ⟨v, hv⟩ := hκ b ((I.hsplit b) p).1
      have hm : row.idx p ∈ I.mergedIdx args v := by
        rw [I.mem_merged_union n args hwf hlio']
        refine ⟨b, h0, ?_⟩
        rw [mem_posIdx, hJ]
        refine ⟨row, hrow, ((I.hsplit b) p).2, ?_⟩
        rw [hv]
        simp
      have := hex v _ hm
      refine Finset.mem_image.mpr ⟨(row.idx p).toNat, ?_, by omega⟩
      simp; omega

/-- If the arguments of a wrapped function with `k ≥ 2` derivative-carrying arguments take the
one-by-one path, it is harmless for at most two arguments and for functions with reduced axes. -/
theorem oneByOneOk_of_static (I : Inst k P Q F) (args : (a : Fin k) → Trip (P a) F)
    (h : k ≤ 2 ∨ ∀ a, ∃ r, I.ax a = .red r) (hel : ∀ a π, I.ax a = .elem π → I.elem = true)
    (ht : takesOneByOne I args) : OneByOneOk I args := by
  rcases h with h | h
  · by_cases hred : ∀ a, ∃ r, I.ax a = .red r
    · exact Or.inr fun a _ => hred a
    · push Not at hred
      obtain ⟨c, hc⟩ := hred
      have helem : I.elem = true := by
        cases hx : I.ax c with
        | elem π => exact hel c π hx
        | red r => exact absurd hx (hc r)
      left
      intro a b ha hb
      by_contra hab
      apply ht
      right
      refine ⟨?_, Or.inr (Or.inl helem)⟩
      unfold allWeak
      simp only [decide_eq_true_eq]
      intro d
      have : d = a ∨ d = b := by
        have := a.2; have := b.2; have := d.2
        have hne : a.val ≠ b.val := fun h => hab (Fin.ext h)
        have : d.val = a.val ∨ d.val = b.val := by omega
        rcases this with h | h
        · exact Or.inl (Fin.ext h)
        · exact Or.inr (Fin.ext h)
      rcases this with rfl | rfl <;> assumption
  · exact Or.inr fun a _ => h a

end Folx

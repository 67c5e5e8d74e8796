import Verif.Core.ScatterTotal
import Verif.Core.BoundsProofs

/-!
# When the first-order rule returns with sparse operands

The rules raise only if the storage of a sparse operand is empty, holds no index of an input at all (reductions), if an array has
no elements, or if two sparse results with different numbers of rows are added.
-/

namespace Folx

open Folx.Interp (Err)

variable {k : ℕ} {P : Fin k → Type} {P₀ Q F : Type} [CommRing F]

/-- If the storage is sparse, every element stores the index of some input. -/
def Jac.Full {P : Type} : Jac P F → Prop
  | .sparse rows => ∀ p, ∃ r ∈ rows, r.idx p ≠ -1
  | .dense _ => True

theorem Jac.Full.srows {J : Jac P₀ F} (h : J.Full) (hw : J.weak = true) (p : P₀) : ∃ r ∈ J.srows, r.idx p ≠ -1 := by
  cases J with
  | dense _ => simp [Jac.weak] at hw
  | sparse rows => exact h p

theorem Jac.Full.filled [Nonempty P₀] {J : Jac P₀ F} (h : J.Full) : J.Filled := by
  intro hw
  obtain ⟨r, hr, -⟩ := h.srows hw (Classical.arbitrary P₀)
  rw [← srows_length]
  exact fun hc => by
    have := List.length_eq_zero_iff.mp hc
    rw [this] at hr
    simp at hr

theorem Jac.Filled.srows {J : Jac P₀ F} (h : J.Filled) (hw : J.weak = true) : ∃ r, r ∈ J.srows := by
  have := h hw
  rw [← srows_length] at this
  obtain ⟨r, hr⟩ := List.exists_mem_of_ne_nil J.srows fun hc => this (by rw [hc]; rfl)
  exact ⟨r, hr⟩

theorem Jac.filled_of_mem {rows : List (Row P₀ F)} {r : Row P₀ F} (h : r ∈ rows) : (Jac.sparse rows).Filled := by
  intro _
  show rows.length ≠ 0
  exact (List.length_pos_of_mem h).ne'

/-- If the storage is sparse, some element stores the index of some input. -/
def Jac.Live {P : Type} : Jac P F → Prop
  | .sparse rows => ∃ p, ∃ r ∈ rows, r.idx p ≠ -1
  | .dense _ => True

theorem Jac.Live.srows {J : Jac P₀ F} (h : J.Live) (hw : J.weak = true) : ∃ p, ∃ r ∈ J.srows, r.idx p ≠ -1 := by
  cases J with
  | dense _ => simp [Jac.weak] at hw
  | sparse rows => exact h

theorem Jac.Full.live [Nonempty P₀] {J : Jac P₀ F} (h : J.Full) : J.Live := by
  cases J with
  | dense _ => trivial
  | sparse rows => exact ⟨Classical.arbitrary P₀, h _⟩

theorem Jac.filled_dense {J : Jac P₀ F} (h : J.weak = false) : J.Filled := fun hw => by rw [h] at hw; simp at hw

theorem Jac.full_dense {J : Jac P₀ F} (h : J.weak = false) : J.Full := by
  cases J with
  | dense _ => trivial
  | sparse _ => simp [Jac.weak] at h

/-- The number of distinct inputs that the elements combined into one output store at most. -/
def Red.deps (r : Red P₀ Q) (rows : List (Row P₀ F)) : ℕ := Finset.univ.sup fun u : r.K => (redIdx r rows u).card

/-! ### The dense rule -/

theorem denseJvp_weak [∀ a, Fintype (P a)] [∀ a, DecidableEq (P a)] [Fintype Q] (I : Inst k P Q F)
    (args : (a : Fin k) → Trip (P a) F) (o : JvpOut Q F) (h : denseJvp I args = .ok o) :
    o.jac.weak = false ∧ o.y = I.fwd fun a => (args a).x := by
  unfold denseJvp at h
  split at h
  · simp at h
  · split at h
    · obtain rfl := Except.ok.inj h
      unfold denseElementwise
      split <;> exact ⟨rfl, rfl⟩
    · split at h
      · obtain rfl := Except.ok.inj h
        exact ⟨rfl, rfl⟩
      · obtain rfl := Except.ok.inj h
        exact ⟨rfl, rfl⟩

theorem denseJvp_returns [∀ a, Fintype (P a)] [∀ a, DecidableEq (P a)] [∀ a, Nonempty (P a)] [Fintype Q] (I : Inst k P Q F)
    (args : (a : Fin k) → Trip (P a) F) (h : ∀ a, (args a).jac.Filled) :
    ∃ o, denseJvp I args = .ok o ∧ o.jac.weak = false ∧ o.y = I.fwd fun a => (args a).x := by
  obtain ⟨o, ho⟩ := denseJvp_total I args h
  exact ⟨o, ho, denseJvp_weak I args o ho⟩

/-! ### The sparse rules -/

theorem sparseDiag_returns [∀ a, DecidableEq (P a)] [Fintype Q] [DecidableEq Q] (I : Inst k P Q F) (hm : I.multi = false)
    (hk : 0 < k) (args : (a : Fin k) → Trip (P a) F) (h : ∀ a, (args a).jac.Filled) (hw : ∀ a, (args a).jac.weak = true) :
    ∃ o, sparseDiag I args = .ok o ∧ (o.jac.Filled ∧ ((∀ a, (args a).jac.Full) → o.jac.Full)) ∧
      o.y = I.fwd fun a => (args a).x := by
  obtain ⟨r0, hr0⟩ := (h ⟨0, hk⟩).srows (hw _)
  have hmem : (⟨fun q => r0.idx (I.π ⟨0, hk⟩ q), I.jvp (fun a => (args a).x) (Pi.single ⟨0, hk⟩ r0.val)⟩ : Row Q F) ∈
      List.flatten (List.ofFn fun a : Fin k => (args a).jac.srows.map fun r =>
        (⟨fun q => r.idx (I.π a q), I.jvp (fun a => (args a).x) (Pi.single a r.val)⟩ : Row Q F)) :=
    List.mem_flatten.mpr ⟨_, List.mem_ofFn.mpr ⟨⟨0, hk⟩, rfl⟩, List.mem_map.mpr ⟨r0, hr0, rfl⟩⟩
  have hgen : (∀ a, (args a).jac.Full) → ∀ q, ∃ r ∈ List.flatten (List.ofFn fun a : Fin k => (args a).jac.srows.map fun r =>
      (⟨fun q => r.idx (I.π a q), I.jvp (fun a => (args a).x) (Pi.single a r.val)⟩ : Row Q F)), r.idx q ≠ -1 := by
    intro h q
    obtain ⟨r, hr, hi⟩ := (h ⟨0, hk⟩).srows (hw _) (I.π ⟨0, hk⟩ q)
    refine ⟨_, List.mem_flatten.mpr ⟨_, List.mem_ofFn.mpr ⟨⟨0, hk⟩, rfl⟩, List.mem_map.mpr ⟨r, hr, rfl⟩⟩, hi⟩
  unfold sparseDiag
  rw [if_neg (by simp [hm])]
  dsimp only
  split
  · split
    · rename_i e he
      refine ⟨_, rfl, ⟨Jac.filled_of_mem (List.mem_map.mpr ⟨r0, hr0, rfl⟩), ?_⟩, rfl⟩
      intro h q
      obtain ⟨r, hr, hi⟩ := (h ⟨0, hk⟩).srows (hw _) (e q)
      exact ⟨_, List.mem_map.mpr ⟨r, hr, rfl⟩, hi⟩
    · exact ⟨_, rfl, ⟨Jac.filled_of_mem hmem, hgen⟩, rfl⟩
  · refine ⟨_, rfl, ⟨Jac.filled_of_mem (List.mem_map.mpr ⟨_, List.mem_dedup.mpr (List.mem_map.mpr ⟨_, hmem, rfl⟩), rfl⟩), ?_⟩, rfl⟩
    intro h q
    obtain ⟨r, hr, hi⟩ := hgen h q
    refine ⟨_, List.mem_map.mpr ⟨r.idx, List.mem_dedup.mpr (List.mem_map.mpr ⟨r, hr, rfl⟩), rfl⟩, hi⟩

theorem sparseIndex_returns [∀ a, Fintype (P a)] [∀ a, DecidableEq (P a)] [∀ a, Nonempty (P a)] [Fintype Q]
    (I : Inst k P Q F) (hm : I.multi = false) (hk : 0 < k)
    (args : (a : Fin k) → Trip (P a) F) (h : ∀ a, (args a).jac.Filled) (hw : ∀ a, (args a).jac.weak = true) :
    ∃ o, sparseIndex I args = .ok o ∧
      (o.jac.Filled ∧ ((I.static = true → ∀ q, ∃ s, I.src q = some s) → (∀ a, (args a).jac.Full) → o.jac.Full)) ∧
      o.y = I.fwd fun a => (args a).x := by
  unfold sparseIndex
  split
  · rename_i hst
    rw [if_neg (by simp [hm])]
    obtain ⟨r0, hr0⟩ := (h ⟨0, hk⟩).srows (hw _)
    refine ⟨_, rfl, ⟨Jac.filled_of_mem (List.mem_map.mpr ⟨0, List.mem_range.mpr (lt_of_lt_of_le (List.length_pos_of_mem hr0)
      (Finset.le_sup (f := fun a => (args a).jac.srows.length) (Finset.mem_univ (⟨0, hk⟩ : Fin k)))), rfl⟩), ?_⟩, rfl⟩
    intro hsrc h q
    obtain ⟨⟨a, p⟩, hs⟩ := hsrc hst q
    obtain ⟨r, hr, hi⟩ := (h a).srows (hw a) p
    obtain ⟨i, hi', rfl⟩ := List.getElem_of_mem hr
    refine ⟨_, List.mem_map.mpr ⟨i, List.mem_range.mpr (lt_of_lt_of_le hi'
      (Finset.le_sup (f := fun a => (args a).jac.srows.length) (Finset.mem_univ a))), rfl⟩, ?_⟩
    show (match I.src q with
      | some ⟨a, p⟩ => ((args a).jac.srows.getD i ⟨fun _ => -1, fun _ => 0⟩).idx p
      | none => -1) ≠ -1
    rw [hs]
    show ((args a).jac.srows.getD i ⟨fun _ => -1, fun _ => 0⟩).idx p ≠ -1
    rw [List.getD_eq_getElem _ _ hi']
    exact hi
  · obtain ⟨o, h1, h2, h3⟩ := denseJvp_returns I args h
    exact ⟨o, h1, ⟨Jac.filled_dense h2, fun _ _ => Jac.full_dense h2⟩, h3⟩

theorem maxN_some [Fintype P₀] (rows : List (Row P₀ F)) (r : Row P₀ F) (hr : r ∈ rows) (p : P₀) : Jac.maxN rows ≠ ⊥ := by
  have := Jac.le_maxN rows r hr p
  intro h
  rw [h] at this
  exact absurd this (by simp)

theorem getD_sort_ne {s : Finset ℤ} {z : ℤ} (h : z ∈ s) : ∃ i < s.card, (s.sort (· ≤ ·)).getD i (-1) = z := by
  obtain ⟨i, hi, he⟩ := List.getElem_of_mem ((Finset.mem_sort (· ≤ ·)).mpr h)
  refine ⟨i, by simpa using hi, ?_⟩
  rw [List.getD_eq_getElem _ _ hi]
  exact he

theorem sparseSum_returns [Fintype P₀] [Nonempty P₀] [Fintype Q] [Nonempty Q] (r : Red P₀ Q) (T : ℕ) (arg : Trip P₀ F)
    (h : arg.jac.Filled) (hw : arg.jac.weak = true) : ∃ o, sparseSum r T arg = .ok o ∧
      (o.jac.Filled ∧ (arg.jac.Full → o.jac.Full)) ∧ o.y = fun q => ∑ c : r.C, arg.x (r.split.symm (r.κ q, c)) := by
  obtain ⟨row, hrow⟩ := h.srows hw
  have hb := maxN_some _ row hrow (Classical.arbitrary P₀)
  unfold sparseSum
  dsimp only
  rw [if_neg Fintype.card_ne_zero]
  split
  · split
    · rename_i hc
      exact absurd hc hb
    · exact ⟨_, rfl, ⟨Jac.filled_dense rfl, fun _ => trivial⟩, rfl⟩
  · have hpos : 0 < Finset.univ.sup fun q : Q => max 1 (sumIdx r arg.jac.srows q).card :=
      lt_of_lt_of_le one_pos ((le_max_left _ _).trans
        (Finset.le_sup (f := fun q : Q => max 1 (sumIdx r arg.jac.srows q).card) (Finset.mem_univ (Classical.arbitrary Q))))
    refine ⟨_, rfl, ⟨Jac.filled_of_mem (List.mem_map.mpr ⟨0, List.mem_range.mpr hpos, rfl⟩), ?_⟩, rfl⟩
    intro h q
    have hC : Nonempty r.C := ⟨(r.split (Classical.arbitrary P₀)).2⟩
    obtain ⟨row, hrow, hi⟩ := h.srows hw (r.split.symm (r.κ q, Classical.arbitrary r.C))
    have hmem : row.idx (r.split.symm (r.κ q, Classical.arbitrary r.C)) ∈ sumIdx r arg.jac.srows q := by
      rw [mem_sumIdx]
      exact ⟨row, hrow, _, rfl⟩
    obtain ⟨i, hlt, he⟩ := getD_sort_ne hmem
    have hsup : i < Finset.univ.sup fun q : Q => max 1 (sumIdx r arg.jac.srows q).card :=
      lt_of_lt_of_le hlt ((le_max_right _ _).trans
        (Finset.le_sup (f := fun q : Q => max 1 (sumIdx r arg.jac.srows q).card) (Finset.mem_univ q)))
    refine ⟨_, List.mem_map.mpr ⟨i, List.mem_range.mpr hsup, rfl⟩, ?_⟩
    show (((sumIdx r arg.jac.srows q).sort (· ≤ ·)) ++ List.replicate _ (-1)).getD i (-1) ≠ -1
    rw [List.getD_append _ _ _ _ (by simpa using hlt), he]
    exact hi

/-- The reduction of one sparse operand: sparse with `deps` rows, or dense. -/
theorem sparseReduce_returns [Fintype P₀] [DecidableEq P₀] [Nonempty P₀] [Fintype Q] (I : Inst 1 (fun _ => P₀) Q F)
    (hm : I.multi = false) (r : Red P₀ Q) (T : ℕ) (arg : Trip P₀ F) (h : arg.jac.Live) (hw : arg.jac.weak = true) :
    ∃ o, sparseReduce I r T arg = .ok o ∧ (o.jac.Filled ∧ (arg.jac.Full → o.jac.Full)) ∧ o.y = (I.fwd fun _ => arg.x) ∧
      (o.jac.weak = true → o.jac.nrows = r.deps arg.jac.srows ∧ r.deps arg.jac.srows ≤ T) := by
  have hK : Nonempty r.K := ⟨(r.split (Classical.arbitrary P₀)).1⟩
  have hC : Nonempty r.C := ⟨(r.split (Classical.arbitrary P₀)).2⟩
  have hmem : arg.jac.Full → ∀ u : r.K, ∃ z ∈ redIdx r arg.jac.srows u, z ≠ -1 := by
    intro h u
    obtain ⟨row, hrow, hi⟩ := h.srows hw (r.split.symm (u, Classical.arbitrary r.C))
    exact ⟨_, (mem_redIdx ..).mpr ⟨hi, row, hrow, _, rfl⟩, hi⟩
  have hU : 0 < r.deps arg.jac.srows := by
    obtain ⟨p, row, hrow, hi⟩ := h.srows hw
    have hz : row.idx p ∈ redIdx r arg.jac.srows (r.split p).1 :=
      (mem_redIdx ..).mpr ⟨hi, row, hrow, (r.split p).2, by rw [Prod.mk.eta, Equiv.symm_apply_apply]⟩
    exact lt_of_lt_of_le (Finset.card_pos.mpr ⟨_, hz⟩)
      (Finset.le_sup (f := fun u : r.K => (redIdx r arg.jac.srows u).card) (Finset.mem_univ (r.split p).1))
  obtain ⟨g, hj, hg⟩ : ∃ g, jacobianForReduction r arg.jac.srows = .ok (g, (List.range (r.deps arg.jac.srows)).map
      fun (s : ℕ) u => ((redIdx r arg.jac.srows u).sort (· ≤ ·)).getD s (-1)) ∧ g.length = r.deps arg.jac.srows := by
    unfold jacobianForReduction
    rw [if_neg Fintype.card_ne_zero]
    dsimp only
    unfold Jac.getIndexMask
    rw [if_neg]
    · refine ⟨_, rfl, ?_⟩
      unfold Jac.materializeForIdx segSum
      rw [List.length_map, List.length_range]
      rfl
    · rw [List.map_map]
      intro hc
      have := congrArg List.length hc
      rw [List.length_map, List.length_range, List.length_nil] at this
      exact absurd this hU.ne'
  unfold sparseReduce
  rw [hj]
  dsimp only
  rw [List.length_map, List.length_range]
  split
  · obtain ⟨o, h1, h2, h3⟩ := denseJvp_returns I (fun _ => arg) fun _ hw => by
      obtain ⟨_, r, hr, _⟩ := h.srows hw
      rw [← srows_length]
      exact (List.length_pos_of_mem hr).ne'
    exact ⟨o, h1, ⟨Jac.filled_dense h2, fun _ => Jac.full_dense h2⟩, h3, fun hc => by rw [h2] at hc; simp at hc⟩
  · rename_i hT
    rw [if_neg (by simp [hm])]
    refine ⟨_, rfl, ⟨fun _ => ?_, ?_⟩, rfl, fun _ => ⟨?_, by omega⟩⟩
    · show (List.map _ _).length ≠ 0
      simp [hg, hU.ne']
    · intro h q
      obtain ⟨z, hz, hne⟩ := hmem h (r.κ q)
      obtain ⟨i, hi, he⟩ := getD_sort_ne hz
      have hi' : i < r.deps arg.jac.srows := lt_of_lt_of_le hi
        (Finset.le_sup (f := fun u : r.K => (redIdx r arg.jac.srows u).card) (Finset.mem_univ (r.κ q)))
      refine ⟨_, List.mem_map.mpr ⟨((fun u => ((redIdx r arg.jac.srows u).sort (· ≤ ·)).getD i (-1)), g[i]'(by omega)), ?_, rfl⟩, ?_⟩
      · rw [List.mem_iff_getElem]
        refine ⟨i, by simp [hg, hi'], ?_⟩
        simp
      · show ((redIdx r arg.jac.srows (r.κ q)).sort (· ≤ ·)).getD i (-1) ≠ -1
        rw [he]
        exact hne
    · show (List.map _ _).length = _
      simp [hg]

/-! ### One operand -/

/-- What is needed of the declarations for the rule to return: scatter functions are treated elsewhere, and functions
flagged as sums have one operand and are sums. -/
structure Inst.Sums (I : Inst k P Q F) (x : (a : Fin k) → P a → F) : Prop where
  noScatter : I.flags.has Flags.SCATTER = false
  one : I.flags.has Flags.SUMMATION = true → k = 1
  sum : I.flags.has Flags.SUMMATION = true → ∀ a r, I.ax a = .red r → ∀ q,
    I.fwd x q = ∑ c : r.C, x a (r.split.symm (r.κ q, c))

/-- The number of rows of the sparse Jacobian that operand `a` alone contributes (`none`: a dense one). -/
def Inst.soloRows (I : Inst k P Q F) (T : ℕ) (args : (a : Fin k) → Trip (P a) F) (a : Fin k) : Option ℕ :=
  if (args a).jac.weak then
    match I.ax a with
    | .elem _ => some (args a).jac.nrows
    | .red r => if T < r.deps (args a).jac.srows then none else some (r.deps (args a).jac.srows)
  else none

/-- The sparse results of the operands can be added: there is at most one, or there are two with equal numbers of rows (or
one row). -/
def Inst.NoClash (I : Inst k P Q F) (T : ℕ) (args : (a : Fin k) → Trip (P a) F) : Prop :=
  (∀ a b, I.soloRows T args a ≠ none → I.soloRows T args b ≠ none → a = b) ∨
  (k = 2 ∧ ∀ a b m m', I.soloRows T args a = some m → I.soloRows T args b = some m' → m = m' ∨ m = 1 ∨ m' = 1)

theorem sparseDiag_rows [Fintype P₀] [DecidableEq P₀] [Fintype Q] [DecidableEq Q] (I : Inst 1 (fun _ => P₀) Q F)
    (arg : Trip P₀ F) (o : JvpOut Q F) (h : sparseDiag I (fun _ => arg) = .ok o) : o.jac.nrows = arg.jac.nrows := by
  unfold sparseDiag at h
  split at h
  · simp at h
  · simp only [dite_true] at h
    split at h
    · obtain rfl := Except.ok.inj h
      rw [← srows_length (J := arg.jac)]
      simp [Jac.nrows]
    · obtain rfl := Except.ok.inj h
      rw [← srows_length (J := arg.jac)]
      simp [Jac.nrows]

theorem singleJvp_returns [∀ a, Fintype (P a)] [∀ a, DecidableEq (P a)] [∀ a, Nonempty (P a)] [Fintype Q] [DecidableEq Q]
    [Nonempty Q] (I : Inst k P Q F) (T : ℕ) (args : (a : Fin k) → Trip (P a) F) (hI : I.Sums fun a => (args a).x)
    (hm : I.multi = false) (a : Fin k) (h : (args a).jac.Filled)
    (hl : I.flags.has Flags.SUMMATION = false → ∀ r, I.ax a = .red r → (args a).jac.Live) :
    ∃ o, singleJvp (I.single (fun a => (args a).x) a) T (args a) = .ok o ∧
      (o.jac.Filled ∧ ((args a).jac.Full → o.jac.Full)) ∧ (o.y = I.fwd fun a => (args a).x) ∧
      (I.flags.has Flags.SUMMATION = false → o.jac.weak = true → I.soloRows T args a = some o.jac.nrows) := by
  have hfwd : ((I.single (fun a => (args a).x) a).fwd fun _ => (args a).x) = I.fwd fun a => (args a).x := by
    show I.fwd (Function.update (fun a => (args a).x) a (args a).x) = _
    rw [Function.update_eq_self]
  unfold singleJvp
  split
  · rename_i hw
    unfold sparseSingle
    have hax : (I.single (fun a => (args a).x) a).ax 0 = I.ax a := rfl
    rw [hax]
    have hs : I.soloRows T args a = match I.ax a with
        | .elem _ => some (args a).jac.nrows
        | .red r => if T < r.deps (args a).jac.srows then none else some (r.deps (args a).jac.srows) := by
      unfold Inst.soloRows
      rw [if_pos hw]
    split
    · rename_i π hπ
      rw [hπ] at hs
      obtain ⟨o, h1, h2, h3⟩ := sparseDiag_returns
        { I.single (fun a => (args a).x) a with π := fun _ => π } (show I.multi = false from hm) (by decide)
        (fun _ => args a) (fun _ => h) (fun _ => hw)
      refine ⟨o, h1, ⟨h2.1, fun hf => h2.2 fun _ => hf⟩, h3.trans hfwd, fun _ _ => ?_⟩
      rw [hs, sparseDiag_rows _ _ _ h1]
    · rename_i r hr
      rw [hr] at hs
      have hsc : (I.single (fun a => (args a).x) a).flags.has Flags.SCATTER = false := hI.noScatter
      rw [hsc, if_neg (by simp)]
      split
      · rename_i hsum
        have hsum' : I.flags.has Flags.SUMMATION = true := hsum
        obtain ⟨o, h1, h2, h3⟩ := sparseSum_returns r T (args a) h hw
        refine ⟨o, h1, h2, ?_, fun hc => by rw [hsum'] at hc; simp at hc⟩
        rw [h3]
        funext q
        exact (hI.sum hsum' a r hr q).symm
      · rename_i hns
        have hns' : I.flags.has Flags.SUMMATION = false := Bool.eq_false_iff.mpr hns
        obtain ⟨o, h1, h2, h3, h4⟩ := sparseReduce_returns (I.single (fun a => (args a).x) a) hm r T (args a) (hl hns' r hr) hw
        refine ⟨o, h1, h2, h3.trans hfwd, fun _ hw' => ?_⟩
        obtain ⟨h5, h6⟩ := h4 hw'
        rw [hs]
        show (if _ then _ else _) = _
        rw [if_neg (by omega), h5]
  · obtain ⟨o, h1, h2, h3⟩ := denseJvp_returns (I.single (fun a => (args a).x) a) (fun _ => args a) fun _ => h
    exact ⟨o, h1, ⟨Jac.filled_dense h2, fun _ => Jac.full_dense h2⟩, h3.trans hfwd, fun _ hc => by rw [h2] at hc; simp at hc⟩

/-! ### Adding the results -/

theorem Jac.add_filled_dense [Fintype P₀] [DecidableEq P₀] [Nonempty P₀] (a b : Jac P₀ F) (ha : a.Filled) (hb : b.Filled)
    (h : a.weak = false ∨ b.weak = false) : ∃ j, a.add b = .ok j ∧ j.weak = false := by
  obtain ⟨ra, hra⟩ := ha.denseArray
  obtain ⟨rb, hrb⟩ := hb.denseArray
  refine ⟨.dense (addJacobians ra rb), ?_, rfl⟩
  cases a with
  | dense r1 => simp only [Jac.add, hra, hrb]
  | sparse r1 =>
    cases b with
    | dense r2 => simp only [Jac.add, hra, hrb]
    | sparse r2 => simp [Jac.weak] at h

theorem brdcastRows_length {β : Type} {l : List β} {m : ℕ} (h : l.length = m ∨ l.length = 1) : (brdcastRows l m).length = m := by
  rcases h with h | h
  · rw [Jac.brdcastRows_eq h, h]
  · obtain ⟨x, rfl⟩ := List.length_eq_one_iff.mp h
    simp [brdcastRows]

theorem brdcastLen_cases {m n r : ℕ} (h : brdcastLen m n = some r) : (m = r ∨ m = 1) ∧ (n = r ∨ n = 1) := by
  unfold brdcastLen at h
  split at h
  · obtain rfl := Option.some.inj h; omega
  · split at h
    · obtain rfl := Option.some.inj h; omega
    · split at h
      · obtain rfl := Option.some.inj h; omega
      · simp at h

theorem Jac.add_filled_sparse [Fintype P₀] [DecidableEq P₀] [Nonempty P₀] (a b : Jac P₀ F) (ha : a.Filled) (hb : b.Filled)
    (h : a.nrows = b.nrows ∨ a.nrows = 1 ∨ b.nrows = 1) :
    ∃ j, a.add b = .ok j ∧ j.Filled ∧ (a.Full → b.Full → j.Full) := by
  by_cases hd : a.weak = false ∨ b.weak = false
  · obtain ⟨j, h1, h2⟩ := Jac.add_filled_dense a b ha hb hd
    exact ⟨j, h1, Jac.filled_dense h2, fun _ _ => Jac.full_dense h2⟩
  · cases a with
    | dense _ => simp [Jac.weak] at hd
    | sparse r1 =>
    cases b with
    | dense _ => simp [Jac.weak] at hd
    | sparse r2 =>
      have h : r1.length = r2.length ∨ r1.length = 1 ∨ r2.length = 1 := h
      obtain ⟨m, hm⟩ : ∃ m, brdcastLen r1.length r2.length = some m := by
        unfold brdcastLen
        rcases h with h | h | h
        · exact ⟨_, if_pos h⟩
        · by_cases he : r1.length = r2.length
          · exact ⟨_, if_pos he⟩
          · exact ⟨_, by rw [if_neg he, if_pos h]⟩
        · by_cases he : r1.length = r2.length
          · exact ⟨_, if_pos he⟩
          · by_cases h1 : r1.length = 1
            · exact ⟨_, by rw [if_neg he, if_pos h1]⟩
            · exact ⟨_, by rw [if_neg he, if_neg h1, if_pos h]⟩
      have d1 : 0 < r1.length := Nat.pos_of_ne_zero (ha rfl)
      have d2 : 0 < r2.length := Nat.pos_of_ne_zero (hb rfl)
      have hm0 : 0 < m := by
        unfold brdcastLen at hm
        split at hm
        · obtain rfl := Option.some.inj hm; exact d1
        · split at hm
          · obtain rfl := Option.some.inj hm; exact d2
          · split at hm
            · obtain rfl := Option.some.inj hm; exact d1
            · simp at hm
      simp only [Jac.add, hm]
      split
      · obtain ⟨c1, c2⟩ := brdcastLen_cases hm
        have hlen : (brdcastRows r1 m).length = (brdcastRows r2 m).length := by
          rw [brdcastRows_length c1, brdcastRows_length c2]
        refine ⟨_, rfl, fun _ => ?_, ?_⟩
        · show (List.map _ _).length ≠ 0
          rw [List.length_map, List.length_zip, hlen, min_self, brdcastRows_length c2]
          exact hm0.ne'
        have hl : ((brdcastRows r1 m).zip (brdcastRows r2 m)).map Prod.fst = brdcastRows r1 m :=
          List.map_fst_zip (by omega)
        intro ha hb p
        obtain ⟨r, hr, hi⟩ := ha p
        have hr' : r ∈ brdcastRows r1 m := by
          unfold brdcastRows
          split
          · rename_i x
            obtain rfl := List.mem_singleton.mp hr
            exact List.mem_replicate.mpr ⟨by omega, rfl⟩
          · exact hr
        rw [← hl] at hr'
        obtain ⟨z, hz, rfl⟩ := List.mem_map.mp hr'
        exact ⟨_, List.mem_map.mpr ⟨z, hz, rfl⟩, hi⟩
      · refine ⟨_, rfl, fun _ => ?_, ?_⟩
        · show (r1 ++ r2).length ≠ 0
          rw [List.length_append]; omega
        intro ha hb p
        obtain ⟨r, hr, hi⟩ := ha p
        exact ⟨r, List.mem_append_left _ hr, hi⟩

/-- At most one of the results is sparse. -/
theorem accumulate_one [Fintype Q] [DecidableEq Q] [Nonempty Q] (y : Q → F) (A : Prop) :
    ∀ (l : List (JvpOut Q F)) (acc : Option (JvpOut Q F)), (acc = none → l ≠ []) →
      (∀ o, acc = some o → o.jac.Filled ∧ o.y = y ∧ (A → o.jac.Full) ∧ (o.jac.weak = true → ∀ o' ∈ l, o'.jac.weak = false)) →
      (∀ o ∈ l, o.jac.Filled ∧ o.y = y ∧ (A → o.jac.Full)) → l.Pairwise (fun o o' => o.jac.weak = true → o'.jac.weak = false) →
      ∃ o, accumulate (l.map Except.ok) acc = .ok (some o) ∧ o.jac.Filled ∧ o.y = y ∧ (A → o.jac.Full)
  | [], none, h, _, _, _ => absurd rfl (h rfl)
  | [], some o, _, h, _, _ => ⟨o, rfl, (h o rfl).1, (h o rfl).2.1, (h o rfl).2.2.1⟩
  | o :: l, none, _, _, hl, hp => by
    obtain ⟨h1, h2⟩ := List.pairwise_cons.mp hp
    refine accumulate_one y A l (some o) (by simp) (fun o' ho => ?_) (fun o' h' => hl o' (by simp [h'])) h2
    obtain rfl := Option.some.inj ho
    exact ⟨(hl _ (by simp)).1, (hl _ (by simp)).2.1, (hl _ (by simp)).2.2, fun hw o' h' => h1 o' h' hw⟩
  | o :: l, some acc, _, ha, hl, hp => by
    obtain ⟨h1, h2⟩ := List.pairwise_cons.mp hp
    obtain ⟨a1, a2, -, a3⟩ := ha acc rfl
    obtain ⟨j, hj, hd⟩ := Jac.add_filled_dense acc.jac o.jac a1 (hl o (by simp)).1 (by
      by_cases hw : acc.jac.weak = true
      · exact Or.inr (a3 hw o (by simp))
      · exact Or.inl (by simpa using hw))
    simp only [List.map_cons, accumulate, hj]
    refine accumulate_one y A l (some _) (by simp) (fun o' ho => ?_) (fun o' h' => hl o' (by simp [h'])) h2
    obtain rfl := Option.some.inj ho
    exact ⟨Jac.filled_dense hd, a2, fun _ => Jac.full_dense hd, fun hw => by rw [hd] at hw; simp at hw⟩

section Rule
variable [∀ a, Fintype (P a)] [∀ a, DecidableEq (P a)] [∀ a, Nonempty (P a)] [Fintype Q] [DecidableEq Q] [Nonempty Q]

theorem oneByOne_returns (I : Inst k P Q F) (T : ℕ) (hk : 0 < k) (args : (a : Fin k) → Trip (P a) F)
    (hI : I.Sums fun a => (args a).x) (hm : I.multi = false) (hs : I.flags.has Flags.SUMMATION = false)
    (h : ∀ a, (args a).jac.Filled) (hl : ∀ a r, I.ax a = .red r → (args a).jac.Live) (hc : I.NoClash T args) :
    ∃ o, oneByOne I T args = .ok o ∧ (o.jac.Filled ∧ ((∀ a, (args a).jac.Full) → o.jac.Full)) ∧
      o.y = I.fwd fun a => (args a).x := by
  choose o h1 h2 h3 h4 using fun a => singleJvp_returns I T args hI hm a (h a) fun _ => hl a
  have hl : (List.ofFn fun a : Fin k => singleJvp (I.single (fun a => (args a).x) a) T (args a)) = (List.ofFn o).map Except.ok := by
    rw [List.map_ofFn]
    congr 1
    funext a
    exact h1 a
  unfold oneByOne
  rw [hl]
  suffices hsuf : ∃ r, accumulate ((List.ofFn o).map Except.ok) none = .ok (some r) ∧ r.jac.Filled ∧
      r.y = (I.fwd fun a => (args a).x) ∧ ((∀ a, (args a).jac.Full) → r.jac.Full) by
    obtain ⟨r, e1, e2, e3, e4⟩ := hsuf
    rw [e1]
    exact ⟨r, rfl, ⟨e2, e4⟩, e3⟩
  rcases hc with hc | ⟨rfl, hc⟩
  · refine accumulate_one _ (∀ a, (args a).jac.Full) _ none (fun _ hn => ?_) (by simp) ?_ ?_
    · have := congrArg List.length hn
      simp at this
      omega
    · intro r hr
      obtain ⟨a, rfl⟩ := List.mem_ofFn.mp hr
      exact ⟨(h2 a).1, h3 a, fun hf => (h2 a).2 (hf a)⟩
    · rw [List.pairwise_ofFn]
      intro a b hab hw
      by_contra hw'
      have hw' : (o b).jac.weak = true := by simpa using hw'
      exact hab.ne (hc a b (by rw [h4 a hs hw]; simp) (by rw [h4 b hs hw']; simp))
  · rw [List.ofFn_succ, List.ofFn_succ, List.ofFn_zero]
    simp only [List.map_cons, List.map_nil, accumulate]
    by_cases hd : (o 0).jac.weak = false ∨ (o 1).jac.weak = false
    · obtain ⟨j, e1, e2⟩ := Jac.add_filled_dense (o 0).jac (o 1).jac (h2 0).1 (h2 1).1 hd
      have e1' : (o 0).jac.add (o (Fin.succ 0)).jac = .ok j := e1
      rw [e1']
      exact ⟨_, rfl, Jac.filled_dense e2, h3 0, fun _ => Jac.full_dense e2⟩
    · have hd' : (o 0).jac.weak = true ∧ (o 1).jac.weak = true := by simpa using hd
      obtain ⟨j, e1, e2, e3⟩ := Jac.add_filled_sparse (o 0).jac (o 1).jac (h2 0).1 (h2 1).1
        (hc 0 1 _ _ (h4 0 hs hd'.1) (h4 1 hs hd'.2))
      have e1' : (o 0).jac.add (o (Fin.succ 0)).jac = .ok j := e1
      rw [e1']
      exact ⟨_, rfl, e2, h3 0, fun hf => e3 ((h2 0).2 (hf 0)) ((h2 1).2 (hf 1))⟩

/-- Some operand is reduced along axes by the general rule (`jvp.py:161-187`). -/
def Inst.takesReduction (I : Inst k P Q F) (args : (a : Fin k) → Trip (P a) F) : Prop :=
  I.flags.has Flags.SUMMATION = false ∧
    (takesOneByOne I args ∨ I.flags.has Flags.INDEXING = false ∧ I.elem = false)

/-- The first-order rule returns. -/
theorem jvpRule_returns (I : Inst k P Q F) (T : ℕ) (hk : 0 < k) (args : (a : Fin k) → Trip (P a) F)
    (hI : I.Sums fun a => (args a).x) (hm : I.multi = false)
    (h : ∀ a, (args a).jac.Filled) (hl : I.takesReduction args → ∀ a r, I.ax a = .red r → (args a).jac.Live)
    (hc : takesOneByOne I args → I.NoClash T args) :
    ∃ o, jvpRule I T args = .ok o ∧ (o.jac.Filled ∧
      (((∀ a, (args a).jac.weak = true) → I.flags.has Flags.INDEXING = true → I.static = true → ∀ q, ∃ s, I.src q = some s) →
        (∀ a, (args a).jac.Full) → o.jac.Full)) ∧ o.y = I.fwd fun a => (args a).x := by
  unfold jvpRule
  split
  · unfold parallelJvp
    split
    · obtain ⟨o, h1, h2, h3⟩ := denseJvp_returns I args h
      exact ⟨o, h1, ⟨Jac.filled_dense h2, fun _ _ => Jac.full_dense h2⟩, h3⟩
    · rename_i hall
      have hw : ∀ a, (args a).jac.weak = true := by
        have : allWeak args = true := by simpa using hall
        exact of_decide_eq_true this
      split
      · rename_i hi
        obtain ⟨o, h1, h2, h3⟩ := sparseIndex_returns I hm hk args h hw
        exact ⟨o, h1, ⟨h2.1, fun hsrc => h2.2 (hsrc hw hi)⟩, h3⟩
      · rename_i hni
        split
        · obtain ⟨o, h1, h2, h3⟩ := sparseDiag_returns I hm hk args h hw
          exact ⟨o, h1, ⟨h2.1, fun _ => h2.2⟩, h3⟩
        · rename_i hne
          split
          · rename_i h1
            obtain ⟨o, e1, e2, e3, -⟩ := singleJvp_returns I T args hI hm ⟨0, by omega⟩ (h _) fun hns =>
              hl ⟨hns, Or.inr ⟨by simpa using hni, by simpa using hne⟩⟩ _
            unfold singleJvp at e1
            rw [if_pos (hw _)] at e1
            exact ⟨o, e1, ⟨e2.1, fun _ hf => e2.2 (hf _)⟩, e3⟩
          · obtain ⟨o, h1, h2, h3⟩ := denseJvp_returns I args h
            exact ⟨o, h1, ⟨Jac.filled_dense h2, fun _ _ => Jac.full_dense h2⟩, h3⟩
  · rename_i hone
    have hns : I.flags.has Flags.SUMMATION = false := by
      by_contra hsum
      have hk1 := hI.one (by simpa using hsum)
      apply hone
      by_cases ha : anyWeak args = false
      · exact Or.inl ha
      · right
        refine ⟨?_, Or.inr (Or.inr hk1)⟩
        have ha : anyWeak args = true := by simpa using ha
        have : ∃ a, (args a).jac.weak = true := of_decide_eq_true ha
        obtain ⟨a, ha⟩ := this
        refine decide_eq_true fun b => ?_
        have : b = a := Fin.ext (by omega)
        rw [this]
        exact ha
    obtain ⟨o, h1, h2, h3⟩ := oneByOne_returns I T hk args hI hm hns h (hl ⟨hns, Or.inl hone⟩) (hc hone)
    exact ⟨o, h1, ⟨h2.1, fun _ => h2.2⟩, h3⟩

end Rule

end Folx

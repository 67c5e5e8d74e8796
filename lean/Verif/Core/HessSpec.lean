import Verif.Core.HessProofs

/-! # The second-order term is exact -/

namespace Folx

open Folx.Interp (Err)

variable {k : ℕ} {P : Fin k → Type} {Q F : Type} [CommRing F]

namespace HInst

variable (I : HInst k P Q F)

/-- Derivatives of the arguments of slice `v` with respect to input `i`. -/
def sliceDen (args : (a : Fin k) → Trip (P a) F) (v : I.V) (i : ℕ) : (a : Fin k) → Fin (I.dim a) → F :=
  fun a c => (args a).jac.den i ((I.hsplit a).symm (I.hκ a v, c))

/-- Specification of the second-order term: `∑ᵢ D²f(∂ᵢ, ∂ᵢ)` with the second derivative of the slice an
output element belongs to. -/
def HessSpec (n : ℕ) (args : (a : Fin k) → Trip (P a) F) (h : Q → F) : Prop :=
  ∀ q, h q = ∑ i ∈ Finset.range n,
    I.hess (I.out q).1 (I.sliceX (fun a => (args a).x) (I.out q).1)
      (I.sliceDen args (I.out q).1 i) (I.sliceDen args (I.out q).1 i) (I.out q).2

/-- A custom rule returns the trace over all inputs, for whatever sliced arguments and index lists it is
called with. -/
def CustomExact (n : ℕ) (c : CustomRule k I.dim I.V I.O F) (x : (a : Fin k) → P a → F) : Prop :=
  ∀ v sargs idx res, (∀ a, (sargs a).x = I.sliceX x v a) → (∀ a, (sargs a).jac.Wf n) →
    IdxOk (fun a => (sargs a).jac) idx → c v sargs idx = .ok res →
    ∀ o, res o = ∑ i ∈ Finset.range n, I.hess v (I.sliceX x v)
      (denAt (fun a => (sargs a).jac) i) (denAt (fun a => (sargs a).jac) i) o

/-- The second derivative is what the flags (and the custom rule) declare, at the point `x`. -/
structure HLawful (n : ℕ) (x : (a : Fin k) → P a → F) : Prop where
  linear : I.flags.has Flags.LINEAR = true → ∀ v s t, I.hess v (I.sliceX x v) s t = 0
  /-- linear in each argument separately -/
  linOne : I.flags.has Flags.LINEAR_IN_ONE = true → ∀ v a s t,
    I.hess v (I.sliceX x v) (Pi.single a s) (Pi.single a t) = 0
  /-- linear in the first argument of the merged argument list -/
  linFirst : I.flags.has Flags.LINEAR_IN_FIRST = true → I.firstIsLapl = true → ∀ v a, a.val = 0 → ∀ s t,
    I.hess v (I.sliceX x v) (Pi.single a s) (Pi.single a t) = 0
  /-- a multiplication has two operands, so at most two of them carry derivatives -/
  mult_arity : I.flags.has Flags.MULTIPLICATION = true → k ≤ 2
  /-- multiplications are inner products of the two slices -/
  mult : I.flags.has Flags.MULTIPLICATION = true → ∀ a0 a1 : Fin k, a0.val = 0 → a1.val = 1 →
    ∃ hd : I.dim a0 = I.dim a1, ∀ v s t o, I.hess v (I.sliceX x v) s t o =
      ∑ c : Fin (I.dim a0), (s a0 c * t a1 (c.cast hd) + t a0 c * s a1 (c.cast hd))
  custom : ∀ c, I.custom = some c → I.CustomExact n c x

/-- Functions flagged linear in each argument are products, linear, or have one derivative-carrying
argument (other functions with this flag hit the defect described at C47). -/
def BilinearOk : Prop := I.flags.has Flags.LINEAR_IN_ONE = true →
  I.flags.has Flags.LINEAR = true ∨ k = 1 ∨
    (I.flags.has Flags.MULTIPLICATION = true ∧ I.custom = none)

/-- Combinations of sparse and dense arguments for which index restriction reads existing rows only. -/
def MixOk [∀ a, Fintype (P a)] (T : ℕ) (args : (a : Fin k) → Trip (P a) F) : Prop :=
  allWeak args = true ∨ anyWeak args = false ∨ I.flags.has Flags.LINEAR_IN_ONE = true ∨
    I.flags.has Flags.LINEAR_IN_FIRST = true ∧ I.firstIsLapl = true ∧ k = 1 ∨
    ((I.findOutIdx T args).2 = true ∧ I.flags.has Flags.SPARSE_JHJ = false)

end HInst

/-! ### Index sets -/

section Idx
variable {P₀ K₀ : Type} {d : ℕ}

theorem mem_posIdx (e : P₀ ≃ K₀ × Fin d) (J : Jac P₀ F) (u : K₀) (z : ℤ) :
    z ∈ HInst.posIdx e J u ↔ ∃ r ∈ J.srows, ∃ c, r.idx (e.symm (u, c)) = z := by
  unfold HInst.posIdx
  rw [mem_foldr_union]
  simp

theorem posIdx_wf (e : P₀ ≃ K₀ × Fin d) (J : Jac P₀ F) (n : ℕ) (h : J.Wf n) (u : K₀) (z : ℤ)
    (hz : z ∈ HInst.posIdx e J u) : -1 ≤ z ∧ z < n := by
  obtain ⟨r, hr, c, rfl⟩ := (mem_posIdx e J u z).mp hz
  have := srows_wf J h r hr (e.symm (u, c))
  refine ⟨?_, this.1⟩
  by_contra hc
  have := (this.2 (by omega)).1
  omega

theorem mem_posIdx_of_den (e : P₀ ≃ K₀ × Fin d) (J : Jac P₀ F) (u : K₀) (i : ℕ) (c : Fin d)
    (h : J.den i (e.symm (u, c)) ≠ 0) : (i : ℤ) ∈ HInst.posIdx e J u := by
  rw [← srows_den] at h
  rw [mem_posIdx]
  by_contra hc
  push Not at hc
  apply h
  apply list_sum_eq_zero
  intro r hr
  rw [if_neg (hc r hr c)]

theorem mem_posIdx_dense (e : P₀ ≃ K₀ × Fin d) (rows : List (P₀ → F)) (u : K₀) (z : ℤ)
    (h : z ∈ HInst.posIdx e (.dense rows) u) : 0 ≤ z ∧ z < rows.length := by
  obtain ⟨r, hr, c, rfl⟩ := (mem_posIdx e _ u z).mp h
  simp only [Jac.srows] at hr
  rw [zipWith_eq_range, List.mem_map] at hr
  obtain ⟨i, hi, rfl⟩ := hr
  simp at hi ⊢
  omega

theorem posIdx_card (e : P₀ ≃ K₀ × Fin d) [Fintype P₀] (J : Jac P₀ F) (u : K₀) :
    ((HInst.posIdx e J u).filter (0 ≤ ·)).card ≤ HInst.nUnique J := by
  cases J with
  | dense rows =>
    simp only [HInst.nUnique]
    calc _ ≤ ((Finset.range rows.length).image fun i : ℕ => (i : ℤ)).card := by
          apply Finset.card_le_card
          intro z hz
          have := mem_posIdx_dense e rows u z (Finset.mem_filter.mp hz).1
          refine Finset.mem_image.mpr ⟨z.toNat, ?_, by omega⟩
          simp; omega
      _ ≤ rows.length := by
          refine le_trans Finset.card_image_le ?_
          simp
  | sparse rows =>
    apply Finset.card_le_card
    intro z hz
    obtain ⟨h1, h2⟩ := Finset.mem_filter.mp hz
    refine Finset.mem_filter.mpr ⟨?_, h2⟩
    obtain ⟨r, hr, c, hc⟩ := (mem_posIdx e _ u z).mp h1
    rw [mem_foldr_union]
    exact ⟨r, hr, Finset.mem_image.mpr ⟨_, Finset.mem_univ _, hc⟩⟩

theorem keptIdx_eq (m : ℕ) (s : Finset ℤ) (hc : (s.filter (0 ≤ ·)).card ≤ m) (h : ∀ z ∈ s, -1 ≤ z) :
    HInst.keptIdx m s = s.filter (0 ≤ ·) := by
  have hcard : s.card ≤ m + 1 := by
    have : s ⊆ insert (-1) (s.filter (0 ≤ ·)) := by
      intro z hz
      have := h z hz
      rw [Finset.mem_insert, Finset.mem_filter]
      by_cases h0 : 0 ≤ z
      · exact Or.inr ⟨hz, h0⟩
      · left; omega
    calc s.card ≤ _ := Finset.card_le_card this
      _ ≤ _ := Finset.card_insert_le _ _
      _ ≤ m + 1 := by omega
  unfold HInst.keptIdx
  rw [List.take_of_length_le (by simpa using hcard)]
  simp

end Idx

namespace HInst
variable (I : HInst k P Q F) [∀ a, Fintype (P a)]

theorem kept_eq (n : ℕ) (args : (a : Fin k) → Trip (P a) F) (hwf : ∀ a, (args a).jac.Wf n) (v : I.V)
    (a : Fin k) : keptIdx (maxSize args) (posIdx (I.hsplit a) (args a).jac (I.hκ a v)) =
      (posIdx (I.hsplit a) (args a).jac (I.hκ a v)).filter (0 ≤ ·) := by
  apply keptIdx_eq
  · exact le_trans (posIdx_card _ _ _)
      (Finset.le_sup (f := fun a => nUnique (args a).jac) (Finset.mem_univ a))
  · intro z hz
    exact (posIdx_wf _ _ n (hwf a) _ z hz).1

theorem mem_merged_union (n : ℕ) (args : (a : Fin k) → Trip (P a) F) (hwf : ∀ a, (args a).jac.Wf n)
    (hf : I.flags.has Flags.LINEAR_IN_ONE = false) (v : I.V) (z : ℤ) :
    z ∈ I.mergedIdx args v ↔ ∃ a, 0 ≤ z ∧ z ∈ posIdx (I.hsplit a) (args a).jac (I.hκ a v) := by
  unfold mergedIdx
  simp only [hf, Bool.false_eq_true, if_false, Finset.mem_biUnion, Finset.mem_univ, true_and]
  simp only [I.kept_eq n args hwf v, Finset.mem_filter]
  exact exists_congr fun a => and_comm

theorem mem_merged_inter (n : ℕ) (args : (a : Fin k) → Trip (P a) F) (hwf : ∀ a, (args a).jac.Wf n)
    (hf : I.flags.has Flags.LINEAR_IN_ONE = true) (hk : 0 < k) (v : I.V) (z : ℤ) :
    z ∈ I.mergedIdx args v ↔ ∀ a, 0 ≤ z ∧ z ∈ posIdx (I.hsplit a) (args a).jac (I.hκ a v) := by
  unfold mergedIdx
  simp only [hf, if_true, Finset.mem_filter, Finset.mem_biUnion, Finset.mem_univ, true_and]
  simp only [I.kept_eq n args hwf v, Finset.mem_filter]
  constructor
  · rintro ⟨_, h⟩ a; exact (h a).symm
  · intro h; exact ⟨⟨⟨0, hk⟩, (h _).symm⟩, fun a => (h a).symm⟩

theorem merged_nonneg (args : (a : Fin k) → Trip (P a) F) (v : I.V) (z : ℤ) (h : z ∈ I.mergedIdx args v) :
    0 ≤ z := by
  unfold mergedIdx at h
  split at h
  · have := (Finset.mem_filter.mp h).1
    obtain ⟨a, _, ha⟩ := Finset.mem_biUnion.mp this
    exact (Finset.mem_filter.mp ha).2
  · obtain ⟨a, _, ha⟩ := Finset.mem_biUnion.mp h
    exact (Finset.mem_filter.mp ha).2

theorem card_le_width (args : (a : Fin k) → Trip (P a) F) (v : I.V) :
    (I.mergedIdx args v).card ≤ I.idxWidth args :=
  Finset.le_sup (f := fun v => (I.mergedIdx args v).card) (Finset.mem_univ v)

/-- The index list of a position. -/
def idxAt (args : (a : Fin k) → Trip (P a) F) (v : I.V) : List ℤ :=
  (I.mergedIdx args v).sort (· ≤ ·) ++ List.replicate (I.idxWidth args - (I.mergedIdx args v).card) (-1)

theorem findOutIdx_weak (T : ℕ) (args : (a : Fin k) → Trip (P a) F) (h : anyWeak args = true) :
    (I.findOutIdx T args).1 = some (I.idxAt args) := by
  unfold findOutIdx
  simp only [h, Bool.true_eq_false, if_false]
  rfl

theorem findOutIdx_strong (T : ℕ) (args : (a : Fin k) → Trip (P a) F) (h : anyWeak args = false) :
    I.findOutIdx T args = (none, true) := by
  unfold findOutIdx
  simp [h]

theorem mem_idxAt_nonneg (args : (a : Fin k) → Trip (P a) F) (v : I.V) (z : ℤ) :
    (z ∈ I.idxAt args v ∧ 0 ≤ z) ↔ z ∈ I.mergedIdx args v := by
  unfold idxAt
  simp only [List.mem_append, Finset.mem_sort, List.mem_replicate]
  constructor
  · rintro ⟨h | ⟨_, rfl⟩, h0⟩
    · exact h
    · omega
  · intro h; exact ⟨Or.inl h, I.merged_nonneg args v z h⟩

theorem idxAt_nodup (args : (a : Fin k) → Trip (P a) F) (v : I.V) :
    ((I.idxAt args v).filter fun z => 0 ≤ z).Nodup := by
  unfold idxAt
  rw [List.filter_append]
  have : (List.replicate (I.idxWidth args - (I.mergedIdx args v).card) (-1 : ℤ)).filter
      (fun z => decide (0 ≤ z)) = [] := by
    rw [List.filter_eq_nil_iff]
    intro z hz
    rw [(List.mem_replicate.mp hz).2]
    simp
  rw [this, List.append_nil]
  exact (Finset.sort_nodup _ _).filter _

theorem idxAt_ne_nil (args : (a : Fin k) → Trip (P a) F) (v : I.V) (h : I.idxWidth args ≠ 0) :
    I.idxAt args v ≠ [] := by
  intro he
  have hl : (I.idxAt args v).length = 0 := by rw [he]; rfl
  have := I.card_le_width args v
  simp only [idxAt, List.length_append, Finset.length_sort, List.length_replicate] at hl
  omega

/-- Slices of the derivative. -/
theorem denAt_slice (args : (a : Fin k) → Trip (P a) F) (v : I.V) (i : ℕ) :
    denAt (fun a => (I.sliceArgs args v a).jac) i = I.sliceDen args v i := by
  funext a c
  exact sliceJac_den _ _ _ i c

theorem slice_wf (n : ℕ) (args : (a : Fin k) → Trip (P a) F) (hwf : ∀ a, (args a).jac.Wf n) (v : I.V)
    (a : Fin k) : (I.sliceArgs args v a).jac.Wf n := sliceJac_wf _ _ _ n (hwf a)

/-- In union mode with sparse arguments the index list loses nothing. -/
theorem idxOk_union (n : ℕ) (args : (a : Fin k) → Trip (P a) F) (hwf : ∀ a, (args a).jac.Wf n)
    (hf : I.flags.has Flags.LINEAR_IN_ONE = false) (hall : allWeak args = true) (v : I.V)
    (hw : I.idxWidth args ≠ 0) :
    IdxOk (fun a => (I.sliceArgs args v a).jac) (some (I.idxAt args v)) := by
  refine ⟨I.idxAt_ne_nil args v hw, I.idxAt_nodup args v, ?_, ?_⟩
  · intro i a c h
    have h' : (args a).jac.den i ((I.hsplit a).symm (I.hκ a v, c)) ≠ 0 := by
      rw [← sliceJac_den]; exact h
    refine ((I.mem_idxAt_nonneg args v i).mpr ?_).1
    rw [I.mem_merged_union n args hwf hf]
    exact ⟨a, by simp, mem_posIdx_of_den _ _ _ i c h'⟩
  · intro a ha
    exfalso
    have h1 : (args a).jac.weak = true := by
      unfold allWeak at hall; simp only [decide_eq_true_eq] at hall; exact hall a
    have h2 : (sliceJac (I.hsplit a) (I.hκ a v) (args a).jac).weak = false := ha
    rw [sliceJac_weak, h1] at h2
    cases h2

/-! ### The rules on one slice -/

theorem general_spec (n : ℕ) (v : I.V) (sargs : (a : Fin k) → Trip (Fin (I.dim a)) F)
    (idx : Option (List ℤ)) (hwf : ∀ a, (sargs a).jac.Wf n)
    (hidx : IdxOk (fun a => (sargs a).jac) idx) (res : I.O → F) (h : I.generalJHJ v sargs idx = .ok res)
    (o : I.O) : res o = ∑ i ∈ Finset.range n, I.hess v (fun a => (sargs a).x)
      (denAt (fun a => (sargs a).jac) i) (denAt (fun a => (sargs a).jac) i) o := by
  unfold generalJHJ at h
  split at h
  · simp at h
  · rename_i rows hrows
    have := reduced_sum n _ hwf idx hidx rows hrows
      (fun g => I.hess v (fun a => (sargs a).x) g g o) (by simp)
    rw [← this]
    simp only [Except.ok.injEq] at h
    rw [← h]
    split
    · split
      · exact viaHvp_eq _ _ _ o
      · exact viaHessian_eq _ _ _ o
    · exact viaTrace_eq _ _ _ o

end HInst

/-- Summing a function that vanishes as soon as one argument does. -/
theorem inter_sum {dim : Fin k → ℕ} {G : Type} [AddCommMonoid G] (n : ℕ)
    (js : (a : Fin k) → Jac (Fin (dim a)) F)
    (hwf : ∀ a, (js a).Wf n) (is : List ℤ) (hne : is ≠ []) (hnd : (is.filter fun z => 0 ≤ z).Nodup)
    (hweak : ∃ a, (js a).weak = true)
    (hdense : ∀ a, (js a).weak = false → ∀ z ∈ is, 0 ≤ z → z < (js a).nrows)
    (rows : (a : Fin k) → List (Fin (dim a) → F)) (h : reducedJacobians js (some is) = .ok rows)
    (φ : ((a : Fin k) → Fin (dim a) → F) → G) (hφ : ∀ g a, g a = 0 → φ g = 0)
    (hcov : ∀ i : ℕ, (i : ℤ) ∉ is → φ (denAt js i) = 0) :
    ∑ s ∈ Finset.range (maxLen rows), φ (col rows s) = ∑ i ∈ Finset.range n, φ (denAt js i) := by
  obtain ⟨aw, haw⟩ := hweak
  have hden : ∀ i, n ≤ i → φ (denAt js i) = 0 := by
    intro i hi
    apply hφ _ aw
    funext c
    exact Jac.den_eq_zero_of_ge (hwf aw) i hi c
  have hr : ∀ a, (js a).constructFor (some is) = .ok (rows a) := seqFin_ok _ _ h
  have hlen : ∀ a, (rows a).length = is.length := by
    intro a
    have := hr a
    cases hj : js a with
    | sparse r =>
      rw [hj] at this
      have hw := hwf a
      rw [hj] at hw
      exact (constructFor_sparse_row n r hw is hne hnd _ this).1
    | dense r =>
      rw [hj] at this
      exact (constructFor_dense_row r is hne _ this).1
  have hcol : ∀ s (hs : s < is.length), φ (col rows s) =
      if 0 ≤ is.getD s (-1) then φ (denAt js (is.getD s (-1)).toNat) else 0 := by
    intro s hs
    rw [List.getD_eq_getElem _ _ hs]
    have key : ∀ a c, (0 ≤ is[s] → (rows a).getD s (fun _ => 0) c = (js a).den is[s].toNat c) ∧
        ((js a).weak = true → ¬ 0 ≤ is[s] → (rows a).getD s (fun _ => 0) c = 0) := by
      intro a c
      have := hr a
      cases hj : js a with
      | sparse r =>
        rw [hj] at this
        have hw := hwf a
        rw [hj] at hw
        have := (constructFor_sparse_row n r hw is hne hnd _ this).2 s hs c
        exact ⟨fun h0 => by rw [this, if_pos h0], fun _ h0 => by rw [this, if_neg h0]⟩
      | dense r =>
        rw [hj] at this
        refine ⟨fun h0 => ?_, fun h' => by simp [Jac.weak] at h'⟩
        have hb := hdense a (by rw [hj]; rfl) is[s] (List.getElem_mem _) h0
        rw [hj] at hb
        exact (constructFor_dense_row r is hne _ this).2 s hs c h0 hb
    split
    · rename_i h0
      congr 1
      funext a c
      exact (key a c).1 h0
    · rename_i h0
      apply hφ _ aw
      funext c
      exact (key aw c).2 haw h0
  rw [maxLen_of_const rows is.length (by have := aw.2; omega) hlen,
    Finset.sum_congr rfl fun s hs => hcol s (Finset.mem_range.mp hs)]
  exact idxList_sum is hnd n (fun i => φ (denAt js i)) hcov hden

namespace HInst
variable (I : HInst k P Q F) [∀ a, Fintype (P a)]

/-- Membership of the merged indices, seen from a slice. -/
theorem slice_den_zero (n : ℕ) (args : (a : Fin k) → Trip (P a) F) (v : I.V) (a : Fin k) (i : ℕ)
    (h : (i : ℤ) ∉ posIdx (I.hsplit a) (args a).jac (I.hκ a v)) : I.sliceDen args v i a = 0 := by
  funext c
  by_contra hc
  exact h (mem_posIdx_of_den _ _ _ i c hc)

theorem dot_spec (n : ℕ) (args : (a : Fin k) → Trip (P a) F) (hwf : ∀ a, (args a).jac.Wf n)
    (hI : I.HLawful n fun a => (args a).x) (hm : I.flags.has Flags.MULTIPLICATION = true)
    (hlio : I.flags.has Flags.LINEAR_IN_ONE = true)
    (v : I.V) (idx : Option (List ℤ))
    (hidx : idx = none ∨ (anyWeak args = true ∧ idx = some (I.idxAt args v) ∧ I.idxWidth args ≠ 0))
    (res : I.O → F) (h : I.dotJHJ (I.sliceArgs args v) idx = .ok res) (o : I.O) :
    res o = ∑ i ∈ Finset.range n, I.hess v (I.sliceX (fun a => (args a).x) v)
      (I.sliceDen args v i) (I.sliceDen args v i) o := by
  unfold dotJHJ at h
  split at h
  · rename_i hk
    split at h
    · simp at h
    · rename_i rows hrows
      dsimp only at h
      obtain ⟨hd, hmul⟩ := hI.mult hm ⟨0, by omega⟩ ⟨1, by omega⟩ rfl rfl
      rw [dif_pos hd] at h
      simp only [Except.ok.injEq] at h
      rw [← h]
      simp only [hmul]
      set a0 : Fin k := ⟨0, by omega⟩
      set a1 : Fin k := ⟨1, by omega⟩
      let φ : ((a : Fin k) → Fin (I.dim a) → F) → F := fun g => ∑ c, g a0 c * g a1 (c.cast hd)
      have hφ : ∀ g a, g a = 0 → φ g = 0 := by
        intro g a hga
        have : a = a0 ∨ a = a1 := by
          have := a.2
          have : a.val = 0 ∨ a.val = 1 := by omega
          rcases this with h | h
          · left; exact Fin.ext h
          · right; exact Fin.ext h
        apply Finset.sum_eq_zero
        intro c _
        rcases this with rfl | rfl
        · rw [hga]; simp
        · rw [hga]; simp
      have hsw : ∀ a, ((I.sliceArgs args v) a).jac.Wf n := I.slice_wf n args hwf v
      have key : ∑ s ∈ Finset.range (maxLen rows), φ (col rows s) =
          ∑ i ∈ Finset.range n, φ (denAt (fun a => (I.sliceArgs args v a).jac) i) := by
        rcases hidx with rfl | ⟨hw, rfl, hw0⟩
        · exact reduced_sum n _ hsw none trivial rows hrows φ (hφ 0 a0 rfl)
        · apply inter_sum n _ hsw (I.idxAt args v) (I.idxAt_ne_nil args v hw0) (I.idxAt_nodup args v)
            _ _ rows hrows φ hφ
          · intro i hi
            rw [I.denAt_slice]
            have hnm : (i : ℤ) ∉ I.mergedIdx args v := fun hmm =>
              hi ((I.mem_idxAt_nonneg args v i).mpr hmm).1
            rw [I.mem_merged_inter n args hwf hlio (by omega)] at hnm
            push Not at hnm
            obtain ⟨a, ha⟩ := hnm
            exact hφ _ a (I.slice_den_zero n args v a i (ha (by simp)))
          · unfold anyWeak at hw
            simp only [decide_eq_true_eq] at hw
            obtain ⟨a, ha⟩ := hw
            exact ⟨a, by rw [← ha]; exact sliceJac_weak _ _ _⟩
          · intro a ha z hz h0
            have hmm := (I.mem_idxAt_nonneg args v z).mp ⟨hz, h0⟩
            rw [I.mem_merged_inter n args hwf hlio (by omega)] at hmm
            have hp := (hmm a).2
            have ha' : (args a).jac.weak = false := by rw [← ha]; exact (sliceJac_weak _ _ _).symm
            have : ((I.sliceArgs args v) a).jac.nrows = (args a).jac.nrows := sliceJac_nrows _ _ _
            rw [this]
            cases hj : (args a).jac with
            | sparse r => rw [hj] at ha'; simp [Jac.weak] at ha'
            | dense r =>
              rw [hj] at hp
              exact (mem_posIdx_dense _ r _ z hp).2
      have key' : ∑ s ∈ Finset.range (maxLen rows), ∑ c, col rows s a0 c * col rows s a1 (c.cast hd) =
          ∑ i ∈ Finset.range n, ∑ c, I.sliceDen args v i a0 c * I.sliceDen args v i a1 (c.cast hd) := by
        simp only [φ, I.denAt_slice] at key
        exact key
      rw [key', Finset.mul_sum]
      refine Finset.sum_congr rfl fun i _ => ?_
      rw [Finset.mul_sum]
      refine Finset.sum_congr rfl fun c _ => ?_
      ring
  · simp at h

theorem has_mult_lio (f : Flags) (h : f.has Flags.MULTIPLICATION = true) :
    f.has Flags.LINEAR_IN_ONE = true := by
  simp only [Flags.has, beq_iff_eq] at h ⊢
  have : Flags.LINEAR_IN_ONE = Flags.MULTIPLICATION &&& Flags.LINEAR_IN_ONE := by decide
  rw [this, ← Nat.land_assoc, h]

theorem has_dot_mult (f : Flags) (h : f.has Flags.DOT_PRODUCT = true) :
    f.has Flags.MULTIPLICATION = true := by
  simp only [Flags.has, beq_iff_eq] at h ⊢
  have : Flags.MULTIPLICATION = Flags.DOT_PRODUCT &&& Flags.MULTIPLICATION := by decide
  rw [this, ← Nat.land_assoc, h]

/-- `denseArgs` keeps values and matrices. -/
theorem denseArgs_spec (n : ℕ) (hn : 0 < n) (args args' : (a : Fin k) → Trip (P a) F)
    (hwf : ∀ a, (args a).jac.Wf n) (h : denseArgs args = .ok args') :
    (∀ a, (args' a).x = (args a).x) ∧ (∀ a, (args' a).jac.Wf n) ∧
      ∀ a i p, (args' a).jac.den i p = (args a).jac.den i p := by
  unfold denseArgs at h
  split at h
  · simp at h
  · rename_i rows hrows
    simp only [Except.ok.injEq] at h
    subst h
    have := fun a => Jac.denseArray_den (hwf a) (seqFin_ok _ _ hrows a)
    refine ⟨fun a => rfl, fun a => ?_, fun a i p => (this a).1 i p⟩
    have := (this a).2
    show (rows a).length ≤ n
    omega

/-- The vmapped second-order term is exact. -/
theorem vmapped_spec (n : ℕ) (hn : 0 < n) (T : ℕ) (args : (a : Fin k) → Trip (P a) F) (hk : 0 < k)
    (hwf : ∀ a, (args a).jac.Wf n) (hI : I.HLawful n fun a => (args a).x)
    (hbil : I.flags.has Flags.LINEAR_IN_ONE = true →
      I.flags.has Flags.MULTIPLICATION = true ∧ I.custom = none ∧ k = 2)
    (hmix : allWeak args = true ∨ anyWeak args = false ∨ I.flags.has Flags.LINEAR_IN_ONE = true ∨
      ((I.findOutIdx T args).2 = true ∧ I.flags.has Flags.SPARSE_JHJ = false))
    (h : Q → F) (hh : I.vmappedJHJ T args = .ok h) : I.HessSpec n args h := by
  unfold vmappedJHJ at hh
  dsimp only at hh
  split at hh
  · simp at hh
  rename_i args' hargs'
  set densify := (I.findOutIdx T args).2 && !I.flags.has Flags.SPARSE_JHJ with hdens
  -- facts about the (possibly densified) arguments
  have hA : (∀ a, (args' a).x = (args a).x) ∧ (∀ a, (args' a).jac.Wf n) ∧
      ∀ a i p, (args' a).jac.den i p = (args a).jac.den i p := by
    split at hargs'
    · exact denseArgs_spec n hn args args' hwf hargs'
    · simp only [Except.ok.injEq] at hargs'
      subst hargs'
      exact ⟨fun _ => rfl, hwf, fun _ _ _ => rfl⟩
  obtain ⟨hAx, hAwf, hAden⟩ := hA
  have hAx' : (fun a => (args' a).x) = fun a => (args a).x := funext hAx
  have hAden' : ∀ v i, I.sliceDen args' v i = I.sliceDen args v i := by
    intro v i; funext a c; exact hAden a i _
  set outIdx := if densify = true then none else (I.findOutIdx T args).1 with hout
  -- which index information reaches the slices
  have hcase : outIdx = none ∨ (anyWeak args = true ∧ outIdx = some (I.idxAt args) ∧ args' = args) := by
    by_cases hd : densify = true
    · left; rw [hout, if_pos hd]
    · cases hw : anyWeak args with
      | false => left; rw [hout, if_neg hd, I.findOutIdx_strong T args hw]
      | true =>
        right
        rw [if_neg hd] at hargs'
        simp only [Except.ok.injEq] at hargs'
        exact ⟨rfl, by rw [hout, if_neg hd, I.findOutIdx_weak T args hw], hargs'.symm⟩
  -- one slice
  have hslice : (outIdx.isSome = true → I.idxWidth args ≠ 0) → ∀ v r,
      I.hessTransform v (I.sliceArgs args' v) (outIdx.map fun f => f v) = .ok r → ∀ o,
      r o = ∑ i ∈ Finset.range n, I.hess v (I.sliceX (fun a => (args a).x) v)
        (I.sliceDen args v i) (I.sliceDen args v i) o := by
    intro hw0 v r hr o
    have hsx : (fun a => (I.sliceArgs args' v a).x) = I.sliceX (fun a => (args a).x) v := by
      rw [← hAx']; rfl
    have hsw := I.slice_wf n args' hAwf v
    have hok : I.flags.has Flags.LINEAR_IN_ONE = false →
        IdxOk (fun a => (I.sliceArgs args' v a).jac) (outIdx.map fun f => f v) := by
      intro hf
      rcases hcase with he | ⟨hw, he, ha⟩
      · rw [he]; trivial
      · rw [he, ha]
        have hw0' := hw0 (by rw [he]; rfl)
        refine I.idxOk_union n args hwf hf ?_ v hw0'
        rcases hmix with h1 | h1 | h1 | ⟨h1, h2⟩
        · exact h1
        · rw [hw] at h1; cases h1
        · rw [hf] at h1; cases h1
        · exfalso
          have hd : densify = true := by rw [hdens, h1, h2]; rfl
          rw [hout, if_pos hd] at he
          cases he
    unfold hessTransform at hr
    split at hr
    · rename_i c hc
      have hf : I.flags.has Flags.LINEAR_IN_ONE = false := by
        by_contra hf
        have := (hbil (by simpa using hf)).2.1
        rw [hc] at this; cases this
      have := hI.custom c hc v (I.sliceArgs args' v) _ r (fun a => congrFun hsx a) hsw (hok hf) hr o
      rw [this]
      refine Finset.sum_congr rfl fun i _ => ?_
      rw [I.denAt_slice, hAden']
    · split at hr
      · rename_i hm
        have hI' : I.HLawful n fun a => (args' a).x := by rw [hAx']; exact hI
        have := I.dot_spec n args' hAwf hI' hm (has_mult_lio _ hm) v (outIdx.map fun f => f v) (by
          rcases hcase with he | ⟨hw, he, ha⟩
          · left; rw [he]; rfl
          · right
            rw [ha]
            exact ⟨hw, by rw [he]; rfl, hw0 (by rw [he]; rfl)⟩) r hr o
        rw [this]
        refine Finset.sum_congr rfl fun i _ => ?_
        rw [hAden', hAx']
      · rename_i hm
        have hf : I.flags.has Flags.LINEAR_IN_ONE = false := by
          by_contra hf
          exact hm (hbil (by simpa using hf)).1
        rw [if_neg (by rw [hf]; simp)] at hr
        have := I.general_spec n v (I.sliceArgs args' v) _ hsw (hok hf) r hr o
        rw [this]
        refine Finset.sum_congr rfl fun i _ => ?_
        rw [I.denAt_slice, hAden', hsx]
  -- vanishing where no index is used
  have hzero : anyWeak args = true → ∀ v, I.mergedIdx args v = ∅ → ∀ o i,
      I.hess v (I.sliceX (fun a => (args a).x) v) (I.sliceDen args v i) (I.sliceDen args v i) o = 0 := by
    intro hw v hv o i
    have hnm : (i : ℤ) ∉ I.mergedIdx args v := by rw [hv]; simp
    cases hf : I.flags.has Flags.LINEAR_IN_ONE with
    | false =>
      rw [I.mem_merged_union n args hwf hf] at hnm
      push Not at hnm
      have : I.sliceDen args v i = 0 := by
        funext a
        exact I.slice_den_zero n args v a i (hnm a (by simp))
      rw [this]; simp
    | true =>
      rw [I.mem_merged_inter n args hwf hf hk] at hnm
      push Not at hnm
      obtain ⟨a, ha⟩ := hnm
      have hz := I.slice_den_zero n args v a i (ha (by simp))
      obtain ⟨hm, _, hk2⟩ := hbil hf
      obtain ⟨hd, hmul⟩ := hI.mult hm ⟨0, by omega⟩ ⟨1, by omega⟩ rfl rfl
      rw [hmul]
      have hav : a = ⟨0, by omega⟩ ∨ a = ⟨1, by omega⟩ := by
        have := a.2
        have : a.val = 0 ∨ a.val = 1 := by omega
        rcases this with h | h
        · left; exact Fin.ext h
        · right; exact Fin.ext h
      apply Finset.sum_eq_zero
      intro c _
      rcases hav with rfl | rfl
      · rw [hz]; simp
      · rw [hz]; simp
  by_cases hcond : outIdx.isSome = true ∧ I.idxWidth args = 0
  · rw [if_pos hcond] at hh
    simp only [Except.ok.injEq] at hh
    subst hh
    intro q
    rcases hcase with he | ⟨hw, he, _⟩
    · rw [he] at hcond; simp at hcond
    · apply Eq.symm
      apply Finset.sum_eq_zero
      intro i _
      apply hzero hw
      have := I.card_le_width args (I.out q).1
      rw [hcond.2] at this
      exact Finset.card_eq_zero.mp (by omega)
  · rw [if_neg hcond] at hh
    have hw0 : outIdx.isSome = true → I.idxWidth args ≠ 0 := fun h1 h2 => hcond ⟨h1, h2⟩
    split at hh
    · rename_i hall
      simp only [Except.ok.injEq] at hh
      subst hh
      intro q
      have hq := hall (I.out q).1
      by_cases hkp : I.keptPos outIdx (I.findOutIdx T args).2 (I.out q).1
      · simp only [hkp, if_true] at hq ⊢
        cases hr : I.hessTransform (I.out q).1 (I.sliceArgs args' (I.out q).1)
            (outIdx.map fun f => f (I.out q).1) with
        | error e => rw [hr] at hq; cases hq
        | ok r => exact hslice hw0 (I.out q).1 r hr (I.out q).2
      · simp only [hkp, if_false]
        show (0 : F) = _
        apply Eq.symm
        apply Finset.sum_eq_zero
        intro i _
        unfold keptPos at hkp
        rcases hcase with he | ⟨hw, he, _⟩
        · rw [he] at hkp; simp at hkp
        · rw [he] at hkp
          dsimp only at hkp
          split at hkp
          · apply hzero hw
            rw [Finset.eq_empty_iff_forall_notMem]
            intro z hz
            apply hkp
            refine ⟨z, ((I.mem_idxAt_nonneg args _ z).mpr hz).1, ?_⟩
            have := I.merged_nonneg args _ z hz
            omega
          · exact absurd trivial hkp
    · simp at hh

omit [∀ a, Fintype (P a)] in
/-- Decomposition for a single argument. -/
theorem single_arg (hk : k = 1) (g : (a : Fin k) → Fin (I.dim a) → F) (a : Fin k) :
    g = Pi.single a (g a) := by
  subst hk
  funext b
  obtain rfl : b = a := Subsingleton.elim _ _
  simp

/-- The second-order term is exact. -/
theorem hessian_spec (n : ℕ) (hn : 0 < n) (T : ℕ) (args : (a : Fin k) → Trip (P a) F) (hk : 0 < k)
    (hwf : ∀ a, (args a).jac.Wf n) (hI : I.HLawful n fun a => (args a).x)
    (hbil : I.BilinearOk) (hmix : I.MixOk T args)
    (h : Q → F) (hh : I.hessianTransform T args = .ok h) : I.HessSpec n args h := by
  unfold hessianTransform at hh
  split at hh
  · rename_i hl
    simp only [Except.ok.injEq] at hh
    subst hh
    intro q
    apply Eq.symm
    apply Finset.sum_eq_zero
    intro i _
    rw [hI.linear hl]
    rfl
  · rename_i hl
    split at hh
    · rename_i h1
      simp only [Except.ok.injEq] at hh
      subst hh
      intro q
      apply Eq.symm
      apply Finset.sum_eq_zero
      intro i _
      rw [I.single_arg h1.2 (I.sliceDen args (I.out q).1 i) ⟨0, hk⟩, hI.linOne h1.1]
      rfl
    · rename_i h1
      split at hh
      · rename_i h2
        simp only [Except.ok.injEq] at hh
        subst hh
        intro q
        apply Eq.symm
        apply Finset.sum_eq_zero
        intro i _
        rw [I.single_arg h2.2.2 (I.sliceDen args (I.out q).1 i) ⟨0, hk⟩,
          hI.linFirst h2.1 h2.2.1 _ ⟨0, hk⟩ rfl]
        rfl
      · rename_i h2
        refine I.vmapped_spec n hn T args hk hwf hI ?_ ?_ h hh
        · intro hlio
          rcases hbil hlio with h3 | h3 | h3
          · exact absurd h3 hl
          · exact absurd ⟨hlio, h3⟩ h1
          · refine ⟨h3.1, h3.2, ?_⟩
            have := hI.mult_arity h3.1
            have : k ≠ 1 := fun h4 => h1 ⟨hlio, h4⟩
            omega
        · rcases hmix with h3 | h3 | h3 | h3 | h3
          · exact Or.inl h3
          · exact Or.inr (Or.inl h3)
          · exact Or.inr (Or.inr (Or.inl h3))
          · exact absurd h3 h2
          · exact Or.inr (Or.inr (Or.inr h3))

end HInst

end Folx

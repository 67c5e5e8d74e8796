import Verif.Core.Hess
import Verif.Core.RuleProofs

/-! # Proofs about the second-order term -/

namespace Folx

open Folx.Interp (Err)

variable {k : ℕ} {P : Fin k → Type} {Q F : Type} [CommRing F]

/-! ### The three strategies -/

section Strategies
variable {dim : Fin k → ℕ} {O : Type}

theorem unit_decompose (g : (a : Fin k) → Fin (dim a) → F) :
    g = ∑ d : (Σ a, Fin (dim a)), g d.1 d.2 • (unit d : (a : Fin k) → Fin (dim a) → F) := by
  rw [Fintype.sum_sigma]
  conv_lhs => rw [← Finset.univ_sum_single g]
  refine Finset.sum_congr rfl fun a _ => ?_
  simp only [unit]
  conv_lhs => rw [← Finset.univ_sum_single (g a)]
  have hs := map_sum (LinearMap.single F (fun a => Fin (dim a) → F) a) (fun c => Pi.single c (g a c))
    Finset.univ
  simp only [LinearMap.coe_single] at hs
  rw [hs]
  refine Finset.sum_congr rfl fun c _ => ?_
  rw [← Pi.single_smul, ← Pi.single_smul]
  simp

variable (H : ((a : Fin k) → Fin (dim a) → F) →ₗ[F] ((a : Fin k) → Fin (dim a) → F) →ₗ[F] (O → F))

theorem bilin_right (u g : (a : Fin k) → Fin (dim a) → F) (o : O) :
    H u g o = ∑ d : (Σ a, Fin (dim a)), H u (unit d) o * g d.1 d.2 := by
  conv_lhs => rw [unit_decompose g, map_sum]
  rw [Finset.sum_apply]
  refine Finset.sum_congr rfl fun d _ => ?_
  rw [map_smul, Pi.smul_apply, smul_eq_mul, mul_comm]

theorem bilin_left (u g : (a : Fin k) → Fin (dim a) → F) (o : O) :
    H g u o = ∑ d : (Σ a, Fin (dim a)), H (unit d) u o * g d.1 d.2 := by
  conv_lhs => rw [unit_decompose g, map_sum]
  rw [LinearMap.sum_apply, Finset.sum_apply]
  refine Finset.sum_congr rfl fun d _ => ?_
  rw [map_smul, LinearMap.smul_apply, Pi.smul_apply, smul_eq_mul, mul_comm]

theorem viaTrace_eq (m : ℕ) (g : ℕ → (a : Fin k) → Fin (dim a) → F) (o : O) :
    viaTrace H m g o = ∑ s ∈ Finset.range m, H (g s) (g s) o := rfl

theorem viaHvp_eq (m : ℕ) (g : ℕ → (a : Fin k) → Fin (dim a) → F) (o : O) :
    viaHvp H m g o = ∑ s ∈ Finset.range m, H (g s) (g s) o := by
  unfold viaHvp
  rw [Finset.sum_comm]
  refine Finset.sum_congr rfl fun s _ => ?_
  rw [bilin_right H (g s) (g s)]

theorem viaHessian_eq (m : ℕ) (g : ℕ → (a : Fin k) → Fin (dim a) → F) (o : O) :
    viaHessian H m g o = ∑ s ∈ Finset.range m, H (g s) (g s) o := by
  unfold viaHessian
  simp only [Finset.mul_sum]
  have h : ∀ s, H (g s) (g s) o = ∑ d : (Σ a, Fin (dim a)), ∑ e : (Σ a, Fin (dim a)),
      H (unit d) (unit e) o * (g s d.1 d.2 * g s e.1 e.2) := by
    intro s
    rw [bilin_left H (g s) (g s)]
    refine Finset.sum_congr rfl fun d _ => ?_
    rw [bilin_right H (unit d) (g s), Finset.sum_mul]
    refine Finset.sum_congr rfl fun e _ => ?_
    ring
  simp only [h]
  conv_rhs => rw [Finset.sum_comm]
  refine Finset.sum_congr rfl fun d _ => ?_
  rw [Finset.sum_comm]

end Strategies

/-! ### Slices -/

section Slices
variable {P₀ K₀ : Type} {d : ℕ}

theorem sliceJac_den (e : P₀ ≃ K₀ × Fin d) (u : K₀) (J : Jac P₀ F) (i : ℕ) (c : Fin d) :
    (sliceJac e u J).den i c = J.den i (e.symm (u, c)) := by
  cases J with
  | dense rows =>
    simp only [sliceJac, Jac.den]
    by_cases h : i < rows.length
    · rw [List.getD_eq_getElem _ _ (by simpa using h), List.getD_eq_getElem _ _ h]
      simp [sliceArr]
    · rw [List.getD_eq_default _ _ (by simpa using h), List.getD_eq_default _ _ (by simpa using h)]
  | sparse rows =>
    simp only [sliceJac, Jac.den, List.map_map]
    rfl

theorem sliceJac_wf (e : P₀ ≃ K₀ × Fin d) (u : K₀) (J : Jac P₀ F) (n : ℕ) (h : J.Wf n) :
    (sliceJac e u J).Wf n := by
  cases J with
  | dense rows =>
    have h : rows.length ≤ n := h
    show (rows.map _).length ≤ n
    simpa using h
  | sparse rows =>
    intro r hr c
    obtain ⟨r', hr', rfl⟩ := List.mem_map.mp hr
    exact h r' hr' _

theorem sliceJac_weak (e : P₀ ≃ K₀ × Fin d) (u : K₀) (J : Jac P₀ F) :
    (sliceJac e u J).weak = J.weak := by cases J <;> rfl

theorem sliceJac_nrows (e : P₀ ≃ K₀ × Fin d) (u : K₀) (J : Jac P₀ F) :
    (sliceJac e u J).nrows = J.nrows := by cases J <;> simp [sliceJac, Jac.nrows]

end Slices

/-! ### Restricted Jacobians cover everything -/

section Restrict
variable {dim : Fin k → ℕ}

/-- All Jacobians at input `i` (specification). -/
def denAt (js : (a : Fin k) → Jac (Fin (dim a)) F) (i : ℕ) : (a : Fin k) → Fin (dim a) → F :=
  fun a c => (js a).den i c

/-- An index list that loses nothing for the Jacobians `js`: distinct indices apart from padding, all
inputs any Jacobian depends on are listed, and dense Jacobians are only read at existing rows. -/
def IdxOk (js : (a : Fin k) → Jac (Fin (dim a)) F) : Option (List ℤ) → Prop
  | none => True
  | some is => is ≠ [] ∧ (is.filter fun z => 0 ≤ z).Nodup ∧
      (∀ (i : ℕ) a c, (js a).den i c ≠ 0 → (i : ℤ) ∈ is) ∧
      ∀ a, (js a).weak = false → ∀ z ∈ is, 0 ≤ z ∧ z < (js a).nrows

theorem sum_eq_of_vanish {β : Type} [AddCommMonoid β] (m n : ℕ) (f : ℕ → β) (hm : ∀ s, m ≤ s → f s = 0)
    (hn : ∀ s, n ≤ s → f s = 0) : ∑ s ∈ Finset.range m, f s = ∑ s ∈ Finset.range n, f s := by
  have key : ∀ m, (∀ s, m ≤ s → f s = 0) → ∑ s ∈ Finset.range m, f s =
      ∑ s ∈ Finset.range (max m n), f s := by
    intro m hm
    apply Finset.sum_subset
    · intro x hx; simp at hx ⊢; omega
    · intro x _ hx; exact hm x (by simpa using hx)
  rcases le_total m n with h | h
  · rw [key m hm, max_eq_right h]
  · apply Eq.symm
    apply Finset.sum_subset
    · intro x hx; simp at hx ⊢; omega
    · intro x _ hx; exact hn x (by simpa using hx)

theorem maxLen_getD (rows : (a : Fin k) → List (Fin (dim a) → F)) (s : ℕ) (h : maxLen rows ≤ s) (a : Fin k) :
    (rows a).getD s (fun _ => 0) = fun _ => 0 :=
  List.getD_eq_default _ _ (le_trans (Finset.le_sup (f := fun a => (rows a).length) (Finset.mem_univ a)) h)

theorem constructFor_sparse_row {P₀ : Type} [Fintype P₀] (n : ℕ) (rows : List (Row P₀ F))
    (hw : (Jac.sparse rows).Wf n) (idx : List ℤ) (hne : idx ≠ []) (hnd : (idx.filter fun z => 0 ≤ z).Nodup)
    (out : List (P₀ → F)) (hout : (Jac.sparse rows).constructFor (some idx) = .ok out) :
    out.length = idx.length ∧ ∀ s (hs : s < idx.length) p, out.getD s (fun _ => 0) p =
      if 0 ≤ idx[s] then (Jac.sparse rows).den idx[s].toNat p else 0 := by
  have hne' : (idx.map fun i (_ : P₀) => i) ≠ [] := by simpa using hne
  have hout' : Jac.constructSparse rows (idx.map fun i (_ : P₀) => i) = .ok out := by
    simpa [Jac.constructFor, hne] using hout
  have hlen : out.length = idx.length := by
    unfold Jac.constructSparse Jac.getIndexMask at hout'
    simp only [hne', if_false, Except.ok.injEq] at hout'
    subst hout'
    simp [Jac.materializeForIdx]
  refine ⟨hlen, fun s hs p => ?_⟩
  obtain ⟨_, h2⟩ := construct_row rows _ out hout' hne' s (by simpa using hs) p
  rw [h2]
  have hm : ((idx.map fun i (_ : P₀) => i).map (· p)) = idx := by simp [Function.comp_def]
  rw [hm]
  have hg : ((idx.map fun i (_ : P₀) => i)[s]'(by simpa using hs)) p = idx[s] := by simp
  rw [hg]
  by_cases h0 : 0 ≤ idx[s]
  · rw [if_pos h0, if_pos (idxOf_getElem_of_filter_nodup idx (fun z => decide (0 ≤ z)) hnd s hs (by simpa using h0))]
    simp only [Jac.den]
    rw [Int.toNat_of_nonneg h0]
  · rw [if_neg h0]
    split
    · exact Jac.den_neg hw _ (by omega) p
    · rfl

theorem constructFor_dense_row {P₀ : Type} [Fintype P₀] (rows : List (P₀ → F))
    (idx : List ℤ) (hne : idx ≠ []) (out : List (P₀ → F))
    (hout : (Jac.dense rows).constructFor (some idx) = .ok out) :
    out.length = idx.length ∧ ∀ s (hs : s < idx.length) p, 0 ≤ idx[s] → idx[s] < rows.length →
      out.getD s (fun _ => 0) p = (Jac.dense rows).den idx[s].toNat p := by
  simp only [Jac.constructFor, hne, if_false, Except.ok.injEq] at hout
  subst hout
  refine ⟨by simp, fun s hs p h0 h1 => ?_⟩
  rw [List.getD_eq_getElem _ _ (by simpa using hs)]
  simp only [List.getElem_map, jaxTake, not_lt.mpr h0, if_false, Jac.den]
  have : (min (max idx[s] 0) ((rows.length : ℤ) - 1)).toNat = idx[s].toNat := by omega
  rw [this]

theorem list_sum_eq_finset {β : Type} [AddCommMonoid β] (l : List ℤ) (hnd : l.Nodup) (f : ℤ → β) :
    (l.map f).sum = ∑ z ∈ l.toFinset, f z := by
  rw [List.sum_toFinset _ hnd]

theorem list_sum_filter {β γ : Type} [AddCommMonoid β] (l : List γ) (q : γ → Bool) (f : γ → β)
    (h : ∀ z ∈ l, q z = false → f z = 0) : (l.map f).sum = ((l.filter q).map f).sum := by
  induction l with
  | nil => simp
  | cons a l ih =>
    have := ih fun z hz => h z (by simp [hz])
    by_cases hq : q a = true
    · rw [List.filter_cons_of_pos hq, List.map_cons, List.sum_cons, this, List.map_cons, List.sum_cons]
    · rw [List.filter_cons_of_neg hq, List.map_cons, List.sum_cons, this, h a (by simp) (by simpa using hq),
        zero_add]

/-- Sum over an index list of a function of the input index. -/
theorem idxList_sum {β : Type} [AddCommMonoid β] (is : List ℤ) (hnd : (is.filter fun z => 0 ≤ z).Nodup)
    (n : ℕ) (f : ℕ → β) (hf : ∀ i : ℕ, (i : ℤ) ∉ is → f i = 0) (hn : ∀ i, n ≤ i → f i = 0) :
    ∑ s ∈ Finset.range is.length, (if 0 ≤ is.getD s (-1) then f (is.getD s (-1)).toNat else 0) =
      ∑ i ∈ Finset.range n, f i := by
  have h1 : ∑ s ∈ Finset.range is.length, (if 0 ≤ is.getD s (-1) then f (is.getD s (-1)).toNat else 0) =
      (is.map fun z => if 0 ≤ z then f z.toNat else 0).sum := by
    rw [← list_range_sum_eq]
    congr 1
    apply List.ext_getElem
    · simp
    · intro i hi1 hi2
      simp only [List.length_map, List.length_range] at hi1
      simp [hi1]
  rw [h1, list_sum_filter is (fun z => decide (0 ≤ z)) _ (by intro z _ hz; simp at hz; simp [hz]),
    list_sum_eq_finset _ hnd]
  have h2 : ∀ z ∈ (is.filter fun z => 0 ≤ z).toFinset, (if 0 ≤ z then f z.toNat else 0) = f z.toNat := by
    intro z hz; simp at hz; rw [if_pos hz.2]
  rw [Finset.sum_congr rfl h2]
  have hinj : Set.InjOn Int.toNat ((is.filter fun z => 0 ≤ z).toFinset : Set ℤ) := by
    intro a ha b hb hab
    simp at ha hb
    omega
  rw [← Finset.sum_image (g := Int.toNat) (f := f) hinj]
  set S := (is.filter fun z => 0 ≤ z).toFinset.image Int.toNat
  have hS : ∀ i, i ∉ S → f i = 0 := by
    intro i hi
    apply hf
    intro hmem
    apply hi
    refine Finset.mem_image.mpr ⟨(i : ℤ), ?_, by simp⟩
    simp [hmem]
  rw [Finset.sum_subset (Finset.subset_union_left (s₁ := S) (s₂ := Finset.range n)) fun x _ hx => hS x hx,
    Finset.sum_subset (Finset.subset_union_right (s₁ := S) (s₂ := Finset.range n)) fun x _ hx =>
      hn x (by simpa using hx)]

theorem maxLen_of_const (rows : (a : Fin k) → List (Fin (dim a) → F)) (m : ℕ) (hk : 0 < k)
    (h : ∀ a, (rows a).length = m) : maxLen rows = m := by
  unfold maxLen
  apply le_antisymm
  · exact Finset.sup_le fun a _ => le_of_eq (h a)
  · rw [← h ⟨0, hk⟩]
    exact Finset.le_sup (f := fun a => (rows a).length) (Finset.mem_univ _)

/-- Summing over the restricted rows is summing over all inputs. -/
theorem reduced_sum {G : Type} [AddCommMonoid G] (n : ℕ) (js : (a : Fin k) → Jac (Fin (dim a)) F)
    (hwf : ∀ a, (js a).Wf n) (idx : Option (List ℤ)) (hidx : IdxOk js idx)
    (rows : (a : Fin k) → List (Fin (dim a) → F)) (h : reducedJacobians js idx = .ok rows)
    (φ : ((a : Fin k) → Fin (dim a) → F) → G) (hφ : φ 0 = 0) :
    ∑ s ∈ Finset.range (maxLen rows), φ (col rows s) = ∑ i ∈ Finset.range n, φ (denAt js i) := by
  have hden : ∀ i, n ≤ i → φ (denAt js i) = 0 := by
    intro i hi
    rw [show denAt js i = 0 from ?_, hφ]
    funext a c
    exact Jac.den_eq_zero_of_ge (hwf a) i hi c
  have hcol0 : ∀ s, maxLen rows ≤ s → φ (col rows s) = 0 := by
    intro s hs
    rw [show col rows s = 0 from ?_, hφ]
    funext a
    exact maxLen_getD rows s hs a
  cases idx with
  | none =>
    simp only [reducedJacobians] at h
    split at h
    · simp at h
    · rename_i rows' hrows'
      simp only [Except.ok.injEq] at h
      have hc : ∀ s, col rows s = denAt js s := by
        intro s
        funext a c
        rw [← h]
        simp only [col]
        rw [Jac.extendTo_getD]
        exact (Jac.denseArray_den (hwf a) (seqFin_ok _ _ hrows' a)).1 s c
      rw [sum_eq_of_vanish (maxLen rows) n (fun s => φ (col rows s)) hcol0
        (fun s hs => by rw [hc]; exact hden s hs)]
      exact Finset.sum_congr rfl fun s _ => by rw [hc]
  | some is =>
    obtain ⟨hne, hnd, hcov, hdense⟩ := hidx
    rcases Nat.eq_zero_or_pos k with hk | hk
    · subst hk
      have hz : ∀ g : ((a : Fin 0) → Fin (dim a) → F), φ g = 0 := by
        intro g; rw [Subsingleton.elim g 0, hφ]
      simp [hz]
    · have hr : ∀ a, (js a).constructFor (some is) = .ok (rows a) := seqFin_ok _ _ h
      have hlen : ∀ a, (rows a).length = is.length := by
        intro a
        have := hr a
        cases hj : js a with
        | sparse r =>
          rw [hj] at this
          have hw := hwf a
          rw [hj] at hw
          exact (constructFor_sparse_row n r hw is hne hnd _ this).1
        | dense r =>
          rw [hj] at this
          exact (constructFor_dense_row r is hne _ this).1
      have hcol : ∀ s (hs : s < is.length), φ (col rows s) =
          if 0 ≤ is.getD s (-1) then φ (denAt js (is.getD s (-1)).toNat) else 0 := by
        intro s hs
        rw [List.getD_eq_getElem _ _ hs]
        have key : ∀ a c, (rows a).getD s (fun _ => 0) c =
            if 0 ≤ is[s] then (js a).den is[s].toNat c else 0 := by
          intro a c
          have := hr a
          cases hj : js a with
          | sparse r =>
            rw [hj] at this
            have hw := hwf a
            rw [hj] at hw
            exact (constructFor_sparse_row n r hw is hne hnd _ this).2 s hs c
          | dense r =>
            rw [hj] at this
            have hb := hdense a (by rw [hj]; rfl) is[s] (List.getElem_mem _)
            rw [hj] at hb
            rw [if_pos hb.1]
            exact (constructFor_dense_row r is hne _ this).2 s hs c hb.1 hb.2
        split
        · rename_i h0
          congr 1
          funext a c
          simp only [col, denAt]
          rw [key, if_pos h0]
        · rename_i h0
          rw [show col rows s = 0 from ?_, hφ]
          funext a c
          simp only [col]
          rw [key, if_neg h0]
          rfl
      rw [maxLen_of_const rows is.length hk hlen,
        Finset.sum_congr rfl fun s hs => hcol s (Finset.mem_range.mp hs)]
      apply idxList_sum is hnd n (fun i => φ (denAt js i)) _ hden
      intro i hi
      rw [show denAt js i = 0 from ?_, hφ]
      funext a c
      by_contra hc
      exact hi (hcov i a c hc)

end Restrict

end Folx

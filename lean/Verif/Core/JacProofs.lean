import Verif.Core.Jac

namespace Folx

open Folx.Interp (Err)

variable {P Q F : Type}

@[simp] theorem arange_length (m : ℕ) : (arange m : List (P → ℤ)).length = m := by simp [arange]

@[simp] theorem arange_getElem (m s : ℕ) (h : s < (arange m : List (P → ℤ)).length) (p : P) :
    (arange m : List (P → ℤ))[s] p = s := by
  have : (arange m : List (P → ℤ))[s] = fun _ => ((List.range m)[s]'(by simpa using h) : ℤ) := by
    rw [List.getElem_of_eq (show (arange m : List (P → ℤ)) =
      (List.range m).map fun (i : ℕ) (_ : P) => (i : ℤ) from rfl) h, List.getElem_map]
  rw [this]; simp

theorem arange_map (m : ℕ) (p : P) :
    (arange m : List (P → ℤ)).map (· p) = (List.range m).map (fun i : ℕ => (i : ℤ)) := by
  simp [arange]

/-! ### list sums -/

theorem list_sum_eq_zero [AddCommMonoid F] {β : Type} {l : List β} {f : β → F}
    (h : ∀ x ∈ l, f x = 0) : (l.map f).sum = 0 := by
  induction l with
  | nil => simp
  | cons a l ih =>
    rw [List.map_cons, List.sum_cons, h a (by simp), ih fun x hx => h x (by simp [hx]), zero_add]

theorem list_sum_congr [AddCommMonoid F] {β : Type} {l : List β} {f g : β → F}
    (h : ∀ x ∈ l, f x = g x) : (l.map f).sum = (l.map g).sum := by
  rw [List.map_congr_left h]

theorem list_sum_add [AddCommMonoid F] {β : Type} (l : List β) (f g : β → F) :
    (l.map fun x => f x + g x).sum = (l.map f).sum + (l.map g).sum := by
  induction l with
  | nil => simp
  | cons a l ih => simp only [List.map_cons, List.sum_cons, ih]; rw [add_add_add_comm]

/-! ### segment sums -/

@[simp] theorem segSum_length [AddCommMonoid F] (m : ℕ) (ids : List (P → ℤ)) (vals : List (P → F)) :
    (segSum m ids vals).length = m := by simp [segSum]

theorem segSum_getD [AddCommMonoid F] (m : ℕ) (ids : List (P → ℤ)) (vals : List (P → F)) (s : ℕ)
    (p : P) : (segSum m ids vals).getD s (fun _ => 0) p =
      if s < m then ((ids.zip vals).map fun iv => if iv.1 p = (s : ℤ) then iv.2 p else 0).sum
      else 0 := by
  unfold segSum
  by_cases h : s < m
  · rw [List.getD_eq_getElem _ _ (by simpa using h)]; simp [h]
  · rw [List.getD_eq_default _ _ (by simpa using h)]; simp [h]

/-! ### index matching -/

theorem matchIdx_eq_iff (outs : List ℤ) (z : ℤ) (s : ℕ) :
    matchIdx outs z = (s : ℤ) ↔ z ∈ outs ∧ outs.idxOf z = s := by
  unfold matchIdx
  by_cases h : z ∈ outs
  · simp [h]
  · simp [h]

theorem idxOf_eq_iff (outs : List ℤ) (z : ℤ) (s : ℕ) (hs : s < outs.length)
    (hfirst : outs.idxOf outs[s] = s) : (z ∈ outs ∧ outs.idxOf z = s) ↔ z = outs[s] := by
  constructor
  · rintro ⟨h1, h2⟩
    have := List.getElem_idxOf (List.idxOf_lt_length_of_mem h1)
    subst h2; exact this.symm
  · rintro rfl
    exact ⟨List.getElem_mem _, hfirst⟩

theorem idxOf_not_first (outs : List ℤ) (z : ℤ) (s : ℕ) (hs : s < outs.length)
    (hfirst : outs.idxOf outs[s] ≠ s) : ¬ (z ∈ outs ∧ outs.idxOf z = s) := by
  rintro ⟨h1, h2⟩
  apply hfirst
  have := List.getElem_idxOf (List.idxOf_lt_length_of_mem h1)
  subst h2
  rw [this]

theorem idxOf_getElem_of_filter_nodup {β : Type} [DecidableEq β] (l : List β) (q : β → Bool)
    (hnd : (l.filter q).Nodup) (s : ℕ) (hs : s < l.length) (hq : q l[s] = true) :
    l.idxOf l[s] = s := by
  induction l generalizing s with
  | nil => simp at hs
  | cons a l ih =>
    cases s with
    | zero => simp
    | succ s =>
      have hs' : s < l.length := by simpa using hs
      have hq' : q l[s] = true := by simpa using hq
      have hne : a ≠ l[s] := by
        intro h
        have hqa : q a = true := by rw [h]; exact hq'
        rw [List.filter_cons_of_pos hqa, List.nodup_cons] at hnd
        apply hnd.1
        rw [List.mem_filter]
        exact ⟨h ▸ List.getElem_mem hs', hqa⟩
      have hnd' : (l.filter q).Nodup := by
        by_cases hqa : q a = true
        · rw [List.filter_cons_of_pos hqa, List.nodup_cons] at hnd; exact hnd.2
        · rw [List.filter_cons_of_neg hqa] at hnd; exact hnd
      have := ih hnd' s hs' hq'
      simp only [List.getElem_cons_succ]
      rw [List.idxOf_cons_ne _ hne, this]

/-- Row `s` of `construct_jac_for(outs)` for a sparse Jacobian. -/
theorem construct_row [AddCommMonoid F] (rows : List (Row P F)) (outs : List (P → ℤ))
    (res : List (P → F)) (h : Jac.constructSparse rows outs = .ok res) (hne : outs ≠ [])
    (s : ℕ) (hs : s < outs.length) (p : P) :
    res.length = outs.length ∧
    res.getD s (fun _ => 0) p =
      if (outs.map (· p)).idxOf (outs[s] p) = s then
        (rows.map fun r => if r.idx p = outs[s] p then r.val p else 0).sum
      else 0 := by
  unfold Jac.constructSparse Jac.getIndexMask at h
  simp only [hne, if_false, Except.ok.injEq] at h
  subst h
  unfold Jac.materializeForIdx
  refine ⟨by simp, ?_⟩
  rw [segSum_getD, if_pos hs]
  rw [List.zip_map, List.map_map, ]
  have hz : (rows.zip rows) = rows.map fun r => (r, r) := by
    induction rows with
    | nil => rfl
    | cons a l ih => simp [ih]
  rw [hz, List.map_map]
  have hs' : s < (outs.map (· p)).length := by simpa using hs
  have hget : (outs.map (· p))[s] = outs[s] p := by simp
  split
  · rename_i hf
    apply list_sum_congr
    intro r _
    have hf' : (outs.map (· p)).idxOf ((outs.map (· p))[s]) = s := by rw [hget]; exact hf
    have := (matchIdx_eq_iff (outs.map (· p)) (r.idx p) s).trans
      (idxOf_eq_iff (outs.map (· p)) (r.idx p) s hs' hf')
    rw [hget] at this
    simp only [Function.comp, Prod.map]
    by_cases hr : r.idx p = outs[s] p
    · rw [if_pos (this.mpr hr), if_pos hr]
    · rw [if_neg (fun h => hr (this.mp h)), if_neg hr]
  · rename_i hf
    apply list_sum_eq_zero
    intro r _
    have hf' : (outs.map (· p)).idxOf ((outs.map (· p))[s]) ≠ s := by rw [hget]; exact hf
    simp only [Function.comp, Prod.map]
    rw [if_neg]
    rw [matchIdx_eq_iff]
    exact idxOf_not_first _ _ _ hs' hf'

namespace Jac

theorem den_neg [AddCommMonoid F] {n : ℕ} {rows : List (Row P F)} (h : Wf n (sparse rows))
    (z : ℤ) (hz : z < 0) (p : P) :
    (rows.map fun r => if r.idx p = z then r.val p else 0).sum = 0 := by
  apply list_sum_eq_zero
  intro r hr
  split
  · rename_i h'
    exact ((h r hr p).2 (by omega)).2
  · rfl

theorem den_eq_zero_of_ge [AddCommMonoid F] {n : ℕ} {J : Jac P F} (h : Wf n J) (i : ℕ) (hi : n ≤ i)
    (p : P) : J.den i p = 0 := by
  cases J with
  | dense rows =>
    have : rows.length ≤ n := h
    simp only [den]
    rw [List.getD_eq_default _ _ (by omega)]
  | sparse rows =>
    apply list_sum_eq_zero
    intro r hr
    rw [if_neg]
    have := (h r hr p).1
    omega

theorem le_maxN [Fintype P] (rows : List (Row P F)) (r : Row P F) (hr : r ∈ rows) (p : P) :
    ((r.idx p : ℤ) : WithBot ℤ) ≤ maxN rows := by
  induction rows with
  | nil => simp at hr
  | cons a l ih =>
    unfold maxN
    simp only [List.foldr_cons]
    rcases List.mem_cons.mp hr with rfl | h
    · refine le_max_of_le_left ?_
      exact Finset.le_sup (f := fun p => ((r.idx p : ℤ) : WithBot ℤ)) (Finset.mem_univ p)
    · exact le_max_of_le_right (ih h)

theorem maxN_lt [Fintype P] (rows : List (Row P F)) (n : ℕ)
    (h : ∀ r ∈ rows, ∀ p, r.idx p < n) (m : ℤ) (hm : maxN rows = (m : WithBot ℤ)) : m < n := by
  have : maxN rows < ((n : ℤ) : WithBot ℤ) := by
    clear hm
    induction rows with
    | nil => exact WithBot.bot_lt_coe _
    | cons a l ih =>
      unfold maxN
      simp only [List.foldr_cons]
      refine max_lt ?_ (ih fun r hr => h r (by simp [hr]))
      rw [Finset.sup_lt_iff (WithBot.bot_lt_coe _)]
      intro p _
      exact WithBot.coe_lt_coe.mpr (h a (by simp) p)
  rw [hm] at this
  exact WithBot.coe_lt_coe.mp this

theorem arange_row [AddCommMonoid F] (rows : List (Row P F)) (m : ℕ) (hm : m ≠ 0)
    (res : List (P → F))
    (h : Jac.constructSparse rows (arange m) = .ok res) (s : ℕ)
    (hs : s < m) (p : P) :
    res.getD s (fun _ => 0) p = (sparse rows).den s p := by
  have hne : (arange m : List (P → ℤ)) ≠ [] := by
    simpa [arange] using hm
  obtain ⟨_, h2⟩ := construct_row rows _ res h hne s (by simpa [arange] using hs) p
  rw [h2, if_pos]
  · simp [den]
  · rw [arange_map, arange_getElem]
    have hnd : ((List.range m).map (fun i : ℕ => (i : ℤ))).Nodup :=
      List.Nodup.map (fun a b h => by simpa using h) List.nodup_range
    have := hnd.idxOf_getElem s (by simpa using hs)
    simpa using this

/-- Densification preserves the denoted matrix and never produces more than `n` rows (one row of zeros
when nothing depends on any input). -/
theorem denseArray_den [AddCommMonoid F] [Fintype P] {n : ℕ} {J : Jac P F} (hJ : Wf n J)
    {rows : List (P → F)} (h : J.denseArray = .ok rows) :
    (∀ i p, (dense rows).den i p = J.den i p) ∧ rows.length ≤ max n 1 := by
  cases J with
  | dense r =>
    simp only [denseArray, Except.ok.injEq] at h
    subst h
    exact ⟨fun i p => rfl, le_trans hJ (le_max_left _ _)⟩
  | sparse r =>
    simp only [denseArray] at h
    split at h
    · simp at h
    · rename_i m hm
      have hlt := maxN_lt r n (fun a ha p => (hJ a ha p).1) m hm
      have hle : ∀ a ∈ r, ∀ p, a.idx p ≤ m := by
        intro a ha p
        have := le_maxN r a ha p
        rw [hm] at this
        exact WithBot.coe_le_coe.mp this
      by_cases h0 : (m + 1).toNat = 0
      · rw [h0] at h
        simp only [constructSparse, arange, List.range_zero, List.map_nil, if_true, Except.ok.injEq] at h
        subst h
        refine ⟨fun i p => ?_, by simp⟩
        have hz : (dense [fun _ : P => (0 : F)]).den i p = 0 := by
          cases i <;> simp [den]
        rw [hz]
        symm
        apply list_sum_eq_zero
        intro a ha
        rw [if_neg]
        have := hle a ha p
        omega
      · have hlen : rows.length = (m + 1).toNat := by
          have hne : (arange (m + 1).toNat : List (P → ℤ)) ≠ [] := by
            simpa [arange] using h0
          unfold constructSparse getIndexMask at h
          simp only [hne, if_false, Except.ok.injEq] at h
          subst h
          simp [materializeForIdx]
        refine ⟨fun i p => ?_, by rw [hlen]; omega⟩
        by_cases hi : i < (m + 1).toNat
        · have := arange_row r _ h0 rows h i hi p
          simpa [den] using this
        · simp only [den]
          rw [List.getD_eq_default _ _ (by omega)]
          symm
          apply list_sum_eq_zero
          intro a ha
          rw [if_neg]
          have := hle a ha p
          omega

/-- `dense_array` raises exactly when the sparse Jacobian has no entries at all. -/
theorem denseArray_error [AddCommMonoid F] [Fintype P] (J : Jac P F) (e : Err)
    (h : J.denseArray = .error e) :
    ∃ rows, J = sparse rows ∧ maxN rows = ⊥ := by
  cases J with
  | dense r => simp [denseArray] at h
  | sparse r =>
    simp only [denseArray] at h
    split at h
    · rename_i hm; exact ⟨r, rfl, hm⟩
    · rename_i m hm
      unfold constructSparse at h
      split at h
      · simp at h
      · rename_i hne
        simp [getIndexMask, hne] at h

theorem denseArray_ok [AddCommMonoid F] [Fintype P] [Nonempty P] (J : Jac P F)
    (h : ∀ rows, J = sparse rows → rows ≠ []) : ∃ rows, J.denseArray = .ok rows := by
  cases hd : J.denseArray with
  | ok rows => exact ⟨rows, rfl⟩
  | error e =>
    exfalso
    obtain ⟨rows, rfl, hm⟩ := denseArray_error J e hd
    have hne := h rows rfl
    obtain ⟨r, hr⟩ := List.exists_mem_of_ne_nil rows hne
    have := le_maxN rows r hr (Classical.arbitrary P)
    rw [hm] at this
    exact absurd this (by simp)

/-! ### addition -/

theorem extendTo_getD [AddCommMonoid F] (a : List (P → F)) (m : ℕ) (i : ℕ) :
    (extendTo a m).getD i (fun _ => 0) = a.getD i (fun _ => 0) := by
  unfold extendTo
  by_cases h : i < a.length
  · rw [List.getD_append _ _ _ _ h]
  · rw [List.getD_append_right _ _ _ _ (by omega), List.getD_eq_default a _ (by omega)]
    by_cases h' : i - a.length < m - a.length
    · rw [List.getD_eq_getElem _ _ (by simpa using h')]; simp
    · rw [List.getD_eq_default _ _ (by simpa using h')]

theorem extendTo_length [AddCommMonoid F] (a : List (P → F)) (m : ℕ) (h : a.length ≤ m) :
    (extendTo a m).length = m := by
  simp [extendTo]; omega

theorem addJacobians_den [AddCommMonoid F] (a b : List (P → F)) (i : ℕ) (p : P) :
    (dense (addJacobians a b)).den i p = (dense a).den i p + (dense b).den i p := by
  have ha := extendTo_length a (max a.length b.length) (le_max_left _ _)
  have hb := extendTo_length b (max a.length b.length) (le_max_right _ _)
  have ga := congrFun (extendTo_getD a (max a.length b.length) i) p
  have gb := congrFun (extendTo_getD b (max a.length b.length) i) p
  simp only [den]
  rw [← ga, ← gb]
  unfold addJacobians
  simp only
  by_cases h : i < max a.length b.length
  · rw [List.getD_eq_getElem _ _ (by simp only [List.length_map, List.length_zip, ha, hb]; simpa using h),
      List.getD_eq_getElem _ _ (by rw [ha]; exact h), List.getD_eq_getElem _ _ (by rw [hb]; exact h)]
    simp
  · rw [List.getD_eq_default _ _ (by simp only [List.length_map, List.length_zip, ha, hb]; simpa using h),
      List.getD_eq_default _ _ (by rw [ha]; omega), List.getD_eq_default _ _ (by rw [hb]; omega)]
    simp

theorem addJacobians_length [AddCommMonoid F] (a b : List (P → F)) :
    (addJacobians a b).length = max a.length b.length := by
  simp only [addJacobians, List.length_map, List.length_zip,
    extendTo_length a _ (le_max_left _ _), extendTo_length b _ (le_max_right _ _), min_self]

theorem brdcastRows_eq {β : Type} {l : List β} {m : ℕ} (h : l.length = m) : brdcastRows l m = l := by
  subst h
  unfold brdcastRows
  split <;> simp

theorem den_sparse_append [AddCommMonoid F] (r1 r2 : List (Row P F)) (i : ℕ) (p : P) :
    (sparse (r1 ++ r2)).den i p = (sparse r1).den i p + (sparse r2).den i p := by
  simp [den]

theorem den_sparse_merge [AddCommMonoid F] (r1 r2 : List (Row P F)) (hlen : r1.length = r2.length)
    (h : ∀ r ∈ r1.zip r2, ∀ p, r.2.idx p = r.1.idx p) (i : ℕ) (p : P) :
    (sparse ((r1.zip r2).map fun r => (⟨r.1.idx, fun p => r.1.val p + r.2.val p⟩ : Row P F))).den i p
      = (sparse r1).den i p + (sparse r2).den i p := by
  induction r1 generalizing r2 with
  | nil =>
    cases r2 with
    | nil => simp [den]
    | cons b l => simp at hlen
  | cons a l ih =>
    cases r2 with
    | nil => simp at hlen
    | cons b l2 =>
      have h1 := ih l2 (by simpa using hlen) (fun r hr p => h r (by simp [hr]) p)
      have h2 := h (a, b) (by simp) p
      simp only [den, List.zip_cons_cons, List.map_cons, List.sum_cons, List.map_map] at h1 ⊢
      rw [h1]
      simp only at h2
      rw [h2]
      split
      · rw [add_add_add_comm]
      · simp

theorem Wf.mono [Zero F] {n m : ℕ} (hnm : n ≤ m) {J : Jac P F} (h : Wf n J) : Wf m J := by
  cases J with
  | dense r => exact le_trans h hnm
  | sparse r => intro a ha p; have := h a ha p; exact ⟨by omega, this.2⟩

end Jac

end Folx

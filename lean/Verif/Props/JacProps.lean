import Mathlib.Data.Fin.VecNotation
import Mathlib.Tactic.FinCases
import Verif.Core.JacProofs

/-!
# Properties C21 and C22: `FwdJacobian`
-/

namespace Folx

open Folx.Interp (Err)

variable {P F : Type}

/-- Specification: the sum of all stored entries of element `p` with index `i`. -/
def entrySum [AddCommMonoid F] (rows : List (Row P F)) (i : ℕ) (p : P) : F :=
  (rows.map fun r => if r.idx p = (i : ℤ) then r.val p else 0).sum

/-- **C21 (dense_array).** Whenever `dense_array` of a sparse Jacobian over `n` inputs returns, its row
`i` holds at every element the sum of the stored entries with index `i`; rows beyond the returned ones
would be zero; at most `n` rows (one zero row if nothing is stored for any input). -/
theorem C21_dense_array [AddCommMonoid F] [Fintype P] (n : ℕ) (rows : List (Row P F))
    (hlt : ∀ r ∈ rows, ∀ p, r.idx p < n) (hpad : ∀ r ∈ rows, ∀ p, r.idx p < 0 → r.idx p = -1 ∧ r.val p = 0)
    (out : List (P → F)) (h : (Jac.sparse rows).denseArray = .ok out) :
    out.length ≤ max n 1 ∧
    (∀ i (hi : i < out.length) p, out[i] p = entrySum rows i p) ∧
    (∀ i, out.length ≤ i → ∀ p, entrySum rows i p = 0) := by
  have hW : Jac.Wf n (Jac.sparse rows) := fun r hr p => ⟨hlt r hr p, hpad r hr p⟩
  obtain ⟨h1, h2⟩ := Jac.denseArray_den hW h
  refine ⟨h2, fun i hi p => ?_, fun i hi p => ?_⟩
  · have := h1 i p
    simp only [Jac.den] at this
    rw [List.getD_eq_getElem _ _ hi] at this
    exact this
  · have := h1 i p
    simp only [Jac.den] at this
    rw [List.getD_eq_default _ _ hi] at this
    exact this.symm

/-- **C21 (dense_array is total).** It returns for every sparse Jacobian with at least one row and at
least one element; only an empty index array makes it raise. -/
theorem C21_dense_array_total [AddCommMonoid F] [Fintype P] [Nonempty P] (rows : List (Row P F))
    (hne : rows ≠ []) : ∃ out, (Jac.sparse rows).denseArray = .ok out :=
  Jac.denseArray_ok _ (by rintro r h; cases h; exact hne)

/-- **C21 (construct_jac_for, sparse).** For a list of distinct indices, the `s`-th returned row is the
row of the dense matrix with index `idx[s]`; a padding index (`-1`) gives a zero row. -/
theorem C21_construct_sparse [AddCommMonoid F] [Fintype P] (n : ℕ) (rows : List (Row P F))
    (hpad : ∀ r ∈ rows, ∀ p, r.idx p < 0 → r.idx p = -1 ∧ r.val p = 0) (hlt : ∀ r ∈ rows, ∀ p, r.idx p < n)
    (idx : List ℤ) (hne : idx ≠ [])
    (hnd : (idx.filter (fun z => 0 ≤ z)).Nodup) :
    ∃ out, (Jac.sparse rows).constructFor (some idx) = .ok out ∧ out.length = idx.length ∧
      ∀ s (hs : s < idx.length) (ho : s < out.length) p,
        (∀ i : ℕ, idx[s] = i → out[s] p = entrySum rows i p) ∧ (idx[s] < 0 → out[s] p = 0) := by
  have hne' : (idx.map fun i (_ : P) => i) ≠ [] := by simpa using hne
  have hc : ∃ out, (Jac.sparse rows).constructFor (some idx) = .ok out := by
    simp [Jac.constructFor, hne, Jac.constructSparse, Jac.getIndexMask]
  obtain ⟨out, hout⟩ := hc
  have hout' : Jac.constructSparse rows (idx.map fun i (_ : P) => i) = .ok out := by
    simpa [Jac.constructFor, hne] using hout
  have hlen : out.length = idx.length := by
    unfold Jac.constructSparse Jac.getIndexMask at hout'
    simp only [hne', if_false, Except.ok.injEq] at hout'
    subst hout'
    simp [Jac.materializeForIdx]
  refine ⟨out, hout, hlen, fun s hs ho p => ?_⟩
  obtain ⟨_, h2⟩ := construct_row rows _ out hout' hne' s (by simpa using hs) p
  rw [List.getD_eq_getElem _ _ ho] at h2
  have hget : ((idx.map fun i (_ : P) => i)[s]'(by simpa using hs)) p = idx[s] := by
    rw [List.getElem_map]
  have hmm : (idx.map fun i (_ : P) => i).map (· p) = idx := by
    rw [List.map_map]; exact List.map_id' idx
  rw [hget, hmm] at h2
  constructor
  · intro i hi
    rw [h2]
    have hfirst : idx.idxOf idx[s] = s :=
      idxOf_getElem_of_filter_nodup idx _ hnd s hs
        (by rw [hi]; simp)
    rw [if_pos hfirst, hi]
    rfl
  · intro hneg
    rw [h2]
    split
    · exact Jac.den_neg (n := n) (fun r hr p => ⟨hlt r hr p, hpad r hr p⟩) _ hneg p
    · rfl

/-- **C21 (construct_jac_for, dense).** For in-range indices it returns exactly the listed rows. -/
theorem C21_construct_dense [AddCommMonoid F] [Fintype P] (rows : List (P → F)) (idx : List ℤ)
    (hne : idx ≠ []) (hin : ∀ z ∈ idx, 0 ≤ z ∧ z < rows.length) :
    (Jac.dense rows).constructFor (some idx) =
      .ok (idx.map fun z => rows.getD z.toNat (fun _ => 0)) := by
  simp only [Jac.constructFor, hne, if_false]
  congr 1
  apply List.map_congr_left
  intro z hz
  obtain ⟨h1, h2⟩ := hin z hz
  unfold jaxTake
  simp only [not_lt.mpr h1, if_false]
  congr 1
  omega

/-- Non-vacuity for C21: repeated indices for one element, padding, and a materialisation in
a permuted order with padding. -/
def exRows : List (Row (Fin 2) ℤ) :=
  [⟨![0, 2], ![5, 7]⟩, ⟨![0, -1], ![3, 0]⟩, ⟨![1, 2], ![4, 1]⟩]

example : (∀ r ∈ exRows, ∀ p, r.idx p < (3 : ℕ)) ∧ (∀ r ∈ exRows, ∀ p, r.idx p < 0 → r.idx p = -1 ∧ r.val p = 0) ∧
    ((Jac.sparse exRows).denseArray.toOption.map fun l => l.map fun f => (f 0, f 1)) =
      some [(8, 0), (4, 0), (0, 8)] ∧
    (((Jac.sparse exRows).constructFor (some [2, -1, 0])).toOption.map fun l => l.map fun f => (f 0, f 1)) =
      some [(0, 8), (0, 0), (8, 0)] := by decide

/-- **C22 (partial).** `a + b` denotes the sum of the two matrices whenever it returns, except in the
one situation excluded by `hrows`: both sparse with different row counts, one of which is `1`, and the
single row's mask repeated equals the other mask.  Missing for the full property: that situation, see
`C22_add_doubles` and `C22_add_drops`; and sparse operands with incompatible row counts raise, see
`C22_add_raises`. -/
theorem C22_add_partial [AddCommMonoid F] [Fintype P] [DecidableEq P] (n : ℕ) (a b c : Jac P F)
    (ha : a.Wf n) (hb : b.Wf n)
    (hrows : ∀ r1 r2, a = .sparse r1 → b = .sparse r2 → r1.length = r2.length ∨
      ¬ ∀ x ∈ r1, ∀ y ∈ r2, ∀ p, x.idx p = y.idx p)
    (h : a.add b = .ok c) :
    (∀ i p, c.den i p = a.den i p + b.den i p) ∧ c.Wf (max n 1) := by
  have key : ∀ (x y : Jac P F), x.Wf n → y.Wf n →
      (match x.denseArray, y.denseArray with
        | .ok a, .ok b => .ok (Jac.dense (addJacobians a b))
        | .error e, _ => .error e
        | _, .error e => .error e) = (.ok c : Except Err (Jac P F)) →
      (∀ i p, c.den i p = x.den i p + y.den i p) ∧ c.Wf (max n 1) := by
    intro x y hx hy hc
    cases hxd : x.denseArray with
    | error e => rw [hxd] at hc; simp at hc
    | ok r1 =>
      cases hyd : y.denseArray with
      | error e => rw [hxd, hyd] at hc; simp at hc
      | ok r2 =>
        rw [hxd, hyd] at hc
        simp only [Except.ok.injEq] at hc
        subst hc
        obtain ⟨h1, h1'⟩ := Jac.denseArray_den hx hxd
        obtain ⟨h2, h2'⟩ := Jac.denseArray_den hy hyd
        refine ⟨fun i p => ?_, ?_⟩
        · rw [Jac.addJacobians_den, h1, h2]
        · show (addJacobians r1 r2).length ≤ _
          rw [Jac.addJacobians_length]
          exact max_le h1' h2'
  match a, b, ha, hb, hrows, h, key with
  | .dense r1, .dense r2, ha, hb, _, h, key => exact key _ _ ha hb h
  | .dense r1, .sparse r2, ha, hb, _, h, key => exact key _ _ ha hb h
  | .sparse r1, .dense r2, ha, hb, _, h, key => exact key _ _ ha hb h
  | .sparse r1, .sparse r2, ha, hb, hrows, h, _ =>
    have hrows := hrows r1 r2 rfl rfl
    simp only [Jac.add] at h
    split at h
    · simp at h
    · rename_i m hm
      split at h
      · rename_i heq
        by_cases hlen : r1.length = r2.length
        · have hm' : m = r1.length := by
            unfold brdcastLen at hm; rw [if_pos hlen] at hm; exact (Option.some.inj hm).symm
          subst hm'
          rw [Jac.brdcastRows_eq rfl, Jac.brdcastRows_eq hlen.symm] at heq h
          simp only [Except.ok.injEq] at h
          subst h
          refine ⟨fun i p => Jac.den_sparse_merge r1 r2 hlen heq i p, ?_⟩
          intro r hr p
          rw [List.mem_map] at hr
          obtain ⟨⟨x, y⟩, hxy, rfl⟩ := hr
          have hx := ha x (List.of_mem_zip hxy).1 p
          have hy := hb y (List.of_mem_zip hxy).2 p
          have he := heq _ hxy p
          simp only at he ⊢
          refine ⟨by omega, fun hneg => ⟨(hx.2 hneg).1, ?_⟩⟩
          rw [(hx.2 hneg).2, (hy.2 (by omega)).2, add_zero]
        · exfalso
          have hne := hrows.resolve_left hlen
          apply hne
          unfold brdcastLen at hm
          rw [if_neg hlen] at hm
          split at hm
          · rename_i h1
            obtain ⟨x, rfl⟩ := List.length_eq_one_iff.mp h1
            have hm' : r2.length = m := Option.some.inj hm
            have hb2 : brdcastRows r2 m = r2 := Jac.brdcastRows_eq hm'
            rw [hb2] at heq
            intro x' hx' y hy p
            rw [List.mem_singleton] at hx'
            subst hx'
            obtain ⟨k, hk, rfl⟩ := List.getElem_of_mem hy
            have hmem : (x', r2[k]) ∈ (brdcastRows [x'] m).zip r2 := by
              have hz : k < ((brdcastRows [x'] m).zip r2).length := by
                simp [brdcastRows]; omega
              have := List.getElem_mem hz
              rw [List.getElem_zip] at this
              simpa [brdcastRows] using this
            exact (heq _ hmem p).symm
          · split at hm
            · rename_i h1
              obtain ⟨y, rfl⟩ := List.length_eq_one_iff.mp h1
              have hm' : r1.length = m := Option.some.inj hm
              have hb1 : brdcastRows r1 m = r1 := Jac.brdcastRows_eq hm'
              rw [hb1] at heq
              intro x hx y' hy' p
              rw [List.mem_singleton] at hy'
              subst hy'
              obtain ⟨k, hk, rfl⟩ := List.getElem_of_mem hx
              have hmem : (r1[k], y') ∈ r1.zip (brdcastRows [y'] m) := by
                have hz : k < (r1.zip (brdcastRows [y'] m)).length := by
                  simp [brdcastRows]; omega
                have := List.getElem_mem hz
                rw [List.getElem_zip] at this
                simpa [brdcastRows] using this
              exact (heq _ hmem p).symm
            · simp at hm
      · simp only [Except.ok.injEq] at h
        subst h
        refine ⟨fun i p => Jac.den_sparse_append r1 r2 i p, ?_⟩
        intro r hr p
        rcases List.mem_append.mp hr with h | h
        · have := ha r h p; exact ⟨by omega, this.2⟩
        · have := hb r h p; exact ⟨by omega, this.2⟩

/-- Non-vacuity for C22: different masks with different row counts. -/
example : ∃ c, (Jac.sparse [⟨![0, 1], ![5, 7]⟩]).add
      (Jac.sparse [⟨![0, 2], ![1, 2]⟩, ⟨![1, -1], ![3, 0]⟩]) = (.ok c : Except Err (Jac (Fin 2) ℤ)) ∧
    (List.range 3).map (fun i => (c.den i 0, c.den i 1)) = [(6, 0), (3, 7), (0, 2)] :=
  ⟨_, rfl, by decide⟩

/-- **C22 (counterexample).** A one-row Jacobian plus a two-row Jacobian with the same mask in both rows:
the single row is counted twice (`1 + (1 + 1)` becomes `4`). -/
theorem C22_add_doubles :
    ∃ (a b c : Jac Unit ℤ), a.Wf 1 ∧ b.Wf 1 ∧ a.add b = .ok c ∧
      a.den 0 () = 1 ∧ b.den 0 () = 2 ∧ c.den 0 () = 4 := by
  refine ⟨.sparse [⟨fun _ => 0, fun _ => 1⟩],
    .sparse [⟨fun _ => 0, fun _ => 1⟩, ⟨fun _ => 0, fun _ => 1⟩], _, ?_, ?_, rfl, by decide, by decide,
    by decide⟩ <;> simp [Jac.Wf]

/-- **C22 (counterexample).** Adding a Jacobian without rows (depends on nothing) drops the other one. -/
theorem C22_add_drops :
    ∃ (a b c : Jac Unit ℤ), a.Wf 1 ∧ b.Wf 1 ∧ a.add b = .ok c ∧
      a.den 0 () = 1 ∧ b.den 0 () = 0 ∧ c.den 0 () = 0 := by
  refine ⟨.sparse [⟨fun _ => 0, fun _ => 1⟩], .sparse [], _, ?_, ?_, rfl, by decide, by decide,
    by decide⟩ <;> simp [Jac.Wf]

/-- **C22 (counterexample).** Sparse Jacobians with incompatible row counts (for any counts `≥ 2` that
differ) cannot be added at all. -/
theorem C22_add_raises [AddCommMonoid F] [Fintype P] [DecidableEq P] (r1 r2 : List (Row P F))
    (h1 : 2 ≤ r1.length) (h2 : 2 ≤ r2.length) (hne : r1.length ≠ r2.length) :
    (Jac.sparse r1).add (Jac.sparse r2) = .error .shape := by
  simp only [Jac.add, brdcastLen, if_neg hne, if_neg (by omega : ¬ r1.length = 1),
    if_neg (by omega : ¬ r2.length = 1)]

end Folx

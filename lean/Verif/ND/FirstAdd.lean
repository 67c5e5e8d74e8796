import Verif.ND.FirstIndex

/-!
# Adding Jacobians of arrays
-/

namespace Folx.Layout
open Vmap Dot

variable {F : Type} [CommRing F] [Inhabited F] {o : List ℕ} {n : ℕ}

/-- Well-formed, with a row if sparse. -/
structure JacOk (n : ℕ) (o : List ℕ) (j : ArrJac F) : Prop where
  ok : j.For n o
  rows : j.idx ≠ none → 0 < j.data.shape.getD 0 0

theorem JacOk.shape {j : ArrJac F} (h : JacOk n o j) : j.data.shape = hd j.data :: o := by
  obtain ⟨K, hK⟩ := h.ok.1
  unfold hd
  rw [hK]
  rfl

theorem JacOk.sparse {j : ArrJac F} (h : JacOk n o j) {m : ND ℤ} (hm : j.idx = some m) :
    m.shape = hd j.data :: o ∧ ∀ k p, k < hd j.data → InB p o →
      m.get (k :: p) < n ∧ (m.get (k :: p) < 0 → m.get (k :: p) = -1 ∧ j.data.get (k :: p) = 0) := by
  have := h.ok.2
  rw [hm] at this
  exact ⟨this.1.trans h.shape, this.2⟩

theorem entry_sparse {j : ArrJac F} {m : ND ℤ} (hm : j.idx = some m) (i : ℕ) (p : List ℕ) :
    j.entry i p = ∑ r ∈ Finset.range (hd j.data), if m.get (r :: p) = (i : ℤ) then j.data.get (r :: p) else 0 := by
  unfold ArrJac.entry
  rw [hm]
  rfl

theorem dense_jac (hn : 0 < n) (h0 : 0 ∉ o) {j : ArrJac F} (hj : JacOk n o j) :
    ∃ d N, j.dense = some d ∧ d.shape = N :: o ∧ N ≤ n ∧ ∀ i p, InB p o → j.entry i p = if i < N then d.get (i :: p) else 0 :=
  dense_spec (a := ⟨zerosND o, j, zerosND o⟩) hn ⟨rfl, hj.ok, rfl, hj.rows, h0⟩

theorem addJac_dense (hn : 0 < n) (h0 : 0 ∉ o) {j j' : ArrJac F} (hj : JacOk n o j) (hj' : JacOk n o j') :
    ∃ r, addDense j j' = some r ∧ r.idx = none ∧ JacOk n o r ∧
      ∀ i q, InB q o → r.entry i q = j.entry i q + j'.entry i q := by
  obtain ⟨d, N, h1, h2, h3, h4⟩ := dense_jac hn h0 hj
  obtain ⟨d', N', h1', h2', h3', h4'⟩ := dense_jac hn h0 hj'
  obtain ⟨M, hM, h5, h6⟩ := extendJac_spec (n := n) (ss := fun _ : Fin 2 => o) (ds := ![d, d']) (N := ![N, N'])
    (fun a => by fin_cases a; exacts [h2, h2']) (fun a => by fin_cases a; exacts [h3, h3'])
  set e := extendJac ![d, d'] with he
  have hsh : (ND.ofFn (e 0).shape fun w => (e 0).get w + (e 1).get w).shape = M :: o := h5 0
  refine ⟨⟨ND.ofFn (e 0).shape fun w => (e 0).get w + (e 1).get w, none⟩, ?_, rfl, ⟨⟨⟨M, hsh⟩, ?_⟩, fun h => absurd rfl h⟩, fun i q hq => ?_⟩
  · unfold addDense
    rw [h1, h1']
    rfl
  · show (ND.ofFn (e 0).shape fun w => (e 0).get w + (e 1).get w).shape.getD 0 0 ≤ n
    rw [hsh]
    exact hM
  · rw [h4 i q hq, h4' i q hq]
    have e0 := h6 i 0 q hq
    have e1 := h6 i 1 q hq
    simp only [Matrix.cons_val_zero, Matrix.cons_val_one] at e0 e1
    rw [show (if i < N then d.get (i :: q) else 0) = _ from e0.symm, show (if i < N' then d'.get (i :: q) else 0) = _ from e1.symm]
    show (if i < (ND.ofFn (e 0).shape fun w => (e 0).get w + (e 1).get w).shape.getD 0 0 then _ else 0) = _
    rw [hsh, List.getD_cons_zero]
    split
    · rename_i hi
      rw [h5 0]
      exact ND.get_ofFn _ (List.Forall₂.cons hi hq)
    · rw [add_zero]

/-- `FwdJacobian.__add__`. -/
theorem addJac_spec (hn : 0 < n) (h0 : 0 ∉ o) {j j' : ArrJac F} (hj : JacOk n o j) (hj' : JacOk n o j') :
    (addJacArr j j' = none ↔ AddRaises j j') ∧
    (¬ AddRaises j j' → ¬ AddClash o j j' → ∃ r, addJacArr j j' = some r ∧ JacOk n o r ∧ (r.idx = none ↔ j.idx = none ∨ j'.idx = none) ∧
      ∀ i q, InB q o → r.entry i q = j.entry i q + j'.entry i q) := by
  have htail : ¬ (j.data.shape.tail ≠ j'.data.shape.tail) := by rw [hj.shape, hj'.shape]; simp
  cases hi : j.idx with
  | none =>
    have hdef : addJacArr j j' = addDense j j' := by
      unfold addJacArr
      rw [if_neg htail, hi]
    obtain ⟨r, h1, h2, h3, h4⟩ := addJac_dense hn h0 hj hj'
    have hsome : addJacArr j j' = some r := hdef.trans h1
    refine ⟨⟨fun h => by rw [hsome] at h; simp at h, fun ⟨m, _, h, _⟩ => by rw [hi] at h; simp at h⟩, fun _ _ => ⟨r, hsome, h3, by simp [h2], h4⟩⟩
  | some m =>
    cases hi' : j'.idx with
    | none =>
      have hdef : addJacArr j j' = addDense j j' := by
        unfold addJacArr
        rw [if_neg htail, hi, hi']
      obtain ⟨r, h1, h2, h3, h4⟩ := addJac_dense hn h0 hj hj'
      have hsome : addJacArr j j' = some r := hdef.trans h1
      refine ⟨⟨fun h => by rw [hsome] at h; simp at h, fun ⟨_, m', _, h, _⟩ => by rw [hi'] at h; simp at h⟩, fun _ _ => ⟨r, hsome, h3, by simp [h2], h4⟩⟩
    | some m' =>
      obtain ⟨hm, hw⟩ := hj.sparse hi
      obtain ⟨hm', hw'⟩ := hj'.sparse hi'
      set R := hd j.data with hR
      set R' := hd j'.data with hR'
      have hmR : m.shape.getD 0 0 = R := by rw [hm]; rfl
      have hmR' : m'.shape.getD 0 0 = R' := by rw [hm']; rfl
      have hpos : 0 < R := hj.rows (by rw [hi]; simp)
      have hpos' : 0 < R' := hj'.rows (by rw [hi']; simp)
      have hraise : AddRaises j j' ↔ R ≠ R' ∧ R ≠ 1 ∧ R' ≠ 1 := by
        constructor
        · rintro ⟨a, b, ha, hb, h⟩
          rw [hi] at ha
          rw [hi'] at hb
          cases ha
          cases hb
          rw [hmR, hmR'] at h
          exact h
        · intro h
          exact ⟨m, m', hi, hi', by rw [hmR, hmR']; exact h⟩
      have hclash : AddClash o j j' ↔ R ≠ R' ∧ ((R = 1 ∧ ∀ r p, r < R' → InB p o → m'.get (r :: p) = m.get (0 :: p)) ∨
          (R' = 1 ∧ ∀ r p, r < R → InB p o → m'.get (0 :: p) = m.get (r :: p))) := by
        constructor
        · rintro ⟨a, b, ha, hb, h⟩
          rw [hi] at ha
          rw [hi'] at hb
          cases ha
          cases hb
          rw [hmR, hmR'] at h
          exact h
        · intro h
          exact ⟨m, m', hi, hi', by rw [hmR, hmR']; exact h⟩
      have hdef : addJacArr j j' = if R ≠ R' ∧ R ≠ 1 ∧ R' ≠ 1 then none else
          if masksAgree m m' then some ⟨addLead (· + ·) j.data j'.data, some (addLead (fun a _ => a) m m')⟩
          else some ⟨concat0 j.data j'.data, some (concat0 m m')⟩ := by
        unfold addJacArr
        rw [if_neg htail, hi, hi']
        dsimp only
        rw [hmR, hmR']
      refine ⟨?_, fun h1 h2 => ?_⟩
      · rw [hdef, hraise]
        constructor
        · intro h
          by_contra hc
          rw [if_neg hc] at h
          by_cases ha : masksAgree m m'
          · rw [if_pos ha] at h; simp at h
          · rw [if_neg ha] at h; simp at h
        · intro h
          rw [if_pos h]
      rw [hraise] at h1
      rw [hclash] at h2
      rw [hdef, if_neg h1]
      by_cases hall : masksAgree m m'
      · rw [if_pos hall]
        unfold masksAgree at hall
        rw [hmR, hmR', hm, List.tail_cons] at hall
        -- the rows are added: the row counts are equal
        have hRR : R = R' := by
          by_contra hne
          refine h2 ⟨hne, ?_⟩
          have hall' : ∀ r p, r < max R R' → InB p o → m'.get ((if R' = 1 then 0 else r) :: p) = m.get ((if R = 1 then 0 else r) :: p) :=
            fun r p hr hp => (hall (r :: p) (mem_allIdx.mpr (List.Forall₂.cons hr hp))).symm
          by_cases h : R = 1
          · refine Or.inl ⟨h, fun r p hr hp => ?_⟩
            have := hall' r p (lt_max_of_lt_right hr) hp
            rw [if_pos h, if_neg (by omega)] at this
            exact this
          · have h' : R' = 1 := by
              by_contra h'
              exact h1 ⟨hne, h, h'⟩
            refine Or.inr ⟨h', fun r p hr hp => ?_⟩
            have := hall' r p (lt_max_of_lt_left hr) hp
            rw [if_neg h, if_pos h'] at this
            exact this
        have hall' : ∀ r p, r < R → InB p o → m'.get (r :: p) = m.get (r :: p) := by
          intro r p hr hp
          have := (hall (r :: p) (mem_allIdx.mpr (List.Forall₂.cons (lt_max_of_lt_left hr) hp))).symm
          simp only [List.getD_cons_zero, List.tail_cons] at this
          rw [← hRR] at this
          by_cases h : R = 1
          · obtain rfl : r = 0 := by omega
            simpa using this
          · rw [if_neg h] at this
            exact this
        have hadd : ∀ {β : Type} [Inhabited β] (f : β → β → β) (x y : ND β), x.shape = R :: o → y.shape = R :: o →
            (addLead f x y).shape = R :: o ∧ ∀ r p, r < R → InB p o → (addLead f x y).get (r :: p) = f (x.get (r :: p)) (y.get (r :: p)) := by
          intro β _ f x y hx hy
          unfold addLead
          rw [hx, hy]
          simp only [List.getD_cons_zero, max_self, List.tail_cons]
          refine ⟨rfl, fun r p hr hp => ?_⟩
          rw [ND.get_ofFn _ (List.Forall₂.cons hr hp)]
          simp only [List.getD_cons_zero, List.tail_cons]
          by_cases h : R = 1
          · obtain rfl : r = 0 := by omega
            simp
          · simp [h]
        obtain ⟨hd1, hd2⟩ := hadd (· + ·) j.data j'.data hj.shape (hRR ▸ hj'.shape)
        obtain ⟨hm1, hm2⟩ := hadd (fun a _ => a) m m' hm (hRR ▸ hm')
        refine ⟨_, rfl, ⟨⟨⟨R, hd1⟩, ?_⟩, fun _ => ?_⟩, by simp, fun i q hq => ?_⟩
        · refine ⟨hm1.trans hd1.symm, fun r p hr hp => ?_⟩
          have hr : r < R := by
            have : r < (addLead (· + ·) j.data j'.data).shape.getD 0 0 := hr
            rw [hd1] at this
            exact this
          show (addLead (fun a _ => a) m m').get (r :: p) < n ∧ ((addLead (fun a _ => a) m m').get (r :: p) < 0 → (addLead (fun a _ => a) m m').get (r :: p) = -1 ∧ (addLead (· + ·) j.data j'.data).get (r :: p) = 0)
          rw [hm2 r p hr hp, hd2 r p hr hp]
          refine ⟨(hw r p hr hp).1, fun hneg => ⟨((hw r p hr hp).2 hneg).1, ?_⟩⟩
          have e1 := ((hw r p hr hp).2 hneg).2
          have e2 := ((hw' r p (hRR ▸ hr) hp).2 (by rw [hall' r p hr hp]; exact hneg)).2
          show j.data.get (r :: p) + j'.data.get (r :: p) = 0
          rw [e1, e2, add_zero]
        · show 0 < (addLead (· + ·) j.data j'.data).shape.getD 0 0
          rw [hd1]
          exact hpos
        · rw [entry_sparse hi, entry_sparse hi', entry_sparse (j := ⟨_, some _⟩) rfl, ← hR, ← hR', ← hRR, ← Finset.sum_add_distrib]
          have e : hd (addLead (· + ·) j.data j'.data) = R := by unfold hd; rw [hd1]; rfl
          dsimp only
          rw [e]
          refine Finset.sum_congr rfl fun r hr => ?_
          have hr := Finset.mem_range.mp hr
          rw [hm2 r q hr hq, hd2 r q hr hq, hall' r q hr hq]
          split
          · rfl
          · rw [add_zero]
      · rw [if_neg hall]
        obtain ⟨hd1, hd2⟩ := concat0_spec hj.shape hj'.shape
        obtain ⟨hm1, hm2⟩ := concat0_spec hm hm'
        refine ⟨_, rfl, ⟨⟨⟨_, hd1⟩, ?_⟩, fun _ => ?_⟩, by simp, fun i q hq => ?_⟩
        · refine ⟨hm1.trans hd1.symm, fun r p hr hp => ?_⟩
          have hr : r < R + R' := by
            have : r < (concat0 j.data j'.data).shape.getD 0 0 := hr
            rw [hd1] at this
            exact this
          show (concat0 m m').get (r :: p) < n ∧ ((concat0 m m').get (r :: p) < 0 → (concat0 m m').get (r :: p) = -1 ∧ (concat0 j.data j'.data).get (r :: p) = 0)
          rw [hm2 r p hr hp, hd2 r p hr hp]
          by_cases h : r < R
          · rw [if_pos h, if_pos h]
            exact hw r p h hp
          · rw [if_neg h, if_neg h]
            exact hw' _ p (by omega) hp
        · show 0 < (concat0 j.data j'.data).shape.getD 0 0
          rw [hd1]
          show 0 < R + R'
          omega
        · rw [entry_sparse hi, entry_sparse hi', entry_sparse (j := ⟨_, some _⟩) rfl, ← hR, ← hR']
          have e : hd (concat0 j.data j'.data) = R + R' := by unfold hd; rw [hd1]; rfl
          dsimp only
          rw [e, Finset.sum_range_add]
          congr 1
          · refine Finset.sum_congr rfl fun r hr => ?_
            have hr := Finset.mem_range.mp hr
            rw [hm2 r q (by omega) hq, hd2 r q (by omega) hq, if_pos hr, if_pos hr]
          · refine Finset.sum_congr rfl fun r hr => ?_
            have hr := Finset.mem_range.mp hr
            have hneg : ¬ (R + r < R) := by omega
            rw [hm2 _ q (by omega) hq, hd2 _ q (by omega) hq, if_neg hneg, if_neg hneg, Nat.add_sub_cancel_left]

end Folx.Layout

import Verif.ND.FirstMain

/-!
# One argument at a time, and the dispatch
-/

namespace Folx.Layout
open Vmap Dot

variable {F : Type} [CommRing F] [Inhabited F] {k : ℕ} {ss : Fin (k + 1) → List ℕ} {o : List ℕ} {n : ℕ}

theorem ew_elementwise {ax : AxesKind} {D : Deriv F ss o} (hax : AxesOk ax D) (h : ax.ew = true) : Elementwise D := by
  cases ax <;> first | exact hax | simp [AxesKind.ew] at h

theorem oneJvp_spec (T : ℕ) (hn : 0 < n) (join : Bool) {ax : AxesKind} {D : Deriv F ss o} {args : Fin (k + 1) → ArrTrip F}
    (hargs : ∀ a, ArgFor n (ss a) (args a)) (hax : AxesOk ax D) (a : Fin (k + 1)) :
    (oneJvpArr T join ax D args a = none ↔ NoDeps ax (ss a) (args a).jac) ∧
    ∀ r, oneJvpArr T join ax D args a = some r → ((args a).jac.idx = none → r.1.idx = none) ∧ IsPush n (D.part a) (fun _ => args a) r := by
  cases hi : (args a).jac.idx with
  | none =>
    obtain ⟨r, h1, h2, h3⟩ := denseJvpArr_spec (args := fun _ => args a) hn (fun _ => hargs a) (D := D.part a) (ew := ax.ew)
      (fun h => ew_elementwise (axesOk_part hax a) h) join
    have hdef : oneJvpArr T join ax D args a = some r := by
      unfold oneJvpArr
      rw [hi]
      exact h1
    rw [hdef]
    refine ⟨⟨fun h => by simp at h, fun ⟨_, _, _, h, _⟩ => by rw [hi] at h; simp at h⟩, fun r' h => ?_⟩
    cases h
    exact ⟨fun _ => h2, h3⟩
  | some m =>
    obtain ⟨h1, h2⟩ := sparseJvpArr_spec T hn join (hargs a) (by rw [hi]; simp) (axesOk_part hax a)
    have hdef : oneJvpArr T join ax D args a = sparseJvpArr T join ax (D.part a) (args a) := by
      unfold oneJvpArr
      rw [hi]
    rw [hdef]
    exact ⟨h1, fun r h => ⟨by simp, h2 r h⟩⟩

theorem IsPush.jacOk {D : Deriv F ss o} {args : Fin (k + 1) → ArrTrip F} {r : FirstOut F} (h : IsPush n D args r) : JacOk n o r.1 := ⟨h.ok, h.rows⟩

/-- One step of the loop. -/
def stepArr (T : ℕ) (join : Bool) (ax : AxesKind) (D : Deriv F ss o) (args : Fin (k + 1) → ArrTrip F) (acc : FirstOut F) (i : Fin k) : Option (FirstOut F) := do
  let r ← oneJvpArr T join ax D args i.succ
  addOut acc r

theorem oneByOneArr_eq (T : ℕ) (join : Bool) (ax : AxesKind) (D : Deriv F ss o) (args : Fin (k + 1) → ArrTrip F) :
    oneByOneArr T join ax D args = (oneJvpArr T join ax D args 0).bind fun r0 => (List.finRange k).foldlM (stepArr T join ax D args) r0 := rfl

theorem fold_none {T : ℕ} {join : Bool} {ax : AxesKind} {D : Deriv F ss o} {args : Fin (k + 1) → ArrTrip F} {i : Fin k}
    (hi : oneJvpArr T join ax D args i.succ = none) (L : List (Fin k)) (hL : i ∈ L) (acc : FirstOut F) : L.foldlM (stepArr T join ax D args) acc = none := by
  induction L generalizing acc with
  | nil => simp at hL
  | cons j L ih =>
    rw [List.foldlM_cons]
    rcases List.mem_cons.mp hL with rfl | hL
    · have : stepArr T join ax D args acc i = none := by
        unfold stepArr
        rw [hi]
        rfl
      rw [this]
      rfl
    · cases h : stepArr T join ax D args acc j with
      | none => rfl
      | some r => exact ih hL r

theorem fold_spec {T : ℕ} (hn : 0 < n) (h0 : 0 ∉ o) {join : Bool} {ax : AxesKind} {D : Deriv F ss o} {args : Fin (k + 1) → ArrTrip F} {rs : Fin k → FirstOut F}
    (hrs : ∀ i, oneJvpArr T join ax D args i.succ = some (rs i)) (hok : ∀ i, JacOk n o (rs i).1 ∧ (rs i).2.shape = o) (L : List (Fin k)) (acc : FirstOut F)
    (hacc : JacOk n o acc.1) (hl : acc.2.shape = o) (hsafe : AddSafe o acc.1 (L.map fun i => (rs i).1)) :
    (L.foldlM (stepArr T join ax D args) acc = none ↔ SumRaises acc.1 (L.map fun i => (rs i).1)) ∧
    (∀ r, L.foldlM (stepArr T join ax D args) acc = some r →
      JacOk n o r.1 ∧ r.2.shape = o ∧ (∀ i q, InB q o → r.1.entry i q = acc.1.entry i q + (L.map fun b => (rs b).1.entry i q).sum) ∧
      ∀ q, InB q o → r.2.get q = acc.2.get q + (L.map fun b => (rs b).2.get q).sum) := by
  induction L generalizing acc with
  | nil =>
    refine ⟨by simp [SumRaises], fun r h => ?_⟩
    cases h
    exact ⟨hacc, hl, by simp, by simp⟩
  | cons b L ih =>
    rw [List.foldlM_cons]
    have hstep : stepArr T join ax D args acc b = (addJacArr acc.1 (rs b).1).map fun j => (j, ND.ofFn acc.2.shape fun w => acc.2.get w + (rs b).2.get w) := by
      unfold stepArr
      rw [hrs b]
      show addOut acc (rs b) = _
      unfold addOut
      cases addJacArr acc.1 (rs b).1 <;> rfl
    obtain ⟨hadd1, hadd2⟩ := addJac_spec hn h0 hacc (hok b).1
    obtain ⟨hs1, hs2⟩ := hsafe
    cases hadd : addJacArr acc.1 (rs b).1 with
    | none =>
      rw [hstep, hadd]
      exact ⟨iff_of_true rfl (Or.inl (hadd1.mp hadd)), fun r h => by cases h⟩
    | some j =>
      have hnr : ¬ AddRaises acc.1 (rs b).1 := fun h => by
        rw [hadd1.mpr h] at hadd
        simp at hadd
      obtain ⟨j', hj', hcl, -, hsum⟩ := hadd2 hnr hs1
      rw [hadd] at hj'
      cases hj'
      rw [hstep, hadd]
      show (L.foldlM (stepArr T join ax D args) (j, ND.ofFn acc.2.shape fun w => acc.2.get w + (rs b).2.get w) = none ↔ _) ∧ (∀ r,
        L.foldlM (stepArr T join ax D args) (j, ND.ofFn acc.2.shape fun w => acc.2.get w + (rs b).2.get w) = some r → _)
      obtain ⟨ih1, ih2⟩ := ih (j, ND.ofFn acc.2.shape fun w => acc.2.get w + (rs b).2.get w) hcl ((ND.shape_ofFn _ _).trans hl) (hs2 j hadd)
      refine ⟨ih1.trans ?_, fun r hr => ?_⟩
      · show _ ↔ AddRaises acc.1 (rs b).1 ∨ ∃ acc', addJacArr acc.1 (rs b).1 = some acc' ∧ SumRaises acc' (L.map fun i => (rs i).1)
        rw [hadd]
        simp [hnr]
      · obtain ⟨h1, h2, h3, h4⟩ := ih2 r hr
        refine ⟨h1, h2, fun i q hq => ?_, fun q hq => ?_⟩
        · rw [h3 i q hq, hsum i q hq, List.map_cons, List.sum_cons, add_assoc]
        · rw [h4 q hq, List.map_cons, List.sum_cons, ← add_assoc]
          congr 1
          exact ND.get_ofFn _ (by rw [hl]; exact hq)

/-- A derivative is the sum of the derivatives with respect to the arguments. -/
theorem deriv_sum (D : Deriv F ss o) (t : (a : Fin (k + 1)) → Fin (ss a).prod → F) {q : List ℕ} (hq : InB q o) :
    (toND o (D t)).get q = ∑ a, (toND o (D (Pi.single a (t a)))).get q := by
  rw [toND_get _ _ hq]
  conv_lhs => rw [← Finset.univ_sum_single t, map_sum, Finset.sum_apply]
  exact Finset.sum_congr rfl fun a _ => (toND_get _ _ hq).symm

theorem isPush_sum {D : Deriv F ss o} {args : Fin (k + 1) → ArrTrip F} {rs : Fin (k + 1) → FirstOut F} (hrs : ∀ a, IsPush n (D.part a) (fun _ => args a) (rs a))
    {r : FirstOut F} (hok : JacOk n o r.1) (hl : r.2.shape = o) (he : ∀ i q, InB q o → r.1.entry i q = ∑ a, (rs a).1.entry i q)
    (hlap : ∀ q, InB q o → r.2.get q = ∑ a, (rs a).2.get q) : IsPush n D args r := by
  refine ⟨hok.ok, hok.rows, fun i q hq => ?_, hl, fun q hq => ?_⟩
  · rw [he i q hq, deriv_sum D _ hq]
    exact Finset.sum_congr rfl fun a _ => (hrs a).entry i q hq
  · rw [hlap q hq, deriv_sum D _ hq]
    exact Finset.sum_congr rfl fun a _ => (hrs a).lapl q hq

/-- `one_by_one_jvp`: when a partial derivative raises, when an addition raises, and what it computes otherwise. -/
theorem oneByOneArr_spec (T : ℕ) (hn : 0 < n) (h0 : 0 ∉ o) (join : Bool) {ax : AxesKind} {D : Deriv F ss o} {args : Fin (k + 1) → ArrTrip F}
    (hargs : ∀ a, ArgFor n (ss a) (args a)) (hax : AxesOk ax D) :
    (∀ a, NoDeps ax (ss a) (args a).jac → oneByOneArr T join ax D args = none) ∧
    ∀ rs : Fin (k + 1) → FirstOut F, (∀ a, oneJvpArr T join ax D args a = some (rs a)) →
      AddSafe o (rs 0).1 ((List.finRange k).map fun i => (rs i.succ).1) →
      (oneByOneArr T join ax D args = none ↔ SumRaises (rs 0).1 ((List.finRange k).map fun i => (rs i.succ).1)) ∧
      ∀ r, oneByOneArr T join ax D args = some r → IsPush n D args r := by
  refine ⟨fun a ha => ?_, fun rs hrs hsafe => ?_⟩
  · have h := (oneJvp_spec T hn join hargs hax a).1.mpr ha
    rw [oneByOneArr_eq]
    cases a using Fin.cases with
    | zero => rw [h]; rfl
    | succ i =>
      cases oneJvpArr T join ax D args 0 with
      | none => rfl
      | some r0 => exact fold_none h _ (List.mem_finRange i) r0
  · have hp : ∀ a, IsPush n (D.part a) (fun _ => args a) (rs a) := fun a => ((oneJvp_spec T hn join hargs hax a).2 _ (hrs a)).2
    obtain ⟨h1, h2⟩ := fold_spec hn h0 (fun i => hrs i.succ) (fun i => ⟨(hp i.succ).jacOk, (hp i.succ).shape⟩) (List.finRange k) (rs 0) (hp 0).jacOk (hp 0).shape hsafe
    have hdef : oneByOneArr T join ax D args = (List.finRange k).foldlM (stepArr T join ax D args) (rs 0) := by
      rw [oneByOneArr_eq, hrs 0]
      rfl
    rw [hdef]
    refine ⟨h1, fun r hr => ?_⟩
    obtain ⟨h3, h4, h5, h6⟩ := h2 r hr
    refine isPush_sum hp h3 h4 (fun i q hq => ?_) fun q hq => ?_
    · rw [h5 i q hq, Fin.sum_univ_succ]
      congr 1
    · rw [h6 q hq, Fin.sum_univ_succ]
      congr 1

/-- Once a dense Jacobian has been added, all sums are dense and exact. -/
theorem safe_of_dense (hn : 0 < n) (h0 : 0 ∉ o) {acc : ArrJac F} (hacc : JacOk n o acc) (hi : acc.idx = none) {L : List (ArrJac F)} (hL : ∀ j ∈ L, JacOk n o j) :
    AddSafe o acc L ∧ ¬ SumRaises acc L := by
  induction L generalizing acc with
  | nil => exact ⟨trivial, id⟩
  | cons j L ih =>
    have hj := hL j (by simp)
    have hnc : ¬ AddClash o acc j := fun ⟨_, _, h, _⟩ => by rw [hi] at h; simp at h
    have hnr : ¬ AddRaises acc j := fun ⟨_, _, h, _⟩ => by rw [hi] at h; simp at h
    obtain ⟨r, h1, h2, h3, -⟩ := (addJac_spec hn h0 hacc hj).2 hnr hnc
    have := ih h2 (h3.mpr (Or.inl hi)) fun j hj => hL j (by simp [hj])
    refine ⟨⟨hnc, fun acc' h => ?_⟩, ?_⟩
    · rw [h1] at h
      cases h
      exact this.1
    · rintro (h | ⟨acc', h, h'⟩)
      · exact hnr h
      · rw [h1] at h
        cases h
        exact this.2 h'

/-- If the first or the second argument has a dense Jacobian, `one_by_one_jvp` is exact and raises only for arguments without dependencies. -/
theorem oneByOneArr_mixed (T : ℕ) (hn : 0 < n) (h0 : 0 ∉ o) (join : Bool) {ax : AxesKind} {D : Deriv F ss o} {args : Fin (k + 1) → ArrTrip F}
    (hargs : ∀ a, ArgFor n (ss a) (args a)) (hax : AxesOk ax D)
    (hd : (args 0).jac.idx = none ∨ ∃ h : 1 < k + 1, (args ⟨1, h⟩).jac.idx = none) :
    (oneByOneArr T join ax D args = none ↔ ∃ a, NoDeps ax (ss a) (args a).jac) ∧
    ∀ r, oneByOneArr T join ax D args = some r → IsPush n D args r := by
  obtain ⟨g1, g2⟩ := oneByOneArr_spec T hn h0 join hargs hax
  by_cases hno : ∃ a, NoDeps ax (ss a) (args a).jac
  · obtain ⟨a, ha⟩ := hno
    have := g1 a ha
    rw [this]
    exact ⟨iff_of_true rfl ⟨a, ha⟩, fun r h => by simp at h⟩
  · have hsome : ∀ a, ∃ r, oneJvpArr T join ax D args a = some r := by
      intro a
      cases h : oneJvpArr T join ax D args a with
      | none => exact absurd ⟨a, (oneJvp_spec T hn join hargs hax a).1.mp h⟩ hno
      | some r => exact ⟨r, rfl⟩
    choose rs hrs using hsome
    have hp : ∀ a, ((args a).jac.idx = none → (rs a).1.idx = none) ∧ IsPush n (D.part a) (fun _ => args a) (rs a) :=
      fun a => (oneJvp_spec T hn join hargs hax a).2 _ (hrs a)
    have hsafe : AddSafe o (rs 0).1 ((List.finRange k).map fun i => (rs i.succ).1) ∧
        ¬ SumRaises (rs 0).1 ((List.finRange k).map fun i => (rs i.succ).1) := by
      have hall : ∀ j ∈ (List.finRange k).map fun i => (rs i.succ).1, JacOk n o j := by
        intro j hj
        obtain ⟨i, -, rfl⟩ := List.mem_map.mp hj
        exact (hp i.succ).2.jacOk
      rcases hd with hd | ⟨hk, hd⟩
      · exact safe_of_dense hn h0 (hp 0).2.jacOk ((hp 0).1 hd) hall
      · obtain ⟨k', rfl⟩ : ∃ k', k = k' + 1 := ⟨k - 1, by omega⟩
        rw [List.finRange_succ, List.map_cons]
        rw [List.finRange_succ, List.map_cons] at hall
        have h1 := (hp 1).1 hd
        have h1' : (rs (Fin.succ 0)).1.idx = none := h1
        have hnc : ¬ AddClash o (rs 0).1 (rs (Fin.succ 0)).1 := fun ⟨_, _, _, h, _⟩ => by rw [h1'] at h; simp at h
        have hnr : ¬ AddRaises (rs 0).1 (rs (Fin.succ 0)).1 := fun ⟨_, _, _, h, _⟩ => by rw [h1'] at h; simp at h
        obtain ⟨r, h2, h3, h4, -⟩ := (addJac_spec hn h0 (hp 0).2.jacOk (hp (Fin.succ 0)).2.jacOk).2 hnr hnc
        have := safe_of_dense hn h0 h3 (h4.mpr (Or.inr h1')) fun j hj => hall j (List.mem_cons_of_mem _ hj)
        refine ⟨⟨hnc, fun acc' h => ?_⟩, ?_⟩
        · rw [h2] at h
          cases h
          exact this.1
        · rintro (h | ⟨acc', h, h'⟩)
          · exact hnr h
          · rw [h2] at h
            cases h
            exact this.2 h'
    obtain ⟨g3, g4⟩ := g2 rs hrs hsafe.1
    exact ⟨iff_of_false (fun h => hsafe.2 (g3.mp h)) hno, g4⟩

end Folx.Layout

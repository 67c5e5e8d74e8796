import Mathlib.Algebra.BigOperators.Group.List.Lemmas
import Verif.Core.JvpProofs

namespace Folx

open Folx.Interp (Err)

variable {k : ℕ} {P : Fin k → Type} {Q F : Type} [CommRing F]

/-! ### storage rows -/

theorem list_range_sum_eq {β : Type} [AddCommMonoid β] (m : ℕ) (f : ℕ → β) :
    ((List.range m).map f).sum = ∑ i ∈ Finset.range m, f i := by
  rw [Finset.sum_range, ← List.sum_ofFn]
  congr 1
  apply List.ext_getElem
  · simp
  · intro i h1 h2; simp

theorem srows_length {P₀ : Type} (J : Jac P₀ F) : J.srows.length = J.nrows := by
  cases J <;> simp [Jac.srows, Jac.nrows, arange]

theorem zipWith_eq_range {P₀ : Type} (l : List (P₀ → F)) :
    (arange l.length).zipWith Row.mk l =
      (List.range l.length).map fun (i : ℕ) => ⟨fun _ => (i : ℤ), l.getD i (fun _ => 0)⟩ := by
  apply List.ext_getElem
  · simp [arange]
  · intro i h1 h2
    simp only [List.getElem_zipWith, List.getElem_map, List.getElem_range, arange]
    congr 1
    rw [List.getD_eq_getElem]

theorem srows_den {P₀ : Type} (J : Jac P₀ F) (i : ℕ) (p : P₀) :
    (Jac.sparse J.srows).den i p = J.den i p := by
  cases J with
  | sparse rows => rfl
  | dense rows =>
    simp only [Jac.srows, Jac.den]
    rw [zipWith_eq_range, List.map_map]
    simp only [Function.comp_def]
    rw [list_range_sum_eq]
    simp only [Nat.cast_inj]
    rw [Finset.sum_ite_eq']
    by_cases h : i < rows.length
    · simp [h]
    · rw [List.getD_eq_default _ _ (by omega)]; simp

theorem srows_wf {P₀ : Type} {n : ℕ} (J : Jac P₀ F) (h : J.Wf n) : (Jac.sparse J.srows).Wf n := by
  cases J with
  | sparse rows => exact h
  | dense rows =>
    have h : rows.length ≤ n := h
    intro r hr p
    simp only [Jac.srows] at hr
    rw [zipWith_eq_range, List.mem_map] at hr
    obtain ⟨i, hi, rfl⟩ := hr
    rw [List.mem_range] at hi
    simp only
    omega

/-! ### elementwise -/

theorem jvp_decompose (I : Inst k P Q F) (x t : (a : Fin k) → P a → F) :
    I.jvp x t = ∑ a, I.jvp x (Pi.single a (t a)) := by
  rw [← map_sum, Finset.univ_sum_single]

theorem list_flatten_sum {β γ : Type} [AddCommMonoid γ] (L : List (List β)) (f : β → γ) :
    (L.flatten.map f).sum = (L.map fun l => (l.map f).sum).sum := by
  induction L with
  | nil => simp
  | cons a L ih => rw [List.flatten_cons, List.map_append, List.sum_append, ih, List.map_cons, List.sum_cons]

theorem uniqueRows_den [DecidableEq (Q → ℤ)] (rows : List (Row Q F)) (i : ℕ) (q : Q) :
    (Jac.sparse (uniqueRows rows)).den i q = (Jac.sparse rows).den i q := by
  simp only [Jac.den, uniqueRows, List.map_map, Function.comp_def]
  have hnd := List.nodup_dedup (rows.map Row.idx)
  rw [← List.sum_toFinset _ hnd]
  have hmem : ∀ r ∈ rows, r.idx ∈ (rows.map Row.idx).dedup.toFinset := by
    intro r hr
    rw [List.mem_toFinset, List.mem_dedup]
    exact List.mem_map_of_mem hr
  generalize (rows.map Row.idx).dedup.toFinset = S at hmem
  clear hnd
  induction rows with
  | nil => simp
  | cons r rows ih =>
    simp only [List.map_cons, List.sum_cons]
    rw [← ih fun r' h' => hmem r' (by simp [h'])]
    have : (∑ m ∈ S, if m q = (i : ℤ) then
        ((if r.idx = m then r.val q else 0) + (rows.map fun r => if r.idx = m then r.val q else 0).sum) else 0)
      = (∑ m ∈ S, if r.idx = m then (if m q = (i : ℤ) then r.val q else 0) else 0) +
        ∑ m ∈ S, if m q = (i : ℤ) then (rows.map fun r => if r.idx = m then r.val q else 0).sum else 0 := by
      rw [← Finset.sum_add_distrib]
      apply Finset.sum_congr rfl
      intro m _
      split_ifs <;> simp
    rw [this, Finset.sum_ite_eq]
    simp [hmem r (by simp)]

theorem uniqueRows_wf [DecidableEq (Q → ℤ)] {n : ℕ} (rows : List (Row Q F))
    (h : (Jac.sparse rows).Wf n) : (Jac.sparse (uniqueRows rows)).Wf n := by
  intro r hr q
  rw [uniqueRows, List.mem_map] at hr
  obtain ⟨m, hm, rfl⟩ := hr
  rw [List.mem_dedup, List.mem_map] at hm
  obtain ⟨r, hr, rfl⟩ := hm
  refine ⟨(h r hr q).1, fun hneg => ⟨((h r hr q).2 hneg).1, ?_⟩⟩
  apply list_sum_eq_zero
  intro r' hr'
  split
  · rename_i he
    exact ((h r' hr' q).2 (by rw [he]; exact hneg)).2
  · rfl

theorem list_sum_mul_left {β : Type} (l : List β) (c : F) (f : β → F) :
    (l.map fun x => c * f x).sum = c * (l.map f).sum := by
  induction l with
  | nil => simp
  | cons a l ih => simp [ih, mul_add]

theorem sparseDiag_spec [∀ a, DecidableEq (P a)] [Fintype Q] [DecidableEq Q] (n : ℕ)
    (I : Inst k P Q F) (args : (a : Fin k) → Trip (P a) F)
    (hloc : ∀ a t q, t (I.π a q) = 0 → I.jvp (fun a => (args a).x) (Pi.single a t) q = 0)
    (hsame : ∀ a e, I.same a = some e → ∀ q, e q = I.π a q)
    (hwf : ∀ a, (args a).jac.Wf n) (o : JvpOut Q F) (h : sparseDiag I args = .ok o) :
    JvpSpec n I args o := by
  unfold sparseDiag at h
  split at h
  · simp at h
  set x := fun a => (args a).x with hx
  set general : List (Row Q F) :=
    (List.flatten (List.ofFn fun a : Fin k => (args a).jac.srows.map fun r =>
      (⟨fun q => r.idx (I.π a q), I.jvp x (Pi.single a r.val)⟩ : Row Q F))) with hgen
  have hgden : ∀ i q, (Jac.sparse general).den i q = I.jvp x (fun a => (args a).jac.den i) q := by
    intro i q
    simp only [Jac.den, hgen]
    rw [list_flatten_sum, List.map_ofFn, List.sum_ofFn, jvp_decompose, Finset.sum_apply]
    apply Finset.sum_congr rfl
    intro a _
    simp only [Function.comp_def, List.map_map]
    rw [jvp_local I x a (I.π a) (hloc a), ← srows_den]
    simp only [Jac.den]
    rw [← list_sum_mul_left]
    apply list_sum_congr
    intro r _
    split
    · rw [jvp_local I x a (I.π a) (hloc a)]
    · simp
  have hgwf : (Jac.sparse general).Wf n := by
    intro r hr q
    rw [hgen, List.mem_flatten] at hr
    obtain ⟨l, hl, hr⟩ := hr
    rw [List.mem_ofFn] at hl
    obtain ⟨a, rfl⟩ := hl
    rw [List.mem_map] at hr
    obtain ⟨r, hr, rfl⟩ := hr
    have := srows_wf _ (hwf a) r hr (I.π a q)
    exact ⟨this.1, fun hneg => ⟨(this.2 hneg).1, hloc a _ q (this.2 hneg).2⟩⟩
  simp only at h
  split at h
  · rename_i hk
    split at h
    · rename_i e he
      simp only [Except.ok.injEq] at h
      subst h
      generalize ha : (⟨0, by omega⟩ : Fin k) = a at e he ⊢
      have hloc' : ∀ t q, t (e q) = 0 → I.jvp x (Pi.single a t) q = 0 := by
        intro t q ht
        rw [hsame a e he q] at ht
        exact hloc a t q ht
      refine ⟨rfl, ?_, ?_, ?_⟩
      · intro i q
        have h1 := vjpOnes_eq I x a e hloc' ((args a).jac.den i) q
        rw [single_of_unique hk a (fun a => (args a).jac.den i)] at h1
        rw [← h1, ← srows_den (args a).jac]
        simp only [Jac.den, List.map_map, Function.comp_def]
        rw [← list_sum_mul_left]
        apply list_sum_congr
        intro r _
        split <;> simp
      · funext q
        have h1 := vjpOnes_eq I x a e hloc' (args a).lapl q
        rw [single_of_unique hk a (fun a => (args a).lapl)] at h1
        exact h1
      · intro r hr q
        rw [List.mem_map] at hr
        obtain ⟨r, hr, rfl⟩ := hr
        have := srows_wf _ (hwf a) r hr (e q)
        refine ⟨this.1, fun hneg => ⟨(this.2 hneg).1, ?_⟩⟩
        simp only
        rw [(this.2 hneg).2, mul_zero]
    · simp only [Except.ok.injEq] at h
      subst h
      exact ⟨rfl, hgden, rfl, hgwf⟩
  · simp only [Except.ok.injEq] at h
    subst h
    exact ⟨rfl, fun i q => by rw [uniqueRows_den]; exact hgden i q, rfl, uniqueRows_wf _ hgwf⟩

/-! ### indexing -/

theorem padded_den {P₀ : Type} (rows : List (Row P₀ F)) (m : ℕ) (hm : rows.length ≤ m) (i : ℕ) (p : P₀) :
    ((List.range m).map fun s =>
      if (rows.getD s ⟨fun _ => -1, fun _ => 0⟩).idx p = (i : ℤ) then
        (rows.getD s ⟨fun _ => -1, fun _ => 0⟩).val p else 0).sum = (Jac.sparse rows).den i p := by
  obtain ⟨d, rfl⟩ := Nat.exists_eq_add_of_le hm
  rw [List.range_add, List.map_append, List.sum_append]
  have h2 : (((List.range d).map (rows.length + ·)).map fun s =>
      if (rows.getD s ⟨fun _ => -1, fun _ => 0⟩).idx p = (i : ℤ) then
        (rows.getD s ⟨fun _ => -1, fun _ => 0⟩).val p else 0).sum = 0 := by
    apply list_sum_eq_zero
    intro s hs
    rw [List.mem_map] at hs
    obtain ⟨t, _, rfl⟩ := hs
    rw [List.getD_eq_default _ _ (by omega)]
    simp
  rw [h2, add_zero]
  simp only [Jac.den]
  congr 1
  apply List.ext_getElem
  · simp
  · intro s h1 h2
    rw [List.length_map, List.length_range] at h1
    simp only [List.getElem_map, List.getElem_range]
    rw [List.getD_eq_getElem _ _ h1]

theorem sparseIndex_spec [∀ a, Fintype (P a)] [∀ a, DecidableEq (P a)] [Fintype Q] (n : ℕ) (hn : 0 < n)
    (I : Inst k P Q F) (args : (a : Fin k) → Trip (P a) F)
    (hloc : I.elem = true → ∀ a e, I.same a = some e → ∀ t q, t (e q) = 0 →
      I.jvp (fun a => (args a).x) (Pi.single a t) q = 0)
    (hidx : I.static = true → ∀ t q, I.jvp (fun a => (args a).x) t q =
      match I.src q with
      | some ⟨a, p⟩ => t a p
      | none => 0)
    (hwf : ∀ a, (args a).jac.Wf n) (o : JvpOut Q F) (h : sparseIndex I args = .ok o) :
    JvpSpec n I args o := by
  unfold sparseIndex at h
  split at h
  · rename_i hst
    split at h
    · simp at h
    simp only [Except.ok.injEq] at h
    subst h
    refine ⟨rfl, ?_, rfl, ?_⟩
    · intro i q
      simp only [Jac.den, List.map_map, Function.comp_def]
      rw [hidx hst]
      cases hs : I.src q with
      | some ap =>
        obtain ⟨a, p⟩ := ap
        simp only
        rw [← srows_den, ← padded_den (args a).jac.srows
          (Finset.univ.sup fun a => (args a).jac.srows.length)
          (Finset.le_sup (f := fun a => (args a).jac.srows.length) (Finset.mem_univ a))]
        apply list_sum_congr
        intro s _
        rw [hidx hst, hs]
      | none =>
        simp only
        apply list_sum_eq_zero
        intro s _
        rw [if_neg (by omega)]
    · intro r hr q
      rw [List.mem_map] at hr
      obtain ⟨s, _, rfl⟩ := hr
      simp only
      rw [hidx hst]
      cases hs : I.src q with
      | none => exact ⟨by show (-1 : ℤ) < n; omega, fun _ => ⟨rfl, rfl⟩⟩
      | some ap =>
        obtain ⟨a, p⟩ := ap
        simp only
        by_cases hlt : s < (args a).jac.srows.length
        · rw [List.getD_eq_getElem _ _ hlt]
          exact srows_wf _ (hwf a) _ (List.getElem_mem hlt) p
        · rw [List.getD_eq_default _ _ (by omega)]
          exact ⟨by show (-1 : ℤ) < n; omega, fun _ => ⟨rfl, rfl⟩⟩
  · exact denseJvp_spec n hn I args hloc hwf o h

end Folx

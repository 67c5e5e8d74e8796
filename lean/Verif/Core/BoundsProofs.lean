import Verif.Core.RuleProofs

/-!
# Sparse storage stays within bounds

What the rules of `jvp.py` need for this is much weaker than exactness: the derivative is zero in directions that, by the
declarations of the wrapped function, cannot change the output.
-/

namespace Folx

open Folx.Interp (Err)

variable {k : ℕ} {P : Fin k → Type} {P₀ Q F : Type} [CommRing F]

/-- If the Jacobian is stored sparsely, its indices are below `n`, the only negative index is `-1`, and entries stored there are
zero. -/
def Jac.Bounded (n : ℕ) (J : Jac P₀ F) : Prop := J.weak = true → J.Wf n

theorem Jac.bounded_dense {n : ℕ} {J : Jac P₀ F} (h : J.weak = false) : J.Bounded n := by
  intro hw
  rw [h] at hw
  exact absurd hw (by simp)

theorem Jac.Wf.bounded {n : ℕ} {J : Jac P₀ F} (h : J.Wf n) : J.Bounded n := fun _ => h

/-- Directions that cannot change an output, according to axes and flags, have derivative zero. -/
structure Inst.Local (I : Inst k P Q F) (x : (a : Fin k) → P a → F) : Prop where
  elem : I.elem = true → ∀ a t q, t (I.π a q) = 0 → I.jvp x (Pi.single a t) q = 0
  ax_elem : ∀ a π, I.ax a = .elem π → ∀ t q, t (π q) = 0 → I.jvp x (Pi.single a t) q = 0
  ax_red : ∀ a r, I.ax a = .red r → ∀ t q, (∀ c, t (r.split.symm (r.κ q, c)) = 0) →
    I.jvp x (Pi.single a t) q = 0
  index : I.flags.has Flags.INDEXING = true → I.static = true → ∀ t q,
    (∀ a p, I.src q = some ⟨a, p⟩ → t a p = 0) → I.jvp x t q = 0
  /-- the scatter rule is only used by functions flagged `INDEXING` (`wrapped_functions.py:402`) -/
  scatter : I.flags.has Flags.SCATTER = true → I.flags.has Flags.INDEXING = true

theorem sparseDiag_bounded [∀ a, DecidableEq (P a)] [Fintype Q] [DecidableEq Q] (n : ℕ)
    (I : Inst k P Q F) (args : (a : Fin k) → Trip (P a) F)
    (hloc : ∀ a t q, t (I.π a q) = 0 → I.jvp (fun a => (args a).x) (Pi.single a t) q = 0)
    (hwf : ∀ a, (args a).jac.Wf n) (o : JvpOut Q F) (h : sparseDiag I args = .ok o) : o.jac.Bounded n := by
  apply Jac.Wf.bounded
  unfold sparseDiag at h
  split at h
  · simp at h
  have hgwf : (Jac.sparse (List.flatten (List.ofFn fun a : Fin k => (args a).jac.srows.map fun r =>
      (⟨fun q => r.idx (I.π a q), I.jvp (fun a => (args a).x) (Pi.single a r.val)⟩ : Row Q F)))).Wf n := by
    intro r hr q
    rw [List.mem_flatten] at hr
    obtain ⟨l, hl, hr⟩ := hr
    rw [List.mem_ofFn] at hl
    obtain ⟨a, rfl⟩ := hl
    rw [List.mem_map] at hr
    obtain ⟨r, hr, rfl⟩ := hr
    have := srows_wf _ (hwf a) r hr (I.π a q)
    exact ⟨this.1, fun hneg => ⟨(this.2 hneg).1, hloc a _ q (this.2 hneg).2⟩⟩
  simp only at h
  split at h
  · split at h
    · rename_i e he
      simp only [Except.ok.injEq] at h
      subst h
      intro r hr q
      rw [List.mem_map] at hr
      obtain ⟨r, hr, rfl⟩ := hr
      have := srows_wf _ (hwf _) r hr (e q)
      refine ⟨this.1, fun hneg => ⟨(this.2 hneg).1, ?_⟩⟩
      simp only
      rw [(this.2 hneg).2, mul_zero]
    · simp only [Except.ok.injEq] at h
      subst h
      exact hgwf
  · simp only [Except.ok.injEq] at h
    subst h
    exact uniqueRows_wf _ hgwf

theorem denseJvp_bounded [∀ a, Fintype (P a)] [∀ a, DecidableEq (P a)] [Fintype Q] (n : ℕ)
    (I : Inst k P Q F) (args : (a : Fin k) → Trip (P a) F) (o : JvpOut Q F)
    (h : denseJvp I args = .ok o) : o.jac.Bounded n := by
  obtain ⟨rows, hr⟩ := denseJvp_dense I args o h
  rw [hr]
  exact Jac.bounded_dense rfl

theorem sparseIndex_bounded [∀ a, Fintype (P a)] [∀ a, DecidableEq (P a)] [Fintype Q] (n : ℕ)
    (I : Inst k P Q F) (args : (a : Fin k) → Trip (P a) F)
    (hidx : I.static = true → ∀ t q, (∀ a p, I.src q = some ⟨a, p⟩ → t a p = 0) → I.jvp (fun a => (args a).x) t q = 0)
    (hwf : ∀ a, (args a).jac.Wf n) (o : JvpOut Q F) (h : sparseIndex I args = .ok o) : o.jac.Bounded n := by
  unfold sparseIndex at h
  split at h
  · rename_i hst
    split at h
    · simp at h
    simp only [Except.ok.injEq] at h
    subst h
    apply Jac.Wf.bounded
    intro r hr q
    obtain ⟨i, -, rfl⟩ := List.mem_map.mp hr
    have hpad : ∀ a p, ((args a).jac.srows.getD i ⟨fun _ => -1, fun _ => 0⟩).idx p < n ∧
        (((args a).jac.srows.getD i ⟨fun _ => -1, fun _ => 0⟩).idx p < 0 →
          ((args a).jac.srows.getD i ⟨fun _ => -1, fun _ => 0⟩).idx p = -1 ∧
          ((args a).jac.srows.getD i ⟨fun _ => -1, fun _ => 0⟩).val p = 0) := by
      intro a p
      by_cases hi : i < (args a).jac.srows.length
      · rw [List.getD_eq_getElem _ _ hi]
        exact srows_wf _ (hwf a) _ (List.getElem_mem hi) p
      · rw [List.getD_eq_default _ _ (by omega)]
        exact ⟨by show (-1 : ℤ) < n; omega, fun _ => ⟨rfl, rfl⟩⟩
    cases hs : I.src q with
    | none =>
      dsimp only
      rw [hs]
      refine ⟨by show (-1 : ℤ) < n; omega, fun _ => ⟨rfl, hidx hst _ q fun a p hap => ?_⟩⟩
      rw [hs] at hap
      exact absurd hap (by simp)
    | some ap =>
      obtain ⟨a, p⟩ := ap
      dsimp only
      rw [hs]
      refine ⟨(hpad a p).1, fun hneg => ⟨((hpad a p).2 hneg).1, hidx hst _ q fun a' p' hap => ?_⟩⟩
      rw [hs] at hap
      injection hap with hap
      obtain ⟨rfl, hp⟩ := Sigma.mk.inj_iff.mp hap
      obtain rfl := eq_of_heq hp
      exact ((hpad _ _).2 hneg).2
  · exact denseJvp_bounded n I args o h

theorem sparseSum_bounded [Fintype P₀] [Fintype Q] (n : ℕ) (r : Red P₀ Q) (T : ℕ) (arg : Trip P₀ F)
    (hwf : arg.jac.Wf n) (o : JvpOut Q F) (h : sparseSum r T arg = .ok o) :
    o.jac.Bounded n ∧ (o.jac.weak = true → o.jac.nrows ≤ T) := by
  have hw := srows_wf _ hwf
  unfold sparseSum at h
  simp only at h
  split at h
  · simp at h
  set rows := arg.jac.srows with hrows
  set maxOut := Finset.univ.sup fun q : Q => max 1 (sumIdx r rows q).card with hmax
  split at h
  · split at h
    · simp at h
    · simp only [Except.ok.injEq] at h
      subst h
      exact ⟨Jac.bounded_dense rfl, fun hh => by simp [Jac.weak] at hh⟩
  · rename_i hT
    simp only [Except.ok.injEq] at h
    subst h
    refine ⟨Jac.Wf.bounded ?_, fun _ => by simp only [Jac.nrows, List.length_map, List.length_range]; omega⟩
    set col : Q → List ℤ := fun q =>
      (sumIdx r rows q).sort (· ≤ ·) ++ List.replicate (maxOut - ((sumIdx r rows q).sort (· ≤ ·)).length) (-1)
      with hcol
    have hmemcol : ∀ q row, row ∈ rows → ∀ c, row.idx (r.split.symm (r.κ q, c)) ∈ col q := by
      intro q row hrow c
      simp only [hcol, List.mem_append, Finset.mem_sort]
      left
      rw [mem_sumIdx]
      exact ⟨row, hrow, c, rfl⟩
    have hcolb : ∀ q s, (col q).getD s (-1) < n ∧ ((col q).getD s (-1) < 0 → (col q).getD s (-1) = -1) := by
      intro q s
      by_cases hs : s < (col q).length
      · rw [List.getD_eq_getElem _ _ hs]
        have hm : (col q)[s] ∈ col q := List.getElem_mem hs
        generalize (col q)[s] = z at hm
        rcases List.mem_append.mp hm with hm | hm
        · rw [Finset.mem_sort, mem_sumIdx] at hm
          obtain ⟨row, hrow, c, rfl⟩ := hm
          exact ⟨(hw row hrow _).1, fun hn => ((hw row hrow _).2 hn).1⟩
        · obtain rfl := List.eq_of_mem_replicate hm
          exact ⟨by omega, fun _ => rfl⟩
      · rw [List.getD_eq_default _ _ (by omega)]
        exact ⟨by omega, fun _ => rfl⟩
    intro ρ hρ q
    obtain ⟨s, -, rfl⟩ := List.mem_map.mp hρ
    refine ⟨(hcolb q s).1, fun hneg => ⟨(hcolb q s).2 hneg, ?_⟩⟩
    have hm1 := (hcolb q s).2 hneg
    apply list_sum_eq_zero
    intro row hrow
    apply Finset.sum_eq_zero
    intro c _
    split
    · rename_i he
      have hmem := hmemcol q row hrow c
      rw [argmaxIdx_of_mem hmem] at he
      have he' : (col q).idxOf (row.idx (r.split.symm (r.κ q, c))) = s := by exact_mod_cast he
      have hlt : (col q).idxOf (row.idx (r.split.symm (r.κ q, c))) < (col q).length := List.idxOf_lt_length_of_mem hmem
      have hget : (col q).getD s (-1) = row.idx (r.split.symm (r.κ q, c)) := by
        rw [← he', List.getD_eq_getElem _ _ hlt]
        exact List.getElem_idxOf hlt
      exact ((hw row hrow _).2 (by rw [← hget]; exact hneg)).2
    · rfl

theorem sparseReduce_bounded [Fintype P₀] [DecidableEq P₀] [Fintype Q] (n : ℕ) (I : Inst 1 (fun _ => P₀) Q F)
    (r : Red P₀ Q) (T : ℕ) (arg : Trip P₀ F)
    (hloc : ∀ t q, (∀ c, t (r.split.symm (r.κ q, c)) = 0) → I.jvp (fun _ => arg.x) (fun _ => t) q = 0)
    (hwf : arg.jac.Wf n) (o : JvpOut Q F) (h : sparseReduce I r T arg = .ok o) :
    o.jac.Bounded n ∧ (o.jac.weak = true → o.jac.nrows ≤ T) := by
  have hw := srows_wf _ hwf
  unfold sparseReduce at h
  split at h
  · simp at h
  · rename_i gradTan outMask hj
    split at h
    · refine ⟨denseJvp_bounded n I _ o h, fun hh => ?_⟩
      obtain ⟨rows, hr⟩ := denseJvp_dense I _ o h
      rw [hr] at hh
      simp [Jac.weak] at hh
    rename_i hT
    split at h
    · simp at h
    simp only [Except.ok.injEq] at h
    subst h
    refine ⟨Jac.Wf.bounded ?_, fun _ => by
      simp only [Jac.nrows, List.length_map, List.length_zip]; omega⟩
    unfold jacobianForReduction at hj
    split at hj
    · simp at hj
    simp only at hj
    split at hj
    · simp at hj
    rename_i ids hids
    simp only [Except.ok.injEq, Prod.mk.injEq] at hj
    obtain ⟨hg, hm⟩ := hj
    set rows := arg.jac.srows with hrows
    set maxU := Finset.univ.sup fun u : r.K => (redIdx r rows u).card with hmaxU
    unfold Jac.getIndexMask at hids
    split at hids
    · simp at hids
    simp only [Except.ok.injEq] at hids
    intro ρ hρ q
    obtain ⟨mg, hmg, rfl⟩ := List.mem_map.mp hρ
    obtain ⟨s, hs, rfl⟩ := List.getElem_of_mem hmg
    rw [List.getElem_zip]
    have hs1 : s < outMask.length := by rw [List.length_zip] at hs; omega
    have hs2 : s < gradTan.length := by rw [List.length_zip] at hs; omega
    have hsU : s < maxU := by rw [← hm] at hs1; simpa using hs1
    have hmask : ∀ u, outMask[s] u = ((redIdx r rows u).sort (· ≤ ·)).getD s (-1) := by
      intro u
      subst hm
      simp
    have hb : ∀ u, outMask[s] u < n ∧ (outMask[s] u < 0 → outMask[s] u = -1) := by
      intro u
      rw [hmask u]
      by_cases hsl : s < ((redIdx r rows u).sort (· ≤ ·)).length
      · rw [List.getD_eq_getElem _ _ hsl]
        have hmem : ((redIdx r rows u).sort (· ≤ ·))[s] ∈ (redIdx r rows u).sort (· ≤ ·) := List.getElem_mem hsl
        generalize ((redIdx r rows u).sort (· ≤ ·))[s] = z at hmem
        rw [Finset.mem_sort, mem_redIdx] at hmem
        obtain ⟨_, row, hrow, c, rfl⟩ := hmem
        exact ⟨(hw row hrow _).1, fun hn => ((hw row hrow _).2 hn).1⟩
      · rw [List.getD_eq_default _ _ (by omega)]
        exact ⟨by omega, fun _ => rfl⟩
    refine ⟨(hb _).1, fun hneg => ⟨(hb _).2 hneg, ?_⟩⟩
    have hm1 : outMask[s] (r.κ q) = -1 := (hb _).2 hneg
    apply hloc
    intro c
    set p := r.split.symm (r.κ q, c) with hp
    have hg' : gradTan[s] p = (segSum maxU ids (rows.map Row.val)).getD s (fun _ => 0) p := by
      rw [List.getD_eq_getElem _ _ (by simpa using hsU)]
      subst hg
      rfl
    show gradTan[s] p = 0
    rw [hg']
    unfold segSum
    rw [List.getD_eq_getElem _ _ (by simpa using hsU)]
    simp only [List.getElem_map, List.getElem_range]
    apply list_sum_eq_zero
    intro iv hiv
    rw [← hids, List.zip_map', List.mem_map] at hiv
    obtain ⟨row, hrow, rfl⟩ := hiv
    simp only
    split
    · rename_i he
      rw [matchIdx_eq_iff] at he
      have hout : (((List.range maxU).map fun (s : ℕ) u => ((redIdx r rows u).sort (· ≤ ·)).getD s (-1)).map
          fun (m : r.K → ℤ) p => m (r.split p).1).map (· p) = outMask.map fun m => m (r.κ q) := by
        rw [hm, List.map_map]
        refine List.map_congr_left fun m _ => ?_
        simp [hp]
      rw [hout] at he
      obtain ⟨hmem, hidx⟩ := he
      have hlt : (outMask.map fun m => m (r.κ q)).idxOf (row.idx p) < (outMask.map fun m => m (r.κ q)).length :=
        List.idxOf_lt_length_of_mem hmem
      have hget : row.idx p = outMask[s] (r.κ q) := by
        have := List.getElem_idxOf hlt
        rw [← this]
        simp only [hidx, List.getElem_map]
      exact ((hw row hrow p).2 (by rw [hget]; exact hneg)).2
    · rfl

theorem Jac.add_bounded [Fintype P₀] [DecidableEq P₀] {n : ℕ} {a b c : Jac P₀ F} (h : a.add b = .ok c)
    (ha : a.Bounded n) (hb : b.Bounded n) : c.Bounded n := by
  intro hc
  obtain ⟨h1, h2⟩ := Jac.add_weak h hc
  cases a with
  | dense _ => simp [Jac.weak] at h1
  | sparse r1 =>
    cases b with
    | dense _ => simp [Jac.weak] at h2
    | sparse r2 =>
      have w1 := ha rfl
      have w2 := hb rfl
      simp only [Jac.add] at h
      split at h
      · simp at h
      · rename_i m hm
        have hsub : ∀ (l : List (Row P₀ F)) r, r ∈ brdcastRows l m → r ∈ l := by
          intro l r hr
          unfold brdcastRows at hr
          split at hr
          · rw [List.eq_of_mem_replicate hr]; simp
          · exact hr
        split at h
        · rename_i hall
          obtain rfl := Except.ok.inj h
          intro ρ hρ p
          obtain ⟨rr, hrr, rfl⟩ := List.mem_map.mp hρ
          have m1 := hsub _ _ (List.of_mem_zip hrr).1
          have m2 := hsub _ _ (List.of_mem_zip hrr).2
          refine ⟨(w1 _ m1 p).1, fun hneg => ⟨((w1 _ m1 p).2 hneg).1, ?_⟩⟩
          have e := hall rr hrr p
          show rr.1.val p + rr.2.val p = 0
          rw [((w1 _ m1 p).2 hneg).2, ((w2 _ m2 p).2 (by rw [e]; exact hneg)).2, add_zero]
        · obtain rfl := Except.ok.inj h
          intro ρ hρ p
          rcases List.mem_append.mp hρ with hρ | hρ
          · exact w1 ρ hρ p
          · exact w2 ρ hρ p

theorem accumulate_bounded [Fintype Q] [DecidableEq Q] (n : ℕ) : ∀ (l : List (Except Err (JvpOut Q F)))
    (acc : Option (JvpOut Q F)) (o : JvpOut Q F), accumulate l acc = .ok (some o) →
    (∀ x ∈ l, ∀ o', x = .ok o' → o'.jac.Bounded n) → (∀ o', acc = some o' → o'.jac.Bounded n) → o.jac.Bounded n
  | [], acc, o, h, _, ha => ha o (Except.ok.inj h)
  | .error e :: _, _, _, h, _, _ => by simp [accumulate] at h
  | .ok o' :: rest, none, o, h, hl, _ =>
    accumulate_bounded n rest (some o') o h (fun x hx => hl x (by simp [hx])) fun o'' ho => by
      obtain rfl := Option.some.inj ho
      exact hl _ (by simp) _ rfl
  | .ok o' :: rest, some acc, o, h, hl, ha => by
    simp only [accumulate] at h
    split at h
    · simp at h
    · rename_i j hj
      refine accumulate_bounded n rest _ o h (fun x hx => hl x (by simp [hx])) fun o'' ho => ?_
      obtain rfl := Option.some.inj ho
      exact Jac.add_bounded hj (ha _ rfl) (hl _ (by simp) _ rfl)

theorem accumulate_weak [Fintype Q] [DecidableEq Q] : ∀ (l : List (Except Err (JvpOut Q F)))
    (acc : Option (JvpOut Q F)) (o : JvpOut Q F), accumulate l acc = .ok (some o) → o.jac.weak = true →
    (∀ x ∈ l, ∀ o', x = .ok o' → o'.jac.weak = true) ∧ (∀ x ∈ l, ∃ o', x = .ok o') ∧
      ∀ o', acc = some o' → o'.jac.weak = true
  | [], acc, o, h, hw => ⟨by simp, by simp, fun o' ho => by
      have : acc = some o := Except.ok.inj h
      rw [this] at ho
      obtain rfl := Option.some.inj ho
      exact hw⟩
  | .error e :: _, _, _, h, _ => by simp [accumulate] at h
  | .ok o' :: rest, none, o, h, hw => by
    obtain ⟨h1, h2, h3⟩ := accumulate_weak rest (some o') o h hw
    refine ⟨fun x hx o'' hx' => ?_, fun x hx => ?_, by simp⟩
    · rcases List.mem_cons.mp hx with rfl | hx
      · obtain rfl := Except.ok.inj hx'
        exact h3 _ rfl
      · exact h1 x hx o'' hx'
    · rcases List.mem_cons.mp hx with rfl | hx
      · exact ⟨_, rfl⟩
      · exact h2 x hx
  | .ok o' :: rest, some acc, o, h, hw => by
    simp only [accumulate] at h
    split at h
    · simp at h
    · rename_i j hj
      obtain ⟨h1, h2, h3⟩ := accumulate_weak rest _ o h hw
      obtain ⟨h4, h5⟩ := Jac.add_weak hj (h3 _ rfl)
      refine ⟨fun x hx o'' hx' => ?_, fun x hx => ?_, fun o'' ho => ?_⟩
      · rcases List.mem_cons.mp hx with rfl | hx
        · obtain rfl := Except.ok.inj hx'
          exact h5
        · exact h1 x hx o'' hx'
      · rcases List.mem_cons.mp hx with rfl | hx
        · exact ⟨_, rfl⟩
        · exact h2 x hx
      · obtain rfl := Option.some.inj ho
        exact h4

section Rules
variable [∀ a, Fintype (P a)] [∀ a, DecidableEq (P a)] [Fintype Q] [DecidableEq Q]

theorem sparseSingle_bounded (n : ℕ) (I : Inst k P Q F) (T : ℕ) (x : (a : Fin k) → P a → F) (a : Fin k)
    (arg : Trip (P a) F) (hx : arg.x = x a) (hI : I.Local x) (hs : I.flags.has Flags.SCATTER = false)
    (hwf : arg.jac.Wf n) (o : JvpOut Q F) (h : sparseSingle (I.single x a) T arg = .ok o) : o.jac.Bounded n := by
  have hxa : ∀ y : P a → F, y = x a → ∀ t : P a → F,
      (I.single x a).jvp (fun _ => y) (fun _ => t) = I.jvp x (Pi.single a t) := by
    rintro y rfl t
    exact Inst.single_jvp I x a t
  have hxa' : ∀ t : P a → F, (I.single x a).jvp (fun _ => arg.x) (fun _ => t) = I.jvp x (Pi.single a t) :=
    hxa _ hx
  unfold sparseSingle at h
  have hax : (I.single x a).ax 0 = I.ax a := rfl
  split at h
  · rename_i π hπ
    rw [hax] at hπ
    refine sparseDiag_bounded n _ _ (fun b t q ht => ?_) (fun _ => hwf) o h
    have : b = 0 := Subsingleton.elim _ _
    subst this
    have hsing : (Pi.single 0 t : Fin 1 → P a → F) = fun _ => t := by
      funext b
      have : b = 0 := Subsingleton.elim _ _
      subst this
      exact Pi.single_eq_same _ _
    show (I.single x a).jvp (fun _ => arg.x) (Pi.single 0 t) q = 0
    rw [hsing, hxa']
    exact hI.ax_elem a π hπ t q ht
  · rename_i r hr
    rw [hax] at hr
    split at h
    · rename_i hsc
      rw [show (I.single x a).flags = I.flags from rfl, hs] at hsc
      simp at hsc
    · split at h
      · exact (sparseSum_bounded n r T arg hwf o h).1
      · refine (sparseReduce_bounded n _ r T arg (fun t q ht => ?_) hwf o h).1
        rw [hxa']
        exact hI.ax_red a r hr t q ht

theorem singleJvp_weak (I : Inst 1 (fun _ => P₀) Q F) [Fintype P₀] [DecidableEq P₀] (T : ℕ) (arg : Trip P₀ F)
    (o : JvpOut Q F) (h : singleJvp I T arg = .ok o) (hw : o.jac.weak = true) : arg.jac.weak = true := by
  unfold singleJvp at h
  split at h
  · assumption
  · obtain ⟨rows, hr⟩ := denseJvp_dense I _ o h
    rw [hr] at hw
    simp [Jac.weak] at hw

/-- A result is sparse only if all operands are. -/
theorem oneByOne_weak (I : Inst k P Q F) (T : ℕ) (args : (a : Fin k) → Trip (P a) F) (o : JvpOut Q F)
    (h : oneByOne I T args = .ok o) (hw : o.jac.weak = true) (a : Fin k) : (args a).jac.weak = true := by
  unfold oneByOne at h
  split at h
  · simp at h
  · simp at h
  · rename_i o' ho'
    obtain rfl := Except.ok.inj h
    obtain ⟨h1, h2, -⟩ := accumulate_weak _ _ _ ho' hw
    have hmem : singleJvp (I.single (fun a => (args a).x) a) T (args a) ∈
        List.ofFn fun a : Fin k => singleJvp (I.single (fun a => (args a).x) a) T (args a) := List.mem_ofFn.mpr ⟨a, rfl⟩
    obtain ⟨oa, hoa⟩ := h2 _ hmem
    exact singleJvp_weak _ T (args a) oa hoa (h1 _ hmem oa hoa)

theorem oneByOne_bounded (n : ℕ) (I : Inst k P Q F) (T : ℕ) (args : (a : Fin k) → Trip (P a) F)
    (hI : I.Local fun a => (args a).x) (hs : I.flags.has Flags.SCATTER = false ∨ ∃ a, (args a).jac.weak = false)
    (hb : ∀ a, (args a).jac.Bounded n) (o : JvpOut Q F) (h : oneByOne I T args = .ok o) : o.jac.Bounded n := by
  intro hw
  have hall := oneByOne_weak I T args o h hw
  have hs : I.flags.has Flags.SCATTER = false := by
    rcases hs with hs | ⟨a, ha⟩
    · exact hs
    · rw [hall a] at ha; simp at ha
  refine (?_ : o.jac.Bounded n) hw
  unfold oneByOne at h
  split at h
  · simp at h
  · simp at h
  · rename_i o' ho'
    obtain rfl := Except.ok.inj h
    refine accumulate_bounded n _ _ _ ho' (fun x hx o'' hx' => ?_) (by simp)
    obtain ⟨a, rfl⟩ := List.mem_ofFn.mp hx
    unfold singleJvp at hx'
    rw [if_pos (hall a)] at hx'
    exact sparseSingle_bounded n I T _ a (args a) rfl hI hs (hb a (hall a)) o'' hx'

/-- Whatever the operands and the point: the Jacobian returned by the first-order rule is within bounds. -/
theorem jvpRule_bounded (n : ℕ) (I : Inst k P Q F) (T : ℕ) (args : (a : Fin k) → Trip (P a) F)
    (hI : I.Local fun a => (args a).x) (hb : ∀ a, (args a).jac.Bounded n) (o : JvpOut Q F)
    (h : jvpRule I T args = .ok o) : o.jac.Bounded n := by
  unfold jvpRule at h
  split at h
  · rename_i hc
    unfold parallelJvp at h
    split at h
    · exact denseJvp_bounded n I args o h
    rename_i hall
    have hall : ∀ a, (args a).jac.weak = true := by
      unfold allWeak at hall
      simpa using hall
    have hwf : ∀ a, (args a).jac.Wf n := fun a => hb a (hall a)
    split at h
    · rename_i hi
      exact sparseIndex_bounded n I args (hI.index hi) hwf o h
    rename_i hi
    split at h
    · rename_i he
      exact sparseDiag_bounded n I args (hI.elem he) hwf o h
    split at h
    · refine sparseSingle_bounded n I T _ _ (args _) rfl hI ?_ (hwf _) o h
      by_contra hsc
      exact hi (hI.scatter (by simpa using hsc))
    · exact denseJvp_bounded n I args o h
  · rename_i hc
    refine oneByOne_bounded n I T args hI ?_ hb o h
    by_cases hsc : I.flags.has Flags.SCATTER = false
    · exact Or.inl hsc
    · right
      have hi := hI.scatter (by simpa using hsc)
      by_contra hne
      refine hc (Or.inr ⟨?_, Or.inl hi⟩)
      unfold allWeak
      simp only [decide_eq_true_eq]
      intro a
      by_contra ha
      exact hne ⟨a, by simpa using ha⟩

/-! ### Number of rows -/

theorem Jac.add_nrows {J1 J2 J : Jac Q F} (h : J1.add J2 = .ok J) (hw : J.weak = true) :
    J.nrows ≤ J1.nrows + J2.nrows := by
  unfold Jac.add at h
  split at h
  · rename_i r1 r2
    split at h
    · simp at h
    · rename_i m hm
      dsimp only at h
      split at h
      · obtain rfl := Except.ok.inj h
        simp only [Jac.nrows, List.length_map, List.length_zip]
        unfold brdcastLen at hm
        have hl : ∀ l : List (Row Q F), (brdcastRows l m).length = if l.length = 1 then m else l.length := by
          intro l
          match l with
          | [] => rfl
          | [x] => simp [brdcastRows]
          | x :: y :: l => simp [brdcastRows]
        rw [hl, hl]
        split at hm
        · obtain rfl := Option.some.inj hm
          split <;> omega
        · split at hm
          · obtain rfl := Option.some.inj hm
            split <;> split <;> omega
          · split at hm
            · obtain rfl := Option.some.inj hm
              split <;> (try split) <;> omega
            · simp at hm
      · obtain rfl := Except.ok.inj h
        simp [Jac.nrows]
  · split at h
    · obtain rfl := Except.ok.inj h
      simp [Jac.weak] at hw
    · simp at h
    · simp at h

theorem accumulate_nrows (T : ℕ) : ∀ (l : List (Except Err (JvpOut Q F)))
    (acc : Option (JvpOut Q F)) (o : JvpOut Q F) (c : ℕ), accumulate l acc = .ok (some o) → o.jac.weak = true →
    (∀ x ∈ l, ∀ o', x = .ok o' → o'.jac.weak = true → o'.jac.nrows ≤ T) → (∀ o', acc = some o' → o'.jac.nrows ≤ c * T) →
    (acc = none → c = 0) → o.jac.nrows ≤ (c + l.length) * T
  | [], acc, o, c, h, _, _, ha, _ => by
    have : acc = some o := Except.ok.inj h
    exact ha o this
  | .error e :: _, _, _, _, h, _, _, _, _ => by simp [accumulate] at h
  | .ok o' :: rest, none, o, c, h, hw, hl, _, hc => by
    obtain rfl := hc rfl
    have hall := accumulate_weak _ _ _ h hw
    have := accumulate_nrows T rest (some o') o 1 h hw (fun x hx => hl x (by simp [hx]))
      (fun o'' ho => by
        obtain rfl := Option.some.inj ho
        rw [one_mul]
        exact hl _ (by simp) _ rfl (hall.1 _ (by simp) _ rfl)) (by simp)
    rw [List.length_cons, zero_add, add_comm]
    exact this
  | .ok o' :: rest, some acc, o, c, h, hw, hl, ha, _ => by
    have hall := accumulate_weak _ _ _ h hw
    simp only [accumulate] at h
    split at h
    · simp at h
    · rename_i j hj
      have hjw := (accumulate_weak _ _ _ h hw).2.2 _ rfl
      have := accumulate_nrows T rest _ o (c + 1) h hw (fun x hx => hl x (by simp [hx]))
        (fun o'' ho => by
          obtain rfl := Option.some.inj ho
          have h1 := Jac.add_nrows hj hjw
          have h2 := ha _ rfl
          have h3 := hl (.ok o') (by simp) o' rfl (hall.1 (.ok o') (by simp) o' rfl)
          have h4 : (c + 1) * T = c * T + T := by ring
          rw [h4]
          exact h1.trans (Nat.add_le_add h2 h3)) (by simp)
      rw [List.length_cons, show c + (rest.length + 1) = c + 1 + rest.length by omega]
      exact this

/-- A function all of whose operands are reduced along axes keeps at most `T` rows for each operand. -/
theorem jvpRule_rows (n : ℕ) (I : Inst k P Q F) (T : ℕ) (args : (a : Fin k) → Trip (P a) F)
    (hI : I.Local fun a => (args a).x) (hel : I.elem = false) (hi : I.flags.has Flags.INDEXING = false)
    (hs : I.flags.has Flags.SCATTER = false) (hax : ∀ a, ∃ r, I.ax a = .red r)
    (hb : ∀ a, (args a).jac.Bounded n) (o : JvpOut Q F)
    (h : jvpRule I T args = .ok o) (hw : o.jac.weak = true) : o.jac.nrows ≤ k * T := by
  have key : ∀ (a : Fin k) (o : JvpOut Q F), (args a).jac.weak = true →
      sparseSingle (I.single (fun a => (args a).x) a) T (args a) = .ok o → o.jac.weak = true → o.jac.nrows ≤ T := by
    intro a o hwa h hw
    have hwf := hb a hwa
    obtain ⟨r, hr⟩ := hax a
    unfold sparseSingle at h
    have hax : (I.single (fun a => (args a).x) a).ax 0 = I.ax a := rfl
    split at h
    · rename_i π hπ
      rw [hax, hr] at hπ
      cases hπ
    · rename_i r' hr'
      split at h
      · rename_i hsc
        rw [show (I.single (fun a => (args a).x) a).flags = I.flags from rfl, hs] at hsc
        simp at hsc
      · split at h
        · exact (sparseSum_bounded n r' T (args a) hwf o h).2 hw
        · refine (sparseReduce_bounded n _ r' T (args a) (fun t q ht => ?_) hwf o h).2 hw
          rw [Inst.single_jvp I (fun a => (args a).x) a t]
          exact hI.ax_red a r' hr' t q ht
  unfold jvpRule at h
  split at h
  · unfold parallelJvp at h
    have hden : denseJvp I args = .ok o → o.jac.nrows ≤ k * T := by
      intro h
      obtain ⟨rows, hr⟩ := denseJvp_dense I _ o h
      rw [hr] at hw
      simp [Jac.weak] at hw
    split at h
    · exact hden h
    rename_i hall
    have hall : ∀ a, (args a).jac.weak = true := by
      unfold allWeak at hall
      simpa using hall
    rw [if_neg (by rw [hi]; decide), if_neg (by rw [hel]; decide)] at h
    split at h
    · rename_i hk
      subst hk
      rw [one_mul]
      exact key _ o (hall _) h hw
    · exact hden h
  · have hall := oneByOne_weak I T args o h hw
    unfold oneByOne at h
    split at h
    · simp at h
    · simp at h
    · rename_i o' ho'
      obtain rfl := Except.ok.inj h
      have := accumulate_nrows T _ none o' 0 ho' hw (fun x hx o'' hx' hw' => by
        obtain ⟨a, rfl⟩ := List.mem_ofFn.mp hx
        unfold singleJvp at hx'
        rw [if_pos (hall a)] at hx'
        exact key a o'' (hall a) hx' hw') (by simp) (by simp)
      simpa using this

end Rules

end Folx

import Verif.Core.Scatter
import Verif.Core.RuleProofs

/-! # First-order rule of `scatter_p` -/

namespace Folx

open Folx.Interp (Err)

variable {P₀ Q F : Type} [CommRing F]

/-! ### the segment branch -/

/-- No input index occurs twice among the stored entries of the updates written to one element. -/
def Seg.NoRepeat [Fintype P₀] (g : Seg P₀ Q) (rows : List (Row P₀ F)) : Prop :=
  ∀ s i : ℕ, segCount g rows s i ≤ 1

theorem segCount_pos [Fintype P₀] (g : Seg P₀ Q) (rows : List (Row P₀ F)) (u : P₀) (r : Row P₀ F) (hr : r ∈ rows)
    (i : ℕ) (hi : r.idx u = (i : ℤ)) : 0 < segCount g rows (g.ids u) i := by
  unfold segCount
  apply Finset.sum_pos'
  · intros; positivity
  · refine ⟨u, Finset.mem_univ _, ?_⟩
    rw [if_pos rfl]
    apply List.length_pos_of_mem (a := r)
    rw [List.mem_filter]
    exact ⟨hr, by simpa using hi⟩

theorem mem_segCol [Fintype P₀] {g : Seg P₀ Q} {rows : List (Row P₀ F)} (h : g.NoRepeat rows) (n s : ℕ) (z : ℤ) :
    z ∈ segCol g rows n s ↔ ∃ i : ℕ, i < n ∧ 0 < segCount g rows s i ∧ z = (i : ℤ) := by
  unfold segCol
  rw [Finset.mem_image]
  constructor
  · rintro ⟨i, hi, rfl⟩
    rw [Finset.mem_filter, Finset.mem_range] at hi
    refine ⟨i, hi.1, hi.2, ?_⟩
    have : segCount g rows s i = 1 := by have := h s i; omega
    rw [this, one_mul]
  · rintro ⟨i, h1, h2, rfl⟩
    refine ⟨i, by rw [Finset.mem_filter, Finset.mem_range]; exact ⟨h1, h2⟩, ?_⟩
    have : segCount g rows s i = 1 := by have := h s i; omega
    rw [this, one_mul]

theorem Seg.lt_numSegments [Fintype P₀] (g : Seg P₀ Q) (u : P₀) : (g.ids u : ℕ) < g.numSegments :=
  Nat.lt_of_succ_le (Finset.le_sup (f := fun u => (g.ids u : ℕ) + 1) (Finset.mem_univ u))

theorem segCol_card_le [Fintype P₀] (g : Seg P₀ Q) (rows : List (Row P₀ F)) (n : ℕ) (u : P₀) :
    (segCol g rows n (g.ids u)).card ≤ segMaxOut g rows n := by
  refine Finset.card_image_le.trans ?_
  exact Finset.le_sup (f := fun s => ((Finset.range n).filter fun i => 0 < segCount g rows s i).card)
    (Finset.mem_range.mpr (g.lt_numSegments u))

theorem sparseSegment_spec [Fintype P₀] [DecidableEq P₀] [Fintype Q] (n : ℕ) (hn : 0 < n)
    (I : Inst 1 (fun _ => P₀) Q F) (g : Seg P₀ Q) (T : ℕ) (arg : Trip P₀ F)
    (hloc : ∀ t q, (∀ u, g.ids u = g.pos q → t u = 0) → I.jvp (fun _ => arg.x) (fun _ => t) q = 0)
    (hlocE : I.elem = true → ∀ a e, I.same a = some e → ∀ t q, t (e q) = 0 →
      I.jvp (fun _ => arg.x) (Pi.single a t) q = 0)
    (hrep : g.NoRepeat arg.jac.srows)
    (hwf : arg.jac.Wf n) (o : JvpOut Q F) (h : sparseSegment I g T arg = .ok o) :
    JvpSpec n I (fun _ => arg) o := by
  have hw := srows_wf _ hwf
  have hden : ∀ (i : ℕ) p, (arg.jac.srows.map fun row => if row.idx p = (i : ℤ) then row.val p else 0).sum
      = arg.jac.den i p := fun i p => srows_den arg.jac i p
  unfold sparseSegment at h
  simp only at h
  set rows := arg.jac.srows with hrows
  split at h
  · simp at h
  rename_i m hm
  split at h
  · simp at h
  split at h
  · exact denseJvp_spec n hn I (fun _ => arg) hlocE (fun _ => hwf) o h
  split at h
  · simp at h
  rename_i ids hids
  have hmn : (m + 1).toNat ≤ n := by
    have := Jac.maxN_lt rows n (fun r hr p => (hw r hr p).1)
    have : m < n := this m hm
    omega
  set N' := (m + 1).toNat with hN'
  set M := segMaxOut g rows N' with hM
  set tan := Jac.materializeForIdx rows ids M with htan
  unfold Jac.getIndexMask at hids
  split at hids
  · simp at hids
  simp only [Except.ok.injEq] at hids
  -- the materialised tangents
  set L : ℕ → List ℤ := fun s => (segCol g rows N' s).sort (· ≤ ·) with hL
  set outs : P₀ → List ℤ := fun u => (List.range M).map fun j => segMask g rows N' j (g.ids u) with houts
  have htanj : ∀ j u, j < M → tan.getD j (fun _ => 0) u =
      (rows.map fun row => if row.idx u ∈ outs u ∧ (outs u).idxOf (row.idx u) = j then row.val u else 0).sum := by
    intro j u hj
    rw [htan]
    unfold Jac.materializeForIdx
    rw [segSum_getD, if_pos hj, ← hids, List.zip_map']
    simp only [List.map_map, Function.comp_def]
    apply list_sum_congr
    intro row _
    simp only [matchIdx_eq_iff]
    rfl
  have houtsEq : ∀ u, outs u = L (g.ids u) ++ List.replicate (M - (L (g.ids u)).length) (-1) := by
    intro u
    have hc : (L (g.ids u)).length ≤ M := by
      rw [hL]; simp only [Finset.length_sort]; exact segCol_card_le g rows N' u
    apply List.ext_getElem
    · simp [houts]; omega
    · intro s h1 h2
      simp only [houts, List.getElem_map, List.getElem_range]
      unfold segMask
      by_cases hlt : s < (L (g.ids u)).length
      · rw [List.getElem_append_left hlt, List.getD_eq_getElem _ _ hlt]
      · rw [List.getElem_append_right (by omega), List.getD_eq_default _ _ (by rw [hL] at hlt; simpa using hlt)]
        simp
  have hlocal_congr : ∀ t t' q, (∀ u, g.ids u = g.pos q → t u = t' u) →
      I.jvp (fun _ => arg.x) (fun _ => t) q = I.jvp (fun _ => arg.x) (fun _ => t') q := by
    intro t t' q hc
    have := hloc (t - t') q (fun u hu => by simp [hc u hu])
    have e : (fun _ : Fin 1 => t - t') = (fun _ => t) - (fun _ => t') := rfl
    rw [e, map_sub, Pi.sub_apply, sub_eq_zero] at this
    exact this
  -- both ways of assigning columns to output elements are faithful
  have main : ∀ cl : Q → ℕ, (∀ q u, g.ids u = g.pos q → ∀ j < M, segMask g rows N' j (cl q) = segMask g rows N' j (g.ids u)) →
      (∀ q, cl q < g.N ∨ cl q = 0) →
      JvpSpec n I (fun _ => arg)
        { y := I.fwd fun _ => arg.x
          jac := .sparse ((List.range M).map fun j =>
            ⟨fun q => segMask g rows N' j (cl q), I.jvp (fun _ => arg.x) fun _ => tan.getD j fun _ => 0⟩)
          lapl := I.jvp (fun _ => arg.x) fun _ => arg.lapl } := by
    intro cl hcl _
    refine ⟨rfl, ?_, rfl, ?_⟩
    · intro i q
      simp only [Jac.den, List.map_map, Function.comp_def]
      by_cases hex : ∃ u, g.ids u = g.pos q
      · obtain ⟨u₀, hu₀⟩ := hex
        have hmask : ∀ j < M, segMask g rows N' j (cl q) = (outs u₀).getD j (-1) := by
          intro j hj
          rw [hcl q u₀ hu₀ j hj, List.getD_eq_getElem _ _ (by simp [houts, hj])]
          simp [houts]
        have hlen : (outs u₀).length = M := by simp [houts]
        by_cases hi : (i : ℤ) ∈ L (g.ids u₀)
        · obtain ⟨s, hs, hsz⟩ := List.getElem_of_mem hi
          have hsM : s < M := lt_of_lt_of_le hs (by
            rw [hL]; simp only [Finset.length_sort]; exact segCol_card_le g rows N' u₀)
          have hnd : (L (g.ids u₀)).Nodup := Finset.sort_nodup _ _
          have hget : ∀ j, (outs u₀).getD j (-1) = (L (g.ids u₀)).getD j (-1) := by
            intro j
            rw [houtsEq u₀]
            by_cases hj : j < (L (g.ids u₀)).length
            · rw [List.getD_append _ _ _ _ hj]
            · rw [List.getD_append_right _ _ _ _ (by omega), List.getD_eq_default _ _ (not_lt.mp hj)]
              rw [List.getD_eq_getElem?_getD, List.getElem?_replicate]; split <;> rfl
          rw [list_range_sum_eq, Finset.sum_eq_single s]
          · rw [hmask s hsM, hget, List.getD_eq_getElem _ _ hs, if_pos hsz]
            apply hlocal_congr
            intro u hu
            have huu : g.ids u = g.ids u₀ := hu.trans hu₀.symm
            rw [htanj s u hsM, ← hden]
            apply list_sum_congr
            intro row hrow
            have ho : outs u = outs u₀ := by simp only [houts, huu]
            rw [ho]
            have hidx : (outs u₀).idxOf (i : ℤ) = s := by
              rw [houtsEq u₀, List.idxOf_append_of_mem hi, ← hsz]
              exact hnd.idxOf_getElem s hs
            have hmem : (i : ℤ) ∈ outs u₀ := by rw [houtsEq]; simp [hi]
            by_cases hri : row.idx u = (i : ℤ)
            · rw [if_pos hri, if_pos]
              rw [hri]; exact ⟨hmem, hidx⟩
            · rw [if_neg hri, if_neg]
              rintro ⟨hm1, hm2⟩
              apply hri
              rw [← hidx] at hm2
              exact (List.idxOf_inj hm1).mp hm2
          · intro j hj hne
            rw [Finset.mem_range] at hj
            rw [hmask j hj, hget, if_neg]
            intro he
            by_cases hjl : j < (L (g.ids u₀)).length
            · rw [List.getD_eq_getElem _ _ hjl, ← hsz] at he
              exact hne ((List.Nodup.getElem_inj_iff hnd).mp he)
            · rw [List.getD_eq_default _ _ (not_lt.mp hjl)] at he
              omega
          · intro hn'; exact absurd (Finset.mem_range.mpr hsM) hn'
        · rw [hloc]
          · apply list_sum_eq_zero
            intro j hj
            rw [List.mem_range] at hj
            rw [hmask j hj, if_neg]
            intro he
            rw [List.getD_eq_getElem _ _ (by omega)] at he
            have := List.getElem_mem (l := outs u₀) (n := j) (by omega)
            rw [he, houtsEq, List.mem_append, List.mem_replicate] at this
            rcases this with h1 | ⟨_, h1⟩
            · exact hi h1
            · omega
          · intro u hu
            rw [← hden]
            apply list_sum_eq_zero
            intro row hrow
            rw [if_neg]
            intro hri
            apply hi
            have huu : g.ids u = g.ids u₀ := hu.trans hu₀.symm
            rw [hL]
            simp only [Finset.mem_sort]
            rw [mem_segCol hrep]
            refine ⟨i, ?_, ?_, rfl⟩
            · have := Jac.le_maxN rows row hrow u
              rw [hm, hri] at this
              have : (i : ℤ) ≤ m := WithBot.coe_le_coe.mp this
              omega
            · rw [← huu]; exact segCount_pos g rows u row hrow i hri
      · rw [hloc _ q (fun u hu => absurd ⟨u, hu⟩ hex)]
        apply list_sum_eq_zero
        intro j _
        rw [hloc _ q (fun u hu => absurd ⟨u, hu⟩ hex)]
        simp
    · intro r hr q
      rw [List.mem_map] at hr
      obtain ⟨j, hj, rfl⟩ := hr
      rw [List.mem_range] at hj
      simp only
      unfold segMask
      by_cases hjl : j < ((segCol g rows N' (cl q)).sort (· ≤ ·)).length
      · rw [List.getD_eq_getElem _ _ hjl]
        have := List.getElem_mem hjl
        rw [Finset.mem_sort, mem_segCol hrep] at this
        obtain ⟨i, hi, _, he⟩ := this
        rw [he]
        exact ⟨by exact_mod_cast lt_of_lt_of_le hi hmn, fun h0 => by omega⟩
      · rw [List.getD_eq_default _ _ (not_lt.mp hjl)]
        refine ⟨by omega, fun _ => ⟨rfl, ?_⟩⟩
        apply hloc
        intro u hu
        rw [htanj j u hj]
        apply list_sum_eq_zero
        intro row hrow
        by_cases hc : row.idx u ∈ outs u ∧ (outs u).idxOf (row.idx u) = j
        · rw [if_pos hc]
          -- the entry of `outs u` at `j` is the padding
          have h1 : (outs u)[j]'(by simp [houts, hj]) = row.idx u := by
            have := List.getElem_idxOf (xs := outs u) (x := row.idx u) (List.idxOf_lt_length_of_mem hc.1)
            simpa [hc.2] using this
          have h2 : (outs u)[j]'(by simp [houts, hj]) = segMask g rows N' j (cl q) := by
            rw [hcl q u hu j hj]; simp [houts]
          have h3 : row.idx u = -1 := by
            rw [← h1, h2]; unfold segMask; rw [List.getD_eq_default _ _ (not_lt.mp hjl)]
          exact ((hw row hrow u).2 (by omega)).2
        · rw [if_neg hc]
  split at h
  · simp only [Except.ok.injEq] at h
    subst h
    exact main _ (fun q u hu j _ => by rw [hu]) (fun q => Or.inl (g.pos q).2)
  · split at h
    · rename_i hall
      simp only [Except.ok.injEq] at h
      subst h
      exact main _ (fun q u hu j hj => (hall _ (g.lt_numSegments u) j hj).symm) (fun _ => Or.inr rfl)
    · simp at h

/-! ### the whole rule -/

section Two
variable {P : Fin 2 → Type} [∀ a, Fintype (P a)] [∀ a, DecidableEq (P a)]

theorem oneByOne_two [Fintype Q] [DecidableEq Q] (I : Inst 2 P Q F) (T : ℕ) (args : (a : Fin 2) → Trip (P a) F)
    (o : JvpOut Q F) (h : oneByOne I T args = .ok o) :
    ∃ o₀ o₁ j, singleJvp (I.single (fun a => (args a).x) 0) T (args 0) = .ok o₀ ∧
      singleJvp (I.single (fun a => (args a).x) 1) T (args 1) = .ok o₁ ∧
      o₀.jac.add o₁.jac = .ok j ∧ o = ⟨o₀.y, j, fun q => o₀.lapl q + o₁.lapl q⟩ := by
  unfold oneByOne at h
  rw [List.ofFn_succ, List.ofFn_succ, List.ofFn_zero] at h
  have e : (0 : Fin 1).succ = (1 : Fin 2) := rfl
  rw [e] at h
  cases h0 : singleJvp (I.single (fun a => (args a).x) 0) T (args 0) with
  | error e => rw [h0] at h; simp [accumulate] at h
  | ok o₀ =>
    cases h1 : singleJvp (I.single (fun a => (args a).x) 1) T (args 1) with
    | error e => rw [h0, h1] at h; simp [accumulate] at h
    | ok o₁ =>
      rw [h0, h1] at h
      cases hj : o₀.jac.add o₁.jac with
      | error e => simp [accumulate, hj] at h
      | ok j =>
        simp only [accumulate, hj, Except.ok.injEq] at h
        exact ⟨o₀, o₁, j, rfl, rfl, hj, h.symm⟩

variable (c : Scatter (P 0) (P 1)) (π : (a : Fin 2) → P 0 → P a)

theorem scatter_single_zero (x t : (a : Fin 2) → P a → F) (q : P 0) :
    (scatterInst c π : HInst 2 P (P 0) F).jvp x (Pi.single 0 (t 0)) q =
      scatterSet c.hit (t 0) (fun _ => 0) q := by
  show scatterSet c.hit (Pi.single (M := fun a => P a → F) 0 (t 0) 0)
    (Pi.single (M := fun a => P a → F) 0 (t 0) 1) q = _
  rw [Pi.single_eq_same, Pi.single_eq_of_ne (by decide : (1 : Fin 2) ≠ 0)]
  rfl

theorem scatter_single_one (x t : (a : Fin 2) → P a → F) (q : P 0) :
    (scatterInst c π : HInst 2 P (P 0) F).jvp x (Pi.single 1 (t 1)) q =
      scatterSet c.hit (fun _ => 0) (t 1) q := by
  show scatterSet c.hit (Pi.single (M := fun a => P a → F) 1 (t 1) 0)
    (Pi.single (M := fun a => P a → F) 1 (t 1) 1) q = _
  rw [Pi.single_eq_same, Pi.single_eq_of_ne (by decide : (0 : Fin 2) ≠ 1)]
  rfl

/-- The operand part of the argument-by-argument path: exact, except that a sparse Jacobian of an array
with axes is returned unchanged. -/
theorem scatter_operand_part (hc : c.Ok) (n : ℕ) (hn : 0 < n) (T : ℕ) (x : (a : Fin 2) → P a → F) (arg : Trip (P 0) F)
    (harg : arg.x = x 0) (hwf : arg.jac.Wf n) (o : JvpOut (P 0) F)
    (h : singleJvp ((scatterInst c π : HInst 2 P (P 0) F).toInst.single x 0) T arg = .ok o) :
    o.y = scatterSet c.hit (x 0) (x 1) ∧ o.jac.Wf n ∧ (arg.jac.weak = false → o.jac.weak = false) ∧
      (if arg.jac.weak = true ∧ c.opScalar = none then
        (∀ i q, o.jac.den i q = arg.jac.den i q) ∧ ∀ q, o.lapl q = arg.lapl q
      else (∀ i q, o.jac.den i q = scatterSet c.hit (arg.jac.den i) (fun _ => 0) q) ∧
        ∀ q, o.lapl q = scatterSet c.hit arg.lapl (fun _ => 0) q) := by
  set I : Inst 2 P (P 0) F := (scatterInst c π : HInst 2 P (P 0) F).toInst with hI
  have hel : (I.single x 0).elem = false := rfl
  have fin : SingleSpec n I x 0 arg o → o.y = scatterSet c.hit (x 0) (x 1) ∧ o.jac.Wf n ∧
      ((∀ i q, o.jac.den i q = scatterSet c.hit (arg.jac.den i) (fun _ => 0) q) ∧
        ∀ q, o.lapl q = scatterSet c.hit arg.lapl (fun _ => 0) q) := by
    rintro ⟨h1, h2, h3, h4⟩
    refine ⟨h1, h4, fun i q => ?_, fun q => ?_⟩
    · rw [h2 i q]
      have := scatter_single_zero (F := F) c π x (Function.update x 0 (arg.jac.den i)) q
      rw [Function.update_self] at this; exact this
    · rw [h3]
      have := scatter_single_zero (F := F) c π x (Function.update x 0 arg.lapl) q
      rw [Function.update_self] at this; exact this
  unfold singleJvp at h
  split at h
  · rename_i hw
    unfold sparseSingle at h
    cases hs : c.opScalar with
    | some p =>
      have hax : (I.single x 0).ax 0 = .elem fun _ => p := by
        show rangeAxes c.opScalar = _
        rw [hs]; rfl
      rw [hax] at h
      simp only at h
      have hsp := sparseDiag_spec n { I.single x 0 with π := fun _ _ => p } (fun _ => arg)
        (by
          intro b t q ht
          show (I.single x 0).jvp (fun _ => arg.x) (Pi.single b t) q = 0
          rw [harg, Inst.single_jvp']
          have := scatter_single_zero (F := F) c π x (Function.update x 0 t) q
          rw [Function.update_self] at this
          refine this.trans ?_
          unfold scatterSet
          split
          · rfl
          · rw [hc.opScalar p hs q]; exact ht)
        (by
          intro b e _ q
          exact hc.opScalar p hs _)
        (fun _ => hwf) o h
      obtain ⟨a1, a2, a3⟩ := fin (SingleSpec.of n I x 0 arg harg o ⟨hsp.y, hsp.jac, hsp.lapl, hsp.wf⟩)
      refine ⟨a1, a2, fun h => by rw [hw] at h; simp at h, ?_⟩
      rw [if_neg (by simp)]
      exact a3
    | none =>
      have hax : (I.single x 0).ax 0 = rangeAxes none := by
        show rangeAxes c.opScalar = _
        rw [hs]
      rw [hax] at h
      simp only [rangeAxes] at h
      have hfl : (I.single x 0).flags.has Flags.SCATTER = true := by
        show scatterFlags.has Flags.SCATTER = true; decide
      rw [if_pos hfl] at h
      unfold sparseScatter at h
      have hro : (I.single x 0).role 0 = .operand := rfl
      have hlin : (I.single x 0).flags.has Flags.LINEAR = true := by
        show scatterFlags.has Flags.LINEAR = true; decide
      have hsa : (I.single x 0).same 0 = some (Equiv.refl _) := rfl
      rw [hro] at h
      simp only at h
      rw [if_pos hlin, hsa] at h
      simp only [Equiv.refl_apply, Except.ok.injEq] at h
      subst h
      refine ⟨?_, ?_, fun h => by rw [hw] at h; simp at h, ?_⟩
      · rw [harg]; exact Inst.single_fwd I x 0
      · have : (arg.jac.srows.map fun r => (⟨fun q => r.idx q, fun q => r.val q⟩ : Row (P 0) F)) = arg.jac.srows := by
          exact List.map_id _
        simp only [this]
        exact srows_wf _ hwf
      · rw [if_pos ⟨hw, rfl⟩]
        refine ⟨fun i q => ?_, fun q => rfl⟩
        have : (arg.jac.srows.map fun r => (⟨fun q => r.idx q, fun q => r.val q⟩ : Row (P 0) F)) = arg.jac.srows := by
          exact List.map_id _
        simp only [this]
        exact srows_den arg.jac i q
  · rename_i hw
    obtain ⟨rows, hr⟩ := denseJvp_dense (I.single x 0) (fun _ => arg) o h
    obtain ⟨a1, a2, a3⟩ := fin (SingleSpec.of n I x 0 arg harg o
      (denseJvp_spec n hn (I.single x 0) (fun _ => arg) (fun he => by rw [hel] at he; simp at he)
        (fun _ => hwf) o h))
    refine ⟨a1, a2, fun _ => by rw [hr]; rfl, ?_⟩
    rw [if_neg (fun hh => hw hh.1)]
    exact a3

/-- The updates part of the argument-by-argument path. -/
theorem scatter_updates_part (hc : c.Ok) (n : ℕ) (hn : 0 < n) (T : ℕ) (x : (a : Fin 2) → P a → F) (arg : Trip (P 1) F)
    (harg : arg.x = x 1) (hwf : arg.jac.Wf n)
    (hrep : arg.jac.weak = true → c.updScalar = none → ∀ g, c.seg = some g → g.NoRepeat arg.jac.srows)
    (o : JvpOut (P 0) F)
    (h : singleJvp ((scatterInst c π : HInst 2 P (P 0) F).toInst.single x 1) T arg = .ok o) :
    o.jac.Wf n ∧ (arg.jac.weak = false → o.jac.weak = false) ∧
      (∀ i q, o.jac.den i q = scatterSet c.hit (fun _ => 0) (arg.jac.den i) q) ∧
      ∀ q, o.lapl q = scatterSet c.hit (fun _ => 0) arg.lapl q := by
  set I : Inst 2 P (P 0) F := (scatterInst c π : HInst 2 P (P 0) F).toInst with hI
  have hel : (I.single x 1).elem = false := rfl
  have hjv : ∀ t q, I.jvp x (Pi.single 1 t) q = scatterSet c.hit (fun _ => 0) t q := by
    intro t q
    have := scatter_single_one (F := F) c π x (Function.update x 1 t) q
    rw [Function.update_self] at this; exact this
  have fin : SingleSpec n I x 1 arg o → o.jac.Wf n ∧
      (∀ i q, o.jac.den i q = scatterSet c.hit (fun _ => 0) (arg.jac.den i) q) ∧
        ∀ q, o.lapl q = scatterSet c.hit (fun _ => 0) arg.lapl q := by
    rintro ⟨h1, h2, h3, h4⟩
    exact ⟨h4, fun i q => by rw [h2 i q, hjv], fun q => by rw [h3, hjv]⟩
  have hnoE : (I.single x 1).elem = true → ∀ a e, (I.single x 1).same a = some e → ∀ t q, t (e q) = 0 →
      (I.single x 1).jvp (fun _ => arg.x) (Pi.single a t) q = 0 := fun he => by rw [hel] at he; simp at he
  unfold singleJvp at h
  split at h
  · rename_i hw
    have hwk : arg.jac.weak = false → o.jac.weak = false := fun h => by rw [hw] at h; simp at h
    suffices JvpSpec n (I.single x 1) (fun _ => arg) o by
      obtain ⟨a1, a2⟩ := fin (SingleSpec.of n I x 1 arg harg o this)
      exact ⟨a1, hwk, a2⟩
    unfold sparseSingle at h
    cases hs : c.updScalar with
    | some p =>
      have hax : (I.single x 1).ax 0 = .elem fun _ => p := by
        show rangeAxes c.updScalar = _
        rw [hs]; rfl
      rw [hax] at h
      simp only at h
      have hsp := sparseDiag_spec n { I.single x 1 with π := fun _ _ => p } (fun _ => arg)
        (by
          intro b t q ht
          show (I.single x 1).jvp (fun _ => arg.x) (Pi.single b t) q = 0
          rw [harg, Inst.single_jvp', hjv]
          unfold scatterSet
          split
          · rename_i u _; rw [hc.updScalar p hs u]; exact ht
          · rfl)
        (by
          intro b e _ q
          exact hc.updScalar p hs _)
        (fun _ => hwf) o h
      exact ⟨hsp.y, hsp.jac, hsp.lapl, hsp.wf⟩
    | none =>
      have hax : (I.single x 1).ax 0 = rangeAxes none := by
        show rangeAxes c.updScalar = _
        rw [hs]
      rw [hax] at h
      simp only [rangeAxes] at h
      have hfl : (I.single x 1).flags.has Flags.SCATTER = true := by
        show scatterFlags.has Flags.SCATTER = true; decide
      rw [if_pos hfl] at h
      unfold sparseScatter at h
      have hro : (I.single x 1).role 0 = .updates := rfl
      have hsg : (I.single x 1).seg 0 = c.seg := rfl
      rw [hro] at h
      simp only at h
      rw [hsg] at h
      cases hg : c.seg with
      | none =>
        rw [hg] at h
        exact denseJvp_spec n hn (I.single x 1) (fun _ => arg) hnoE (fun _ => hwf) o h
      | some g =>
        rw [hg] at h
        refine sparseSegment_spec n hn (I.single x 1) g T arg ?_ hnoE (hrep hw hs g hg) hwf o h
        intro t q ht
        rw [harg, Inst.single_jvp, hjv]
        unfold scatterSet
        split
        · rename_i u hu; exact ht u (hc.seg g hg q u hu)
        · rfl
  · rename_i hw
    obtain ⟨rows, hr⟩ := denseJvp_dense (I.single x 1) (fun _ => arg) o h
    obtain ⟨a1, a2⟩ := fin (SingleSpec.of n I x 1 arg harg o
      (denseJvp_spec n hn (I.single x 1) (fun _ => arg) hnoE (fun _ => hwf) o h))
    exact ⟨a1, fun _ => by rw [hr]; rfl, a2⟩

/-- What the rule returns for derivative-carrying operand and updates.  `leak q` is what is added to the
result at an overwritten element: the operand's derivatives, if the operand is sparse (and has axes) and the
updates are dense. -/
theorem scatter_rule (hc : c.Ok) (n : ℕ) (hn : 0 < n) (T : ℕ) (args : (a : Fin 2) → Trip (P a) F)
    (hwf : ∀ a, (args a).jac.Wf n)
    (hrep : (args 0).jac.weak = false → (args 1).jac.weak = true → c.updScalar = none →
      ∀ g, c.seg = some g → g.NoRepeat (args 1).jac.srows)
    (t : Trip (P 0) F) (h : (scatterInst c π : HInst 2 P (P 0) F).wrapped T args = .ok t) :
    t.x = scatterSet c.hit (args 0).x (args 1).x ∧ t.jac.Wf n ∧
    (if (args 0).jac.weak = true ∧ (args 1).jac.weak = false ∧ c.opScalar = none then
      (∀ i q, t.jac.den i q = (args 0).jac.den i q + scatterSet c.hit (fun _ => 0) ((args 1).jac.den i) q) ∧
      ∀ q, t.lapl q = (args 0).lapl q + scatterSet c.hit (fun _ => 0) (args 1).lapl q
    else
      (∀ i q, t.jac.den i q = scatterSet c.hit ((args 0).jac.den i) ((args 1).jac.den i) q) ∧
      ∀ q, t.lapl q = scatterSet c.hit (args 0).lapl (args 1).lapl q) := by
  set I : HInst 2 P (P 0) F := scatterInst c π with hI
  have hhess : I.hessianTransform T args = .ok fun _ => 0 := by
    unfold HInst.hessianTransform
    rw [if_pos (show I.flags.has Flags.LINEAR = true by show scatterFlags.has Flags.LINEAR = true; decide)]
  unfold HInst.wrapped at h
  split at h
  · simp at h
  rename_i o ho
  rw [hhess] at h
  simp only [add_zero, Except.ok.injEq] at h
  have hnoE : I.toInst.elem = true → ∀ a e, I.toInst.same a = some e → ∀ t q, t (e q) = 0 →
      I.toInst.jvp (fun a => (args a).x) (Pi.single a t) q = 0 := fun he => by
    have : I.toInst.elem = false := rfl
    rw [this] at he; simp at he
  have hix : I.flags.has Flags.INDEXING = true := by
    show scatterFlags.has Flags.INDEXING = true; decide
  have good : JvpSpec n I.toInst args o → t.x = scatterSet c.hit (args 0).x (args 1).x ∧ t.jac.Wf n ∧
      (∀ i q, t.jac.den i q = scatterSet c.hit ((args 0).jac.den i) ((args 1).jac.den i) q) ∧
      ∀ q, t.lapl q = scatterSet c.hit (args 0).lapl (args 1).lapl q := by
    rintro ⟨h1, h2, h3, h4⟩
    subst h
    exact ⟨h1, h4, h2, fun q => by simp only [h3]; rfl⟩
  unfold jvpRule at ho
  split at ho
  · rename_i hpar
    have hif : ¬ ((args 0).jac.weak = true ∧ (args 1).jac.weak = false ∧ c.opScalar = none) := by
      rintro ⟨w0, w1, -⟩
      rcases hpar with hp | ⟨hp, -⟩
      · simp only [anyWeak, decide_eq_false_iff_not, not_exists] at hp
        exact hp 0 w0
      · simp only [allWeak, decide_eq_true_eq] at hp
        rw [hp 1] at w1; simp at w1
    rw [if_neg hif]
    apply good
    unfold parallelJvp at ho
    split at ho
    · exact denseJvp_spec n hn I.toInst args hnoE hwf o ho
    · refine sparseIndex_spec n hn I.toInst args hnoE ?_ hwf o ho
      intro _ t q
      have e : I.src q = match c.hit q with
          | some u => some ⟨1, u⟩
          | none => some ⟨0, q⟩ := rfl
      rw [e]
      show scatterSet c.hit (t 0) (t 1) q = _
      unfold scatterSet
      cases c.hit q <;> rfl
  · rename_i hnp
    obtain ⟨o₀, o₁, j, h0, h1, hadd, rfl⟩ := oneByOne_two I.toInst T args o ho
    simp only [not_or, not_and] at hnp
    have hmixed : (args 0).jac.weak ≠ (args 1).jac.weak := by
      intro he
      rcases Bool.eq_false_or_eq_true (args 0).jac.weak with hw | hw
      · refine (hnp.2 ?_).1 hix
        simp only [allWeak, decide_eq_true_eq]
        intro a
        fin_cases a
        · exact hw
        · exact he ▸ hw
      · apply hnp.1
        simp only [anyWeak, decide_eq_false_iff_not, not_exists]
        intro a
        fin_cases a
        · show ¬ (args 0).jac.weak = true
          rw [hw]; simp
        · show ¬ (args 1).jac.weak = true
          rw [← he, hw]; simp
    obtain ⟨y0, wf0, wk0, d0⟩ := scatter_operand_part c π hc n hn T (fun a => (args a).x) (args 0) rfl (hwf 0) o₀ h0
    obtain ⟨wf1, wk1, d1, l1⟩ := scatter_updates_part c π hc n hn T (fun a => (args a).x) (args 1) rfl (hwf 1)
      (fun hw1 hs g hg => hrep (by
        rcases Bool.eq_false_or_eq_true (args 0).jac.weak with hw | hw
        · exact absurd (hw.trans hw1.symm) hmixed
        · exact hw) hw1 hs g hg) o₁ h1
    have hcompat : o₀.jac.Compat o₁.jac := by
      rcases Bool.eq_false_or_eq_true (args 0).jac.weak with hw | hw
      · refine Or.inr (Or.inl (wk1 ?_))
        rcases Bool.eq_false_or_eq_true (args 1).jac.weak with hw' | hw'
        · exact absurd (hw.trans hw'.symm) hmixed
        · exact hw'
      · exact Or.inl (wk0 hw)
    obtain ⟨hjd, hjw⟩ := Jac.add_compat n hn _ _ _ wf0 wf1 hcompat hadd
    subst h
    refine ⟨y0, hjw, ?_⟩
    have hcomb : ∀ (f : P 0 → F) (g : P 1 → F) q, scatterSet c.hit f (fun _ => 0) q +
        scatterSet c.hit (fun _ => 0) g q = scatterSet c.hit f g q := by
      intro f g q
      unfold scatterSet
      cases c.hit q <;> simp
    split
    · rename_i hcond
      rw [if_pos ⟨hcond.1, hcond.2.2⟩] at d0
      refine ⟨fun i q => ?_, fun q => ?_⟩
      · simp only []
        rw [hjd, d0.1, d1]
      · show o₀.lapl q + o₁.lapl q = _
        rw [d0.2, l1]
    · rename_i hcond
      rw [if_neg (by
        rintro ⟨hw, hs⟩
        apply hcond
        refine ⟨hw, ?_, hs⟩
        rcases Bool.eq_false_or_eq_true (args 1).jac.weak with hw' | hw'
        · exact absurd (hw.trans hw'.symm) hmixed
        · exact hw')] at d0
      refine ⟨fun i q => ?_, fun q => ?_⟩
      · simp only []
        rw [hjd, d0.1, d1, hcomb]
      · show o₀.lapl q + o₁.lapl q = _
        rw [d0.2, l1, hcomb]

end Two

/-! ### one derivative-carrying argument -/

/-- A single-argument indexing function whose indices cannot be evaluated on masks uses the dense rule. -/
theorem jvpRule_nonstatic [Fintype P₀] [DecidableEq P₀] [Fintype Q] [DecidableEq Q] (I : Inst 1 (fun _ => P₀) Q F)
    (hi : I.flags.has Flags.INDEXING = true) (hs : I.static = false) (T : ℕ) (arg : Fin 1 → Trip P₀ F) :
    jvpRule I T arg = denseJvp I arg := by
  have h1 : anyWeak arg = false ∨ (allWeak arg = true ∧
      (I.flags.has Flags.INDEXING = true ∨ I.elem = true ∨ 1 = 1)) := by
    rcases Bool.eq_false_or_eq_true (arg 0).jac.weak with hw | hw
    · right
      refine ⟨?_, Or.inl hi⟩
      simp only [allWeak, decide_eq_true_eq]
      intro a; rw [Subsingleton.elim a 0]; exact hw
    · left
      simp only [anyWeak, decide_eq_false_iff_not, not_exists]
      intro a; rw [Subsingleton.elim a 0, hw]; simp
  unfold jvpRule
  rw [if_pos h1]
  unfold parallelJvp
  split
  · rfl
  · unfold sparseIndex
    rw [hs]
    rfl

theorem wrapped_nonstatic [Fintype P₀] [DecidableEq P₀] [Fintype Q] [DecidableEq Q] (I : HInst 1 (fun _ => P₀) Q F)
    (hi : I.flags.has Flags.INDEXING = true) (hs : I.static = false) (he : I.elem = false)
    (n : ℕ) (hn : 0 < n) (T : ℕ) (arg : Fin 1 → Trip P₀ F) (hwf : ∀ a, (arg a).jac.Wf n) (t : Trip Q F)
    (h : I.wrapped T arg = .ok t) :
    t.x = I.fwd (fun a => (arg a).x) ∧ t.jac.Wf n ∧
      (∀ i q, t.jac.den i q = I.jvp (fun a => (arg a).x) (fun a => (arg a).jac.den i) q) ∧
      ∀ q, t.lapl q = I.jvp (fun a => (arg a).x) (fun a => (arg a).lapl) q := by
  have hl : I.flags.has Flags.LINEAR = true := by
    unfold Flags.has at hi ⊢
    simp only [beq_iff_eq] at hi ⊢
    have e : Flags.LINEAR = Flags.INDEXING &&& Flags.LINEAR := by decide
    rw [e, ← Nat.land_assoc, hi]
  unfold HInst.wrapped at h
  rw [jvpRule_nonstatic I.toInst hi hs] at h
  split at h
  · simp at h
  rename_i o ho
  have hh : I.hessianTransform T arg = .ok fun _ => 0 := by
    unfold HInst.hessianTransform; rw [if_pos hl]
  rw [hh] at h
  simp only [add_zero, Except.ok.injEq] at h
  obtain ⟨h1, h2, h3, h4⟩ := denseJvp_spec n hn I.toInst arg (fun hc => by rw [he] at hc; simp at hc) hwf o ho
  subst h
  exact ⟨h1, h4, h2, fun q => by simp only [h3]⟩

end Folx

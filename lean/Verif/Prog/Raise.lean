import Verif.Core.RaiseProofs
import Verif.Prog.Returns

/-!
# Calls that raise with sparse Jacobians
-/

namespace Folx

open Filter Topology Vmap Layout Dot
open Folx.Interp (Err)

variable {F : Type} [RCLike F]

attribute [local instance] instInhabitedScalar

/-- A call with derivative-carrying operands that returns has run the rule. -/
theorem WPrim.call_ok (p : WPrim F) (T : ℕ) (o : (i : Fin p.nIn) → Opd F (p.size i)) (h : 0 < (WPrim.laplIdx o).card)
    (r : Opd F p.out) (hr : p.call T o = .ok r) :
    ∃ t, (p.inst (WPrim.laplEmb o) fun i => (o i).x).wrapped T (fun a => (o (WPrim.laplEmb o a)).trip) = .ok t ∧ r = .lapl t := by
  unfold WPrim.call at hr
  rw [if_neg (Nat.pos_iff_ne_zero.mp h)] at hr
  split at hr
  · simp at hr
  · rename_i t ht
    exact ⟨t, ht, (Except.ok.inj hr).symm⟩

/-- **Exactly when** a call of a wrapped function with at most two derivative-carrying operands returns. -/
theorem Std.call_returns_iff (s : Std F) (hs : s.Sane) (T : ℕ) (o : (i : Fin s.nIn) → Opd F (s.size i))
    (h2 : (WPrim.laplIdx o).card ≤ 2) (ho : ∀ i, (o i).Ready) : (∃ r, s.toWPrim.call T o = .ok r) ↔ s.NoRaise T o := by
  refine ⟨?_, fun hn => ?_⟩
  · rintro ⟨r, hr⟩
    by_cases hex : ∃ i, (o i).isLapl = true
    · have hpos := card_pos_of_lapl o hex
      have ht := laplEmb_trip o
      have hxa : (fun a => (o (WPrim.laplEmb o a)).trip.x) = fun a => (o (WPrim.laplEmb o a)).x := by
        funext a
        exact Opd.trip_x _
      have hne : ∀ a, Nonempty (Fin (s.size (WPrim.laplEmb o a))) := fun a => ⟨⟨0, (ho _ _ (ht a)).1⟩⟩
      have hq : Nonempty (Fin s.out) := ⟨⟨0, hs.out⟩⟩
      have hcl : (WPrim.laplIdx o).card ≤ s.nIn := by
        have := Finset.card_le_univ (WPrim.laplIdx o)
        simpa using this
      have hfwd : ((s.inst (WPrim.laplEmb o) fun i => (o i).x).fwd fun a => (o (WPrim.laplEmb o a)).trip.x) =
          s.whole fun i => (o i).x := by
        rw [hxa]
        show s.whole (dext (WPrim.laplEmb o) (fun i => (o i).x) fun a => (o (WPrim.laplEmb o a)).x) = _
        rw [dext_self (WPrim.laplEmb o) fun i => (o i).x]
      obtain ⟨t, hwr, -⟩ := s.toWPrim.call_ok T o hpos r hr
      have hjr : ∃ c, jvpRule (P := fun a => Fin (s.size (WPrim.laplEmb o a)))
          (s.inst (WPrim.laplEmb o) fun i => (o i).x).toInst T (fun a => (o (WPrim.laplEmb o a)).trip) = .ok c := by
        obtain ⟨c, hc, -⟩ := HInst.wrapped_jac _ T _ t hwr
        exact ⟨c, hc⟩
      obtain ⟨e1, e2⟩ := (jvpRule_returns_iff (P := fun a => Fin (s.size (WPrim.laplEmb o a)))
        (s.inst (WPrim.laplEmb o) fun i => (o i).x).toInst T hpos h2 (fun a => (o (WPrim.laplEmb o a)).trip)
        ⟨hs.noScatter, fun h => by
            have := (hs.sum h).1
            omega, fun h a r hr q => by
            rw [hfwd, (hs.sum h).2 _ r hr]
            rw [Opd.trip_x]⟩
        rfl (fun a => (ho _ _ (ht a)).2)).mp hjr
      refine ⟨fun hred i r hr t hi => ?_, e2⟩
      obtain ⟨a, rfl⟩ := (WPrim.laplEmb_range o i).mpr (by rw [hi]; rfl)
      have := e1 hred a r hr
      rw [hi] at this
      exact this
    · have hcard := card_zero_of_plain o hex
      refine ⟨fun _ i r _ t hi => absurd ⟨i, by rw [hi]; rfl⟩ hex, fun ht => Or.inl fun a => ?_⟩
      exact absurd ⟨_, (WPrim.laplEmb_range o _).mp ⟨a, rfl⟩⟩ hex
  · obtain ⟨r, hr, -⟩ := s.call_returns hs T o ho hn
    exact ⟨r, hr⟩

/-- Element `p` does not depend on the input: the operand is an ordinary array, or sparse without an index stored for `p`. -/
def Opd.DeadAt {m : ℕ} (o : Opd F m) (p : Fin m) : Prop :=
  ∀ t, o = .lapl t → t.jac.weak = true ∧ ∀ r ∈ t.jac.srows, r.idx p = -1

theorem sparseIndex_dead {k : ℕ} {P : Fin k → Type} {Q : Type} [∀ a, Fintype (P a)] [∀ a, DecidableEq (P a)] [Fintype Q]
    (I : Inst k P Q F) (args : (a : Fin k) → Trip (P a) F) (hst : I.static = true) (o : JvpOut Q F)
    (h : sparseIndex I args = .ok o) : o.jac.weak = true ∧
      ∀ q, (∀ a p, I.src q = some ⟨a, p⟩ → ∀ r ∈ (args a).jac.srows, r.idx p = -1) → ∀ r ∈ o.jac.srows, r.idx q = -1 := by
  unfold sparseIndex at h
  rw [if_pos hst] at h
  split at h
  · simp at h
  · obtain rfl := Except.ok.inj h
    refine ⟨rfl, fun q hq r hr => ?_⟩
    obtain ⟨i, -, rfl⟩ := List.mem_map.mp hr
    show (match I.src q with
      | some ⟨a, p⟩ => ((args a).jac.srows.getD i ⟨fun _ => -1, fun _ => 0⟩).idx p
      | none => -1) = -1
    cases hs : I.src q with
    | none => rfl
    | some s =>
      show ((args s.1).jac.srows.getD i ⟨fun _ => -1, fun _ => 0⟩).idx s.2 = -1
      by_cases hi : i < (args s.1).jac.srows.length
      · rw [List.getD_eq_getElem _ _ hi]
        exact hq s.1 s.2 hs _ (List.getElem_mem hi)
      · rw [List.getD_eq_default _ _ (by omega)]

theorem sparseIndex_idx {k : ℕ} {P : Fin k → Type} {Q : Type} [∀ a, Fintype (P a)] [∀ a, DecidableEq (P a)] [Fintype Q]
    (I : Inst k P Q F) (args : (a : Fin k) → Trip (P a) F) (hst : I.static = true) (o : JvpOut Q F)
    (h : sparseIndex I args = .ok o) (a : Fin k) (hsub : ∀ b, b = a) (σ : Q → P a) (hsrc : ∀ q, I.src q = some ⟨a, σ q⟩) :
    o.jac.weak = true ∧ o.jac.srows.map Row.idx = (args a).jac.srows.map fun row q => row.idx (σ q) := by
  unfold sparseIndex at h
  rw [if_pos hst] at h
  split at h
  · simp at h
  · obtain rfl := Except.ok.inj h
    refine ⟨rfl, ?_⟩
    have hsup : (Finset.univ.sup fun b => (args b).jac.srows.length) = (args a).jac.srows.length := by
      apply le_antisymm
      · exact Finset.sup_le fun b _ => by rw [hsub b]
      · exact Finset.le_sup (f := fun b => (args b).jac.srows.length) (Finset.mem_univ a)
    show List.map Row.idx (List.map _ (List.range (Finset.univ.sup fun b => (args b).jac.srows.length))) = _
    simp only [hsup, hsrc, List.map_map]
    refine List.ext_getElem (by simp) fun m h1 h2 => ?_
    simp only [List.getElem_map, List.getElem_range, Function.comp]
    funext q
    rw [List.getD_eq_getElem]

theorem restrictSrc_some {m k : ℕ} {size : Fin m → ℕ} (e : Fin k ↪o Fin m) (z : Option (Σ i, Fin (size i)))
    {a : Fin k} {p : Fin (size (e a))} (h : Std.restrictSrc size e z = some ⟨a, p⟩) : z = some ⟨e a, p⟩ := by
  match z with
  | none => simp [Std.restrictSrc] at h
  | some ⟨i, p0⟩ =>
    have h : (open Classical in if h : ∃ a, e a = i then some (⟨h.choose, p0.cast (by rw [h.choose_spec])⟩ : Σ a, Fin (size (e a)))
      else none) = some ⟨a, p⟩ := h
    by_cases hexa : ∃ a', e a' = i
    · rw [dif_pos hexa] at h
      have h := Option.some.inj h
      have key : ∀ (c : Fin k) (hc : e c = i), (⟨c, p0.cast (by rw [hc])⟩ : Σ a, Fin (size (e a))) = ⟨a, p⟩ →
          (some ⟨i, p0⟩ : Option (Σ i, Fin (size i))) = some ⟨e a, p⟩ := by
        intro c hc hh
        subst hc
        cases hh
        rfl
      exact key _ hexa.choose_spec h
    · rw [dif_neg hexa] at h
      simp at h

/-- What an indexing operation on sparse operands copies from elements that do not depend on the input does not depend on it. -/
theorem Std.call_dead (s : Std F) (T : ℕ) (o : (i : Fin s.nIn) → Opd F (s.size i))
    (hi : s.flags.has Flags.INDEXING = true) (hst : s.static = true) (hw : ∀ i t, o i = .lapl t → t.jac.weak = true)
    (hex : ∃ i, (o i).isLapl = true) (r : Opd F s.out) (hr : s.toWPrim.call T o = .ok r) :
    r.isLapl = true ∧ r.isWeak = true ∧
      ∀ q, (∀ i p, s.src (fun i => (o i).x) q = some ⟨i, p⟩ → (o i).DeadAt p) → r.DeadAt q := by
  have hpos := card_pos_of_lapl o hex
  have ht := laplEmb_trip o
  obtain ⟨t, hwr, rfl⟩ := s.toWPrim.call_ok T o hpos r hr
  obtain ⟨c, hc, hj⟩ := HInst.wrapped_jac _ T _ t hwr
  have hall : allWeak (fun a => (o (WPrim.laplEmb o a)).trip) = true := decide_eq_true fun a => hw _ _ (ht a)
  have hc : jvpRule (P := fun a => Fin (s.size (WPrim.laplEmb o a)))
    (s.inst (WPrim.laplEmb o) fun i => (o i).x).toInst T (fun a => (o (WPrim.laplEmb o a)).trip) = .ok c := hc
  have hi' : (s.inst (WPrim.laplEmb o) fun i => (o i).x).toInst.flags.has Flags.INDEXING = true := hi
  unfold jvpRule at hc
  rw [if_pos (Or.inr ⟨hall, Or.inl hi'⟩)] at hc
  unfold parallelJvp at hc
  rw [if_neg (by rw [hall]; simp), if_pos hi'] at hc
  obtain ⟨h1, h2⟩ := sparseIndex_dead _ _ (show s.static = true from hst) _ hc
  rw [← hj] at h1 h2
  refine ⟨rfl, h1, fun q hq t' e => ?_⟩
  obtain rfl := Opd.lapl.inj e
  refine ⟨h1, h2 q fun a p hsrc => ?_⟩
  have hsrc : Std.restrictSrc s.size (WPrim.laplEmb o) (s.src (fun i => (o i).x) q) = some ⟨a, p⟩ := hsrc
  have hs := restrictSrc_some _ _ hsrc
  exact (hq _ p hs _ (ht a)).2

/-- A reduction (not a sum) of an array none of whose elements depends on the input raises. -/
theorem Std.call_raises (s : Std F) (hs : s.Sane) (h1 : s.nIn = 1) (T : ℕ) (o : (i : Fin s.nIn) → Opd F (s.size i))
    (ho : ∀ i, (o i).Ready) (hsum : s.flags.has Flags.SUMMATION = false) (hind : s.flags.has Flags.INDEXING = false)
    (hel : s.elem = false) (i : Fin s.nIn) (r : Red (Fin (s.size i)) (Fin s.out)) (hax : s.ax i = .red r)
    (hl : (o i).isLapl = true) (hd : ∀ p, (o i).DeadAt p) : ∃ e, s.toWPrim.call T o = .error e := by
  cases hc : s.toWPrim.call T o with
  | error e => exact ⟨e, rfl⟩
  | ok v =>
    exfalso
    have hn := (s.call_returns_iff hs T o (by
      have := Finset.card_le_univ (WPrim.laplIdx o)
      rw [Fintype.card_fin] at this
      omega) ho).mp ⟨v, hc⟩
    cases hoi : o i with
    | plain a => rw [hoi] at hl; simp [Opd.isLapl] at hl
    | lapl t =>
      have hlive := hn.1 ⟨hsum, Or.inr ⟨hind, hel⟩⟩ i r hax t hoi
      have hpos := (ho i t hoi).1
      have hw := (hd ⟨0, hpos⟩ t hoi).1
      obtain ⟨p, row, hr, hne⟩ := hlive.srows hw
      exact hne ((hd p t hoi).2 row hr)

/-- Two sparse operands of a function that is neither elementwise nor an indexing operation, reduced to different numbers of
rows below the threshold (neither of which is one), raise. -/
theorem Std.call_clash (s : Std F) (hs : s.Sane) (T : ℕ) (o : (i : Fin s.nIn) → Opd F (s.size i))
    (h2 : (WPrim.laplIdx o).card ≤ 2) (ho : ∀ i, (o i).Ready)
    (hind : s.flags.has Flags.INDEXING = false) (hel : s.elem = false) (i j : Fin s.nIn) (hij : i ≠ j)
    (ti : Trip (Fin (s.size i)) F) (tj : Trip (Fin (s.size j)) F) (hi : o i = .lapl ti) (hj : o j = .lapl tj)
    (wi : ti.jac.weak = true) (wj : tj.jac.weak = true)
    (ri : Red (Fin (s.size i)) (Fin s.out)) (rj : Red (Fin (s.size j)) (Fin s.out)) (ai : s.ax i = .red ri) (aj : s.ax j = .red rj)
    (li : ri.deps ti.jac.srows ≤ T) (lj : rj.deps tj.jac.srows ≤ T) (hne : ri.deps ti.jac.srows ≠ rj.deps tj.jac.srows)
    (h1i : ri.deps ti.jac.srows ≠ 1) (h1j : rj.deps tj.jac.srows ≠ 1) : ∃ e, s.toWPrim.call T o = .error e := by
  cases hc : s.toWPrim.call T o with
  | error e => exact ⟨e, rfl⟩
  | ok v =>
    exfalso
    have hn := ((s.call_returns_iff hs T o h2 ho).mp ⟨v, hc⟩).2
    obtain ⟨a, rfl⟩ := (WPrim.laplEmb_range o i).mpr (by rw [hi]; rfl)
    obtain ⟨b, rfl⟩ := (WPrim.laplEmb_range o j).mpr (by rw [hj]; rfl)
    have hab : a ≠ b := fun h => hij (by rw [h])
    have hti : (o (WPrim.laplEmb o a)).trip = ti := by rw [hi]; rfl
    have htj : (o (WPrim.laplEmb o b)).trip = tj := by rw [hj]; rfl
    have hk : (WPrim.laplIdx o).card ≠ 1 := by
      intro h1
      exact hab (Fin.ext (by have := a.isLt; have := b.isLt; omega))
    have ht : takesOneByOne (s.inst (WPrim.laplEmb o) fun i => (o i).x).toInst (fun a => (o (WPrim.laplEmb o a)).trip) := by
      rintro (h | ⟨-, h | h | h⟩)
      · have : anyWeak (fun a => (o (WPrim.laplEmb o a)).trip) = true := decide_eq_true ⟨a, by
          show (o (WPrim.laplEmb o a)).trip.jac.weak = true
          rw [hti]; exact wi⟩
        rw [this] at h
        simp at h
      · exact absurd (hind.symm.trans h) (by simp)
      · exact absurd (hel.symm.trans h) (by simp)
      · exact hk h
    have hsolo : ∀ (a : Fin (WPrim.laplIdx o).card) (t : Trip (Fin (s.size (WPrim.laplEmb o a))) F)
        (r : Red (Fin (s.size (WPrim.laplEmb o a))) (Fin s.out)), (o (WPrim.laplEmb o a)).trip = t → t.jac.weak = true →
        s.ax (WPrim.laplEmb o a) = .red r → r.deps t.jac.srows ≤ T →
        (s.inst (WPrim.laplEmb o) fun i => (o i).x).toInst.soloRows T (fun a => (o (WPrim.laplEmb o a)).trip) a =
          some (r.deps t.jac.srows) := by
      intro a t r e1 e2 e3 e4
      subst e1
      unfold Inst.soloRows
      rw [if_pos e2]
      have hax : (s.inst (WPrim.laplEmb o) fun i => (o i).x).toInst.ax a = .red r := e3
      rw [hax]
      exact if_neg (Nat.not_lt.mpr e4)
    have sa := hsolo a ti ri hti wi ai li
    have sb := hsolo b tj rj htj wj aj lj
    rcases hn ht with h | ⟨-, h⟩
    · exact hab (h a b (by rw [sa]; simp) (by rw [sb]; simp))
    · rcases h a b _ _ sa sb with h | h | h
      · exact hne h
      · exact h1i h
      · exact h1j h

/-- The masks of the result of an indexing operation on one sparse operand. -/
theorem Std.call_index_idx (s : Std F) (T : ℕ) (o : (i : Fin s.nIn) → Opd F (s.size i)) (h1 : s.nIn = 1)
    (hi : s.flags.has Flags.INDEXING = true) (hst : s.static = true) (i : Fin s.nIn) (t : Trip (Fin (s.size i)) F)
    (ht : o i = .lapl t) (hw : t.jac.weak = true) (σ : Fin s.out → Fin (s.size i))
    (hσ : ∀ q, s.src (fun i => (o i).x) q = some ⟨i, σ q⟩) (r : Opd F s.out) (hr : s.toWPrim.call T o = .ok r) :
    ∃ t', r = .lapl t' ∧ t'.jac.weak = true ∧ t'.jac.srows.map Row.idx = t.jac.srows.map fun row q => row.idx (σ q) := by
  have hpos := card_pos_of_lapl o ⟨i, by rw [ht]; rfl⟩
  obtain ⟨t', hwr, rfl⟩ := s.toWPrim.call_ok T o hpos r hr
  refine ⟨t', rfl, ?_⟩
  obtain ⟨a, rfl⟩ := (WPrim.laplEmb_range o i).mpr (by rw [ht]; rfl)
  have hsub : ∀ b : Fin (WPrim.laplIdx o).card, b = a := fun b =>
    (WPrim.laplEmb o).injective (Fin.ext (by have := (WPrim.laplEmb o b).isLt; have := (WPrim.laplEmb o a).isLt; omega))
  have hta : (o (WPrim.laplEmb o a)).trip = t := by rw [ht]; rfl
  obtain ⟨c, hc, hj⟩ := HInst.wrapped_jac _ T _ t' hwr
  have hall : allWeak (fun a => (o (WPrim.laplEmb o a)).trip) = true := decide_eq_true fun b => by
    rw [hsub b]
    show (o (WPrim.laplEmb o a)).trip.jac.weak = true
    rw [hta]; exact hw
  have hc : jvpRule (P := fun a => Fin (s.size (WPrim.laplEmb o a)))
    (s.inst (WPrim.laplEmb o) fun i => (o i).x).toInst T (fun a => (o (WPrim.laplEmb o a)).trip) = .ok c := hc
  have hi' : (s.inst (WPrim.laplEmb o) fun i => (o i).x).toInst.flags.has Flags.INDEXING = true := hi
  have hst' : (s.inst (WPrim.laplEmb o) fun i => (o i).x).toInst.static = true := hst
  unfold jvpRule at hc
  rw [if_pos (Or.inr ⟨hall, Or.inl hi'⟩)] at hc
  unfold parallelJvp at hc
  rw [if_neg (by rw [hall]; simp), if_pos hi'] at hc
  have hsrc : ∀ q, (s.inst (WPrim.laplEmb o) fun i => (o i).x).toInst.src q = some ⟨a, σ q⟩ := by
    intro q
    have hexa : ∃ b, WPrim.laplEmb o b = WPrim.laplEmb o a := ⟨a, rfl⟩
    show Std.restrictSrc s.size (WPrim.laplEmb o) (s.src (fun i => (o i).x) q) = _
    rw [hσ q]
    have h : Std.restrictSrc s.size (WPrim.laplEmb o) (some ⟨WPrim.laplEmb o a, σ q⟩) =
      some ⟨hexa.choose, (σ q).cast (by rw [hexa.choose_spec])⟩ := dif_pos hexa
    rw [h]
    have key : ∀ b (hb : WPrim.laplEmb o b = WPrim.laplEmb o a), b = a →
        (some ⟨b, (σ q).cast (by rw [hb])⟩ : Option (Σ a, Fin (s.size (WPrim.laplEmb o a)))) = some ⟨a, σ q⟩ := by
      intro b hb e
      subst e
      rfl
    exact key _ hexa.choose_spec (hsub _)
  have := sparseIndex_idx _ _ hst' c hc a hsub σ hsrc
  rw [hj]
  refine ⟨this.1, this.2.trans ?_⟩
  show (o (WPrim.laplEmb o a)).trip.jac.srows.map _ = _
  rw [hta]

end Folx

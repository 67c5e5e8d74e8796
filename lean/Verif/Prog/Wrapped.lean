import Verif.Prog.Rep

/-! # Wrapped functions are sound rules -/

namespace Folx

open Filter Topology
open Folx.Interp (Err)

section
variable {k : ℕ} {P : Fin k → Type} {Q F : Type} [RCLike F] [∀ a, Fintype (P a)] [Fintype Q]

/-- The derivative tables a wrapped function works with (`jax.jvp`, nested `jax.jvp`/`jacfwd`/`jacrev` on the
slices) are the true first and second derivative of the function at `x`, which is twice differentiable
there. -/
def HInst.SmoothAt (I : HInst k P Q F) (x : (a : Fin k) → P a → F) : Prop :=
  ∃ D H, HasFDeriv2At I.fwd D H x ∧ (∀ t, D t = I.jvp x t) ∧
    ∀ s t q, H s t q = I.hess (I.out q).1 (I.sliceX x (I.out q).1) (I.sliceX s (I.out q).1)
      (I.sliceX t (I.out q).1) (I.out q).2

end

section
variable {X : Type} [NormedAddCommGroup X] [NormedSpace ℝ X] {F : Type} [RCLike F]
  {k : ℕ} {size : Fin k → ℕ} {out : ℕ}

/-- A result that satisfies the algebraic specification of a wrapped function represents the composition. -/
theorem tripRep_of_wrapSpec (B : Base X) (I : HInst k (fun a => Fin (size a)) (Fin out) F)
    (args : (a : Fin k) → Trip (Fin (size a)) F) (u : (a : Fin k) → X → Fin (size a) → F)
    (hrep : ∀ a, TripRep B (args a) (u a)) (hI : I.SmoothAt fun a => (args a).x)
    (t : Trip (Fin out) F) (ht : WrapSpec B.n I args t) :
    TripRep B t fun y => I.fwd fun a => u a y := by
  have hx : (fun a => (args a).x) = fun a => u a B.x0 := funext fun a => (hrep a).x
  obtain ⟨hx', hjac, hlapl, hwf⟩ := ht
  refine ⟨by rw [hx', hx], hwf, ?_⟩
  obtain ⟨DI, HI, h1, h2, h3⟩ := hI
  rw [hx] at h1 h2 h3 hjac hlapl
  have hd := fun a => (hrep a).deriv
  choose D H d1 d2 d3 using hd
  obtain ⟨HH, p1, p2⟩ := HasFDeriv2At.pi d1
  obtain ⟨H2, c1, c2⟩ := HasFDeriv2At.comp (g := fun y a => u a y) h1 p1
  refine ⟨_, H2, c1, ?_, ?_⟩
  · intro i
    funext q
    rw [hjac]
    show _ = DI (ContinuousLinearMap.pi D (B.dir i)) q
    rw [h2]
    have : (fun a => (args a).jac.den i) = ContinuousLinearMap.pi D (B.dir i) := funext fun a => d2 a i
    rw [this]
  · funext q
    rw [hlapl, Finset.sum_range, Finset.sum_apply]
    simp_rw [c2, Pi.add_apply]
    rw [Finset.sum_add_distrib, add_comm]
    congr 1
    · apply Finset.sum_congr rfl
      intro i _
      rw [h3]
      have : I.sliceDen args (I.out q).1 i = I.sliceX (ContinuousLinearMap.pi D (B.dir i)) (I.out q).1 := by
        funext a c
        unfold HInst.sliceDen HInst.sliceX sliceArr
        rw [d2 a i]
        rfl
      rw [this]
    · rw [← Finset.sum_apply, ← map_sum, h2]
      have : (fun a => (args a).lapl) = ∑ i, HH (B.dir i) (B.dir i) := by
        funext a
        rw [d3 a, Finset.sum_apply]
        exact Finset.sum_congr rfl fun i _ => (p2 _ _ a).symm
      rw [this]

end

variable {F : Type} [RCLike F]

/-- What it means for a wrapped function to be modelled truthfully at operand values `x` with derivative-carrying
operands `e`: the instance computes `fwd` with the plain operands captured, it is twice differentiable with the
derivatives the rules use, and it is what its flags, axes and custom rule declare. -/
structure WPrim.Faithful (p : WPrim F) (n : ℕ) {k : ℕ} (e : Fin k ↪o Fin p.nIn)
    (x : (i : Fin p.nIn) → Fin (p.size i) → F) : Prop where
  fwd_eq : ∀ y : (i : Fin p.nIn) → Fin (p.size i) → F, (∀ i, i ∉ Set.range e → y i = x i) →
    (p.inst e x).fwd (fun a => y (e a)) = p.fwd y
  smooth : (p.inst e x).SmoothAt fun a => x (e a)
  lawful : (p.inst e x).toInst.Lawful fun a => x (e a)
  hlawful : (p.inst e x).HLawful n fun a => x (e a)
  bilinear : (p.inst e x).BilinearOk

/-- Static conditions under which the sparse rules avoid the known defects (C15, C17, C40): no scatter, indexing
operations evaluated at trace time, at most two sparse elementwise arguments unless all are sparse, and index
sets computed on non-empty slices. -/
structure HInst.SparseOk {k : ℕ} {P : Fin k → Type} {Q F : Type} [CommRing F] (I : HInst k P Q F) : Prop where
  idx : I.flags.has Flags.INDEXING = true → I.static = true
  few : k ≤ 2 ∨ ∀ a, ∃ r, I.ax a = .red r
  ax : k = 1 ∨ ∀ a π, I.ax a = .elem π → I.elem = true
  dim : ∀ a, 0 < I.dim a
  surj : ∀ a, Nonempty I.V → Function.Surjective (I.hκ a)
  jhj : I.flags.has Flags.SPARSE_JHJ = true → I.flags.has Flags.LINEAR_IN_ONE = true

/-- All Jacobians are dense, with one row per input: sparsity disabled. -/
def denseInv (n : ℕ) : ∀ m, Jac (Fin m) F → Prop := fun _ J => J.weak = false ∧ J.nrows = n

/-- Sparsity enabled: dense Jacobians that occur have at least `min T n` rows. -/
def bigInv (T n : ℕ) : ∀ m, Jac (Fin m) F → Prop := fun _ J => J.Big T n

section dense
variable {k : ℕ} {P : Fin k → Type} {Q : Type} [∀ a, Fintype (P a)] [∀ a, DecidableEq (P a)] [Fintype Q]
  [DecidableEq Q]

omit [RCLike F] in
theorem anyWeak_false [CommRing F] (args : (a : Fin k) → Trip (P a) F) (h : ∀ a, (args a).jac.weak = false) :
    anyWeak args = false := by
  unfold anyWeak
  simp [h]

omit [RCLike F] in
/-- With dense Jacobians the first-order rule never fails and keeps the number of rows. -/
theorem jvpRule_dense [CommRing F] (I : Inst k P Q F) (T n : ℕ) (hk : 0 < k) (args : (a : Fin k) → Trip (P a) F)
    (hd : ∀ a, (args a).jac.weak = false ∧ (args a).jac.nrows = n) :
    ∃ o, jvpRule I T args = .ok o ∧ o.jac.weak = false ∧ o.jac.nrows = n := by
  have hrow : ∀ a, ∃ rows, (args a).jac.denseArray = .ok rows ∧ rows.length = n := by
    intro a
    obtain ⟨h1, h2⟩ := hd a
    cases hj : (args a).jac with
    | dense r =>
      rw [hj] at h2
      exact ⟨r, rfl, h2⟩
    | sparse _ => rw [hj] at h1; simp [Jac.weak] at h1
  choose rows hrows hlen using hrow
  have hseq : (seqFin fun a => (args a).jac.denseArray) = .ok rows := seqFin_of_ok _ _ hrows
  have hmax : maxLen rows = n := by
    unfold maxLen
    simp only [hlen]
    exact Finset.sup_const ⟨⟨0, hk⟩, Finset.mem_univ _⟩ n
  unfold jvpRule
  rw [if_pos (Or.inl (anyWeak_false args fun a => (hd a).1))]
  unfold parallelJvp
  have : allWeak args = false := by
    unfold allWeak
    simp only [decide_eq_false_iff_not, not_forall]
    exact ⟨⟨0, hk⟩, by simp [hd]⟩
  rw [if_pos this]
  unfold denseJvp
  simp only [hseq]
  split
  · refine ⟨_, rfl, ?_⟩
    unfold denseElementwise
    split
    · exact ⟨rfl, by simp [denseSplit, Jac.nrows, hmax]⟩
    · exact ⟨rfl, by simp [Jac.nrows, hlen]⟩
  · split
    · exact ⟨_, rfl, rfl, by simp [denseJoint, Jac.nrows, hmax]⟩
    · exact ⟨_, rfl, rfl, by simp [denseSplit, Jac.nrows, hmax]⟩

end dense

section
variable {X : Type} [NormedAddCommGroup X] [NormedSpace ℝ X]

theorem WPrim.mem_laplIdx {m : ℕ} {size : Fin m → ℕ} (o : (i : Fin m) → Opd F (size i)) (i : Fin m) :
    i ∈ laplIdx o ↔ (o i).isLapl = true := by
  simp [laplIdx]

theorem WPrim.laplEmb_range {m : ℕ} {size : Fin m → ℕ} (o : (i : Fin m) → Opd F (size i)) (i : Fin m) :
    i ∈ Set.range (laplEmb o) ↔ (o i).isLapl = true := by
  unfold laplEmb
  rw [Finset.range_orderEmbOfFin, Finset.mem_coe, mem_laplIdx]

theorem opdRep_x (B : Base X) (inv : ∀ m, Jac (Fin m) F → Prop) {m : ℕ} (o : Opd F m) (u : X → Fin m → F)
    (h : OpdRep B inv o u) : o.x = u B.x0 := by
  cases o with
  | plain a => exact h.1
  | lapl t => exact h.1.x

theorem opdRep_plain (B : Base X) (inv : ∀ m, Jac (Fin m) F → Prop) {m : ℕ} (o : Opd F m) (u : X → Fin m → F)
    (h : OpdRep B inv o u) (hl : o.isLapl = false) : u =ᶠ[𝓝 B.x0] fun _ => u B.x0 := by
  cases o with
  | plain a => exact h.1 ▸ h.2
  | lapl t => simp [Opd.isLapl] at hl

theorem opdRep_lapl (B : Base X) (inv : ∀ m, Jac (Fin m) F → Prop) {m : ℕ} (o : Opd F m) (u : X → Fin m → F)
    (h : OpdRep B inv o u) (hl : o.isLapl = true) : TripRep B o.trip u ∧ inv m o.trip.jac := by
  cases o with
  | plain a => simp [Opd.isLapl] at hl
  | lapl t => exact h

/-- A wrapped function called with the operands `o`, none of the conditions of `wrapped_spec` being violated. -/
theorem WPrim.call_for (p : WPrim F) (inv : ∀ m, Jac (Fin m) F → Prop) (T : ℕ)
    (x : (i : Fin p.nIn) → Fin (p.size i) → F) (B : Base X) (hn : 0 < B.n)
    (hf : ∀ k (e : Fin k ↪o Fin p.nIn), 0 < k → p.Faithful B.n e x)
    (o : (i : Fin p.nIn) → Opd F (p.size i)) (u : (i : Fin p.nIn) → X → Fin (p.size i) → F)
    (r' : Opd F p.out) (hx : ∀ i, u i B.x0 = x i) (hrep : ∀ i, OpdRep B inv (o i) (u i))
    (hex : ∃ i, (o i).isLapl = true)
    (i1 : takesOneByOne (p.inst (laplEmb o) x).toInst (fun a => (o (laplEmb o a)).trip) →
      OneByOneOk (p.inst (laplEmb o) x).toInst (fun a => (o (laplEmb o a)).trip))
    (i2 : Nonempty (Fin p.out) → (p.inst (laplEmb o) x).MixOk T (fun a => (o (laplEmb o a)).trip))
    (i3 : ∀ c, jvpRule (p.inst (laplEmb o) x).toInst T (fun a => (o (laplEmb o a)).trip) = .ok c → inv _ c.jac)
    (hc : p.call T o = .ok r') : OpdRep B inv r' fun y => p.fwd fun i => u i y := by
    unfold WPrim.call at hc
    have hpos : 0 < (laplIdx o).card := by
      obtain ⟨i, hi⟩ := hex
      exact Finset.card_pos.mpr ⟨i, (mem_laplIdx o i).mpr hi⟩
    rw [if_neg (by omega)] at hc
    have hox : (fun i => (o i).x) = x := funext fun i => by rw [opdRep_x B inv _ _ (hrep i), hx]
    rw [hox] at hc
    set e := laplEmb o with he
    cases hw : (p.inst e x).wrapped T (fun a => (o (e a)).trip) with
    | error err => simp [hw] at hc
    | ok t =>
      simp only [hw, Except.ok.injEq] at hc
      subst hc
      have hl : ∀ a, (o (e a)).isLapl = true := fun a => (laplEmb_range o _).mp ⟨a, rfl⟩
      have hargs : ∀ a, TripRep B (o (e a)).trip (u (e a)) ∧ inv _ (o (e a)).trip.jac :=
        fun a => opdRep_lapl B inv _ _ (hrep _) (hl a)
      have hxe : (fun a => ((o (e a)).trip).x) = fun a => x (e a) := funext fun a => by
        rw [(hargs a).1.x, hx]
      have hF := hf _ e hpos
      have hspec := wrapped_spec B.n hn hpos (p.inst e x) T (fun a => (o (e a)).trip)
        (by rw [hxe]; exact hF.lawful) (by rw [hxe]; exact hF.hlawful) i1 hF.bilinear i2
        (fun a => (hargs a).1.wf) t hw
      have hrepT := tripRep_of_wrapSpec B (p.inst e x) (fun a => (o (e a)).trip) (fun a => u (e a))
        (fun a => (hargs a).1) (by rw [hxe]; exact hF.smooth) t hspec
      have hev : ∀ᶠ y in 𝓝 B.x0, ∀ i, i ∉ Set.range e → u i y = x i := by
        rw [eventually_all]
        intro i
        by_cases hi : i ∈ Set.range e
        · exact Eventually.of_forall fun y h => absurd hi h
        · have := opdRep_plain B inv (o i) (u i) (hrep i) (by
            rw [he, laplEmb_range] at hi; simpa using hi)
          filter_upwards [this] with y hy _
          rw [hy, hx]
      have heq : (fun y => p.fwd fun i => u i y) =ᶠ[𝓝 B.x0]
          fun y => (p.inst e x).fwd fun a => u (e a) y := by
        filter_upwards [hev] with y hy
        exact (hF.fwd_eq (fun i => u i y) hy).symm
      refine ⟨⟨?_, hrepT.wf, ?_⟩, ?_⟩
      · rw [hrepT.x]
        exact heq.self_of_nhds.symm
      · obtain ⟨D, H, h1, h2⟩ := hrepT.deriv
        exact ⟨D, H, h1.of_eventuallyEq heq, h2⟩
      · unfold HInst.wrapped at hw
        split at hw
        · simp at hw
        · rename_i o' ho'
          split at hw
          · simp at hw
          · simp only [Except.ok.injEq] at hw
            subst hw
            exact i3 o' ho'

/-- Common part of the two soundness theorems. -/
theorem WPrim.call_aux (p : WPrim F) (inv : ∀ m, Jac (Fin m) F → Prop) (T n : ℕ) (hn : 0 < n)
    (x : (i : Fin p.nIn) → Fin (p.size i) → F)
    (hf : ∀ k (e : Fin k ↪o Fin p.nIn), 0 < k → p.Faithful n e x)
    (hinv : ∀ k (e : Fin k ↪o Fin p.nIn), 0 < k → ∀ args : (a : Fin k) → Trip (Fin (p.size (e a))) F,
      (∀ a, (args a).jac.Wf n) → (∀ a, inv _ (args a).jac) →
      (takesOneByOne (p.inst e x).toInst args → OneByOneOk (p.inst e x).toInst args) ∧
      (Nonempty (Fin p.out) → (p.inst e x).MixOk T args) ∧
      ∀ o, jvpRule (p.inst e x).toInst T args = .ok o → inv _ o.jac) :
    ∀ (B : Base X) (o : (i : Fin p.nIn) → Opd F (p.size i)) (u : (i : Fin p.nIn) → X → Fin (p.size i) → F)
      (r' : Opd F p.out), B.n = n → (∀ i, u i B.x0 = x i) → (∀ i, OpdRep B inv (o i) (u i)) →
      (∃ i, (o i).isLapl = true) → p.call T o = .ok r' → OpdRep B inv r' fun y => p.fwd fun i => u i y := by
    intro B o u r' hB hx hrep hex hc
    subst hB
    have hpos : 0 < (laplIdx o).card := by
      obtain ⟨i, hi⟩ := hex
      exact Finset.card_pos.mpr ⟨i, (mem_laplIdx o i).mpr hi⟩
    have hl : ∀ a, (o (laplEmb o a)).isLapl = true := fun a => (laplEmb_range o _).mp ⟨a, rfl⟩
    have hargs : ∀ a, TripRep B (o (laplEmb o a)).trip (u (laplEmb o a)) ∧ inv _ (o (laplEmb o a)).trip.jac :=
      fun a => opdRep_lapl B inv _ _ (hrep _) (hl a)
    obtain ⟨i1, i2, i3⟩ := hinv _ (laplEmb o) hpos (fun a => (o (laplEmb o a)).trip) (fun a => (hargs a).1.wf)
      (fun a => (hargs a).2)
    exact p.call_for inv T x B hn hf o u r' hx hrep hex i1 i2 i3 hc

theorem WPrim.sound_aux (p : WPrim F) (inv : ∀ m, Jac (Fin m) F → Prop) (T n : ℕ) (hn : 0 < n)
    (x : (i : Fin p.nIn) → Fin (p.size i) → F)
    (hf : ∀ k (e : Fin k ↪o Fin p.nIn), 0 < k → p.Faithful n e x)
    (hinv : ∀ k (e : Fin k ↪o Fin p.nIn), 0 < k → ∀ args : (a : Fin k) → Trip (Fin (p.size (e a))) F,
      (∀ a, (args a).jac.Wf n) → (∀ a, inv _ (args a).jac) →
      (takesOneByOne (p.inst e x).toInst args → OneByOneOk (p.inst e x).toInst args) ∧
      (Nonempty (Fin p.out) → (p.inst e x).MixOk T args) ∧
      ∀ o, jvpRule (p.inst e x).toInst T args = .ok o → inv _ o.jac) :
    p.toPrim.SoundAt inv T n x := by
  intro X _ _ B o u r hB hx hrep hex hr j
  simp only [WPrim.toPrim] at hr
  cases hc : p.call T o with
  | error e => simp [hc] at hr
  | ok r' =>
    simp only [hc] at hr
    have hr' := Except.ok.inj hr
    subst hr'
    exact p.call_aux inv T n hn x hf hinv B o u r' hB hx hrep hex hc

omit [RCLike F] in
/-- With one derivative-carrying argument the one-by-one path is never taken. -/
theorem not_oneByOne_single [CommRing F] {k : ℕ} {P : Fin k → Type} {Q : Type} (I : Inst k P Q F) (hk : k = 1)
    (args : (a : Fin k) → Trip (P a) F) : ¬ takesOneByOne I args := by
  subst hk
  intro h
  apply h
  by_cases ha : anyWeak args = false
  · exact Or.inl ha
  · right
    refine ⟨?_, Or.inr (Or.inr rfl)⟩
    simp only [anyWeak, decide_eq_false_iff_not, not_not] at ha
    obtain ⟨a, ha⟩ := ha
    simp only [allWeak, decide_eq_true_eq]
    intro b
    rwa [Subsingleton.elim b a]

/-- With sparsity disabled every wrapped function is a sound rule. -/
theorem WPrim.sound_dense (p : WPrim F) (T n : ℕ) (hn : 0 < n) (x : (i : Fin p.nIn) → Fin (p.size i) → F)
    (hf : ∀ k (e : Fin k ↪o Fin p.nIn), 0 < k → p.Faithful n e x) :
    p.toPrim.SoundAt (denseInv n) T n x := by
  apply p.sound_aux (denseInv n) T n hn x hf
  intro k e hk args _ hd
  have hd' : ∀ a, (args a).jac.weak = false := fun a => (hd a).1
  refine ⟨fun h => absurd (Or.inl (anyWeak_false args hd')) h, fun _ => Or.inr (Or.inl (anyWeak_false args hd')),
    fun o ho => ?_⟩
  obtain ⟨o', h1, h2⟩ := jvpRule_dense (p.inst e x).toInst T n hk args hd
  obtain rfl : o' = o := Except.ok.inj (h1.symm.trans ho)
  exact h2

/-- With sparsity enabled every wrapped function that satisfies the static conditions is a sound rule. -/
theorem WPrim.sound_sparse (p : WPrim F) (T n : ℕ) (hn : 0 < n) (x : (i : Fin p.nIn) → Fin (p.size i) → F)
    (hf : ∀ k (e : Fin k ↪o Fin p.nIn), 0 < k → p.Faithful n e x)
    (hs : ∀ k (e : Fin k ↪o Fin p.nIn), 0 < k → (p.inst e x).SparseOk) :
    p.toPrim.SoundAt (bigInv T n) T n x := by
  apply p.sound_aux (bigInv T n) T n hn x hf
  intro k e hk args hwf hb
  have hS := hs k e hk
  refine ⟨fun h => ?_, fun hne => ?_,
    fun o ho => jvpRule_big _ T n hk args (hf k e hk).lawful.noScatter hS.idx hwf hb o ho⟩
  · rcases hS.ax with h1 | h1
    · exact absurd h (not_oneByOne_single _ h1 args)
    · exact oneByOneOk_of_static _ args hS.few h1 h
  have hV : Nonempty (p.inst e x).V := by
    obtain ⟨q⟩ := hne
    exact ⟨((p.inst e x).out q).1⟩
  exact HInst.mixOk_of_big _ T n args hV hS.dim (fun a => hS.surj a hV) hwf hb hS.jhj

end

end Folx

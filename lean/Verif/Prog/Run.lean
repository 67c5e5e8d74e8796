import Verif.Prog.Good

/-!
# Exactness under conditions on the forward-Laplacian run itself

With sparsity enabled the rules have known defects (C15, C17, C20, C31, C40).  Whether a call hits one depends on how
the Jacobians of its operands happen to be stored, not on the program text.  `GoodCall` says that a call, with the
operands it gets in the run, hits none.
-/

namespace Folx

open Filter Topology
open Folx.Interp

variable {F : Type} [RCLike F]

/-- The call of `p` with operands `o` is exact, and preserves the invariant `inv` of Jacobians. -/
def Prim.SoundForI (inv : ∀ m, Jac (Fin m) F → Prop) (p : Prim F) (T n : ℕ) (o : (i : Fin p.nIn) → Opd F (p.size i)) : Prop :=
  ∀ (X : Type) [NormedAddCommGroup X] [NormedSpace ℝ X] (B : Base X)
    (u : (i : Fin p.nIn) → X → Fin (p.size i) → F) (r : (j : Fin p.nOut) → Opd F (p.outSize j)),
    B.n = n → (∀ i, OpdRep B inv (o i) (u i)) → (∃ i, (o i).isLapl = true) →
    p.rule T o = .ok r → ∀ j, OpdRep B inv (r j) fun y => p.fwd (fun i => u i y) j

/-- The call of `p` with operands `o` is exact. -/
abbrev Prim.SoundFor (p : Prim F) (T n : ℕ) (o : (i : Fin p.nIn) → Opd F (p.size i)) : Prop :=
  p.SoundForI (fun _ _ => True) T n o

section
variable {X : Type} [NormedAddCommGroup X] [NormedSpace ℝ X]

theorem opdRep_weaken (B : Base X) (inv : ∀ m, Jac (Fin m) F → Prop) {m : ℕ} (o : Opd F m) (u : X → Fin m → F)
    (h : OpdRep B inv o u) : OpdRep B (fun _ _ => True) o u := by
  cases o with
  | plain a => exact h
  | lapl t => exact ⟨h.1, trivial⟩

theorem opdRep_strengthen (B : Base X) (inv : ∀ m, Jac (Fin m) F → Prop) {m : ℕ} (o : Opd F m) (u : X → Fin m → F)
    (h : OpdRep B (fun _ _ => True) o u) (hi : ∀ t, o = .lapl t → inv m t.jac) : OpdRep B inv o u := by
  cases o with
  | plain a => exact h
  | lapl t => exact ⟨h.1, hi t rfl⟩

end

theorem Prim.SoundAt.soundFor {p : Prim F} {inv : ∀ m, Jac (Fin m) F → Prop} {T n : ℕ}
    (o : (i : Fin p.nIn) → Opd F (p.size i)) (h : p.SoundAt inv T n fun i => (o i).x)
    (hi : ∀ i t, o i = .lapl t → inv _ t.jac) : p.SoundFor T n o := by
  intro X _ _ B u r hB hr hl hc j
  exact opdRep_weaken B inv _ _ (h X B o u r hB (fun i => (opdRep_x B _ _ _ (hr i)).symm)
    (fun i => opdRep_strengthen B inv _ _ (hr i) (hi i)) hl hc j)

/-- A wrapped function, called with operands whose derivative-carrying part is `args`, avoids the known defects:
* (C15) if the Jacobians are treated one by one, at most one of them is sparse, or the sparse ones all belong to
  operands that are reduced along axes;
* (C17) if sparse and dense Jacobians meet in the second-order term, no rows are missing (`MixOk`). -/
def HInst.NoDefect {k : ℕ} {P : Fin k → Type} {Q : Type} [∀ a, Fintype (P a)] (I : HInst k P Q F) (T : ℕ)
    (args : (a : Fin k) → Trip (P a) F) : Prop :=
  (takesOneByOne I.toInst args → OneByOneOk I.toInst args) ∧ (Nonempty Q → I.MixOk T args)

/-- The call of `p` with operands `o` hits none of the known defects, and `p` is twice differentiable there with true
declarations (`n` inputs, threshold `T`). -/
inductive GoodCall (T n : ℕ) : (p : Prim F) → ((i : Fin p.nIn) → Opd F (p.size i)) → Prop
  | wrapped (s : Std F) (o : (i : Fin s.nIn) → Opd F (s.size i)) (h : s.TrueAt n fun i => (o i).x)
      (hd : (s.inst (WPrim.laplEmb o) fun i => (o i).x).NoDefect T fun a => (o (WPrim.laplEmb o a)).trip) :
      GoodCall T n s.toWPrim.toPrim o
  | dropped (nIn : ℕ) (size : Fin nIn → ℕ) (nOut : ℕ) (outSize : Fin nOut → ℕ)
      (fwd : ((i : Fin nIn) → Fin (size i) → F) → (j : Fin nOut) → Fin (outSize j) → F)
      (o : (i : Fin nIn) → Opd F (size i)) (h : ∀ᶠ y in 𝓝 fun i => (o i).x, fwd y = fwd fun i => (o i).x) :
      GoodCall T n (dropPrim nIn size nOut outSize fwd) o
  | mapped (m : ℕ) (f : F →L[ℝ] F) (o : (i : Fin 1) → Opd F m) : GoodCall T n (mapPrim m f) o
  | dot (dd : Dot.DotDims) (ls rs : List ℕ) (o : (i : Fin 2) → Opd F (![ls.prod, rs.prod] i)) (h : dd.Ok ls rs)
      (hs : (∀ i t, o i = .lapl t → t.jac.weak = false ∧ t.jac.nrows = n) ∨
        (∀ i t, o i = .lapl t → t.jac.Big T n) ∧
        (Dot.interEqIn (Dot.leftShape dd ls rs) (Dot.rightShape dd ls rs) = true →
          Dot.noTranspose dd ls.length rs.length = true → Dot.SpecialOk dd ls.length rs.length)) :
      GoodCall T n (dotPrim dd ls rs) o
  | slogdet (fld : DetField F) (b m : ℕ) (hm : 0 < m) (o : (i : Fin 1) → Opd F (b * (m * m)))
      (h : ∀ q, (mats (o 0).x q).det ≠ 0) : GoodCall T n (slogdetPrim F fld.cplx b m hm) o
  | cabs (m : ℕ) (o : (i : Fin 1) → Opd F m) (h : ∀ q, (o 0).x q ≠ 0) (hr : ∀ t, o 0 = .lapl t → t.jac.NoRepeat) :
      GoodCall T n (cabsPrim F m) o
  | scatter {size : Fin 2 → ℕ} (c : Scatter (Fin (size 0)) (Fin (size 1))) (hc : c.Ok)
      (π : (a : Fin 2) → Fin (size 0) → Fin (size a)) (o : (i : Fin 2) → Opd F (size i))
      (hl : ∀ s t, o 0 = .lapl s → o 1 = .lapl t → s.jac.weak = true → t.jac.weak = false → c.opScalar ≠ none)
      (hr : ∀ s t, o 0 = .lapl s → o 1 = .lapl t → s.jac.weak = false → t.jac.weak = true → c.updScalar = none →
        ∀ g, c.seg = some g → g.NoRepeat t.jac.srows) :
      GoodCall T n (scatterPrim c π) o

theorem Std.soundFor (T n : ℕ) (hn : 0 < n) (s : Std F) (o : (i : Fin s.nIn) → Opd F (s.size i))
    (h : s.TrueAt n fun i => (o i).x)
    (hd : (s.inst (WPrim.laplEmb o) fun i => (o i).x).NoDefect T fun a => (o (WPrim.laplEmb o a)).trip) :
    s.toWPrim.toPrim.SoundFor T n o := by
  intro X _ _ B u r hB hr hl hc j
  subst hB
  simp only [WPrim.toPrim] at hc
  cases hc' : s.toWPrim.call T o with
  | error e => simp [hc'] at hc
  | ok r' =>
    simp only [hc'] at hc
    have hr' := Except.ok.inj hc
    subst hr'
    exact s.toWPrim.call_for (fun _ _ => True) T (fun i => (o i).x) B hn (fun _ e hk => Std.faithful h e hk) o u r'
      (fun i => (opdRep_x B _ _ _ (hr i)).symm) hr hl hd.1 hd.2 (fun _ _ => trivial) hc'

theorem cabs_soundFor (T n : ℕ) (hn : 0 < n) (m : ℕ) (o : (i : Fin 1) → Opd F m) (h : ∀ q, (o 0).x q ≠ 0)
    (hr : ∀ t, o 0 = .lapl t → t.jac.NoRepeat) : (cabsPrim F m).SoundFor T n o := by
  intro X _ _ B u r hB hrep hl hc j
  subst hB
  suffices hs : ∀ (o0 : Opd F m) (u0 : X → Fin m → F) (r : Fin 1 → Opd F m), (∀ q, o0.x q ≠ 0) →
      (∀ t, o0 = .lapl t → t.jac.NoRepeat) →
      OpdRep B (fun _ _ => True) o0 u0 → o0.isLapl = true → (cabsPrim F m).rule T (fun _ => o0) = .ok r →
      OpdRep B (fun _ _ => True) (r 0) fun y q => ((‖u0 y q‖ : ℝ) : F) by
    have : j = (0 : Fin 1) := Subsingleton.elim (α := Fin 1) _ _
    subst this
    refine hs (o (0 : Fin 1)) (u (0 : Fin 1)) r h hr (hrep (0 : Fin 1)) ?_ hc
    obtain ⟨i, hi⟩ := hl
    have : i = (0 : Fin 1) := Subsingleton.elim (α := Fin 1) _ _
    subst this
    exact hi
  clear hc hl hrep h hr
  intro o0 u0 r h0 hnr ho hl hr
  cases o0 with
  | plain a => simp [Opd.isLapl] at hl
  | lapl t =>
    obtain ⟨c, hc, hrepc⟩ := cabs_rep B hn m T t u0 ho.1 h0 (hnr t rfl) r hr
    rw [hc]
    exact ⟨hrepc, trivial⟩

theorem scatter_soundFor (T n : ℕ) (hn : 0 < n) {size : Fin 2 → ℕ} (c : Scatter (Fin (size 0)) (Fin (size 1)))
    (hc : c.Ok) (π : (a : Fin 2) → Fin (size 0) → Fin (size a)) (o : (i : Fin 2) → Opd F (size i))
    (hl : ∀ s t, o 0 = .lapl s → o 1 = .lapl t → s.jac.weak = true → t.jac.weak = false → c.opScalar ≠ none)
    (hrp : ∀ s t, o 0 = .lapl s → o 1 = .lapl t → s.jac.weak = false → t.jac.weak = true → c.updScalar = none →
        ∀ g, c.seg = some g → g.NoRepeat t.jac.srows) : (scatterPrim (F := F) c π).SoundFor T n o := by
  intro X _ _ B u r hB ho hex hr j
  subst hB
  suffices hs : ∀ (u : (i : Fin 2) → X → Fin (size i) → F)
      (r : Fin 1 → Opd F (size 0)), (∀ i, OpdRep B (fun _ _ => True) (o i) (u i)) → (∃ i, (o i).isLapl = true) →
      (scatterPrim (F := F) c π).rule T o = .ok r →
      OpdRep B (fun _ _ => True) (r 0) fun y => scatterSet c.hit (u 0 y) (u 1 y) by
    have : j = (0 : Fin 1) := Subsingleton.elim (α := Fin 1) _ _
    subst this
    exact hs u r ho hex hr
  clear hex hr ho r u
  intro u r ho hex hr
  have ho0 := ho 0
  have ho1 := ho 1
  simp only [scatterPrim] at hr
  split at hr
  · rename_i a b h0 h1
    obtain ⟨i, hi⟩ := hex
    exfalso
    fin_cases i
    · have hi : (o 0).isLapl = true := hi
      rw [h0] at hi; simp [Opd.isLapl] at hi
    · have hi : (o 1).isLapl = true := hi
      rw [h1] at hi; simp [Opd.isLapl] at hi
  · rename_i s b h0 h1
    rw [h0] at ho0
    rw [h1] at ho1
    obtain ⟨hr0, -⟩ := ho0
    cases hw : (scatterOperand c b).wrapped T (fun _ => s) with
    | error e => rw [hw] at hr; simp [Except.map] at hr
    | ok t =>
      rw [hw] at hr
      obtain rfl : (fun _ => Opd.lapl t) = r := Except.ok.inj hr
      obtain ⟨w1, w2, w3, w4⟩ := wrapped_nonstatic (scatterOperand c b) (show scatterFlags.has Flags.INDEXING = true by decide) rfl rfl B.n hn T (fun _ => s)
        (fun _ => hr0.wf) t hw
      refine ⟨scatterSet_rep B c.hit s _ (u 0) (u 1) hr0 (plain_rep B b (u 1) ho1.1 ho1.2) t w1 w2 (fun i q => ?_)
        (fun q => ?_), trivial⟩
      · rw [w3]
        show scatterSet c.hit (s.jac.den i) (fun _ => 0) q = _
        simp only [scatterSet, Jac.den]
        cases c.hit q <;> simp
      · rw [w4]; rfl
  · rename_i a s h0 h1
    rw [h0] at ho0
    rw [h1] at ho1
    obtain ⟨hr1, -⟩ := ho1
    cases hw : (scatterUpdates c a (π 1)).wrapped T (fun _ => s) with
    | error e => rw [hw] at hr; simp [Except.map] at hr
    | ok t =>
      rw [hw] at hr
      obtain rfl : (fun _ => Opd.lapl t) = r := Except.ok.inj hr
      obtain ⟨w1, w2, w3, w4⟩ := wrapped_nonstatic (scatterUpdates c a (π 1)) (show scatterFlags.has Flags.INDEXING = true by decide) rfl rfl B.n hn T (fun _ => s)
        (fun _ => hr1.wf) t hw
      refine ⟨scatterSet_rep B c.hit _ s (u 0) (u 1) (plain_rep B a (u 0) ho0.1 ho0.2) hr1 t w1 w2 (fun i q => ?_)
        (fun q => ?_), trivial⟩
      · rw [w3]
        show scatterSet c.hit (fun _ => 0) (s.jac.den i) q = _
        simp only [scatterSet, Jac.den]
        cases c.hit q <;> simp
      · rw [w4]; rfl
  · rename_i s0 s1 h0 h1
    have hl := hl s0 s1 h0 h1
    have hrp := hrp s0 s1 h0 h1
    rw [h0] at ho0
    rw [h1] at ho1
    obtain ⟨hr0, -⟩ := ho0
    obtain ⟨hr1, -⟩ := ho1
    cases hw : (scatterInst (F := F) (P := fun a => Fin (size a)) c π).wrapped T (fun a => (o a).trip) with
    | error e => rw [hw] at hr; simp [Except.map] at hr
    | ok t =>
      rw [hw] at hr
      obtain rfl : (fun _ => Opd.lapl t) = r := Except.ok.inj hr
      have hwf : ∀ a, (o a).trip.jac.Wf B.n := by
        intro a
        fin_cases a
        · show (o 0).trip.jac.Wf B.n; rw [h0]; exact hr0.wf
        · show (o 1).trip.jac.Wf B.n; rw [h1]; exact hr1.wf
      obtain ⟨w1, w2, w3⟩ := scatter_rule (P := fun a => Fin (size a)) c π hc B.n hn T (fun a => (o a).trip) hwf
        (by simp only [h0, h1, Opd.trip]; exact hrp) t hw
      simp only [h0, h1, Opd.trip] at w1 w3
      rw [if_neg (fun hh => hl hh.1 hh.2.1 hh.2.2)] at w3
      exact ⟨scatterSet_rep B c.hit s0 s1 (u 0) (u 1) hr0 hr1 t w1 w2 w3.1 w3.2, trivial⟩

/-- Calls that hit no known defect are exact. -/
theorem GoodCall.sound {T n : ℕ} (hn : 0 < n) (p : Prim F) (o : (i : Fin p.nIn) → Opd F (p.size i))
    (h : GoodCall T n p o) : p.SoundFor T n o := by
  induction h with
  | wrapped s o h hd => exact s.soundFor T n hn o h hd
  | dropped nIn size nOut outSize fwd o h =>
    exact Prim.SoundAt.soundFor (p := dropPrim nIn size nOut outSize fwd) (inv := fun _ _ => True) o
      (drop_sound (fun _ _ => True) T n _ h) fun _ _ _ => trivial
  | mapped m f o => exact (map_sound (fun _ _ => True) T n m f (fun _ _ => trivial) _).soundFor o fun _ _ _ => trivial
  | dot dd ls rs o h hs =>
    rcases hs with hs | ⟨hb, hs⟩
    · exact Prim.SoundAt.soundFor (p := dotPrim dd ls rs) (inv := denseInv n) o
        (dotPrim_sound_aux (stdSound_dense T n hn) h (Or.inl fun _ _ hJ => hJ.1) _) hs
    · exact Prim.SoundAt.soundFor (p := dotPrim dd ls rs) (inv := bigInv T n) o
        (dotPrim_sound_aux (stdSound_sparse T n hn) h (Or.inr hs) _) hb
  | slogdet fld b m hm o h => exact (slogdet_sound_any T n hn fld hm _ h).soundFor o fun _ _ _ => trivial
  | cabs m o h hr => exact cabs_soundFor T n hn m o h hr
  | scatter c hc π o hl hr => exact scatter_soundFor T n hn c hc π o hl hr

/-! ### Sufficient conditions -/

/-- No defect if every Jacobian is sparse and the function is elementwise, indexing, or has one such operand. -/
theorem HInst.noDefect_weak {k : ℕ} {P : Fin k → Type} {Q : Type} [∀ a, Fintype (P a)] (I : HInst k P Q F) (T : ℕ)
    (args : (a : Fin k) → Trip (P a) F) (hw : ∀ a, (args a).jac.weak = true)
    (h : I.flags.has Flags.INDEXING = true ∨ I.elem = true ∨ k = 1) : I.NoDefect T args := by
  have hall : allWeak args = true := by unfold allWeak; simpa using hw
  exact ⟨fun ht => absurd (Or.inr ⟨hall, h⟩) ht, fun _ => Or.inl hall⟩

/-- No defect if every Jacobian is dense. -/
theorem HInst.noDefect_dense {k : ℕ} {P : Fin k → Type} {Q : Type} [∀ a, Fintype (P a)] (I : HInst k P Q F) (T : ℕ)
    (args : (a : Fin k) → Trip (P a) F) (hw : ∀ a, (args a).jac.weak = false) : I.NoDefect T args := by
  have hany : anyWeak args = false := by unfold anyWeak; simp [hw]
  exact ⟨fun ht => absurd (Or.inl hany) ht, fun _ => Or.inr (Or.inl hany)⟩

/-- No defect under the static conditions if the dense Jacobians are long enough. -/
theorem HInst.noDefect_big {k : ℕ} {P : Fin k → Type} {Q : Type} [∀ a, Fintype (P a)] (I : HInst k P Q F) (T n : ℕ)
    (args : (a : Fin k) → Trip (P a) F) (hS : I.SparseOk) (hwf : ∀ a, (args a).jac.Wf n)
    (hb : ∀ a, (args a).jac.Big T n) : I.NoDefect T args := by
  refine ⟨fun h => ?_, fun hne => ?_⟩
  · rcases hS.ax with h1 | h1
    · exact absurd h (not_oneByOne_single _ h1 args)
    · exact oneByOneOk_of_static _ args hS.few h1 h
  · have hV : Nonempty I.V := by
      obtain ⟨q⟩ := hne
      exact ⟨(I.out q).1⟩
    exact HInst.mixOk_of_big _ T n args hV hS.dim (fun a => hS.surj a hV) hwf hb hS.jhj

/-! ### Programs -/

/-- Conditions along the forward-Laplacian run.  Equations without derivative-carrying operands are unconditional; a
primitive must be `good` at its operands; a jitted function whose name is registered must compute what the registered
function computes (else: C27); nested programs satisfy the conditions along their own run; the per-step outputs of scans
carry no derivatives (else: C29). -/
def DomR (reg : String → Option (Prim F)) (junk : List (PVal F) → PVal F) (T : ℕ)
    (good : (p : Prim F) → ((i : Fin p.nIn) → Opd F (p.size i)) → Prop) :
    (d : ℕ) → Op d F → List (PVal F) → Prop
  | 0, op, _ => nomatch op
  | d + 1, op, vals => (∃ v ∈ vals, v.2.isLapl = true) →
    match op with
    | .prim p => ∀ o, unpack (β := Opd F) p.size vals = .ok o → good p o
    | .pjit name j consts =>
      match reg name with
      | some p => (∀ o, unpack (β := Opd F) p.size vals = .ok o → good p o) ∧
        ∀ ys zs, p.bind ys = .ok zs → evalSpec (evPlain d) j consts ys = .ok zs
      | none => DomProg (evLapl reg junk T d) (DomR reg junk T good d) (j.map PVal.ofPlain)
          (consts.map PVal.ofPlain) vals
    | .scan s => (∀ v ∈ (vals.drop s.numConsts).drop s.numCarry, v.2.isLapl = false) →
        ScanDom (fun args => evalRC (evLapl reg junk T d) (s.body.map PVal.ofPlain) [] args)
          (fun args => DomProg (evLapl reg junk T d) (DomR reg junk T good d) (s.body.map PVal.ofPlain) [] args ∧
            ∀ r, evalRC (evLapl reg junk T d) (s.body.map PVal.ofPlain) [] args = .ok r →
              ∀ v ∈ r.drop s.numCarry, v.2.isLapl = false)
          (vals.take s.numConsts) s.numCarry
          (fun t => ((vals.drop s.numConsts).drop s.numCarry).map fun v =>
            PVal.ofPlain (timeSlice s.length t ⟨v.1, v.2.x⟩))
          (scanOrder s.length s.reverse) ((vals.drop s.numConsts).take s.numCarry)

section
variable {X : Type} [NormedAddCommGroup X] [NormedSpace ℝ X]

theorem Prim.call_relFor (p : Prim F) (T : ℕ) (B : Base X) (inv : ∀ m, Jac (Fin m) F → Prop)
    (vals : List (PVal F)) (gs : List (FArr X F)) (ys : List (PVal F))
    (hr : List.Forall₂ (Represents B inv) vals gs) (hl : ∃ v ∈ vals, v.2.isLapl = true)
    (hs : ∀ o, unpack (β := Opd F) p.size vals = .ok o → p.SoundForI inv T B.n o)
    (h : p.call T vals = .ok ys) :
    ∃ outs : List (FArr X F), (∀ x, p.bind (gs.map fun g => g.at x) = .ok (outs.map fun g => g.at x)) ∧
      List.Forall₂ (Represents B inv) ys outs := by
  unfold Prim.call at h
  cases h1 : unpack (β := Opd F) p.size vals with
  | error e => simp [h1] at h
  | ok o =>
    simp only [h1] at h
    cases h2 : p.rule T o with
    | error e => simp [h2] at h
    | ok r =>
      simp only [h2, Except.ok.injEq] at h
      subst h
      obtain ⟨u, hu, hrep⟩ := repr_unpack B _ p.size vals gs hr o h1
      have hat : ∀ x, unpack (β := fun m => Fin m → F) p.size (gs.map fun g => g.at x) =
          .ok fun i => u i x := by
        intro x
        rw [unpack_eq, hu, List.map_ofFn]
        rfl
      have hex : ∃ i, (o i).isLapl = true := by
        obtain ⟨v, hv, hvl⟩ := hl
        rw [(unpack_eq _ _ _).mp h1, List.mem_ofFn] at hv
        obtain ⟨i, rfl⟩ := hv
        exact ⟨i, hvl⟩
      have hres := hs o h1 X B u r rfl hrep hex h2
      refine ⟨List.ofFn fun j => ⟨p.outSize j, fun y => p.fwd (fun i => u i y) j⟩, fun x => ?_, ?_⟩
      · unfold Prim.bind
        rw [hat x]
        simp only [List.map_ofFn]
        rfl
      · rw [List.forall₂_iff_get]
        refine ⟨by simp, fun i h3 h4 => ?_⟩
        rw [List.get_ofFn, List.get_ofFn]
        exact ⟨_, rfl, hres _⟩

/-- Every operation is sound. -/
theorem evLapl_relR (B : Base X) (inv : ∀ m, Jac (Fin m) F → Prop) (reg : String → Option (Prim F))
    (junk : List (PVal F) → PVal F) (T : ℕ)
    (good : (p : Prim F) → ((i : Fin p.nIn) → Opd F (p.size i)) → Prop)
    (hgood : ∀ p o, good p o → p.SoundForI inv T B.n o) : ∀ (d : ℕ) (op : Op d F),
    EqRel (fun (g : FArr X F) x => g.at x) (Represents B inv) (evPlain d) (evLapl reg junk T d)
      (DomR reg junk T good d) op
  | 0, op => nomatch op
  | d + 1, op => by
    intro vals gs ys hr hd h
    unfold evLapl at h
    split at h
    · rename_i hall
      split at h
      · simp at h
      · rename_i ys0 hy
        simp only [Except.ok.injEq] at h
        subst h
        have hrc : List.Forall₂ (RepConst B) (vals.map fun v => (⟨v.1, v.2.x⟩ : PArr F)) gs := by
          rw [List.forall₂_map_left_iff]
          rw [List.all_eq_true] at hall
          clear hd hy
          induction hr with
          | nil => exact .nil
          | cons h1 _ ih =>
            exact .cons (repConst_of_represents B _ _ _ h1 (by simpa using hall _ (by simp)))
              (ih fun v hv => hall v (by simp [hv]))
        obtain ⟨outs, g1, g2⟩ := evPlain_rel B (d + 1) op _ gs ys0 hrc trivial hy
        exact ⟨outs, g1, by rw [List.forall₂_map_left_iff]; exact g2⟩
    · rename_i hall
      have hex : ∃ v ∈ vals, v.2.isLapl = true := by
        by_contra hc
        push Not at hc
        apply hall
        rw [List.all_eq_true]
        intro v hv
        simpa using hc v hv
      have hdd := hd hex
      cases op with
      | prim p =>
        dsimp only at h hdd
        exact p.call_relFor T B inv vals gs ys hr hex (fun o ho => hgood p o (hdd o ho)) h
      | pjit name j consts =>
        dsimp only at h hdd
        cases hreg : reg name with
        | some p =>
          simp only [hreg] at h hdd
          obtain ⟨outs, g1, g2⟩ := p.call_relFor T B inv vals gs ys hr hex (fun o ho => hgood p o (hdd.1 o ho)) h
          exact ⟨outs, fun x => hdd.2 _ _ (g1 x), g2⟩
        | none =>
          simp only [hreg] at h hdd
          exact evalRC_rel B _ (evPlain d) (evLapl reg junk T d) _ j
            (fun e _ => evLapl_relR B inv reg junk T good hgood d e.op) consts vals gs ys hr hdd h
      | scan s =>
        dsimp only at h hdd
        obtain ⟨carry, gc, outs, rest, e1, e2, e3, e4, e5, cols, e6, e7, e8⟩ := scanLapl_rel B _ junk s
          (fun args => evalSpec (evPlain d) s.body [] args) _ _
          (fun vals gs ys hr hd h => evalRC_rel B _ (evPlain d) (evLapl reg junk T d) _ s.body
            (fun e _ => evLapl_relR B inv reg junk T good hgood d e.op) [] vals gs ys hr hd.1 h)
          vals gs hr hdd ys h
        refine ⟨gc ++ outs, fun x => by rw [evPlain, e3 x], ?_⟩
        rw [e1]
        refine List.rel_append e4 ?_
        have hpl := e8 (fun v => v.2.isLapl = false) fun args r ha hr => ha.2 r hr
        rw [e6, List.forall₂_map_left_iff]
        clear e1 e2 e3 e5 e6 e8
        induction e7 with
        | nil => exact .nil
        | cons h1 _ ih =>
          rename_i col g cols outs _
          refine .cons ?_ (ih fun c hc => hpl c (by simp [hc]))
          obtain ⟨gcol, k1, k2⟩ := h1
          have hp : ∀ v ∈ col, v.2.isLapl = false := hpl col (by simp)
          unfold stackCol
          rw [if_neg]
          · exact repConst_stack B inv col gcol k1 hp g k2
          · intro hany
            obtain ⟨v, hv, hv'⟩ := List.any_eq_true.mp hany
            rw [hp v hv] at hv'
            exact absurd hv' (by decide)

/-- The interpreter is exact on runs without defects. -/
theorem evalLapl_run (B : Base X) (inv : ∀ m, Jac (Fin m) F → Prop) (reg : String → Option (Prim F)) (junk : List (PVal F) → PVal F) (T : ℕ)
    (good : (p : Prim F) → ((i : Fin p.nIn) → Opd F (p.size i)) → Prop)
    (hgood : ∀ p o, good p o → p.SoundForI inv T B.n o) (d : ℕ) (j : Jaxpr (Op d F) (PArr F))
    (consts : List (PArr F)) (args : List (PVal F)) (gs : List (FArr X F)) (ys : List (PVal F))
    (hargs : List.Forall₂ (Represents B inv) args gs)
    (hd : DomProg (evLapl reg junk T d) (DomR reg junk T good d) (j.map PVal.ofPlain) (consts.map PVal.ofPlain) args)
    (h : evalLapl reg junk T d j consts args = .ok ys) :
    ∃ outs : List (FArr X F), (∀ x, evalPlain d j consts (gs.map fun g => g.at x) =
      .ok (outs.map fun g => g.at x)) ∧ List.Forall₂ (Represents B inv) ys outs :=
  evalRC_rel B _ (evPlain d) (evLapl reg junk T d) _ j
    (fun e _ => evLapl_relR B inv reg junk T good hgood d e.op) consts args gs ys hargs hd h

end

end Folx

import Verif.Prog.SlogdetProofs
import Verif.Prog.CAbsProofs
import Verif.Prog.ScatterPrim
import Verif.Prog.DotGeneralProofs
import Verif.Prog.InitProofs

/-!
# Conditions on programs, in terms of the ordinary run
-/

namespace Folx

open Filter Topology
open Folx.Interp

variable {F : Type} [RCLike F]

/-- The primitives for which the forward Laplacian is exact at operand values `x` (`n`: number of inputs):
* a function wrapped by `wrap_forward_laplacian` that is twice continuously differentiable at `x` and whose
  declarations (flags, axes, custom rule) are true — with sparsity enabled (`sp`) also the static conditions `SparseOk`;
* a derivative-dropping function that is constant near `x`;
* a real-linear function applied to value, Jacobian and Laplacian;
* `dot_general` with well-formed dimension numbers — with sparsity enabled not in the defective special case of its fast
  path (C31);
* `slogdet` at invertible matrices, `abs` of complex arrays without zeros, and `scatter`, with sparsity disabled. -/
inductive Good (sp : Bool) (n : ℕ) : (p : Prim F) → ((i : Fin p.nIn) → Fin (p.size i) → F) → Prop
  | wrapped (s : Std F) (x : (i : Fin s.nIn) → Fin (s.size i) → F) (h : s.TrueAt n x)
      (hs : sp = true → s.SparseOk) : Good sp n s.toWPrim.toPrim x
  | dropped (nIn : ℕ) (size : Fin nIn → ℕ) (nOut : ℕ) (outSize : Fin nOut → ℕ)
      (fwd : ((i : Fin nIn) → Fin (size i) → F) → (j : Fin nOut) → Fin (outSize j) → F)
      (x : (i : Fin nIn) → Fin (size i) → F) (h : ∀ᶠ y in 𝓝 x, fwd y = fwd x) :
      Good sp n (dropPrim nIn size nOut outSize fwd) x
  | mapped (m : ℕ) (f : F →L[ℝ] F) (x : (i : Fin 1) → Fin m → F) : Good sp n (mapPrim m f) x
  | dot (dd : Dot.DotDims) (ls rs : List ℕ) (x : (i : Fin 2) → Fin (![ls.prod, rs.prod] i) → F) (h : dd.Ok ls rs)
      (hs : sp = true → Dot.interEqIn (Dot.leftShape dd ls rs) (Dot.rightShape dd ls rs) = true →
        Dot.noTranspose dd ls.length rs.length = true → Dot.SpecialOk dd ls.length rs.length) :
      Good sp n (dotPrim dd ls rs) x
  | slogdet (fld : DetField F) (b m : ℕ) (hm : 0 < m) (x : (i : Fin 1) → Fin (b * (m * m)) → F)
      (h : ∀ q, (mats (x 0) q).det ≠ 0) (hs : sp = false) : Good sp n (slogdetPrim F fld.cplx b m hm) x
  | cabs (m : ℕ) (x : (i : Fin 1) → Fin m → F) (h : ∀ q, x 0 q ≠ 0) (hs : sp = false) : Good sp n (cabsPrim F m) x
  | scatter {size : Fin 2 → ℕ} (c : Scatter (Fin (size 0)) (Fin (size 1))) (hc : c.Ok)
      (π : (a : Fin 2) → Fin (size 0) → Fin (size a)) (x : (i : Fin 2) → Fin (size i) → F) (hs : sp = false) :
      Good sp n (scatterPrim c π) x

theorem Jac.mapData_weak {P G : Type} (f : F → G) (J : Jac P F) : (J.mapData f).weak = J.weak := by
  cases J <;> rfl

theorem Jac.mapData_nrows {P G : Type} (f : F → G) (J : Jac P F) : (J.mapData f).nrows = J.nrows := by
  cases J <;> simp [Jac.mapData, Jac.nrows]

theorem mapData_dense {m : ℕ} (n : ℕ) (f : F → F) (J : Jac (Fin m) F) (h : denseInv n m J) :
    denseInv n m (J.mapData f) := by
  unfold denseInv at *
  rwa [Jac.mapData_weak, Jac.mapData_nrows]

theorem mapData_big {m : ℕ} (T n : ℕ) (f : F → F) (J : Jac (Fin m) F) (h : bigInv T n m J) :
    bigInv T n m (J.mapData f) := by
  unfold bigInv at *
  cases J with
  | sparse rows => exact h
  | dense rows => simpa [Jac.Big, Jac.mapData] using h

theorem good_dense (T n : ℕ) (hn : 0 < n) (p : Prim F) (x : (i : Fin p.nIn) → Fin (p.size i) → F)
    (h : Good false n p x) : p.SoundAt (denseInv n) T n x := by
  induction h with
  | wrapped s x h _ => exact s.sound_dense T n hn x h
  | dropped nIn size nOut outSize fwd x h => exact drop_sound (denseInv n) T n x h
  | mapped m f x => exact map_sound (denseInv n) T n m f (mapData_dense n f) x
  | dot dd ls rs x h _ =>
    exact dotPrim_sound_aux (stdSound_dense T n hn) h (Or.inl fun _ _ hJ => hJ.1) x
  | slogdet fld b m hm x h _ => exact slogdet_sound_dense T n hn fld hm x h
  | cabs m x h _ => exact cabs_sound_dense T n hn m x h
  | scatter c hc π x _ => exact scatter_sound_dense T n hn c hc π x

theorem good_sparse (T n : ℕ) (hn : 0 < n) (p : Prim F) (x : (i : Fin p.nIn) → Fin (p.size i) → F)
    (h : Good true n p x) : p.SoundAt (bigInv T n) T n x := by
  induction h with
  | wrapped s x h hs => exact s.sound_sparse T n hn x h (hs rfl)
  | dropped nIn size nOut outSize fwd x h => exact drop_sound (bigInv T n) T n x h
  | mapped m f x => exact map_sound (bigInv T n) T n m f (mapData_big T n f) x
  | dot dd ls rs x h hs =>
    exact dotPrim_sound_aux (stdSound_sparse T n hn) h (Or.inr (hs rfl)) x
  | slogdet fld b m hm x h hs => simp at hs
  | cabs m x h hs => simp at hs
  | scatter c hc π x hs => simp at hs

/-! ### The ordinary run -/

/-- Conditions on an equation evaluated at `xs` by the ordinary program: a primitive is `good` at its operands; a
jitted function whose name is in the registry is what the registered function computes; nested programs satisfy the
conditions along their own ordinary run; scans have no per-step outputs (see C29). -/
def DomP (reg : String → Option (Prim F))
    (good : (p : Prim F) → ((i : Fin p.nIn) → Fin (p.size i) → F) → Prop) :
    (d : ℕ) → Op d F → List (PArr F) → Prop
  | 0, op, _ => nomatch op
  | _ + 1, .prim p, xs => ∀ x, unpack (β := fun m => Fin m → F) p.size xs = .ok x → good p x
  | d + 1, .pjit name j consts, xs =>
      match reg name with
      | some p =>
        (∀ x, unpack (β := fun m => Fin m → F) p.size xs = .ok x → good p x) ∧
        ∀ ys zs, p.bind ys = .ok zs → evalSpec (evPlain d) j consts ys = .ok zs
      | none => DomProg (evPlain d) (DomP reg good d) j consts xs
  | d + 1, .scan s, xs => s.body.outvars.length = s.numCarry ∧
        ScanDom (fun args => evalSpec (evPlain d) s.body [] args)
          (fun args => DomProg (evPlain d) (DomP reg good d) s.body [] args)
          (xs.take s.numConsts) s.numCarry
          (fun t => ((xs.drop s.numConsts).drop s.numCarry).map (timeSlice s.length t))
          (scanOrder s.length s.reverse) ((xs.drop s.numConsts).take s.numCarry)

theorem domRun_mono {O V : Type} (ev : O → List V → Except Err (List V)) (d1 d2 : O → List V → Prop)
    (h : ∀ op xs, d1 op xs → d2 op xs) : ∀ (es : List (Eqn O V)) (s : SEnv V), DomRun ev d1 s es → DomRun ev d2 s es
  | [], _, _ => trivial
  | _ :: es, _, hd => fun xs hx => ⟨h _ _ (hd xs hx).1, fun s' hs => domRun_mono ev d1 d2 h es s' ((hd xs hx).2 s' hs)⟩

theorem scanDom_mono {V : Type} (b : List V → Except Err (List V)) (d1 d2 : List V → Prop)
    (h : ∀ xs, d1 xs → d2 xs) (consts : List V) (nc : ℕ) (xsAt : ℕ → List V) : ∀ (ts : List ℕ) (c : List V),
    ScanDom b d1 consts nc xsAt ts c → ScanDom b d2 consts nc xsAt ts c
  | [], _, _ => trivial
  | _ :: ts, _, hd => ⟨h _ hd.1, fun r hr => scanDom_mono b d1 d2 h consts nc xsAt ts _ (hd.2 r hr)⟩

theorem DomP.mono (reg : String → Option (Prim F))
    (g1 g2 : (p : Prim F) → ((i : Fin p.nIn) → Fin (p.size i) → F) → Prop) (h : ∀ p x, g1 p x → g2 p x) :
    ∀ (d : ℕ) (op : Op d F) (xs : List (PArr F)), DomP reg g1 d op xs → DomP reg g2 d op xs
  | 0, op, _, _ => nomatch op
  | d + 1, op, xs, hd => by
    cases op with
    | prim p => exact fun x hx => h p x (hd x hx)
    | pjit name j consts =>
      simp only [DomP] at hd ⊢
      cases hreg : reg name with
      | some p =>
        simp only [hreg] at hd ⊢
        exact ⟨fun x hx => h p x (hd.1 x hx), hd.2⟩
      | none =>
        simp only [hreg] at hd ⊢
        exact fun s hs => domRun_mono _ _ _ (DomP.mono reg g1 g2 h d) _ _ (hd s hs)
    | scan s =>
      simp only [DomP] at hd ⊢
      exact ⟨hd.1, scanDom_mono _ _ _
        (fun xs hx s' hs => domRun_mono _ _ _ (DomP.mono reg g1 g2 h d) _ _ (hx s' hs)) _ _ _ _ _ hd.2⟩

theorem Good.dense {n : ℕ} (p : Prim F) (x : (i : Fin p.nIn) → Fin (p.size i) → F) (h : Good true n p x) :
    Good false n p x := by
  induction h with
  | wrapped s x h _ => exact .wrapped s x h (by simp)
  | dropped nIn size nOut outSize fwd x h => exact .dropped nIn size nOut outSize fwd x h
  | mapped m f x => exact .mapped m f x
  | dot dd ls rs x h _ => exact .dot dd ls rs x h (by simp)
  | slogdet fld b m hm x h hs => simp at hs
  | cabs m x h hs => simp at hs
  | scatter c hc π x hs => simp at hs

section Transfer
variable {O V P G X : Type} {at' : G → X → P} {R : V → G → Prop}

/-- Conditions along the ordinary run carry over to the other run. -/
theorem domRun_transfer {lit : P → V} {cst : P → G} (hlit : ∀ p, R (lit p) (cst p))
    (hcst : ∀ p x, at' (cst p) x = p) (x0 : X) (evP : O → List P → Except Err (List P))
    (ev : O → List V → Except Err (List V)) (domP : O → List P → Prop) (dom : O → List V → Prop) :
    ∀ (es : List (Eqn O P)) (s : SEnv V) (S : X → SEnv P), EnvRel at' R s S →
      (∀ e ∈ es, EqRel at' R evP ev dom e.op) →
      (∀ e ∈ es, ∀ vals gs, List.Forall₂ R vals gs → domP e.op (gs.map fun g => at' g x0) → dom e.op vals) →
      DomRun evP domP (S x0) es → DomRun ev dom s (es.map (Eqn.map lit))
  | [], _, _, _, _, _, _ => trivial
  | e :: es, s, S, h, he, ht, hd => by
    intro vals h1
    obtain ⟨gs, g1, g2⟩ := h.getMany hlit hcst e.invars vals h1
    obtain ⟨d1, d2⟩ := hd _ (g1 x0)
    have hdom : dom e.op vals := ht e (by simp) vals gs g2 d1
    refine ⟨hdom, fun s1 hs1 => ?_⟩
    unfold specStep at hs1
    rw [h1] at hs1
    dsimp only at hs1
    cases h2 : ev (e.map lit).op vals with
    | error err => simp [h2] at hs1
    | ok ys =>
      simp only [h2] at hs1
      obtain ⟨outs, g3, g4⟩ := he e (by simp) vals gs ys g2 hdom h2
      obtain ⟨S1, g5, g6⟩ := h.bind e.outvars ys outs g4 hs1
      have hstep : specStep evP (S x0) e = .ok (S1 x0) := by simp [specStep, g1, g3, g5]
      exact domRun_transfer hlit hcst x0 evP ev domP dom es s1 S1 g6 (fun e' h' => he e' (by simp [h']))
        (fun e' h' => ht e' (by simp [h'])) (d2 _ hstep)

theorem domProg_transfer {lit : P → V} {cst : P → G} (hlit : ∀ p, R (lit p) (cst p))
    (hcst : ∀ p x, at' (cst p) x = p) (x0 : X) (evP : O → List P → Except Err (List P))
    (ev : O → List V → Except Err (List V)) (domP : O → List P → Prop) (dom : O → List V → Prop) (j : Jaxpr O P)
    (he : ∀ e ∈ j.eqns, EqRel at' R evP ev dom e.op)
    (ht : ∀ e ∈ j.eqns, ∀ vals gs, List.Forall₂ R vals gs → domP e.op (gs.map fun g => at' g x0) → dom e.op vals)
    (consts : List P) (args : List V) (gs : List G) (hargs : List.Forall₂ R args gs)
    (hd : DomProg evP domP j consts (gs.map fun g => at' g x0)) :
    DomProg ev dom (j.map lit) (consts.map lit) args := by
  intro s hs
  have h0 : EnvRel at' R (fun _ => none) (fun _ : X => (fun _ => none : SEnv P)) :=
    fun v => Or.inl ⟨rfl, fun _ => rfl⟩
  have hconsts : List.Forall₂ R (consts.map lit) (consts.map cst) := by
    rw [List.forall₂_map_left_iff, List.forall₂_map_right_iff]
    exact List.forall₂_same.mpr fun p _ => hlit p
  unfold specInit at hs
  cases h1 : SEnv.bind (fun _ => none) (j.map lit).constvars (consts.map lit) with
  | error err => simp [h1] at hs
  | ok s1 =>
    simp only [h1] at hs
    obtain ⟨S1, g1, g2⟩ := h0.bind j.constvars _ _ hconsts h1
    have g1' : ∀ x, SEnv.bind (fun _ => none) j.constvars consts = .ok (S1 x) := fun x => by
      have := g1 x
      rwa [List.map_map, show ((fun g => at' g x) ∘ cst) = id from funext fun p => hcst p x, List.map_id] at this
    obtain ⟨S2, g3, g4⟩ := g2.bind j.invars _ _ hargs hs
    have hinit : specInit j consts (gs.map fun g => at' g x0) = .ok (S2 x0) := by
      unfold specInit
      rw [g1' x0]
      exact g3 x0
    exact domRun_transfer hlit hcst x0 evP ev domP dom j.eqns s S2 g4 he ht (hd _ hinit)

theorem scanDom_transfer (x0 : X) (bP : List P → Except Err (List P)) (b : List V → Except Err (List V))
    (domBP : List P → Prop) (domB : List V → Prop)
    (hb : ∀ vals gs ys, List.Forall₂ R vals gs → domB vals → b vals = .ok ys →
      ∃ outs : List G, (∀ x, bP (gs.map fun g => at' g x) = .ok (outs.map fun g => at' g x)) ∧
        List.Forall₂ R ys outs)
    (ht : ∀ vals gs, List.Forall₂ R vals gs → domBP (gs.map fun g => at' g x0) → domB vals)
    (consts : List V) (gconsts : List G) (hc : List.Forall₂ R consts gconsts)
    (nc : ℕ) (xsAt : ℕ → List V) (gxs : ℕ → List G) (hxs : ∀ t, List.Forall₂ R (xsAt t) (gxs t)) :
    ∀ (ts : List ℕ) (c : List V) (gc : List G), List.Forall₂ R c gc →
      ScanDom bP domBP (gconsts.map fun g => at' g x0) nc (fun t => (gxs t).map fun g => at' g x0) ts
        (gc.map fun g => at' g x0) →
      ScanDom b domB consts nc xsAt ts c
  | [], _, _, _, _ => trivial
  | t :: ts, c, gc, hcc, hd => by
    have hrel : List.Forall₂ R (consts ++ c ++ xsAt t) (gconsts ++ gc ++ gxs t) :=
      List.rel_append (List.rel_append hc hcc) (hxs t)
    obtain ⟨d1, d2⟩ := hd
    have hmap : ((gconsts ++ gc ++ gxs t).map fun g => at' g x0) =
        (gconsts.map fun g => at' g x0) ++ (gc.map fun g => at' g x0) ++ ((gxs t).map fun g => at' g x0) := by simp
    have hdom := ht _ _ hrel (by rw [hmap]; exact d1)
    refine ⟨hdom, fun r hr => ?_⟩
    obtain ⟨outs, g1, g2⟩ := hb _ _ r hrel hdom hr
    have := d2 _ (by rw [← hmap]; exact g1 x0)
    rw [← List.map_take] at this
    exact scanDom_transfer x0 bP b domBP domB hb ht consts gconsts hc nc xsAt gxs hxs ts (r.take nc) (outs.take nc)
      (List.forall₂_take nc g2) this

end Transfer

section
variable {X : Type} [NormedAddCommGroup X] [NormedSpace ℝ X]

/-- Conditions on the ordinary run at the base point imply the conditions on the forward-Laplacian run. -/
theorem dom_of_plain (B : Base X) (inv : ∀ m, Jac (Fin m) F → Prop) (reg : String → Option (Prim F))
    (junk : List (PVal F) → PVal F) (T : ℕ)
    (good : (p : Prim F) → ((i : Fin p.nIn) → Fin (p.size i) → F) → Prop)
    (hgood : ∀ p x, good p x → p.SoundAt inv T B.n x) : ∀ (d : ℕ) (op : Op d F) (vals : List (PVal F))
      (gs : List (FArr X F)), List.Forall₂ (Represents B inv) vals gs →
      DomP reg good d op (gs.map fun g => g.at B.x0) → Dom reg junk T good d op vals
  | 0, op, _, _, _, _ => nomatch op
  | d + 1, op, vals, gs, hr, hd => by
    intro hex
    have hx := forall2_x B inv vals gs hr
    have hprog : ∀ (j : Jaxpr (Op d F) (PArr F)) (consts : List (PArr F)) (vals : List (PVal F))
        (gs : List (FArr X F)), List.Forall₂ (Represents B inv) vals gs →
        DomProg (evPlain d) (DomP reg good d) j consts (gs.map fun g => g.at B.x0) →
        DomProg (evLapl reg junk T d) (Dom reg junk T good d) (j.map PVal.ofPlain) (consts.map PVal.ofPlain) vals :=
      fun j consts vals gs hr hd =>
        domProg_transfer (at' := fun (g : FArr X F) x => g.at x) (cst := fun a => (⟨a.1, fun _ => a.2⟩ : FArr X F))
          (fun p => represents_const B _ p) (fun _ _ => rfl) B.x0 (evPlain d) (evLapl reg junk T d)
          (DomP reg good d) (Dom reg junk T good d) j
          (fun e _ => evLapl_rel B inv reg junk T good hgood d e.op)
          (fun e _ => dom_of_plain B inv reg junk T good hgood d e.op) consts vals gs hr hd
    cases op with
    | prim p =>
      dsimp only
      rw [hx]
      exact hd
    | pjit name j consts =>
      simp only [DomP] at hd
      dsimp only
      cases hreg : reg name with
      | some p =>
        simp only [hreg] at hd ⊢
        rw [hx]
        exact hd
      | none =>
        simp only [hreg] at hd ⊢
        exact hprog j consts vals gs hr hd
    | scan s =>
      simp only [DomP] at hd
      dsimp only
      refine ⟨hd.1, fun hpl => ?_⟩
      obtain ⟨_, hd⟩ := hd
      have hrel : List.Forall₂ (Represents B inv) ((vals.drop s.numConsts).drop s.numCarry)
          ((gs.drop s.numConsts).drop s.numCarry) :=
        List.forall₂_drop s.numCarry (List.forall₂_drop s.numConsts hr)
      have hslice : ∀ t, List.Forall₂ (Represents B inv)
          (((vals.drop s.numConsts).drop s.numCarry).map fun v =>
            PVal.ofPlain (timeSlice s.length t ⟨v.1, v.2.x⟩))
          (((gs.drop s.numConsts).drop s.numCarry).map (FArr.slice s.length t)) := by
        intro t
        rw [List.forall₂_map_left_iff, List.forall₂_map_right_iff]
        generalize (vals.drop s.numConsts).drop s.numCarry = l at hrel hpl
        generalize (gs.drop s.numConsts).drop s.numCarry = m at hrel
        clear hd
        induction hrel with
        | nil => exact .nil
        | cons h1 _ ih =>
          exact .cons (repConst_slice B s.length t _ _ (repConst_of_represents B inv _ _ h1
            (hpl _ (by simp)))) (ih fun v hv => hpl v (by simp [hv]))
      refine scanDom_transfer (at' := fun (g : FArr X F) x => g.at x) (R := Represents B inv) B.x0
        (fun args => evalSpec (evPlain d) s.body [] args) _ _ _
        (fun vals gs ys hr hd h => evalRC_rel B inv (evPlain d) (evLapl reg junk T d) _ s.body
          (fun e _ => evLapl_rel B inv reg junk T good hgood d e.op) [] vals gs ys hr hd h)
        (fun vals gs hr hd => hprog s.body [] vals gs hr hd)
        _ (gs.take s.numConsts) (List.forall₂_take _ hr) s.numCarry _
        (fun t => ((gs.drop s.numConsts).drop s.numCarry).map (FArr.slice s.length t)) hslice
        _ _ ((gs.drop s.numConsts).take s.numCarry) (List.forall₂_take _ (List.forall₂_drop _ hr)) ?_
      rw [List.map_take, List.map_take, List.map_drop]
      have e2 : (fun t => List.map (fun g => g.at B.x0) (((gs.drop s.numConsts).drop s.numCarry).map
          (FArr.slice s.length t))) = fun t =>
          (((gs.map fun g => g.at B.x0).drop s.numConsts).drop s.numCarry).map (timeSlice s.length t) := by
        funext t
        rw [← List.map_drop, ← List.map_drop, List.map_map, List.map_map]
        rfl
      rw [e2]
      exact hd

end

end Folx

import Verif.Prog.TotalInv

/-!
# Runs with scans: they return, or a scan is rejected
-/

namespace Folx

open Filter Topology
open Folx.Interp

/-- The errors with which `eval_scan` rejects a scan (`interpreter.py:95-116`): a scanned input carries derivatives, or the type
or the sparsity of the carry changes. -/
def ScanRejected (e : Err) : Prop := e = .scanInput ∨ e = .scanType ∨ e = .scanSparsity

/-- Returns, or raises one of the errors `E`. -/
def OkOr {α : Type} (E : Err → Prop) (r : Except Err α) : Prop := (∃ y, r = .ok y) ∨ ∃ e, r = .error e ∧ E e

section Transfer
variable {O V P G X : Type} {at' : G → X → P} {R : V → G → Prop}

theorem run_totalE {lit : P → V} {cst : P → G} (E : Err → Prop) (hlit : ∀ p, R (lit p) (cst p))
    (hcst : ∀ p x, at' (cst p) x = p) (x0 : X) (evP : O → List P → Except Err (List P))
    (ev : O → List V → Except Err (List V)) (domP : O → List P → Prop) (dom : O → List V → Prop) :
    ∀ (es : List (Eqn O P)) (s : SEnv V) (S : X → SEnv P) (s' : SEnv P), EnvRel at' R s S →
      (∀ e ∈ es, EqRel at' R evP ev dom e.op) →
      (∀ e ∈ es, ∀ vals gs, List.Forall₂ R vals gs → domP e.op (gs.map fun g => at' g x0) → dom e.op vals) →
      (∀ e ∈ es, ∀ vals gs zs, List.Forall₂ R vals gs → domP e.op (gs.map fun g => at' g x0) →
        evP e.op (gs.map fun g => at' g x0) = .ok zs → OkOr E (ev e.op vals)) →
      DomRun evP domP (S x0) es → specRun evP (S x0) es = .ok s' →
      (∃ (t : SEnv V) (T : X → SEnv P), specRun ev s (es.map (Eqn.map lit)) = .ok t ∧ T x0 = s' ∧ EnvRel at' R t T) ∨
        ∃ e, specRun ev s (es.map (Eqn.map lit)) = .error e ∧ E e
  | [], s, S, s', h, _, _, _, _, hr => .inl ⟨s, S, rfl, by simpa [specRun] using hr, h⟩
  | e :: es, s, S, s', h, he, ht, htot, hd, hr => by
    simp only [specRun, specStep] at hr
    cases h1 : (S x0).getMany e.invars with
    | error err => simp [h1] at hr
    | ok ps =>
      simp only [h1] at hr
      obtain ⟨vals, hv⟩ := EnvRel.getMany' (lit := lit) h x0 e.invars ps h1
      obtain ⟨gs, g1, g2⟩ := h.getMany hlit hcst e.invars vals hv
      obtain rfl : ps = gs.map fun g => at' g x0 := Except.ok.inj (h1.symm.trans (g1 x0))
      cases h2 : evP e.op (gs.map fun g => at' g x0) with
      | error err => simp [h2] at hr
      | ok zs =>
        simp only [h2] at hr
        obtain ⟨d1, d2⟩ := hd _ h1
        have hv' : s.getMany (e.map lit).invars = .ok vals := hv
        obtain ⟨ys, hy⟩ | ⟨err, herr, hE⟩ := htot e (by simp) vals gs zs g2 d1 h2
        · have hdom := ht e (by simp) vals gs g2 d1
          obtain ⟨outs, g3, g4⟩ := he e (by simp) vals gs ys g2 hdom hy
          obtain rfl : zs = outs.map fun g => at' g x0 := Except.ok.inj (h2.symm.trans (g3 x0))
          cases h3 : (S x0).bind e.outvars (outs.map fun g => at' g x0) with
          | error err => simp [h3] at hr
          | ok s1 =>
            simp only [h3] at hr
            have hl := (bind_ok_iff _ _ _).mp ⟨s1, h3⟩
            obtain ⟨t1, ht1⟩ := (bind_ok_iff s e.outvars ys).mpr (by
              rw [hl, List.length_map, g4.length_eq])
            obtain ⟨S1, g5, g6⟩ := h.bind e.outvars ys outs g4 ht1
            obtain rfl : s1 = S1 x0 := Except.ok.inj (h3.symm.trans (g5 x0))
            have hstep : specStep evP (S x0) e = .ok (S1 x0) := by simp [specStep, g1, g3, g5]
            have hs : specStep ev s (e.map lit) = .ok t1 := by
              have hy' : ev (e.map lit).op vals = .ok ys := hy
              unfold specStep
              simp only [hv', hy']
              exact ht1
            rcases run_totalE E hlit hcst x0 evP ev domP dom es t1 S1 s' g6
              (fun e' h' => he e' (by simp [h'])) (fun e' h' => ht e' (by simp [h']))
              (fun e' h' => htot e' (by simp [h'])) (d2 _ hstep) hr with ⟨t, T, e1, e2, e3⟩ | ⟨err, e1, e2⟩
            · exact .inl ⟨t, T, by simp [specRun, hs, e1], e2, e3⟩
            · exact .inr ⟨err, by simp [specRun, hs, e1], e2⟩
        · refine .inr ⟨err, ?_, hE⟩
          have hs : specStep ev s (e.map lit) = .error err := by
            have hy' : ev (e.map lit).op vals = .error err := herr
            unfold specStep
            simp only [hv', hy']
          simp [specRun, hs]

theorem prog_totalE {lit : P → V} {cst : P → G} (E : Err → Prop) (hlit : ∀ p, R (lit p) (cst p))
    (hcst : ∀ p x, at' (cst p) x = p) (x0 : X) (evP : O → List P → Except Err (List P))
    (ev : O → List V → Except Err (List V)) (domP : O → List P → Prop) (dom : O → List V → Prop) (j : Jaxpr O P)
    (he : ∀ e ∈ j.eqns, EqRel at' R evP ev dom e.op)
    (ht : ∀ e ∈ j.eqns, ∀ vals gs, List.Forall₂ R vals gs → domP e.op (gs.map fun g => at' g x0) → dom e.op vals)
    (htot : ∀ e ∈ j.eqns, ∀ vals gs zs, List.Forall₂ R vals gs → domP e.op (gs.map fun g => at' g x0) →
        evP e.op (gs.map fun g => at' g x0) = .ok zs → OkOr E (ev e.op vals))
    (consts : List P) (args : List V) (gs : List G) (hargs : List.Forall₂ R args gs)
    (hd : DomProg evP domP j consts (gs.map fun g => at' g x0)) (zs : List P)
    (hr : evalSpec evP j consts (gs.map fun g => at' g x0) = .ok zs) :
    OkOr E (evalSpec ev (j.map lit) (consts.map lit) args) := by
  have h0 : EnvRel at' R (fun _ => none) (fun _ : X => (fun _ => none : SEnv P)) :=
    fun v => Or.inl ⟨rfl, fun _ => rfl⟩
  have hconsts : List.Forall₂ R (consts.map lit) (consts.map cst) := by
    rw [List.forall₂_map_left_iff, List.forall₂_map_right_iff]
    exact List.forall₂_same.mpr fun p _ => hlit p
  unfold evalSpec at hr
  cases hi : specInit j consts (gs.map fun g => at' g x0) with
  | error err => simp [hi] at hr
  | ok sP =>
    simp only [hi] at hr
    have hi' := hi
    unfold specInit at hi'
    cases h1 : SEnv.bind (fun _ => none) j.constvars consts with
    | error err => simp [h1] at hi'
    | ok s1 =>
      simp only [h1] at hi'
      obtain ⟨t1, ht1⟩ := (bind_ok_iff (fun _ => none : SEnv V) (j.map lit).constvars (consts.map lit)).mpr (by
        have := (bind_ok_iff _ _ _).mp ⟨s1, h1⟩
        rw [List.length_map]
        exact this)
      obtain ⟨S1, g1, g2⟩ := h0.bind j.constvars _ _ hconsts ht1
      have g1' : ∀ x, SEnv.bind (fun _ => none) j.constvars consts = .ok (S1 x) := fun x => by
        have := g1 x
        rwa [List.map_map, show ((fun g => at' g x) ∘ cst) = id from funext fun p => hcst p x, List.map_id] at this
      obtain rfl : s1 = S1 x0 := Except.ok.inj (h1.symm.trans (g1' x0))
      obtain ⟨t2, ht2⟩ := (bind_ok_iff t1 (j.map lit).invars args).mpr (by
        have := (bind_ok_iff _ _ _).mp ⟨_, hi'⟩
        rw [List.length_map, ← hargs.length_eq] at this
        exact this)
      obtain ⟨S2, g3, g4⟩ := g2.bind j.invars _ _ hargs ht2
      obtain rfl : sP = S2 x0 := Except.ok.inj (hi'.symm.trans (g3 x0))
      cases h3 : specRun evP (S2 x0) j.eqns with
      | error err => simp [h3] at hr
      | ok s3 =>
        simp only [h3] at hr
        have hinit : specInit (j.map lit) (consts.map lit) args = .ok t2 := by
          unfold specInit
          rw [ht1]
          exact ht2
        rcases run_totalE E hlit hcst x0 evP ev domP dom j.eqns t2 S2 s3 g4 he ht htot (hd _ hi) h3 with
          ⟨t, T, e1, e2, e3⟩ | ⟨err, e1, e2⟩
        · subst e2
          obtain ⟨vals, hv⟩ := EnvRel.getMany' (lit := lit) e3 x0 j.outvars zs hr
          refine .inl ⟨vals, ?_⟩
          unfold evalSpec
          rw [hinit]
          have e1' : specRun ev t2 (j.map lit).eqns = .ok t := e1
          simp only [e1']
          exact hv
        · refine .inr ⟨err, ?_, e2⟩
          unfold evalSpec
          rw [hinit]
          have e1' : specRun ev t2 (j.map lit).eqns = .error err := e1
          simp only [e1']

/-- The loop returns or an iteration raises one of the errors. -/
theorem scanLoop_totalE (E : Err → Prop) (x0 : X) (bP : List P → Except Err (List P)) (b : List V → Except Err (List V))
    (domP : List P → Prop)
    (hb : ∀ vals gs ys, List.Forall₂ R vals gs → domP (gs.map fun g => at' g x0) → b vals = .ok ys →
      ∃ outs : List G, (∀ x, bP (gs.map fun g => at' g x) = .ok (outs.map fun g => at' g x)) ∧
        List.Forall₂ R ys outs)
    (hbT : ∀ vals gs zs, List.Forall₂ R vals gs → domP (gs.map fun g => at' g x0) → bP (gs.map fun g => at' g x0) = .ok zs →
      OkOr E (b vals))
    (chk : List V → Except Err Unit) (hchk : ∀ c, OkOr E (chk c))
    (consts : List V) (gconsts : List G) (hc : List.Forall₂ R consts gconsts)
    (nc : ℕ) (xsAt : ℕ → List V) (gxs : ℕ → List G) (hxs : ∀ t, List.Forall₂ R (xsAt t) (gxs t)) :
    ∀ (ts : List ℕ) (c : List V) (gc : List G) (zs : List P × List (List P)), List.Forall₂ R c gc →
      ScanDom bP domP (gconsts.map fun g => at' g x0) nc (fun t => (gxs t).map fun g => at' g x0) ts (gc.map fun g => at' g x0) →
      scanLoop bP (fun _ => .ok ()) (gconsts.map fun g => at' g x0) nc (fun t => (gxs t).map fun g => at' g x0) ts
        (gc.map fun g => at' g x0) = .ok zs →
      OkOr E (scanLoop b chk consts nc xsAt ts c)
  | [], c, gc, zs, _, _, _ => .inl ⟨_, rfl⟩
  | t :: ts, c, gc, zs, hcc, hd, h => by
    have hrel : List.Forall₂ R (consts ++ c ++ xsAt t) (gconsts ++ gc ++ gxs t) :=
      List.rel_append (List.rel_append hc hcc) (hxs t)
    have hmap : ((gconsts ++ gc ++ gxs t).map fun g => at' g x0) =
        (gconsts.map fun g => at' g x0) ++ (gc.map fun g => at' g x0) ++ ((gxs t).map fun g => at' g x0) := by simp
    obtain ⟨d1, d2⟩ := hd
    rw [← hmap] at d1
    simp only [scanLoop] at h
    cases h1 : bP ((gconsts.map fun g => at' g x0) ++ (gc.map fun g => at' g x0) ++ ((gxs t).map fun g => at' g x0)) with
    | error e => simp only [h1] at h; cases h
    | ok r =>
      simp only [h1] at h
      cases h3 : scanLoop bP (fun _ => .ok ()) (gconsts.map fun g => at' g x0) nc (fun t => (gxs t).map fun g => at' g x0) ts (r.take nc) with
      | error e => simp only [h3] at h; cases h
      | ok p =>
        have h1' : bP ((gconsts ++ gc ++ gxs t).map fun g => at' g x0) = .ok r := by rw [hmap]; exact h1
        rcases hbT _ _ r hrel d1 h1' with ⟨ys, hy⟩ | ⟨e, hy, hE⟩
        · obtain ⟨outs, g1, g2⟩ := hb _ _ ys hrel d1 hy
          obtain rfl : r = outs.map fun g => at' g x0 := Except.ok.inj (h1'.symm.trans (g1 x0))
          rcases hchk (ys.take nc) with ⟨u, hu⟩ | ⟨e, hu, hE⟩
          · rcases scanLoop_totalE E x0 bP b domP hb hbT chk hchk consts gconsts hc nc xsAt gxs hxs ts (ys.take nc) (outs.take nc) p
              (List.forall₂_take nc g2) (by rw [List.map_take]; exact d2 _ h1) (by rw [List.map_take]; exact h3) with ⟨q, hq⟩ | ⟨e, hq, hE⟩
            · refine .inl ⟨(q.1, ys.drop nc :: q.2), ?_⟩
              simp only [scanLoop, hy, hu, hq]
            · refine .inr ⟨e, ?_, hE⟩
              simp only [scanLoop, hy, hu, hq]
          · refine .inr ⟨e, ?_, hE⟩
            simp only [scanLoop, hy, hu]
        · refine .inr ⟨e, ?_, hE⟩
          simp only [scanLoop, hy]

end Transfer

variable {F : Type} [RCLike F]

/-- Variables are read fewer than 2^31 times (C06), and jitted functions with registered names call the registered function with
operands of its shapes.  Scans are allowed, with at least one step. -/
def CountOk (reg : String → Option (Prim F)) : (d : ℕ) → Op d F → Prop
  | 0, op => nomatch op
  | _ + 1, .prim _ => True
  | d + 1, .pjit name j consts =>
      match reg name with
      | some p => ∀ xs zs, evalSpec (evPlain d) j consts xs = .ok zs → ∃ zs', p.bind xs = .ok zs'
      | none => (∀ e ∈ j.eqns, CountOk reg d e.op) ∧
        ∀ v, Atom.var v ∈ j.outvars → (readsOf j.eqns j.outvars).count v ≤ 2147483647
  | d + 1, .scan s => 0 < s.length ∧ (∀ e ∈ s.body.eqns, CountOk reg d e.op) ∧
        ∀ v, Atom.var v ∈ s.body.outvars → (readsOf s.body.eqns s.body.outvars).count v ≤ 2147483647

/-- `DomP`, and in a reversed scan the body can also be evaluated with the initial carry and the slices of step 0, as
`eval_scan` does before the loop (`interpreter.py:104-109`). -/
def DomS (reg : String → Option (Prim F))
    (good : (p : Prim F) → ((i : Fin p.nIn) → Fin (p.size i) → F) → Prop) :
    (d : ℕ) → Op d F → List (PArr F) → Prop
  | 0, op, _ => nomatch op
  | _ + 1, .prim p, xs => ∀ x, unpack (β := fun m => Fin m → F) p.size xs = .ok x → good p x
  | d + 1, .pjit name j consts, xs =>
      match reg name with
      | some p =>
        (∀ x, unpack (β := fun m => Fin m → F) p.size xs = .ok x → good p x) ∧
        ∀ ys zs, p.bind ys = .ok zs → evalSpec (evPlain d) j consts ys = .ok zs
      | none => DomProg (evPlain d) (DomS reg good d) j consts xs
  | d + 1, .scan s, xs => s.body.outvars.length = s.numCarry ∧
        ScanDom (fun args => evalSpec (evPlain d) s.body [] args)
          (fun args => DomProg (evPlain d) (DomS reg good d) s.body [] args)
          (xs.take s.numConsts) s.numCarry
          (fun t => ((xs.drop s.numConsts).drop s.numCarry).map (timeSlice s.length t))
          (scanOrder s.length s.reverse) ((xs.drop s.numConsts).take s.numCarry) ∧
        (s.reverse = true →
          DomProg (evPlain d) (DomS reg good d) s.body []
            (xs.take s.numConsts ++ (xs.drop s.numConsts).take s.numCarry ++
              ((xs.drop s.numConsts).drop s.numCarry).map (timeSlice s.length 0)) ∧
          ∃ zs, evalSpec (evPlain d) s.body []
            (xs.take s.numConsts ++ (xs.drop s.numConsts).take s.numCarry ++
              ((xs.drop s.numConsts).drop s.numCarry).map (timeSlice s.length 0)) = .ok zs)

theorem DomS.domP (reg : String → Option (Prim F))
    (good : (p : Prim F) → ((i : Fin p.nIn) → Fin (p.size i) → F) → Prop) :
    ∀ (d : ℕ) (op : Op d F) (xs : List (PArr F)), DomS reg good d op xs → DomP reg good d op xs
  | 0, op, _, _ => nomatch op
  | d + 1, op, xs, hd => by
    cases op with
    | prim p => exact hd
    | pjit name j consts =>
      simp only [DomS, DomP] at hd ⊢
      cases hreg : reg name with
      | some p =>
        simp only [hreg] at hd ⊢
        exact hd
      | none =>
        simp only [hreg] at hd ⊢
        exact fun s hs => domRun_mono _ _ _ (DomS.domP reg good d) _ _ (hd s hs)
    | scan s =>
      simp only [DomS, DomP] at hd ⊢
      exact ⟨hd.1, scanDom_mono _ _ _
        (fun xs hx s' hs => domRun_mono _ _ _ (DomS.domP reg good d) _ _ (hx s' hs)) _ _ _ _ _ hd.2.1⟩

theorem checkCarry_okOr (c0 c : List (PVal F)) : OkOr ScanRejected (checkCarry c0 c) := by
  unfold checkCarry
  split
  · exact .inr ⟨_, rfl, .inr (.inl rfl)⟩
  · split
    · exact .inl ⟨_, rfl⟩
    · exact .inr ⟨_, rfl, .inr (.inr rfl)⟩

section
variable {X : Type} [NormedAddCommGroup X] [NormedSpace ℝ X]

theorem slices_rep (B : Base X) (inv : ∀ m, Jac (Fin m) F → Prop) (L t : ℕ) (vals : List (PVal F)) (gs : List (FArr X F))
    (h : List.Forall₂ (Represents B inv) vals gs) (hp : ∀ v ∈ vals, v.2.isLapl = false) :
    List.Forall₂ (Represents B inv) (vals.map fun v => PVal.ofPlain (timeSlice L t ⟨v.1, v.2.x⟩)) (gs.map (FArr.slice L t)) := by
  rw [List.forall₂_map_left_iff, List.forall₂_map_right_iff]
  induction h with
  | nil => exact .nil
  | cons h1 _ ih =>
    exact .cons (repConst_slice B L t _ _ (repConst_of_represents B inv _ _ h1 (hp _ (by simp)))) (ih fun v hv => hp v (by simp [hv]))

theorem evLapl_returnsE (B : Base X) (inv : ∀ m, Jac (Fin m) F → Prop) (reg : String → Option (Prim F)) (junk : List (PVal F) → PVal F) (T : ℕ)
    (good : (p : Prim F) → ((i : Fin p.nIn) → Fin (p.size i) → F) → Prop)
    (hgood : ∀ p x, good p x → p.SoundAt inv T B.n x)
    (hgoodT : ∀ p x, good p x → p.ReturnsWith inv T B.n x) :
    ∀ (d : ℕ) (op : Op d F) (vals : List (PVal F)) (gs : List (FArr X F)) (zs : List (PArr F)),
      CountOk reg d op → List.Forall₂ (Represents B inv) vals gs →
      DomS reg good d op (gs.map fun g => g.at B.x0) → evPlain d op (gs.map fun g => g.at B.x0) = .ok zs →
      OkOr ScanRejected (evLapl reg junk T d op vals) := by
  intro d
  induction d with
  | zero => intro op; exact nomatch op
  | succ d ih =>
    intro op vals gs zs hns hr hd he
    have hx := forall2_x B inv vals gs hr
    -- nested programs
    have hprogS : ∀ (j : Jaxpr (Op d F) (PArr F)) (consts : List (PArr F)) (vals : List (PVal F)) (gs : List (FArr X F)) (ys : List (PVal F)),
        List.Forall₂ (Represents B inv) vals gs →
        DomProg (evPlain d) (DomS reg good d) j consts (gs.map fun g => g.at B.x0) →
        evalRC (evLapl reg junk T d) (j.map PVal.ofPlain) (consts.map PVal.ofPlain) vals = .ok ys →
        ∃ outs : List (FArr X F), (∀ x, evalSpec (evPlain d) j consts (gs.map fun g => g.at x) = .ok (outs.map fun g => g.at x)) ∧
          List.Forall₂ (Represents B inv) ys outs := by
      intro j consts vals gs ys hr hd h
      refine evalRC_rel B inv (evPlain d) (evLapl reg junk T d) (Dom reg junk T good d) j
        (fun e _ => evLapl_rel B inv reg junk T good hgood d e.op) consts vals gs ys hr ?_ h
      exact domProg_transfer (at' := fun (g : FArr X F) x => g.at x)
        (cst := fun a => (⟨a.1, fun _ => a.2⟩ : FArr X F))
        (fun p => represents_const B _ p) (fun _ _ => rfl) B.x0 (evPlain d) _ (DomS reg good d) _ j
        (fun e _ => evLapl_rel B _ reg junk _ good hgood d e.op)
        (fun e _ vals gs hr hd => dom_of_plain B _ reg junk _ good hgood d e.op vals gs hr (hd.domP)) consts _ _ hr hd
    have hprogT : ∀ (j : Jaxpr (Op d F) (PArr F)) (consts : List (PArr F)) (vals : List (PVal F)) (gs : List (FArr X F)) (zs : List (PArr F)),
        (∀ e ∈ j.eqns, CountOk reg d e.op) →
        (∀ v, Atom.var v ∈ j.outvars → (readsOf j.eqns j.outvars).count v ≤ 2147483647) →
        List.Forall₂ (Represents B inv) vals gs →
        DomProg (evPlain d) (DomS reg good d) j consts (gs.map fun g => g.at B.x0) →
        evalSpec (evPlain d) j consts (gs.map fun g => g.at B.x0) = .ok zs →
        OkOr ScanRejected (evalRC (evLapl reg junk T d) (j.map PVal.ofPlain) (consts.map PVal.ofPlain) vals) := by
      intro j consts vals gs zs h1 h2 hr hd he
      have := prog_totalE ScanRejected (at' := fun (g : FArr X F) x => g.at x) (R := Represents B inv)
        (lit := PVal.ofPlain) (cst := fun a => (⟨a.1, fun _ => a.2⟩ : FArr X F))
        (fun p => represents_const B _ p) (fun _ _ => rfl) B.x0 (evPlain d) (evLapl reg junk T d)
        (DomS reg good d) (Dom reg junk T good d) j
        (fun e _ => evLapl_rel B _ reg junk T good hgood d e.op)
        (fun e _ vals gs hr hd => dom_of_plain B _ reg junk T good hgood d e.op vals gs hr hd.domP)
        (fun e hme vals gs zs hr hd he => ih e.op vals gs zs (h1 e hme) hr hd he) consts vals gs hr hd zs he
      rwa [C06_refcount_never_loses_values _ _ _ _ (fun v hv => by
        rw [readsOf_map]; exact h2 v (mem_map_var _ _ v hv))]
    unfold evLapl
    split
    · rw [hx, he]
      exact .inl ⟨_, rfl⟩
    · rename_i hall
      have hex : ∃ v ∈ vals, v.2.isLapl = true := by
        by_contra hc
        push Not at hc
        apply hall
        rw [List.all_eq_true]
        intro v hv
        simpa using hc v hv
      have hcall : ∀ p : Prim F, (∀ x, unpack (β := fun m => Fin m → F) p.size (gs.map fun g => g.at B.x0) = .ok x →
          good p x) → (∃ zs, p.bind (gs.map fun g => g.at B.x0) = .ok zs) → ∃ ys, p.call T vals = .ok ys := by
        rintro p hg ⟨zs, hb⟩
        unfold Prim.bind at hb
        split at hb
        · simp at hb
        · rename_i x hux
          obtain ⟨o, h1, h2, h3⟩ := unpack_vals B inv p.size vals gs hr x hux
          have hexo : ∃ i, (o i).isLapl = true := by
            obtain ⟨v, hv, hvl⟩ := hex
            rw [(unpack_eq _ _ _).mp h1, List.mem_ofFn] at hv
            obtain ⟨i, rfl⟩ := hv
            exact ⟨i, hvl⟩
          obtain ⟨u, -, hrep⟩ := repr_unpack B inv p.size vals gs hr o h1
          have hu : ∀ i, u i B.x0 = x i := by
            intro i
            have h4 := hrep i
            rw [← h2 i]
            cases ho : o i with
            | plain a => rw [ho] at h4; exact h4.1.symm
            | lapl t => rw [ho] at h4; exact h4.1.x.symm
          obtain ⟨r, hrr⟩ := hgoodT p x (hg x hux) B o u rfl hu hrep hexo
          unfold Prim.call
          rw [h1]
          simp only [hrr]
          exact ⟨_, rfl⟩
      cases op with
      | prim p =>
        dsimp only
        exact .inl (hcall p hd ⟨zs, he⟩)
      | pjit name j consts =>
        simp only [DomS, CountOk] at hd hns
        dsimp only
        cases hreg : reg name with
        | some p =>
          simp only [hreg] at hd hns ⊢
          exact .inl (hcall p hd.1 (hns _ zs he))
        | none =>
          simp only [hreg] at hd hns ⊢
          exact hprogT j consts vals gs zs hns.1 hns.2 hr hd he
      | scan s =>
        simp only [DomS, CountOk] at hd hns
        obtain ⟨hL, hb1, hb2⟩ := hns
        obtain ⟨ho, hd1, hd2⟩ := hd
        dsimp only
        unfold scanLapl
        dsimp only
        split
        · exact .inr ⟨_, rfl, .inl rfl⟩
        rename_i hinp
        rw [if_neg (by omega)]
        have hplain : ∀ v ∈ (vals.drop s.numConsts).drop s.numCarry, v.2.isLapl = false := by
          intro v hv
          by_contra hc
          exact hinp (List.any_eq_true.mpr ⟨v, hv, by simpa using hc⟩)
        have hsl : ∀ t, List.Forall₂ (Represents B inv)
            (((vals.drop s.numConsts).drop s.numCarry).map fun v => PVal.ofPlain (timeSlice s.length t ⟨v.1, v.2.x⟩))
            (((gs.drop s.numConsts).drop s.numCarry).map (FArr.slice s.length t)) := fun t =>
          slices_rep B inv s.length t _ _ (List.forall₂_drop s.numCarry (List.forall₂_drop s.numConsts hr)) hplain
        have hconsts := List.forall₂_take s.numConsts hr
        have hcarry := List.forall₂_take s.numCarry (List.forall₂_drop s.numConsts hr)
        have eC : ((gs.map fun g => g.at B.x0).take s.numConsts) = (gs.take s.numConsts).map fun g => g.at B.x0 := by
          rw [List.map_take]
        have eK : (((gs.map fun g => g.at B.x0).drop s.numConsts).take s.numCarry) =
            ((gs.drop s.numConsts).take s.numCarry).map fun g => g.at B.x0 := by
          rw [List.map_take, List.map_drop]
        have eX : ∀ t, (((gs.map fun g => g.at B.x0).drop s.numConsts).drop s.numCarry).map (timeSlice s.length t) =
            (((gs.drop s.numConsts).drop s.numCarry).map (FArr.slice s.length t)).map fun g => g.at B.x0 := by
          intro t
          rw [← List.map_drop, ← List.map_drop, List.map_map, List.map_map]
          rfl
        have eX' : (fun t => (((gs.map fun g => g.at B.x0).drop s.numConsts).drop s.numCarry).map (timeSlice s.length t)) =
            fun t => (((gs.drop s.numConsts).drop s.numCarry).map (FArr.slice s.length t)).map fun g => g.at B.x0 := funext eX
        have he' : scanPlain s (fun args => evalSpec (evPlain d) s.body [] args) (gs.map fun g => g.at B.x0) = .ok zs := he
        unfold scanPlain at he'
        dsimp only at he'
        split at he'
        · cases he'
        rename_i cP ysP hloop
        -- the evaluation before the loop
        have hfirst : DomProg (evPlain d) (DomS reg good d) s.body [] ((gs.take s.numConsts ++ (gs.drop s.numConsts).take s.numCarry ++
              ((gs.drop s.numConsts).drop s.numCarry).map (FArr.slice s.length 0)).map fun g => g.at B.x0) ∧
            ∃ zs, evalSpec (evPlain d) s.body [] ((gs.take s.numConsts ++ (gs.drop s.numConsts).take s.numCarry ++
              ((gs.drop s.numConsts).drop s.numCarry).map (FArr.slice s.length 0)).map fun g => g.at B.x0) = .ok zs := by
          have em : ((gs.take s.numConsts ++ (gs.drop s.numConsts).take s.numCarry ++
              ((gs.drop s.numConsts).drop s.numCarry).map (FArr.slice s.length 0)).map fun g => g.at B.x0) =
              (gs.map fun g => g.at B.x0).take s.numConsts ++ ((gs.map fun g => g.at B.x0).drop s.numConsts).take s.numCarry ++
              (((gs.map fun g => g.at B.x0).drop s.numConsts).drop s.numCarry).map (timeSlice s.length 0) := by
            rw [eC, eK, eX, List.map_append, List.map_append]
          rw [em]
          cases hrev : s.reverse with
          | true => exact hd2 hrev
          | false =>
            have hord : scanOrder s.length s.reverse = 0 :: (List.range (s.length - 1)).map (· + 1) := by
              unfold scanOrder
              rw [hrev, if_neg (by simp)]
              obtain ⟨m, hm⟩ : ∃ m, s.length = m + 1 := ⟨s.length - 1, by omega⟩
              rw [hm, List.range_succ_eq_map, Nat.add_sub_cancel]
            rw [hord] at hd1 hloop
            refine ⟨hd1.1, ?_⟩
            rw [scanLoop] at hloop
            split at hloop
            · cases hloop
            · rename_i r hr'
              exact ⟨r, hr'⟩
        obtain ⟨zf, hzf⟩ := hfirst.2
        have hargs0 := List.rel_append (List.rel_append hconsts hcarry) (hsl 0)
        rcases hprogT s.body [] _ _ zf hb1 hb2 hargs0 hfirst.1 hzf with ⟨first, hf⟩ | ⟨e, hf, hE⟩
        · have hf' : evalRC (evLapl reg junk T d) (s.body.map PVal.ofPlain) [] (vals.take s.numConsts ++ (vals.drop s.numConsts).take s.numCarry ++
              ((vals.drop s.numConsts).drop s.numCarry).map fun v => PVal.ofPlain (timeSlice s.length 0 ⟨v.1, v.2.x⟩)) = .ok first := hf
          rw [hf']
          dsimp only
          rcases checkCarry_okOr ((vals.drop s.numConsts).take s.numCarry) (first.take s.numCarry) with ⟨u, hu⟩ | ⟨e, hu, hE⟩
          · rw [hu]
            dsimp only
            rcases scanLoop_totalE ScanRejected (at' := fun (g : FArr X F) x => g.at x) (R := Represents B inv) B.x0
              (fun args => evalSpec (evPlain d) s.body [] args)
              (fun args => evalRC (evLapl reg junk T d) (s.body.map PVal.ofPlain) [] args)
              (fun args => DomProg (evPlain d) (DomS reg good d) s.body [] args)
              (fun vals gs ys hr hd h => hprogS s.body [] vals gs ys hr hd h)
              (fun vals gs zs hr hd h => hprogT s.body [] vals gs zs hb1 hb2 hr hd h)
              (checkCarry ((vals.drop s.numConsts).take s.numCarry)) (checkCarry_okOr _)
              (vals.take s.numConsts) (gs.take s.numConsts) hconsts s.numCarry _ _ hsl (scanOrder s.length s.reverse)
              ((vals.drop s.numConsts).take s.numCarry) ((gs.drop s.numConsts).take s.numCarry) (cP, ysP) hcarry
              (by rw [← eC, ← eK, ← eX']; exact hd1) (by rw [← eC, ← eK, ← eX']; exact hloop) with ⟨q, hq⟩ | ⟨e, hq, hE⟩
            · rw [hq]
              exact .inl ⟨_, rfl⟩
            · rw [hq]
              exact .inr ⟨e, rfl, hE⟩
          · rw [hu]
            exact .inr ⟨e, rfl, hE⟩
        · have hf' : evalRC (evLapl reg junk T d) (s.body.map PVal.ofPlain) [] (vals.take s.numConsts ++ (vals.drop s.numConsts).take s.numCarry ++
              ((vals.drop s.numConsts).drop s.numCarry).map fun v => PVal.ofPlain (timeSlice s.length 0 ⟨v.1, v.2.x⟩)) = .error e := hf
          rw [hf']
          exact .inr ⟨e, rfl, hE⟩

/-- The interpreter returns, or rejects a scan, if the ordinary run returns. -/
theorem evalLapl_returnsE (B : Base X) (inv : ∀ m, Jac (Fin m) F → Prop) (reg : String → Option (Prim F)) (junk : List (PVal F) → PVal F) (T : ℕ)
    (good : (p : Prim F) → ((i : Fin p.nIn) → Fin (p.size i) → F) → Prop)
    (hgood : ∀ p x, good p x → p.SoundAt inv T B.n x)
    (hgoodT : ∀ p x, good p x → p.ReturnsWith inv T B.n x) (d : ℕ) (j : Jaxpr (Op d F) (PArr F))
    (hns : ∀ e ∈ j.eqns, CountOk reg d e.op)
    (hbound : ∀ v, Atom.var v ∈ j.outvars → (readsOf j.eqns j.outvars).count v ≤ 2147483647)
    (consts : List (PArr F)) (args : List (PVal F)) (gs : List (FArr X F)) (zs : List (PArr F))
    (hargs : List.Forall₂ (Represents B inv) args gs)
    (hd : DomProg (evPlain d) (DomS reg good d) j consts (gs.map fun g => g.at B.x0))
    (he : evalPlain d j consts (gs.map fun g => g.at B.x0) = .ok zs) :
    OkOr ScanRejected (evalLapl reg junk T d j consts args) := by
  have := prog_totalE ScanRejected (at' := fun (g : FArr X F) x => g.at x) (R := Represents B inv)
    (lit := PVal.ofPlain) (cst := fun a => (⟨a.1, fun _ => a.2⟩ : FArr X F))
    (fun p => represents_const B _ p) (fun _ _ => rfl) B.x0 (evPlain d) (evLapl reg junk T d)
    (DomS reg good d) (Dom reg junk T good d) j
    (fun e _ => evLapl_rel B _ reg junk T good hgood d e.op)
    (fun e _ vals gs hr hd => dom_of_plain B _ reg junk T good hgood d e.op vals gs hr hd.domP)
    (fun e hme vals gs zs hr hd he => evLapl_returnsE B inv reg junk T good hgood hgoodT d e.op vals gs zs (hns e hme) hr hd he)
    consts args gs hargs hd zs he
  unfold evalLapl
  rwa [C06_refcount_never_loses_values _ _ _ _ (fun v hv => by
    rw [readsOf_map]; exact hbound v (mem_map_var _ _ v hv))]

end

end Folx

import Verif.Interp.Eval
import Verif.Prog.Wrapped

/-! # The interpreter is sound, for programs of every nesting depth -/

namespace Folx

open Filter Topology
open Folx.Interp

/-! ### Scan loops -/

section Loop
variable {V P G X : Type} {at' : G → X → P} {R : V → G → Prop}

/-- Along the loop, the body is evaluated at arguments satisfying `domB`. -/
def ScanDom (b : List V → Except Err (List V)) (domB : List V → Prop) (consts : List V) (nc : ℕ)
    (xsAt : ℕ → List V) : List ℕ → List V → Prop
  | [], _ => True
  | t :: ts, c => domB (consts ++ c ++ xsAt t) ∧
      ∀ r, b (consts ++ c ++ xsAt t) = .ok r → ScanDom b domB consts nc xsAt ts (r.take nc)

theorem scanLoop_rel (bP : List P → Except Err (List P)) (b : List V → Except Err (List V))
    (domB : List V → Prop)
    (hb : ∀ vals gs ys, List.Forall₂ R vals gs → domB vals → b vals = .ok ys →
      ∃ outs : List G, (∀ x, bP (gs.map fun g => at' g x) = .ok (outs.map fun g => at' g x)) ∧
        List.Forall₂ R ys outs)
    (chk : List V → Except Err Unit) (consts : List V) (gconsts : List G) (hc : List.Forall₂ R consts gconsts)
    (nc : ℕ) (xsAt : ℕ → List V) (gxs : ℕ → List G) (hxs : ∀ t, List.Forall₂ R (xsAt t) (gxs t)) :
    ∀ (ts : List ℕ) (c c' : List V) (ys : List (List V)) (gc : List G), List.Forall₂ R c gc →
      ScanDom b domB consts nc xsAt ts c →
      scanLoop b chk consts nc xsAt ts c = .ok (c', ys) →
      ∃ (gc' : List G) (gys : List (List G)),
        (∀ x, scanLoop bP (fun _ => .ok ()) (gconsts.map fun g => at' g x) nc
          (fun t => (gxs t).map fun g => at' g x) ts (gc.map fun g => at' g x) =
          .ok (gc'.map fun g => at' g x, gys.map fun l => l.map fun g => at' g x)) ∧
        List.Forall₂ R c' gc' ∧ List.Forall₂ (List.Forall₂ R) ys gys
  | [], c, c', ys, gc, hcc, _, h => by
    simp only [scanLoop, Except.ok.injEq, Prod.mk.injEq] at h
    obtain ⟨rfl, rfl⟩ := h
    exact ⟨gc, [], fun x => rfl, hcc, .nil⟩
  | t :: ts, c, c', ys, gc, hcc, hd, h => by
    simp only [scanLoop] at h
    cases h1 : b (consts ++ c ++ xsAt t) with
    | error e => simp only [h1] at h; cases h
    | ok r =>
      simp only [h1] at h
      cases h2 : chk (r.take nc) with
      | error e => simp [h2] at h
      | ok _ =>
        simp only [h2] at h
        cases h3 : scanLoop b chk consts nc xsAt ts (r.take nc) with
        | error e => simp [h3] at h
        | ok p =>
          obtain ⟨c1, ys1⟩ := p
          simp only [h3, Except.ok.injEq, Prod.mk.injEq] at h
          obtain ⟨rfl, rfl⟩ := h
          have hrel : List.Forall₂ R (consts ++ c ++ xsAt t) (gconsts ++ gc ++ gxs t) :=
            List.rel_append (List.rel_append hc hcc) (hxs t)
          obtain ⟨d1, d2⟩ := hd
          have hmap : ∀ x, ((gconsts ++ gc ++ gxs t).map fun g => at' g x) =
              (gconsts.map fun g => at' g x) ++ (gc.map fun g => at' g x) ++ ((gxs t).map fun g => at' g x) :=
            fun x => by simp
          obtain ⟨outs, g1, g2⟩ := hb _ _ r hrel d1 h1
          have g1' : ∀ x, bP ((gconsts.map fun g => at' g x) ++ (gc.map fun g => at' g x) ++
              ((gxs t).map fun g => at' g x)) = .ok (outs.map fun g => at' g x) := fun x => by
            rw [← hmap]; exact g1 x
          obtain ⟨gc', gys, g3, g4, g5⟩ := scanLoop_rel bP b domB hb chk consts gconsts hc nc xsAt gxs hxs ts
            (r.take nc) c1 ys1 (outs.take nc) (List.forall₂_take nc g2)
            (d2 _ h1) h3
          refine ⟨gc', outs.drop nc :: gys, fun x => ?_, g4, .cons (List.forall₂_drop nc g2) g5⟩
          simp only [scanLoop, g1' x]
          have := g3 x
          rw [List.map_take] at this
          rw [this]
          simp [List.map_drop]

/-- What holds of the outputs of the body in every iteration holds of the collected per-step outputs. -/
theorem scanLoop_outs (b : List V → Except Err (List V)) (domB : List V → Prop) (chk : List V → Except Err Unit)
    (consts : List V) (nc : ℕ) (xsAt : ℕ → List V) (Q : V → Prop)
    (hQ : ∀ args r, domB args → b args = .ok r → ∀ v ∈ r.drop nc, Q v) :
    ∀ (ts : List ℕ) (c c' : List V) (ys : List (List V)), ScanDom b domB consts nc xsAt ts c →
      scanLoop b chk consts nc xsAt ts c = .ok (c', ys) → ∀ l ∈ ys, ∀ v ∈ l, Q v
  | [], c, c', ys, _, h => by
    simp only [scanLoop, Except.ok.injEq, Prod.mk.injEq] at h
    rw [← h.2]
    simp
  | t :: ts, c, c', ys, hd, h => by
    simp only [scanLoop] at h
    cases h1 : b (consts ++ c ++ xsAt t) with
    | error e => simp only [h1] at h; cases h
    | ok r =>
      simp only [h1] at h
      cases h2 : chk (r.take nc) with
      | error e => simp [h2] at h
      | ok _ =>
        simp only [h2] at h
        cases h3 : scanLoop b chk consts nc xsAt ts (r.take nc) with
        | error e => simp [h3] at h
        | ok p =>
          obtain ⟨c1, ys1⟩ := p
          simp only [h3, Except.ok.injEq, Prod.mk.injEq] at h
          obtain ⟨rfl, rfl⟩ := h
          intro l hl
          rcases List.mem_cons.mp hl with rfl | hl
          · exact hQ _ r hd.1 h1
          · exact scanLoop_outs b domB chk consts nc xsAt Q hQ ts _ _ _ (hd.2 _ h1) h3 l hl

end Loop

/-! ### Ordinary evaluation depends on the inputs with fixed shapes -/

section Plain
variable {X : Type} [NormedAddCommGroup X] [NormedSpace ℝ X] {F : Type} [RCLike F]

/-- A plain array representing a locally constant function. -/
def RepConst (B : Base X) (a : PArr F) (g : FArr X F) : Prop :=
  Represents B (fun _ _ => True) (PVal.ofPlain a) g

theorem repConst_iff (B : Base X) (a : PArr F) (g : FArr X F) :
    RepConst B a g ↔ g.at B.x0 = a ∧ ∀ᶠ y in 𝓝 B.x0, g.at y = a := by
  obtain ⟨m, w⟩ := a
  obtain ⟨k, u⟩ := g
  constructor
  · rintro ⟨u', hu, h1, h2⟩
    obtain rfl : k = m := congrArg Sigma.fst hu
    have hu' : u = u' := eq_of_heq (Sigma.mk.inj hu).2
    subst hu'
    dsimp only [PVal.ofPlain] at h1 h2
    subst h1
    refine ⟨rfl, ?_⟩
    filter_upwards [h2] with y hy
    show (⟨k, u y⟩ : PArr F) = ⟨k, u B.x0⟩
    rw [hy]
  · rintro ⟨h1, h2⟩
    obtain rfl : k = m := congrArg Sigma.fst h1
    have h1' : u B.x0 = w := by simpa [FArr.at] using h1
    refine ⟨u, rfl, h1'.symm, ?_⟩
    filter_upwards [h2] with y hy
    exact eq_of_heq (Sigma.mk.inj hy).2

theorem represents_of_repConst (B : Base X) (inv : ∀ m, Jac (Fin m) F → Prop) (a : PArr F) (g : FArr X F)
    (h : RepConst B a g) : Represents B inv (PVal.ofPlain a) g := h

theorem repConst_of_represents (B : Base X) (inv : ∀ m, Jac (Fin m) F → Prop) (v : PVal F) (g : FArr X F)
    (h : Represents B inv v g) (hl : v.2.isLapl = false) : RepConst B ⟨v.1, v.2.x⟩ g := by
  obtain ⟨m, w⟩ := v
  cases w with
  | plain a => exact h
  | lapl t => simp [Opd.isLapl] at hl

/-- A family of arrays of constant size. -/
def FArr.ofFamily (f : X → PArr F) (N : ℕ) (h : ∀ x, (f x).1 = N) : FArr X F := ⟨N, fun x => h x ▸ (f x).2⟩

omit [NormedAddCommGroup X] [NormedSpace ℝ X] [RCLike F] in
theorem FArr.ofFamily_at (f : X → PArr F) (N : ℕ) (h : ∀ x, (f x).1 = N) (x : X) :
    (FArr.ofFamily f N h).at x = f x := by
  unfold FArr.ofFamily FArr.at
  have : ∀ (a : PArr F) (e : a.1 = N), (⟨N, e ▸ a.2⟩ : PArr F) = a := by
    rintro ⟨k, w⟩ rfl
    rfl
  exact this _ (h x)

/-- Slices of a parametrised array. -/
def FArr.slice (L t : ℕ) (g : FArr X F) : FArr X F :=
  ⟨g.1 / L, fun x => (timeSlice L t (g.at x)).2⟩

omit [NormedAddCommGroup X] [NormedSpace ℝ X] in
theorem FArr.slice_at (L t : ℕ) (g : FArr X F) (x : X) : (g.slice L t).at x = timeSlice L t (g.at x) := rfl

theorem repConst_slice (B : Base X) (L t : ℕ) (a : PArr F) (g : FArr X F) (h : RepConst B a g) :
    RepConst B (timeSlice L t a) (g.slice L t) := by
  rw [repConst_iff] at h ⊢
  refine ⟨by rw [FArr.slice_at, h.1], ?_⟩
  filter_upwards [h.2] with y hy
  rw [FArr.slice_at, hy]

theorem forall2_repConst (B : Base X) : ∀ (l : List (PArr F)) (gs : List (FArr X F)),
    List.Forall₂ (RepConst B) l gs → (gs.map fun g => g.at B.x0) = l ∧ ∀ᶠ y in 𝓝 B.x0, (gs.map fun g => g.at y) = l
  | _, _, .nil => ⟨rfl, Eventually.of_forall fun _ => rfl⟩
  | _, _, .cons h1 h2 => by
    obtain ⟨i1, i2⟩ := forall2_repConst B _ _ h2
    rw [repConst_iff] at h1
    refine ⟨by simp [h1.1, i1], ?_⟩
    filter_upwards [h1.2, i2] with y e1 e2
    simp [e1, e2]

omit [NormedAddCommGroup X] [NormedSpace ℝ X] [RCLike F] in
theorem stackArrs_size (l l' : List (PArr F)) (h : l.map Sigma.fst = l'.map Sigma.fst) :
    (stackArrs l).1 = (stackArrs l').1 := by
  have key : ∀ l : List (PArr F), (stackArrs l).1 = (l.map Sigma.fst).sum := by
    intro l
    simp only [stackArrs, List.length_flatMap, List.length_ofFn]
  rw [key, key, h]

/-- Stacked outputs of parametrised steps. -/
theorem stack_exists (gys : List (List (FArr X F))) (nc nOut L : ℕ) (rev : Bool) (x0 : X) :
    ∃ outs : List (FArr X F), (∀ x, stackSteps L nc nOut rev (gys.map fun l => l.map fun g => g.at x) =
      outs.map fun g => g.at x) ∧
      List.Forall₂ (fun (i : ℕ) (g : FArr X F) => ∀ x, g.at x = stackArrs (((if rev then gys.reverse else gys).filterMap
        fun r => r[i]?).map fun g => g.at x)) (List.range (nOut - nc)) outs := by
  let gys' := if rev then gys.reverse else gys
  have hcol : ∀ (i : ℕ) (x : X), ((if rev then (gys.map fun l => l.map fun g => FArr.at g x).reverse
      else gys.map fun l => l.map fun g => FArr.at g x).filterMap fun r => r[i]?) =
      (gys'.filterMap fun r => r[i]?).map fun g => FArr.at g x := by
    intro i x
    have h1 : (if rev then (gys.map fun l => l.map fun g => FArr.at g x).reverse
      else gys.map fun l => l.map fun g => FArr.at g x) = gys'.map fun l => l.map fun g => FArr.at g x := by
      cases rev <;> simp [gys']
    rw [h1, List.filterMap_map, List.map_filterMap]
    apply List.filterMap_congr
    intro r _
    simp
  refine ⟨(List.range (nOut - nc)).map fun i => FArr.ofFamily
    (fun x => stackArrs ((gys'.filterMap fun r => r[i]?).map fun g => g.at x))
    (stackArrs ((gys'.filterMap fun r => r[i]?).map fun g => g.at x0)).1 (fun x => ?_), fun x => ?_, ?_⟩
  · apply stackArrs_size
    simp [List.map_map, Function.comp_def, FArr.at]
  · unfold stackSteps
    rw [List.map_map]
    apply List.map_congr_left
    intro i _
    simp only [Function.comp]
    rw [FArr.ofFamily_at, hcol]
  · rw [List.forall₂_map_right_iff]
    exact List.forall₂_same.mpr fun i _ x => FArr.ofFamily_at _ _ _ x

omit [RCLike F] in
theorem map_ofPlain_id {O : Type} (j : Jaxpr O (PArr F)) : j.map (fun a => a) = j := by
  have h1 : ∀ l : List (Atom (PArr F)), l.map (Atom.map fun a => a) = l := by
    intro l
    conv_rhs => rw [← List.map_id l]
    apply List.map_congr_left
    intro a _
    cases a <;> rfl
  have h2 : ∀ l : List (Eqn O (PArr F)), l.map (Eqn.map fun a => a) = l := by
    intro l
    conv_rhs => rw [← List.map_id l]
    apply List.map_congr_left
    intro a _
    simp [Eqn.map, h1]
  simp [Jaxpr.map, h1, h2]

theorem forall2_const (B : Base X) (l : List (PArr F)) :
    List.Forall₂ (RepConst B) l (l.map fun a => (⟨a.1, fun _ => a.2⟩ : FArr X F)) := by
  rw [List.forall₂_map_right_iff]
  exact List.forall₂_same.mpr fun p _ => represents_const B _ p

/-- Evaluation of locally constant operands gives locally constant results, for every operation. -/
theorem evPlain_rel (B : Base X) : ∀ (d : ℕ) (op : Op d F),
    EqRel (fun (g : FArr X F) x => g.at x) (RepConst B) (evPlain d) (evPlain d) (fun _ _ => True) op
  | 0, op => nomatch op
  | d + 1, .prim p => by
    intro vals gs ys hr _ h
    have hvals : (vals.map PVal.ofPlain).map (fun v => (⟨v.1, v.2.x⟩ : PArr F)) = vals := by
      rw [List.map_map]
      conv_rhs => rw [← List.map_id vals]
      rfl
    have := p.bind_rel (fun _ _ => True) B (vals.map PVal.ofPlain) gs ys
      (by rw [List.forall₂_map_left_iff]; exact hr)
      (by intro v hv; obtain ⟨a, _, rfl⟩ := List.mem_map.mp hv; rfl) (by rw [hvals]; exact h)
    obtain ⟨outs, h1, h2⟩ := this
    exact ⟨outs, h1, by rw [List.forall₂_map_left_iff] at h2; exact h2⟩
  | d + 1, .pjit name j consts => by
    intro vals gs ys hr _ h
    refine evalSpec_rel (lit := fun a => a) (cst := fun a => (⟨a.1, fun _ => a.2⟩ : FArr X F))
      (fun p => represents_const B _ p) (fun p x => rfl) (evPlain d) (evPlain d) (fun _ _ => True) j
      (fun e _ => evPlain_rel B d e.op) consts vals gs ys hr ?_ ?_
    · have : ∀ (es : List (Eqn (Op d F) (PArr F))) s, DomRun (evPlain d) (fun _ _ => True) s es := by
        intro es
        induction es with
        | nil => intro s; trivial
        | cons e es ih => intro s xs _; exact ⟨trivial, fun s' _ => ih s'⟩
      exact fun s _ => this _ s
    · rw [map_ofPlain_id, List.map_id']
      exact h
  | d + 1, .scan s => by
    intro vals gs ys hr _ h
    simp only [evPlain, scanPlain] at h
    split at h
    · simp at h
    · rename_i c ysl hl
      simp only [Except.ok.injEq] at h
      subst h
      have hbody : ∀ vals gs ys, List.Forall₂ (RepConst B) vals gs → True →
          evalSpec (evPlain d) s.body [] vals = .ok ys →
          ∃ outs : List (FArr X F), (∀ x, evalSpec (evPlain d) s.body [] (gs.map fun g => g.at x) =
            .ok (outs.map fun g => g.at x)) ∧ List.Forall₂ (RepConst B) ys outs := by
        intro vals gs ys hr _ h
        refine evalSpec_rel (lit := fun a => a) (cst := fun a => (⟨a.1, fun _ => a.2⟩ : FArr X F))
          (fun p => represents_const B _ p) (fun p x => rfl) (evPlain d) (evPlain d) (fun _ _ => True) s.body
          (fun e _ => evPlain_rel B d e.op) [] vals gs ys hr ?_ ?_
        · have : ∀ (es : List (Eqn (Op d F) (PArr F))) s, DomRun (evPlain d) (fun _ _ => True) s es := by
            intro es
            induction es with
            | nil => intro s; trivial
            | cons e es ih => intro s xs _; exact ⟨trivial, fun s' _ => ih s'⟩
          exact fun s _ => this _ s
        · rw [map_ofPlain_id]
          exact h
      have hsd : ∀ ts consts xsAt c, ScanDom (fun args => evalSpec (evPlain d) s.body [] args) (fun _ => True)
          consts s.numCarry xsAt ts c := by
        intro ts
        induction ts with
        | nil => intros; trivial
        | cons t ts ih => intro consts xsAt c; exact ⟨trivial, fun r _ => ih _ _ _⟩
      have hinp := List.forall₂_drop s.numCarry (List.forall₂_drop s.numConsts hr)
      obtain ⟨gc', gys, g1, g2, g3⟩ := scanLoop_rel (at' := fun (g : FArr X F) x => g.at x) (R := RepConst B)
        (fun args => evalSpec (evPlain d) s.body [] args)
        (fun args => evalSpec (evPlain d) s.body [] args) (fun _ => True) hbody (fun _ => .ok ())
        (vals.take s.numConsts) (gs.take s.numConsts) (List.forall₂_take _ hr) s.numCarry
        (fun t => ((vals.drop s.numConsts).drop s.numCarry).map (timeSlice s.length t))
        (fun t => ((gs.drop s.numConsts).drop s.numCarry).map (FArr.slice s.length t))
        (fun t => by
          rw [List.forall₂_map_left_iff, List.forall₂_map_right_iff]
          exact hinp.imp fun a g h => repConst_slice B s.length t a g h)
        (scanOrder s.length s.reverse) ((vals.drop s.numConsts).take s.numCarry) c ysl
        ((gs.drop s.numConsts).take s.numCarry) (List.forall₂_take _ (List.forall₂_drop _ hr)) (hsd _ _ _ _) hl
      obtain ⟨outs, ho, -⟩ := stack_exists gys s.numCarry s.body.outvars.length s.length s.reverse B.x0
      have hplain : ∀ x, evPlain (d + 1) (.scan s : Op (d+1) F) (gs.map fun g => g.at x) =
          .ok ((gc' ++ outs).map fun g => g.at x) := by
        intro x
        simp only [evPlain, scanPlain]
        have := g1 x
        rw [List.map_take, List.map_take, List.map_drop] at this
        have e2 : (fun t => List.map (fun g => g.at x) (((gs.drop s.numConsts).drop s.numCarry).map
            (FArr.slice s.length t))) = fun t =>
            (((gs.map fun g => g.at x).drop s.numConsts).drop s.numCarry).map (timeSlice s.length t) := by
          funext t
          rw [← List.map_drop, ← List.map_drop, List.map_map, List.map_map]
          rfl
        rw [e2] at this
        rw [this]
        simp only [ho x, List.map_append]
      refine ⟨gc' ++ outs, hplain, ?_⟩
      -- the results are constant near the base point because the operands are
      obtain ⟨v1, v2⟩ := forall2_repConst B vals gs hr
      have hval : (gc' ++ outs).map (fun g => g.at B.x0) = c ++ stackSteps s.length s.numCarry
          s.body.outvars.length s.reverse ysl := by
        have := hplain B.x0
        rw [v1] at this
        simp only [evPlain, scanPlain, hl, Except.ok.injEq] at this
        exact this.symm
      have hev : ∀ᶠ y in 𝓝 B.x0, (gc' ++ outs).map (fun g => g.at y) = c ++ stackSteps s.length s.numCarry
          s.body.outvars.length s.reverse ysl := by
        filter_upwards [v2] with y hy
        have := hplain y
        rw [hy] at this
        simp only [evPlain, scanPlain, hl, Except.ok.injEq] at this
        exact this.symm
      rw [List.forall₂_iff_get]
      have hlen : (c ++ stackSteps s.length s.numCarry s.body.outvars.length s.reverse ysl).length =
          (gc' ++ outs).length := by rw [← hval, List.length_map]
      refine ⟨hlen, fun i h1 h2 => ?_⟩
      rw [repConst_iff]
      have hget : ∀ y, (gc' ++ outs).map (fun g => g.at y) = c ++ stackSteps s.length s.numCarry
          s.body.outvars.length s.reverse ysl → ((gc' ++ outs).get ⟨i, h2⟩).at y =
          (c ++ stackSteps s.length s.numCarry s.body.outvars.length s.reverse ysl).get ⟨i, h1⟩ := by
        intro y hy
        have := List.getElem_of_eq hy (i := i) (by simpa using h2)
        rw [List.getElem_map] at this
        exact this
      exact ⟨hget _ hval, hev.mono hget⟩

end Plain

end Folx

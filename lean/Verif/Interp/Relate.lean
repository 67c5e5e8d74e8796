import Mathlib.Data.List.Forall2
import Verif.Interp.SafeProofs

/-!
# Relating two runs of the same program

One run on rich values `V` (the forward Laplacian), and for every parameter `x : X` one run on plain values
`P`.  `G` are "plain values depending on the parameter", `G.at`.
-/

namespace Folx.Interp

variable {O V P G X : Type}

/-- Replace the literals of a jaxpr. -/
def Atom.map (f : P → V) : Atom P → Atom V
  | .lit p => .lit (f p)
  | .var v => .var v

/-- Replace the literals of an equation. -/
def Eqn.map (f : P → V) (e : Eqn O P) : Eqn O V := ⟨e.op, e.invars.map (Atom.map f), e.outvars⟩

/-- The same program with its literals seen as values of another type. -/
def Jaxpr.map (f : P → V) (j : Jaxpr O P) : Jaxpr O V :=
  ⟨j.constvars, j.invars, j.eqns.map (Eqn.map f), j.outvars.map (Atom.map f)⟩

/-- Along the run of the equations from environment `s`, every equation is evaluated at operands satisfying
`dom`. -/
def DomRun (ev : O → List V → Except Err (List V)) (dom : O → List V → Prop) :
    SEnv V → List (Eqn O V) → Prop
  | _, [] => True
  | s, e :: es => ∀ xs, s.getMany e.invars = .ok xs → dom e.op xs ∧
      ∀ s', specStep ev s e = .ok s' → DomRun ev dom s' es

/-- Along the run of a program on the given arguments, every equation is evaluated at operands satisfying
`dom`. -/
def DomProg (ev : O → List V → Except Err (List V)) (dom : O → List V → Prop) (j : Jaxpr O V)
    (consts args : List V) : Prop :=
  ∀ s, specInit j consts args = .ok s → DomRun ev dom s j.eqns

variable (at' : G → X → P) (R : V → G → Prop)

/-- Environments that agree with parametrised environments. -/
def EnvRel (s : SEnv V) (S : X → SEnv P) : Prop :=
  ∀ v, (s v = none ∧ ∀ x, S x v = none) ∨
    ∃ val g, s v = some val ∧ (∀ x, S x v = some (at' g x)) ∧ R val g

variable {at' R}

theorem EnvRel.getMany {lit : P → V} {cst : P → G} (hlit : ∀ p, R (lit p) (cst p))
    (hcst : ∀ p x, at' (cst p) x = p) {s : SEnv V} {S : X → SEnv P} (h : EnvRel at' R s S) :
    ∀ (as : List (Atom P)) (vals : List V), s.getMany (as.map (Atom.map lit)) = .ok vals →
      ∃ gs : List G, (∀ x, (S x).getMany as = .ok (gs.map fun g => at' g x)) ∧ List.Forall₂ R vals gs
  | [], vals, hv => by
    simp only [List.map_nil, SEnv.getMany, Except.ok.injEq] at hv
    subst hv
    exact ⟨[], fun x => rfl, .nil⟩
  | a :: as, vals, hv => by
    simp only [List.map_cons, SEnv.getMany] at hv
    cases h1 : s.get (a.map lit) with
    | error e => simp [h1] at hv
    | ok val =>
      simp only [h1] at hv
      cases h2 : s.getMany (as.map (Atom.map lit)) with
      | error e => simp [h2] at hv
      | ok vals' =>
        simp only [h2, Except.ok.injEq] at hv
        subst hv
        obtain ⟨gs, g1, g2⟩ := EnvRel.getMany hlit hcst h as vals' h2
        have : ∃ g, (∀ x, (S x).get a = .ok (at' g x)) ∧ R val g := by
          cases a with
          | lit p =>
            simp only [Atom.map, SEnv.get, Except.ok.injEq] at h1
            subst h1
            exact ⟨cst p, fun x => by simp [SEnv.get, hcst], hlit p⟩
          | var v =>
            simp only [Atom.map, SEnv.get] at h1
            rcases h v with ⟨h3, _⟩ | ⟨val', g, h3, h4, h5⟩
            · simp [h3] at h1
            · simp only [h3, Except.ok.injEq] at h1
              subst h1
              exact ⟨g, fun x => by simp [SEnv.get, h4], h5⟩
        obtain ⟨g, g3, g4⟩ := this
        exact ⟨g :: gs, fun x => by simp [SEnv.getMany, g3, g1], .cons g4 g2⟩

theorem EnvRel.upd {s : SEnv V} {S : X → SEnv P} (h : EnvRel at' R s S) (v : Var) (val : V) (g : G)
    (hr : R val g) : EnvRel at' R (Interp.upd s v (some val)) (fun x => Interp.upd (S x) v (some (at' g x))) := by
  intro w
  by_cases hw : w = v
  · subst hw
    exact Or.inr ⟨val, g, by simp, fun x => by simp, hr⟩
  · rcases h w with ⟨h1, h2⟩ | ⟨val', g', h1, h2, h3⟩
    · exact Or.inl ⟨by rw [upd_ne _ _ hw, h1], fun x => by dsimp only; rw [upd_ne _ _ hw, h2]⟩
    · exact Or.inr ⟨val', g', by rw [upd_ne _ _ hw, h1], fun x => by dsimp only; rw [upd_ne _ _ hw, h2], h3⟩

theorem EnvRel.bind {s s' : SEnv V} {S : X → SEnv P} (h : EnvRel at' R s S) (vs : List Var) (vals : List V)
    (gs : List G) (hr : List.Forall₂ R vals gs) (hb : s.bind vs vals = .ok s') :
    ∃ S' : X → SEnv P, (∀ x, (S x).bind vs (gs.map fun g => at' g x) = .ok (S' x)) ∧ EnvRel at' R s' S' := by
  unfold SEnv.bind at hb
  split at hb
  · rename_i hl
    simp only [Except.ok.injEq] at hb
    have hl2 : ∀ x, vs.length = (gs.map fun g => at' g x).length := fun x => by
      rw [List.length_map, ← hr.length_eq, hl]
    refine ⟨fun x => ((vs.zip (gs.map fun g => at' g x)).foldl (fun s p => Interp.upd s p.1 (some p.2)) (S x)),
      fun x => by unfold SEnv.bind; rw [if_pos (hl2 x)], ?_⟩
    rw [← hb]
    clear hb hl hl2
    induction hr generalizing vs s S with
    | nil => simpa using h
    | cons h1 h2 ih =>
      cases vs with
      | nil => simpa using h
      | cons v vs =>
        simp only [List.zip_cons_cons, List.foldl_cons, List.map_cons]
        exact ih (h.upd v _ _ h1) vs
  · simp at hb

/-- One equation: related operands give related results. -/
def EqRel (at' : G → X → P) (R : V → G → Prop) (evP : O → List P → Except Err (List P))
    (ev : O → List V → Except Err (List V)) (dom : O → List V → Prop) (op : O) : Prop :=
  ∀ (vals : List V) (gs : List G) (ys : List V), List.Forall₂ R vals gs →
    dom op vals → ev op vals = .ok ys →
    ∃ outs : List G, (∀ x, evP op (gs.map fun g => at' g x) = .ok (outs.map fun g => at' g x)) ∧
      List.Forall₂ R ys outs

theorem EnvRel.run {lit : P → V} {cst : P → G} (hlit : ∀ p, R (lit p) (cst p))
    (hcst : ∀ p x, at' (cst p) x = p) (evP : O → List P → Except Err (List P))
    (ev : O → List V → Except Err (List V)) (dom : O → List V → Prop) :
    ∀ (es : List (Eqn O P)) (s s' : SEnv V) (S : X → SEnv P), EnvRel at' R s S →
      (∀ e ∈ es, EqRel at' R evP ev dom e.op) → DomRun ev dom s (es.map (Eqn.map lit)) →
      specRun ev s (es.map (Eqn.map lit)) = .ok s' →
      ∃ S' : X → SEnv P, (∀ x, specRun evP (S x) es = .ok (S' x)) ∧ EnvRel at' R s' S'
  | [], s, s', S, h, _, _, hr => by
    simp only [List.map_nil, specRun, Except.ok.injEq] at hr
    subst hr
    exact ⟨S, fun x => rfl, h⟩
  | e :: es, s, s', S, h, he, hd, hr => by
    simp only [List.map_cons, specRun, specStep] at hr
    cases h1 : s.getMany (e.map lit).invars with
    | error err => simp [h1] at hr
    | ok vals =>
      simp only [h1] at hr
      obtain ⟨gs, g1, g2⟩ := h.getMany hlit hcst e.invars vals h1
      cases h2 : ev (e.map lit).op vals with
      | error err => simp [h2] at hr
      | ok ys =>
        simp only [h2] at hr
        obtain ⟨d1, d2⟩ := hd _ h1
        obtain ⟨outs, g3, g4⟩ := he e (by simp) vals gs ys g2 d1 h2
        cases h3 : s.bind (e.map lit).outvars ys with
        | error err => simp [h3] at hr
        | ok s1 =>
          simp only [h3] at hr
          obtain ⟨S1, g5, g6⟩ := h.bind e.outvars ys outs g4 h3
          have hstep : ∀ x, specStep evP (S x) e = .ok (S1 x) := fun x => by
            simp [specStep, g1, g3, g5]
          have hstep' : specStep ev s (e.map lit) = .ok s1 := by
            unfold specStep
            rw [h1]
            dsimp only
            rw [h2]
            exact h3
          obtain ⟨S2, g7, g8⟩ := EnvRel.run hlit hcst evP ev dom es s1 s' S1 g6
            (fun e' he' => he e' (by simp [he'])) (d2 _ hstep') hr
          exact ⟨S2, fun x => by simp [specRun, hstep, g7], g8⟩

/-- **Program induction.**  If every equation of a program maps related operands to related results, then so
does the whole program. -/
theorem evalSpec_rel {lit : P → V} {cst : P → G} (hlit : ∀ p, R (lit p) (cst p))
    (hcst : ∀ p x, at' (cst p) x = p) (evP : O → List P → Except Err (List P))
    (ev : O → List V → Except Err (List V)) (dom : O → List V → Prop) (j : Jaxpr O P)
    (he : ∀ e ∈ j.eqns, EqRel at' R evP ev dom e.op) (consts : List P) (args : List V) (gs : List G)
    (ys : List V) (hargs : List.Forall₂ R args gs)
    (hd : DomProg ev dom (j.map lit) (consts.map lit) args)
    (hr : evalSpec ev (j.map lit) (consts.map lit) args = .ok ys) :
    ∃ outs : List G, (∀ x, evalSpec evP j consts (gs.map fun g => at' g x) = .ok (outs.map fun g => at' g x)) ∧
      List.Forall₂ R ys outs := by
  have h0 : EnvRel at' R (fun _ => none) (fun _ : X => (fun _ => none : SEnv P)) :=
    fun v => Or.inl ⟨rfl, fun _ => rfl⟩
  unfold evalSpec specInit at hr
  have hconsts : List.Forall₂ R (consts.map lit) (consts.map cst) := by
    rw [List.forall₂_map_left_iff, List.forall₂_map_right_iff]
    exact List.forall₂_same.mpr fun p _ => hlit p
  cases h1 : SEnv.bind (fun _ => none) (j.map lit).constvars (consts.map lit) with
  | error err => simp [h1] at hr
  | ok s1 =>
    simp only [h1] at hr
    obtain ⟨S1, g1, g2⟩ := h0.bind j.constvars _ _ hconsts h1
    have g1' : ∀ x, SEnv.bind (fun _ => none) j.constvars consts = .ok (S1 x) := fun x => by
      have := g1 x
      rwa [List.map_map, show ((fun g => at' g x) ∘ cst) = id from funext fun p => hcst p x, List.map_id] at this
    cases h2 : s1.bind (j.map lit).invars args with
    | error err => simp [h2] at hr
    | ok s2 =>
      simp only [h2] at hr
      obtain ⟨S2, g3, g4⟩ := g2.bind j.invars _ _ hargs h2
      have hinit : ∀ x, specInit j consts (gs.map fun g => at' g x) = .ok (S2 x) := fun x => by
        unfold specInit
        rw [g1' x]
        exact g3 x
      cases h3 : specRun ev s2 (j.map lit).eqns with
      | error err => simp [h3] at hr
      | ok s3 =>
        simp only [h3] at hr
        obtain ⟨S3, g5, g6⟩ := EnvRel.run hlit hcst evP ev dom j.eqns s2 s3 S2 g4 he
          (hd _ (by unfold specInit; rw [h1]; exact h2)) h3
        obtain ⟨outs, g7, g8⟩ := g6.getMany hlit hcst j.outvars ys hr
        exact ⟨outs, fun x => by simp [evalSpec, hinit, g5, g7], g8⟩

end Folx.Interp

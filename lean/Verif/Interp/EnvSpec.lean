import Verif.Interp.Env

/-!
# Independent specification: evaluation with an environment that never frees

This is the textbook evaluation of a straight-line program (as in `jax.core.eval_jaxpr`):
the environment is a function that only ever grows.
-/

namespace Folx.Interp

/-- Environment that never forgets. -/
abbrev SEnv (V : Type) := Var → Option V

/-- The value of an operand. -/
def SEnv.get {V : Type} (s : SEnv V) : Atom V → Except Err V
  | .lit x => .ok x
  | .var v => match s v with
    | none => .error .key
    | some x => .ok x

/-- The values of a list of operands. -/
def SEnv.getMany {V : Type} (s : SEnv V) : List (Atom V) → Except Err (List V)
  | [] => .ok []
  | a :: as =>
    match s.get a with
    | .error e => .error e
    | .ok x =>
      match s.getMany as with
      | .error e => .error e
      | .ok xs => .ok (x :: xs)

/-- Bind a list of variables to a list of values (later bindings win). -/
def SEnv.bind {V : Type} (s : SEnv V) (vs : List Var) (xs : List V) : Except Err (SEnv V) :=
  if vs.length = xs.length then
    .ok ((vs.zip xs).foldl (fun s p => upd s p.1 (some p.2)) s)
  else .error .length

/-- One equation: read, evaluate, bind. -/
def specStep {O V : Type} (ev : O → List V → Except Err (List V)) (s : SEnv V) (e : Eqn O V) :
    Except Err (SEnv V) :=
  match s.getMany e.invars with
  | .error err => .error err
  | .ok xs =>
    match ev e.op xs with
    | .error err => .error err
    | .ok ys => s.bind e.outvars ys

/-- All equations, in order. -/
def specRun {O V : Type} (ev : O → List V → Except Err (List V)) :
    SEnv V → List (Eqn O V) → Except Err (SEnv V)
  | s, [] => .ok s
  | s, e :: es =>
    match specStep ev s e with
    | .error err => .error err
    | .ok s' => specRun ev s' es

/-- Initial bindings: constants, then arguments. -/
def specInit {O V : Type} (j : Jaxpr O V) (consts args : List V) : Except Err (SEnv V) :=
  match SEnv.bind (fun _ => none) j.constvars consts with
  | .error e => .error e
  | .ok s => s.bind j.invars args

/-- A program as a function: bind the inputs, run the equations, read the results. -/
def evalSpec {O V : Type} (ev : O → List V → Except Err (List V)) (j : Jaxpr O V)
    (consts args : List V) : Except Err (List V) :=
  match specInit j consts args with
  | .error err => .error err
  | .ok s =>
    match specRun ev s j.eqns with
    | .error err => .error err
    | .ok s' => s'.getMany j.outvars

/-- All variable reads of a jaxpr, in program order: operands of the equations, then the outputs. -/
def readsOf {O V : Type} (es : List (Eqn O V)) (outs : List (Atom V)) : List Var :=
  (es.flatMap fun e => e.invars.filterMap Atom.var?) ++ outs.filterMap Atom.var?

end Folx.Interp

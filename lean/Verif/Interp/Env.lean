import Mathlib.Data.List.Count
import Mathlib.Tactic.Common

/-!
# The jaxpr environment (model)

Models `JaxExprEnvironment` and the equation loop of `eval_jaxpr_with_forward_laplacian`
(`folx/interpreter.py:31-77` and `:171-219`).  The evaluation of a single equation
(`interpreter.py:174-212`) is a parameter `ev` here; it is filled in by `Verif/Interp/Eval.lean`.
-/

namespace Folx.Interp

/-- `core.Var`: only identity matters, so variables are numbers. -/
abbrev Var := Nat

/-- `core.Atom = Var | Literal` (used at `interpreter.py:43,49,53,60`). -/
inductive Atom (V : Type) where
  | lit (val : V)
  | var (v : Var)

/-- `core.JaxprEqn`: the fields the interpreter touches (`interpreter.py:47-51,171-218`).
`op` stands for primitive + params. -/
structure Eqn (O V : Type) where
  op : O
  invars : List (Atom V)
  outvars : List Var

/-- `core.Jaxpr`: the fields the interpreter touches. -/
structure Jaxpr (O V : Type) where
  constvars : List Var
  invars : List Var
  eqns : List (Eqn O V)
  outvars : List (Atom V)

/-- Exceptions that can leave the interpreter (Python exceptions as values).
`key` = `KeyError` from `self.env[var]` (`interpreter.py:63`);
`length` = the length assertion of `jax.util.safe_map` (`interpreter.py:74,77`);
the remaining constructors are raised by rules and by `eval_scan`. -/
inductive Err where
  | key
  | length
  | type
  | scanInput
  | scanType
  | scanSparsity
  | shape
  | emptyArgmax
  | emptyReduction
  | other
  deriving DecidableEq, Repr

/-- `np.iinfo(np.int32).max` (`interpreter.py:55`). -/
def int32Max : Int := 2147483647

/-- The variable of an atom, if it is not a literal (`isinstance(v, core.Literal): continue`). -/
def Atom.var? {V : Type} : Atom V → Option Var
  | .lit _ => none
  | .var v => some v

/-- The state of `JaxExprEnvironment`: `env` is the dictionary (`none` = absent key),
`rc` the `defaultdict(int)` reference counter (absent key = 0). `interpreter.py:34-35,40-41`. -/
structure EnvState (V : Type) where
  env : Var → Option V
  rc : Var → Int

/-- Pointwise update of a dictionary. -/
def upd {β : Type} (f : Var → β) (v : Var) (b : β) : Var → β := fun w => if w = v then b else f w

/-- `JaxExprEnvironment.__init__`, reference counters only (`interpreter.py:41-55`):
`+1` for every input/constant variable, `+1` for every read by an equation, and
`int32 max` for every variable among the outputs (this last loop overwrites). -/
def initRC {O V : Type} (j : Jaxpr O V) : Var → Int :=
  let rc0 : Var → Int := fun _ => 0
  let rc1 := (j.invars ++ j.constvars).foldl (fun rc v => upd rc v (rc v + 1)) rc0
  let rc2 := j.eqns.foldl
    (fun rc e => (e.invars.filterMap Atom.var?).foldl (fun rc v => upd rc v (rc v + 1)) rc) rc1
  (j.outvars.filterMap Atom.var?).foldl (fun rc v => upd rc v int32Max) rc2

/-- `JaxExprEnvironment.write` (`interpreter.py:69-71`). -/
def EnvState.write {V : Type} (s : EnvState V) (v : Var) (x : V) : EnvState V :=
  if 0 < s.rc v then { s with env := upd s.env v (some x) } else s

/-- `JaxExprEnvironment.read` (`interpreter.py:59-67`). -/
def EnvState.read {V : Type} (s : EnvState V) : Atom V → Except Err (V × EnvState V)
  | .lit x => .ok (x, s)
  | .var v =>
    let rc' := upd s.rc v (s.rc v - 1)
    match s.env v with
    | none => .error .key
    | some x =>
      if rc' v = 0 then .ok (x, ⟨upd s.env v none, upd rc' v 0⟩)
      else .ok (x, ⟨s.env, rc'⟩)

/-- `read_many` (`interpreter.py:73-74`): `safe_map` reads left to right, threading the state. -/
def EnvState.readMany {V : Type} (s : EnvState V) : List (Atom V) → Except Err (List V × EnvState V)
  | [] => .ok ([], s)
  | a :: as =>
    match s.read a with
    | .error e => .error e
    | .ok (x, s') =>
      match s'.readMany as with
      | .error e => .error e
      | .ok (xs, s'') => .ok (x :: xs, s'')

/-- `write_many` (`interpreter.py:76-77`): `safe_map` first asserts equal lengths. -/
def EnvState.writeMany {V : Type} (s : EnvState V) (vs : List Var) (xs : List V) :
    Except Err (EnvState V) :=
  if vs.length = xs.length then
    .ok ((vs.zip xs).foldl (fun s p => s.write p.1 p.2) s)
  else .error .length

/-- `JaxExprEnvironment.__init__` (`interpreter.py:37-57`). -/
def initEnv {O V : Type} (j : Jaxpr O V) (consts args : List V) : Except Err (EnvState V) :=
  match EnvState.writeMany ⟨fun _ => none, initRC j⟩ j.constvars consts with
  | .error e => .error e
  | .ok s => s.writeMany j.invars args

/-- One iteration of the loop `for eqn in jaxpr.eqns` (`interpreter.py:171-218`).
The exception handler at `:209-212` re-raises, so errors pass through. -/
def stepRC {O V : Type} (ev : O → List V → Except Err (List V)) (s : EnvState V) (e : Eqn O V) :
    Except Err (EnvState V) :=
  match s.readMany e.invars with
  | .error err => .error err
  | .ok (xs, s') =>
    match ev e.op xs with
    | .error err => .error err
    | .ok ys => s'.writeMany e.outvars ys

/-- The loop over a list of equations (`interpreter.py:171`). -/
def runRC {O V : Type} (ev : O → List V → Except Err (List V)) :
    EnvState V → List (Eqn O V) → Except Err (EnvState V)
  | s, [] => .ok s
  | s, e :: es =>
    match stepRC ev s e with
    | .error err => .error err
    | .ok s' => runRC ev s' es

/-- `eval_jaxpr_with_forward_laplacian` with the per-equation evaluation as a parameter
(`interpreter.py:80-84,171-219`). -/
def evalRC {O V : Type} (ev : O → List V → Except Err (List V)) (j : Jaxpr O V)
    (consts args : List V) : Except Err (List V) :=
  match initEnv j consts args with
  | .error err => .error err
  | .ok s =>
    match runRC ev s j.eqns with
    | .error err => .error err
    | .ok s' =>
      match s'.readMany j.outvars with
      | .error err => .error err
      | .ok (ys, _) => .ok ys

end Folx.Interp

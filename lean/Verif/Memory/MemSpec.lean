import Verif.Memory.Mem

/-!
# Specification: the live set of a straight-line program

Independent of reference counting: all bindings are kept in a list that only grows; a binding is *live* if the
variable is an input, a constant or an output of the jaxpr, or is read by an equation still to come.
-/

namespace Folx.Mem

open Folx.Interp

/-- All bindings made so far. -/
abbrev Binds := List (Var × AVal)

/-- The value of an operand. -/
def Binds.get (b : Binds) : Atom AVal → Except Err AVal
  | .lit x => .ok x
  | .var v => match b.find? (fun p => p.1 == v) with
    | none => .error .key
    | some p => .ok p.2

/-- The values of a list of operands. -/
def Binds.getMany (b : Binds) : List (Atom AVal) → Except Err (List AVal)
  | [] => .ok []
  | a :: as =>
    match b.get a with
    | .error e => .error e
    | .ok x =>
      match b.getMany as with
      | .error e => .error e
      | .ok xs => .ok (x :: xs)

/-- Variables read by a list of equations. -/
def eqnReads {O : Type} (es : List (Eqn O AVal)) : List Var :=
  es.flatMap fun e => e.invars.filterMap Atom.var?

/-- Total number of bytes of those of the bindings `b` that are kept throughout (`keep`) or read later (`later`). -/
def liveBytes (keep later : List Var) (b : Binds) : ℕ :=
  ((b.filter fun p => decide (p.1 ∈ keep ∨ p.1 ∈ later)).map fun p => p.2.bytes).sum

/-- The true peak of a list of equations: for each equation, what is live before it (its operands included), plus those of
its results that are ever needed, plus the peak inside it. -/
def specRun {O : Type} (ev : O → List AVal → Except Err (List AVal × ℤ)) (keep : List Var) :
    Binds → List (Eqn O AVal) → Except Err (Binds × ℤ)
  | b, [] => .ok (b, 0)
  | b, e :: es =>
    match b.getMany e.invars with
    | .error err => .error err
    | .ok xs =>
      match ev e.op xs with
      | .error err => .error err
      | .ok (ys, sub) =>
        if e.outvars.length = ys.length then
          match specRun ev keep (b ++ e.outvars.zip ys) es with
          | .error err => .error err
          | .ok (b', p) =>
            .ok (b', max (liveBytes keep (eqnReads (e :: es)) b +
              liveBytes keep (eqnReads es) (e.outvars.zip ys) + sub) p)
        else .error .length

/-- Inputs, constants and outputs of a jaxpr. -/
def keepVars {O : Type} (j : Jaxpr O AVal) : List Var :=
  j.constvars ++ j.invars ++ j.outvars.filterMap Atom.var?

/-- Results and true peak of a jaxpr. -/
def specJaxpr {O : Type} (ev : O → List AVal → Except Err (List AVal × ℤ)) (j : Jaxpr O AVal)
    (consts args : List AVal) : Except Err (List AVal × ℤ) :=
  if j.constvars.length = consts.length then
    if j.invars.length = args.length then
      match specRun ev (keepVars j) (j.constvars.zip consts ++ j.invars.zip args) j.eqns with
      | .error err => .error err
      | .ok (b, p) =>
        match b.getMany j.outvars with
        | .error err => .error err
        | .ok ys => .ok (ys, p)
    else .error .length
  else .error .length

/-- True peak for jaxprs of any nesting depth. -/
def evSpecMem : (d : ℕ) → MOp d → List AVal → Except Err (List AVal × ℤ)
  | 0, op, _ => nomatch op
  | d + 1, op, xs => evStep (specJaxpr (evSpecMem d)) op xs

/-- Every variable is bound once, and no output is read more than `2^31 - 1` times. -/
def SSA {O : Type} (j : Jaxpr O AVal) : Prop :=
  (j.constvars ++ j.invars ++ j.eqns.flatMap Eqn.outvars).Nodup ∧
  ∀ v, (eqnReads j.eqns ++ j.outvars.filterMap Atom.var?).count v ≤ 2147483647

/-- No equation has the same variable twice among its operands. -/
def NoRepeat {O : Type} (j : Jaxpr O AVal) : Prop :=
  ∀ e ∈ j.eqns, (e.invars.filterMap Atom.var?).Nodup

/-- `P` holds of all jaxprs nested in an operation. -/
def MOp.All (P : ∀ d, Jaxpr (MOp d) AVal → Prop) : (d : ℕ) → MOp d → Prop
  | 0, op => nomatch op
  | _ + 1, .prim _ => True
  | d + 1, .pjit j _ => P d j ∧ ∀ e ∈ j.eqns, MOp.All P d e.op
  | d + 1, .scan _ _ j => P d j ∧ ∀ e ∈ j.eqns, MOp.All P d e.op

/-- `P` holds of the jaxpr and of all jaxprs nested in it. -/
def AllJaxprs (P : ∀ d, Jaxpr (MOp d) AVal → Prop) (d : ℕ) (j : Jaxpr (MOp d) AVal) : Prop :=
  P d j ∧ ∀ e ∈ j.eqns, MOp.All P d e.op

end Folx.Mem

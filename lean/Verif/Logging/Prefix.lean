import Mathlib.Logic.Function.Basic
import Mathlib.Tactic.Common
import Mathlib.Order.Basic
import Mathlib.Order.Nat

/-!
# `LoggingPrefix` (`utils.py:567-592`) over a heap of handler lists

`logger.handlers` is a reference to a list object; `addHandler`/`removeHandler` change that object in place, an
assignment to `logger.handlers` makes it refer to another object.
-/

namespace Folx.Log

/-- A handler of the root logger: one installed by the user, the one `logging.basicConfig` adds, or the stream
handler with the formatter of a `LoggingPrefix` object. -/
inductive Handler where
  | user (id : ℕ)
  | basic
  | folx (inst : ℕ)
  deriving DecidableEq

/-- Interpreter state relevant for logging: list objects by reference, the next unused reference, the reference in
`logger.handlers`, the attribute `_old_handlers` of each `LoggingPrefix` object, and what was emitted. -/
structure St where
  heap : ℕ → List Handler
  next : ℕ
  cur : ℕ
  old : ℕ → ℕ
  out : List (Handler × String)

/-- Statements a body can consist of. -/
inductive Stmt where
  | skip
  | seq (s t : Stmt)
  | emit (msg : String)
  | addHandler (h : Handler)
  | removeHandler (h : Handler)
  | assign (hs : List Handler)
  | raise
  | tryExcept (s t : Stmt)
  | withPrefix (inst : ℕ) (s : Stmt)

/-- `logging.warning(msg)` / `logging.error(msg)`: with no handler, `basicConfig` first appends one to the list;
then every handler emits. -/
def St.emit (σ : St) (msg : String) : St :=
  let hs := if σ.heap σ.cur = [] then [Handler.basic] else σ.heap σ.cur
  { σ with heap := Function.update σ.heap σ.cur hs, out := σ.out ++ hs.map (·, msg) }

/-- `LoggingPrefix.__enter__` (`utils.py:579-584`): save the reference, install a new one-element list. -/
def St.enter (σ : St) (inst : ℕ) : St :=
  { σ with
    old := Function.update σ.old inst σ.cur
    heap := Function.update σ.heap σ.next [Handler.folx inst]
    cur := σ.next
    next := σ.next + 1 }

/-- `LoggingPrefix.__exit__` (`utils.py:586-592`): on an exception log it, then restore the saved reference. It
returns `None`, so an exception propagates. -/
def St.exit (σ : St) (inst : ℕ) (raised : Bool) : St :=
  let σ' := if raised then σ.emit "Exception occurred" else σ
  { σ' with cur := σ'.old inst }

/-- Execute a statement; the flag says whether it ends with an exception. -/
def exec : Stmt → St → St × Bool
  | .skip, σ => (σ, false)
  | .seq s t, σ =>
    match exec s σ with
    | (σ', true) => (σ', true)
    | (σ', false) => exec t σ'
  | .emit msg, σ => (σ.emit msg, false)
  | .addHandler h, σ =>
    let hs := σ.heap σ.cur
    ({ σ with heap := Function.update σ.heap σ.cur (if h ∈ hs then hs else hs ++ [h]) }, false)
  | .removeHandler h, σ => ({ σ with heap := Function.update σ.heap σ.cur ((σ.heap σ.cur).erase h) }, false)
  | .assign hs, σ => ({ σ with heap := Function.update σ.heap σ.next hs, cur := σ.next, next := σ.next + 1 }, false)
  | .raise, σ => (σ, true)
  | .tryExcept s t, σ =>
    match exec s σ with
    | (σ', true) => exec t σ'
    | (σ', false) => (σ', false)
  | .withPrefix inst s, σ =>
    match exec s (σ.enter inst) with
    | (σ', r) => (σ'.exit inst r, r)

/-- The `LoggingPrefix` objects a statement enters. -/
def Stmt.insts : Stmt → List ℕ
  | .seq s t => s.insts ++ t.insts
  | .tryExcept s t => s.insts ++ t.insts
  | .withPrefix i s => i :: s.insts
  | _ => []

end Folx.Log

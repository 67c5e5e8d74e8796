import Verif.Interp.Env
import Mathlib.Algebra.BigOperators.Group.List.Basic

/-!
# Memory estimation (model of `folx/experimental/memory.py`)

`_compute_jaxpr_memory` walks a jaxpr under `jax.eval_shape`: the values are abstract arrays.  Printing, source
information and the list of the largest tensors (`memory.py:94,104,125,130-137,142-153`) have no influence on the
reported number and are left out.
-/

namespace Folx.Mem

open Folx.Interp

/-- An abstract array: its shape and the number of bytes of one entry (`memory.py:16-21`: `bool` is one byte,
otherwise the digits in the name of the dtype divided by 8). -/
structure AVal where
  shape : List ℕ
  item : ℕ
  deriving DecidableEq

/-- `v.size * _bytes_from_dtype(v.dtype)` (`memory.py:65`). -/
def AVal.bytes (a : AVal) : ℕ := a.shape.prod * a.item

/-- State of `MemoryExprEnvironment` (`memory.py:24-29`): dictionary, reference counter, `memory`. -/
structure MState where
  s : EnvState AVal
  memory : ℤ

/-- `MemoryExprEnvironment.write` (`memory.py:61-65`). -/
def MState.write (m : MState) (v : Var) (x : AVal) : MState :=
  if 0 < m.s.rc v then ⟨m.s.write v x, m.memory + x.bytes⟩ else m

/-- `write_many` (`memory.py:70-71`); `safe_map` asserts equal lengths. -/
def MState.writeMany (m : MState) (vs : List Var) (xs : List AVal) : Except Err MState :=
  if vs.length = xs.length then .ok ((vs.zip xs).foldl (fun m p => m.write p.1 p.2) m)
  else .error .length

/-- `read_many` (`memory.py:51-59,67-68`): the same code as in `interpreter.py:59-67`; `memory` is not touched. -/
def MState.readMany (m : MState) (as : List (Atom AVal)) : Except Err (List AVal × MState) :=
  match m.s.readMany as with
  | .error e => .error e
  | .ok (xs, s') => .ok (xs, ⟨s', m.memory⟩)

/-- `_free_memory` (`memory.py:73-78`): the counter of a deleted variable reads 0 (`defaultdict`). -/
def MState.free1 (m : MState) : Atom AVal → AVal → MState
  | .lit _, _ => m
  | .var v, x => if m.s.rc v = 0 then ⟨m.s, m.memory - x.bytes⟩ else m

/-- `free_memory` (`memory.py:80-81`). -/
def MState.free (m : MState) (as : List (Atom AVal)) (xs : List AVal) : MState :=
  (as.zip xs).foldl (fun m p => m.free1 p.1 p.2) m

/-- `MemoryExprEnvironment.__init__` (`memory.py:31-49`): the counters are those of `interpreter.py:41-55`. -/
def initMem {O : Type} (j : Jaxpr O AVal) (consts args : List AVal) : Except Err MState :=
  match MState.writeMany ⟨⟨fun _ => none, initRC j⟩, 0⟩ j.constvars consts with
  | .error e => .error e
  | .ok m => m.writeMany j.invars args

/-- One iteration of the loop (`memory.py:95-155`): `ev` gives the results of the equation and `sub_peak_mem`. -/
def stepMem {O : Type} (ev : O → List AVal → Except Err (List AVal × ℤ)) (m : MState) (peak : ℤ)
    (e : Eqn O AVal) : Except Err (MState × ℤ) :=
  match m.readMany e.invars with
  | .error err => .error err
  | .ok (xs, m1) =>
    match ev e.op xs with
    | .error err => .error err
    | .ok (ys, sub) =>
      match m1.writeMany e.outvars ys with
      | .error err => .error err
      | .ok m2 =>
        let peak' := if m2.memory + sub > peak then m2.memory + sub else peak
        .ok (m2.free e.invars xs, peak')

/-- The loop (`memory.py:95`). -/
def runMem {O : Type} (ev : O → List AVal → Except Err (List AVal × ℤ)) :
    MState → ℤ → List (Eqn O AVal) → Except Err (MState × ℤ)
  | m, peak, [] => .ok (m, peak)
  | m, peak, e :: es =>
    match stepMem ev m peak e with
    | .error err => .error err
    | .ok (m', peak') => runMem ev m' peak' es

/-- `_compute_jaxpr_memory(..., return_result=True)` (`memory.py:84-160`): results and peak. -/
def jaxprMem {O : Type} (ev : O → List AVal → Except Err (List AVal × ℤ)) (j : Jaxpr O AVal)
    (consts args : List AVal) : Except Err (List AVal × ℤ) :=
  match initMem j consts args with
  | .error err => .error err
  | .ok m =>
    match runMem ev m 0 j.eqns with
    | .error err => .error err
    | .ok (m', peak) =>
      match m'.readMany j.outvars with
      | .error err => .error err
      | .ok (ys, _) => .ok (ys, peak)

/-- Primitive with parameters: an ordinary primitive (its abstract evaluation), a jitted sub-function, a scan. -/
inductive MOpStep (O : Type) where
  | prim (f : List AVal → Except Err (List AVal))
  | pjit (j : Jaxpr O AVal) (consts : List AVal)
  | scan (nConst nCarry : ℕ) (body : Jaxpr O AVal)

/-- Operations of jaxprs with nesting depth at most `d`. -/
def MOp : ℕ → Type
  | 0 => Empty
  | d + 1 => MOpStep (MOp d)

/-- `x[0]` (`memory.py:117`). -/
def AVal.head (a : AVal) : Except Err AVal :=
  match a.shape with
  | (_ + 1) :: sh => .ok ⟨sh, a.item⟩
  | _ => .error .shape

/-- `jtu.tree_map(lambda x: x[0], in_inp)` (`memory.py:117`). -/
def heads : List AVal → Except Err (List AVal)
  | [] => .ok []
  | a :: as =>
    match a.head with
    | .error e => .error e
    | .ok b =>
      match heads as with
      | .error e => .error e
      | .ok bs => .ok (b :: bs)

/-- `in_inp[0].shape[0]`, evaluated only if there is something to repeat (`memory.py:121-124`). -/
def loopSize (inp : List AVal) : Except Err ℕ :=
  match inp with
  | ⟨n :: _, _⟩ :: _ => .ok n
  | _ => .error .shape

/-- `ans[n_carry:] = tree_map(lambda x: jnp.repeat(x[None], n, axis=0), ans[n_carry:])` (`memory.py:121-124`). -/
def repeatYs (nCarry : ℕ) (inp ans : List AVal) : Except Err (List AVal) :=
  if ans.drop nCarry = [] then .ok ans
  else match loopSize inp with
    | .error e => .error e
    | .ok n => .ok (ans.take nCarry ++ (ans.drop nCarry).map fun a => ⟨n :: a.shape, a.item⟩)

/-- Evaluation of an equation (`memory.py:98-128`), given the treatment `sub` of nested jaxprs. -/
def evStep {O : Type} (sub : Jaxpr O AVal → List AVal → List AVal → Except Err (List AVal × ℤ)) :
    MOpStep O → List AVal → Except Err (List AVal × ℤ)
  | .prim f, xs =>
    match f xs with
    | .error e => .error e
    | .ok ys => .ok (ys, 0)
  | .pjit j consts, xs => sub j consts xs
  | .scan nConst nCarry body, xs =>
    let inp := xs.drop (nConst + nCarry)
    match heads inp with
    | .error e => .error e
    | .ok hs =>
      match sub body [] (xs.take nConst ++ (xs.take (nCarry + nConst)).drop nConst ++ hs) with
      | .error e => .error e
      | .ok (ans, peak) =>
        match repeatYs nCarry inp ans with
        | .error e => .error e
        | .ok ans' => .ok (ans', peak)

/-- `_compute_jaxpr_memory` on jaxprs of any nesting depth. -/
def evMem : (d : ℕ) → MOp d → List AVal → Except Err (List AVal × ℤ)
  | 0, op, _ => nomatch op
  | d + 1, op, xs => evStep (jaxprMem (evMem d)) op xs

/-- `compute_memory` on the closed jaxpr of the function (`memory.py:175-217`): the printed peak. -/
def computeMemory (d : ℕ) (j : Jaxpr (MOp d) AVal) (consts args : List AVal) : Except Err ℤ :=
  match jaxprMem (evMem d) j consts args with
  | .error e => .error e
  | .ok (_, peak) => .ok peak

end Folx.Mem

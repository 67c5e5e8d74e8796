import Verif.Interp.Env

/-!
# The function registry (`wrapped_functions.py:346-498`)

`_LAPLACE_FN_REGISTRY` is a Python dict; a dict is modelled as its list of items in insertion order.
-/

namespace Folx.Registry

open Folx.Interp (Err)

/-- Keys of the registry: JAX primitives (compared by identity) and names of jitted functions
(`wrapped_functions.py:346`). -/
inductive Key where
  | prim (id : ℕ)
  | name (s : String)
  deriving DecidableEq

/-- A Python dict: items in insertion order. -/
abbrev Dict (α : Type) := List (Key × α)

variable {α : Type}

/-- `d[k] = v`: replaces the value in place, otherwise appends. -/
def Dict.setItem : Dict α → Key → α → Dict α
  | [], k, v => [(k, v)]
  | (k', v') :: d, k, v => if k' = k then (k', v) :: d else (k', v') :: Dict.setItem d k v

/-- `k in d`. -/
def Dict.contains : Dict α → Key → Bool
  | [], _ => false
  | (k', _) :: d, k => decide (k' = k) || Dict.contains d k

/-- `d[k]`, `KeyError` if absent. -/
def Dict.getItem : Dict α → Key → Except Err α
  | [], _ => .error .key
  | (k', v') :: d, k => if k' = k then .ok v' else Dict.getItem d k

/-- `del d[k]`, `KeyError` if absent. -/
def Dict.delItem : Dict α → Key → Except Err (Dict α)
  | [], _ => .error .key
  | (k', v') :: d, k =>
    if k' = k then .ok d
    else match Dict.delItem d k with
      | .error e => .error e
      | .ok d' => .ok ((k', v') :: d')

/-- `register_function(primitive_or_name, laplacian)` (`wrapped_functions.py:444-448`). -/
def register (d : Dict α) (k : Key) (f : α) : Dict α := d.setItem k f

/-- `deregister_function(primitive_or_name)` (`wrapped_functions.py:451-455`). -/
def deregister (d : Dict α) (k : Key) : Except Err (Dict α) := d.delItem k

/-- `is_registered(primitive_or_name)` (`wrapped_functions.py:458-462`). -/
def isRegistered (d : Dict α) (k : Key) : Bool := d.contains k

/-- `get_laplacian(primitive_or_name, wrap_if_missing)` (`wrapped_functions.py:477-498`); `defaultWrap id` stands
for `wrap_forward_laplacian(primitive.bind)`.  The warning that is logged is left out. -/
def getLaplacian (defaultWrap : ℕ → α) (d : Dict α) (k : Key) (wrapIfMissing : Bool) : Except Err (Option α) :=
  if isRegistered d k then
    match d.getItem k with
    | .error e => .error e
    | .ok f => .ok (some f)
  else if wrapIfMissing then
    match k with
    | .prim id => .ok (some (defaultWrap id))
    | .name _ => .error .type
  else .ok none

/-- A call of the registry API that changes it. -/
inductive Op (α : Type) where
  | register (k : Key) (f : α)
  | deregister (k : Key)

/-- The effect of one call on the registry, and whether it raised.  A call that raises leaves the dict as the
failing `del` leaves it. -/
def Op.run (d : Dict α) : Op α → Dict α × Option Err
  | .register k f => (Registry.register d k f, none)
  | .deregister k =>
    match Registry.deregister d k with
    | .error e => (d, some e)
    | .ok d' => (d', none)

/-- The registry after a history of calls. -/
def runAll (d : Dict α) (h : List (Op α)) : Dict α := h.foldl (fun d o => (o.run d).1) d

end Folx.Registry

import Verif.Prog.Values

/-!
# Pytrees, `ravel` and `split_args` (model of `jax.tree_util` as used by folx, `utils.py:264-318`)
-/

namespace Folx

open Folx.Interp (Err)

/-- A pytree: containers (tuples, lists, dicts in key order) and leaves. -/
inductive PyTree (α : Type) where
  | leaf (a : α)
  | node (children : List (PyTree α))

namespace PyTree
variable {α β : Type}

/-- `jtu.tree_leaves`. -/
def leaves : PyTree α → List α
  | leaf a => [a]
  | node cs => cs.attach.flatMap fun c => c.1.leaves
termination_by t => sizeOf t
decreasing_by
  have := List.sizeOf_lt_of_mem c.2
  simp only [node.sizeOf_spec]
  omega

/-- `jtu.tree_structure`. -/
def struct : PyTree α → PyTree Unit
  | leaf _ => leaf ()
  | node cs => node (cs.attach.map fun c => c.1.struct)
termination_by t => sizeOf t
decreasing_by
  have := List.sizeOf_lt_of_mem c.2
  simp only [node.sizeOf_spec]
  omega

mutual
/-- Fill the structure from the left, returning what remains. -/
def fill : PyTree Unit → List α → Except Err (PyTree α × List α)
  | leaf _, [] => .error .length
  | leaf _, a :: rest => .ok (leaf a, rest)
  | node cs, l =>
    match fillAll cs l with
    | .error e => .error e
    | .ok (ts, rest) => .ok (node ts, rest)
/-- Fill several structures in order. -/
def fillAll : List (PyTree Unit) → List α → Except Err (List (PyTree α) × List α)
  | [], l => .ok ([], l)
  | c :: cs, l =>
    match fill c l with
    | .error e => .error e
    | .ok (t, rest) =>
      match fillAll cs rest with
      | .error e => .error e
      | .ok (ts, rest') => .ok (t :: ts, rest')
end

/-- `tree_def.unflatten(leaves)`: the number of leaves must match. -/
def unflatten (s : PyTree Unit) (l : List α) : Except Err (PyTree α) :=
  match fill s l with
  | .error e => .error e
  | .ok (t, []) => .ok t
  | .ok (_, _ :: _) => .error .length

end PyTree

/-! ### `ravel` -/

section Ravel
variable {F : Type}

/-- `flat` of `ravel` (`utils.py:305-307`): leaves in order, each in row-major order; `jnp.concatenate` of an
empty list raises. -/
def ravelLeaves (xs : List (PArr F)) : Except Err (List F) :=
  if xs = [] then .error .shape else .ok (xs.flatMap fun a => List.ofFn a.2)

/-- The loop of `unravel` (`utils.py:309-316`): `arr[idx : idx + size].reshape(shape)`, which raises if the slice
is too short. -/
def unravelFrom {E : Type} (arr : List E) : ℕ → List ℕ → Except Err (List (PArr E))
  | _, [] => .ok []
  | idx, s :: ss =>
    let piece := (arr.drop idx).take s
    if h : piece.length = s then
      match unravelFrom arr (idx + s) ss with
      | .error e => .error e
      | .ok rest => .ok (⟨s, fun i => piece.get (i.cast h.symm)⟩ :: rest)
    else .error .shape

/-- `ravel(pytree)` (`utils.py:300-318`): the flat vector and the function `unravel`. -/
def ravel {E : Type} (t : PyTree (PArr F)) :
    Except Err (List F × (List E → Except Err (PyTree (PArr E)))) :=
  match ravelLeaves t.leaves with
  | .error e => .error e
  | .ok flat => .ok (flat, fun arr =>
      match unravelFrom arr 0 (t.leaves.map fun a => a.1) with
      | .error e => .error e
      | .ok ls => t.struct.unflatten ls)

end Ravel

/-! ### `split_args` and `merge` -/

section Split
variable {α β : Type}

/-- `[(next(x_iter) if m else next(y_iter)) for m in mask]` (`utils.py:290-295`); a missing element raises
`StopIteration` (inside a comprehension: `RuntimeError`), surplus elements are ignored. -/
def mergeMask : List Bool → List α → List α → Except Err (List α)
  | [], _, _ => .ok []
  | true :: ms, [], _ => .error .other
  | true :: ms, a :: as, ex =>
    match mergeMask ms as ex with
    | .error e => .error e
    | .ok r => .ok (a :: r)
  | false :: ms, _, [] => .error .other
  | false :: ms, as, x :: ex =>
    match mergeMask ms as ex with
    | .error e => .error e
    | .ok r => .ok (x :: r)

/-- `split_args(args, in_axes)` (`utils.py:264-297`) for the test `isF` (`isinstance(_, filter_type)`): selected
leaves, other leaves and `merge`. -/
def splitArgs (isF : α → Bool) (args : PyTree α) :
    List α × List α × (List α → List α → Except Err (PyTree α)) :=
  let mask := args.leaves.map isF
  (args.leaves.filter isF, args.leaves.filter fun a => !isF a, fun as ex =>
    match mergeMask mask as ex with
    | .error e => .error e
    | .ok ls => args.struct.unflatten ls)

end Split

end Folx

import Verif.Interp.Init
import Verif.Tree.TreeProofs

/-!
# The transformed function on nested arguments (model of `folx/interpreter.py:222-253,274-306`)

`forwardLaplacian` (`Verif/Interp/Init.lean`) acts on flattened arguments.  Here is what surrounds it: flattening of nested
positional and keyword arguments, the `weights` tree and unflattening of the results.
-/

namespace Folx

open Folx.Interp

namespace PyTree
variable {α β : Type}

/-- `jtu.tree_map(f, tree)` for a function of one tree (`interpreter.py:283-285`). -/
def tmap (f : α → β) : PyTree α → PyTree β
  | leaf a => leaf (f a)
  | node cs => node (cs.attach.map fun c => c.1.tmap f)
termination_by t => sizeOf t
decreasing_by
  have := List.sizeOf_lt_of_mem c.2
  simp only [node.sizeOf_spec]
  omega

mutual
/-- `jtu.tree_map(init_weights, prefix, tree)` with the inner `tree_map` of `init_weights` (`interpreter.py:234-238`): every
leaf of the first tree is paired with all leaves of the corresponding subtree of the second, in order; a container must meet
a container with the same number of children.  The kinds of containers (tuple, list, dict with its keys) are not modelled. -/
def pairUp : PyTree α → PyTree β → Except Err (List (α × β))
  | leaf a, t => .ok (t.leaves.map fun b => (a, b))
  | node _, leaf _ => .error .other
  | node ws, node ts => pairUpAll ws ts
/-- Children one after the other. -/
def pairUpAll : List (PyTree α) → List (PyTree β) → Except Err (List (α × β))
  | [], [] => .ok []
  | w :: ws, t :: ts =>
    match pairUp w t with
    | .error e => .error e
    | .ok l =>
      match pairUpAll ws ts with
      | .error e => .error e
      | .ok r => .ok (l ++ r)
  | _, _ => .error .length
end

end PyTree

section
variable {F : Type}

/-- `weights is None` becomes `1.0` (`interpreter.py:231-232`). -/
def weightTree [One F] : Option (PyTree (LeafWeight F)) → PyTree (LeafWeight F)
  | none => .leaf (.scalar 1)
  | some w => w

/-- `full_like` at every pair (`interpreter.py:234-238`). -/
def fullPairs : List (LeafWeight F × ℕ) → Except Err (List (PArr F))
  | [] => .ok []
  | (w, m) :: r =>
    match w.full m with
    | .error e => .error e
    | .ok a =>
      match fullPairs r with
      | .error e => .error e
      | .ok l => .ok (⟨m, a⟩ :: l)

/-- `jac = jtu.tree_map(init_weights, weights, x)` (`interpreter.py:231-240`) where `x` is the tuple of the arguments of
`init_forward_laplacian_state`, i.e. (`:292-294`) the flattened arguments of the transformed function. -/
def weightsFor [One F] (weights : Option (PyTree (LeafWeight F))) (sizes : List ℕ) : Except Err (List (PArr F)) :=
  match (weightTree weights).pairUp (.node (sizes.map .leaf)) with
  | .error e => .error e
  | .ok l => fullPairs l

/-- `init_forward_laplacian_state(*x, sparsity, weights)` (`interpreter.py:222-253`) for a tree of weights; the rest is as
in `initState`. -/
def initStateT [Zero F] [One F] (sparsity : Bool) (weights : Option (PyTree (LeafWeight F))) (args : List (PVal F)) :
    Except Err (List (PVal F)) :=
  if args.any (fun v => v.2.isLapl) then .ok args
  else
    let xs : List (PArr F) := args.map fun v => ⟨v.1, v.2.x⟩
    let sizes := xs.map fun a => a.1
    match ravelLeaves xs with
    | .error e => .error e
    | .ok flat =>
      match weightsFor weights sizes with
      | .error e => .error e
      | .ok ws =>
        if sparsity then
          match unravelFrom ((List.range flat.length).map fun (i : ℕ) => (i : ℤ)) 0 sizes with
          | .error e => .error e
          | .ok idx => zipLeaves (fun x wi => sparseLeaf x wi.1 wi.2) xs (ws.zip idx)
        else
          match ravelLeaves ws with
          | .error e => .error e
          | .ok wflat =>
            match unravelFrom ((List.range wflat.length).map (diagCol wflat)) 0 sizes with
            | .error e => .error e
            | .ok cols => zipLeaves (denseLeaf wflat.length) xs cols

end

/-- A traced function: what `jax.make_jaxpr(fn)` gives for arguments of given structure and sizes, and the structure of the
result (`jtu.tree_structure(jax.eval_shape(fn, ...))`), `interpreter.py:286,301`. -/
structure Traced (d : ℕ) (F : Type) where
  jaxpr : Jaxpr (Op d F) (PArr F)
  consts : List (PArr F)
  out : PyTree Unit

/-- A Python function of positional arguments (a tuple) and keyword arguments (a dictionary), as tracing sees it: the traced
function depends on structure and sizes of the arguments. -/
def PyFn (d : ℕ) (F : Type) := PyTree ℕ → PyTree ℕ → Except Err (Traced d F)

section
variable {d : ℕ} {F : Type} [Zero F]

/-- Tracing gives a jaxpr with one input variable for every leaf of positional and keyword arguments and one output for
every leaf of the result (contract of `jax.make_jaxpr` and `jax.eval_shape`). -/
def PyFn.WellTraced (fn : PyFn d F) : Prop :=
  ∀ a k tr, fn a k = .ok tr → tr.jaxpr.invars.length = a.leaves.length + k.leaves.length ∧
    tr.jaxpr.outvars.length = tr.out.leaves.length

/-- `fn(*args, **kwargs)`: ordinary evaluation. -/
def PyFn.apply (fn : PyFn d F) (args kwargs : PyTree (PArr F)) : Except Err (PyTree (PArr F)) :=
  match fn (args.tmap fun a => a.1) (kwargs.tmap fun a => a.1) with
  | .error e => .error e
  | .ok tr =>
    match evalSpec (evPlain d) tr.jaxpr tr.consts (args.leaves ++ kwargs.leaves) with
    | .error e => .error e
    | .ok ys => tr.out.unflatten ys

/-- `forward_laplacian(fn, sparsity_threshold)(*args, weights=weights, **kwargs)` (`interpreter.py:274-306`).
`args` is the tuple of positional arguments, whose leaves are arrays or `FwdLaplArray`s (`IS_LEAF`), `kwargs` the dictionary
of keyword arguments.  `jax.jit` (`:307`) does not change the result. -/
def forwardLaplacianT [One F] (reg : String → Option (Prim F)) (junk : List (PVal F) → PVal F) (t : ℚ) (fn : PyFn d F)
    (weights : Option (PyTree (LeafWeight F))) (args : PyTree (PVal F)) (kwargs : PyTree (PArr F)) :
    Except Err (PyTree (PVal F)) :=
  let argsArr : PyTree (PArr F) := args.tmap fun v => ⟨v.1, v.2.x⟩
  match fn (argsArr.tmap fun a => a.1) (kwargs.tmap fun a => a.1) with
  | .error e => .error e
  | .ok tr =>
    let flatArgs := args.leaves
    let T := threshold t (flatArgs.map fun v => v.1).sum
    match initStateT (decide (0 < T)) weights flatArgs with
    | .error e => .error e
    | .ok lapl =>
      match evalLapl reg junk T.toNat d tr.jaxpr tr.consts lapl with
      | .error e => .error e
      | .ok out => tr.out.unflatten out

end

end Folx

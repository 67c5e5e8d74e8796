import Verif.Interp.Eval
import Verif.Tree.PyTree
import Mathlib.Data.Rat.Floor

/-!
# Initial state and entry point (model of `folx/interpreter.py:222-307`)
-/

namespace Folx

open Folx.Interp

/-- A leaf of the `weights` argument: a scalar or an array. -/
inductive LeafWeight (F : Type) where
  | scalar (w : F)
  | array (a : PArr F)

/-- The `weights` argument (`interpreter.py:280`): a pytree prefix of the flat tuple of arguments, i.e. one leaf
for all arguments or one per argument; `None` means `1.0` (`:231-232`). -/
inductive Weights (F : Type) where
  | absent
  | all (w : LeafWeight F)
  | perArg (ws : List (LeafWeight F))

section
variable {F : Type}

/-- `jnp.full_like(x, fill_value=weight)` (`interpreter.py:234-238`) for an array of size `m`.  An array-valued
weight must have the size of the argument (other numpy broadcasts are not modelled). -/
def LeafWeight.full (m : ℕ) : LeafWeight F → Except Err (Fin m → F)
  | .scalar w => .ok fun _ => w
  | .array a => castTo (β := fun m => Fin m → F) m a

/-- One weight array per argument. -/
def fullAll : List (LeafWeight F) → List ℕ → Except Err (List (PArr F))
  | [], [] => .ok []
  | w :: ws, m :: ms =>
    match w.full m with
    | .error e => .error e
    | .ok a =>
      match fullAll ws ms with
      | .error e => .error e
      | .ok r => .ok (⟨m, a⟩ :: r)
  | _, _ => .error .length

/-- `jtu.tree_map(init_weights, weights, x)` (`interpreter.py:231-240`). -/
def weightArrs [One F] (weights : Weights F) (sizes : List ℕ) : Except Err (List (PArr F)) :=
  match weights with
  | .absent => fullAll (sizes.map fun _ => .scalar 1) sizes
  | .all w => fullAll (sizes.map fun _ => w) sizes
  | .perArg ws => fullAll ws sizes

/-- `tree_map(FwdLaplArray, x, jacobian, zeros_like(x))` (`interpreter.py:246-253`) for one argument, sparse: one
row holding the weights, with the position in the flattened input as index. -/
def sparseLeaf [Zero F] (x : PArr F) (w : PArr F) (idx : PArr ℤ) : Except Err (PVal F) :=
  match castTo (β := fun m => Fin m → F) x.1 w, castTo (β := fun m => Fin m → ℤ) x.1 idx with
  | .ok w', .ok i => .ok ⟨x.1, .lapl ⟨x.2, .sparse [⟨i, w'⟩], fun _ => 0⟩⟩
  | .error e, _ => .error e
  | _, .error e => .error e

/-- Dense: `cols` holds for every element the column of `jnp.diag(ravel(jac)[0])` that `vmap(unravel)` puts
there. -/
def denseLeaf [Zero F] (n : ℕ) (x : PArr F) (cols : PArr (List F)) : Except Err (PVal F) :=
  match castTo (β := fun m => Fin m → List F) x.1 cols with
  | .error e => .error e
  | .ok c => .ok ⟨x.1, .lapl ⟨x.2, .dense ((List.range n).map fun i p => (c p).getD i 0), fun _ => 0⟩⟩

/-- Combine the leaves of the three trees. -/
def zipLeaves {A B C : Type} (f : A → B → Except Err C) : List A → List B → Except Err (List C)
  | [], [] => .ok []
  | a :: as, b :: bs =>
    match f a b with
    | .error e => .error e
    | .ok c =>
      match zipLeaves f as bs with
      | .error e => .error e
      | .ok cs => .ok (c :: cs)
  | _, _ => .error .length

/-- Column `j` of `jnp.diag(v)`. -/
def diagCol [Zero F] (v : List F) (j : ℕ) : List F :=
  (List.range v.length).map fun i => if i = j then v.getD j 0 else 0

/-- `init_forward_laplacian_state(*x, sparsity, weights)` (`interpreter.py:222-253`).  `vmap(unravel)` acts on
the matrix as `unravel` does on the vector of its columns. -/
def initState [Zero F] [One F] (sparsity : Bool) (weights : Weights F) (args : List (PVal F)) :
    Except Err (List (PVal F)) :=
  if args.any (fun v => v.2.isLapl) then .ok args
  else
    let xs : List (PArr F) := args.map fun v => ⟨v.1, v.2.x⟩
    let sizes := xs.map fun a => a.1
    match ravelLeaves xs with
    | .error e => .error e
    | .ok flat =>
      match weightArrs weights sizes with
      | .error e => .error e
      | .ok ws =>
        if sparsity then
          match unravelFrom ((List.range flat.length).map fun (i : ℕ) => (i : ℤ)) 0 sizes with
          | .error e => .error e
          | .ok idx => zipLeaves (fun x wi => sparseLeaf x wi.1 wi.2) xs (ws.zip idx)
        else
          match ravelLeaves ws with
          | .error e => .error e
          | .ok wflat =>
            match unravelFrom ((List.range wflat.length).map (diagCol wflat)) 0 sizes with
            | .error e => .error e
            | .ok cols => zipLeaves (denseLeaf wflat.length) xs cols

end

/-- Python's `int(·)` on a float: truncation towards zero. -/
def pyInt (q : ℚ) : ℤ := if 0 ≤ q then ⌊q⌋ else ⌈q⌉

/-- The threshold used (`interpreter.py:288-291`); `size` is the total number of input elements. -/
def threshold (t : ℚ) (size : ℕ) : ℤ := if 0 < t ∧ t < 1 then pyInt (t * size) else pyInt t

/-- `forward_laplacian(fn, sparsity_threshold)(*args, weights=weights)` (`interpreter.py:256-307`) on flattened
arguments, for a function with jaxpr `j`.  A threshold that is not positive disables sparsity; then it is never
compared with anything, so it may be cut off at `0`. -/
def forwardLaplacian {F : Type} [Zero F] [One F] (reg : String → Option (Prim F)) (junk : List (PVal F) → PVal F)
    (t : ℚ) (d : ℕ) (j : Jaxpr (Op d F) (PArr F)) (consts : List (PArr F)) (weights : Weights F)
    (args : List (PVal F)) : Except Err (List (PVal F)) :=
  let T := threshold t (args.map fun v => v.1).sum
  match initState (decide (0 < T)) weights args with
  | .error e => .error e
  | .ok lapl => evalLapl reg junk T.toNat d j consts lapl

end Folx

import Verif.ND.SumRule

/-!
# The general reduction rule on arrays with explicit shapes (`jvp.py:161-187`, `utils.py:428-517,546-564`)

`get_jacobian_for_reduction` is modelled for one Jacobian: `sparse_jvp` reaches it with several only if it is called with
several arguments, and then only for elementwise and indexing functions (`jvp.py:570-576`), which return earlier.
`none` where Python raises.
-/

namespace Folx.Layout
open Vmap Dot

variable {F : Type}

/-- The `in_axes` of a function (`wrapper.py:73-95`): axes for all arguments or one tuple of axes per argument. -/
inductive AxesArg where
  | flat (axes : List ℤ)
  | nested (rows : List (List ℤ))

/-- `axes[axes < 0] += ndim` (`utils.py:436`). -/
def resolveRow (n : ℕ) (a : List ℤ) : List ℤ := a.map fun i => if i < 0 then i + n else i

/-- `axes` as a two-dimensional array (`utils.py:436-442`); rows of different lengths are rejected by `np.array`. -/
def axesRows (n : ℕ) : AxesArg → Option (List (List ℤ))
  | .flat a => some [resolveRow n a]
  | .nested rows =>
    if ∀ a ∈ rows, ∀ b ∈ rows, a.length = b.length then some (rows.map (resolveRow n)) else none

/-- Axes that `np.transpose` accepts as part of a permutation: distinct and in range. -/
def validAxes (n : ℕ) (a : List ℤ) : Option (List ℕ) :=
  if a.Nodup ∧ ∀ i ∈ a, 0 ≤ i ∧ i < n then some (a.map Int.toNat) else none

/-- The axes of the only Jacobian: `jtu.tree_map(rearrange, masks, kept_axes, jac_reduced_axes)` (`utils.py:482`) raises
unless there is exactly one row of axes. -/
def singleAxes (n : ℕ) (axes : AxesArg) : Option (List ℕ) :=
  match axesRows n axes with
  | some [a] => validAxes n a
  | _ => none

/-- `np.unique(m)` without `-1` (`utils.py:486-487`) for the block `m = mask[u]` of a three-dimensional array. -/
def blockIdx (m : ND ℤ) (u : ℕ) : Finset ℤ :=
  ((allIdx m.shape.tail).map fun w => m.get (u :: w)).toFinset.erase (-1)

/-- `get_jacobian_for_reduction([jac], axes)` (`utils.py:428-517`): the materialised Jacobian and the output mask. -/
def jacForReduction [AddCommMonoid F] [Inhabited F] (data : ND F) (x0 : ND ℤ) (axes : AxesArg) :
    Option (ND F × ND ℤ) := do
  let a ← singleAxes (data.ndim - 1) axes
  let mask := bexcept x0.shape.tail x0
  let redShape := sizes mask.shape.tail a
  let jacRed := (a.map fun i => i + 1) ++ [0]
  let kept := (List.range mask.ndim).filter fun i => decide (i ∉ jacRed)
  let keptShape := sizes mask.shape kept
  let order := kept ++ jacRed
  if keptShape.prod * redShape.prod = 0 then none else
  let arr := mask.transpose order
  let m ← arr.reshape? [keptShape.prod, redShape.prod, arr.shape.prod / (keptShape.prod * redShape.prod)]
  let maxU := ((List.range keptShape.prod).map fun u => (blockIdx m u).card).foldr max 0
  let outM := ND.ofFn [keptShape.prod, maxU] fun w => ((blockIdx m (w.getD 0 0)).sort (· ≤ ·)).getD (w.getD 1 0) (-1)
  let out ← outM.reshape? (keptShape ++ List.replicate a.length 1 ++ [outM.shape.prod / keptShape.prod])
  let out := out.transpose (argsort order)
  let ids ← getIndexMask x0 out
  let jac ← materialize true data ids maxU
  let outMask ← reshapeLead out keptShape
  pure (jac, outMask)

/-- `broadcast_mask_to_jacobian(mask, jacobian)` (`utils.py:546-564`): every row of the mask is broadcast (aligned at the back)
to the shape of the rows of the Jacobian. -/
def broadcastMask (mask : ND ℤ) (jac : List ℕ) : Option (ND ℤ) :=
  if mask.shape.getD 0 0 ≠ jac.getD 0 0 then none else
  if broadcastShapes [mask.shape.tail, jac.tail] ≠ some jac.tail then none else
  some (ND.ofFn jac fun w => mask.get (w.getD 0 0 :: bcoord mask.shape.tail jac.tail w.tail))

/-- `tree_concat` along the Jacobian axis (`tree_utils.py:51-52`) for two arrays. -/
def concat0 [Inhabited F] (a b : ND F) : ND F :=
  ND.ofFn ((a.shape.getD 0 0 + b.shape.getD 0 0) :: a.shape.tail) fun w =>
    if w.getD 0 0 < a.shape.getD 0 0 then a.get w else b.get ((w.getD 0 0 - a.shape.getD 0 0) :: w.tail)

/-- `tree_expand(x, axis=0)` (`tree_utils.py:69-70`). -/
def expand0 [Inhabited F] (x : ND F) : ND F := ND.ofFn (1 :: x.shape) fun w => x.get w.tail

/-- Row `k` of an array. -/
def row0 [Inhabited F] (x : ND F) (k : ℕ) : ND F := ND.ofFn x.shape.tail fun w => x.get (k :: w)

/-- `jax.vmap(f, in_axes=0, out_axes=0)` for a function returning arrays of shape `o` (trusted primitive). -/
def vmap0 [Inhabited F] (f : ND F → ND F) (o : List ℕ) (x : ND F) : ND F :=
  ND.ofFn (x.shape.getD 0 0 :: o) fun w => (f (row0 x (w.getD 0 0))).get w.tail

/-- `tree_take(x, slice(None, -1), axis=0)` (`tree_utils.py:73-82`). -/
def initRows [Inhabited F] (x : ND F) : ND F := ND.ofFn ((x.shape.getD 0 0 - 1) :: x.shape.tail) fun w => x.get w

/-- `tree_take(x, -1, axis=0)`: `jnp.take` with a negative index counts from the end. -/
def lastRow [Inhabited F] (x : ND F) : ND F := row0 x (x.shape.getD 0 0 - 1)

/-- Result of the rule: `dense_jvp` is called or a sparse Jacobian is returned with the Laplacian. -/
inductive ReduceOut (F : Type) where
  | dense
  | sparse (jac : ArrJac F) (lapl : ND F)

/-- The general branch of `sparse_jvp` (`jvp.py:161-187`); `push t = jax.jvp(fwd, x, t)[1]`, an array of shape `o`. -/
def sparseReduceArr [AddCommMonoid F] [Inhabited F] (T : ℕ) (push : ND F → ND F) (o : List ℕ) (lapl data : ND F)
    (x0 : ND ℤ) (axes : AxesArg) : Option (ReduceOut F) := do
  let jm ← jacForReduction data x0 axes
  if T < jm.2.shape.getD 0 0 then some .dense else
  let l := expand0 lapl
  let m ← broadcastShapes [jm.1.shape.tail, l.shape.tail]
  let tangent := concat0 (bexcept m jm.1) (bexcept m l)
  let yTangent := vmap0 push o tangent
  let grad := initRows yTangent
  let mask ← broadcastMask jm.2 grad.shape
  pure (.sparse ⟨grad, some mask⟩ (lastRow yTangent))

end Folx.Layout

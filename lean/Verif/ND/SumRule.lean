import Verif.ND.Dot
import Mathlib.Data.Finset.Sort

/-!
# `sparse_sum_jvp` on arrays with explicit shapes (`jvp.py:38-113`)

`Verif/Core/Jvp.lean` models the same rule position by position; here the transpositions, reshapes, the collapsing of repeated
axes and the segment sums are kept.  `JAC_DIM = 0`; `none` where Python raises.
-/

namespace Folx.Layout
open Vmap Dot

variable {α F : Type} [Inhabited α]

/-- `FwdJacobian` (`api.py:19-46`) as arrays: the data and, if sparse, the indices of the inputs. -/
structure ArrJac (F : Type) where
  data : ND F
  idx : Option (ND ℤ)

/-- `x.reshape(-1, *rest)`: ambiguous (raises) if `rest` has no elements. -/
def reshapeLead (x : ND α) (rest : List ℕ) : Option (ND α) :=
  if rest.prod = 0 then none else x.reshape? (x.shape.prod / rest.prod :: rest)

/-- Column `q` of a two-dimensional array. -/
def column (arr : ND ℤ) (q : ℕ) : List ℤ := (List.range (arr.shape.getD 0 0)).map fun k => arr.get [k, q]

/-- `(np.diff(a) > 0).sum()` (`jvp.py:67`). -/
def increases : List ℤ → ℕ
  | a :: b :: l => (if a < b then 1 else 0) + increases (b :: l)
  | _ => 0

/-- `jnp.unique(a, size=size, fill_value=-1)` (`jvp.py:71`): the distinct values in increasing order, cut or filled up to
`size` (trusted primitive of JAX). -/
def uniqueSized (size : ℕ) (l : List ℤ) : List ℤ :=
  let u := (l.toFinset.sort (· ≤ ·)).take size
  u ++ List.replicate (size - u.length) (-1)

/-- `compute_outdeps(arr, axis=0)` (`jvp.py:65-75`) for a two-dimensional array: the columns are sorted, the largest number of
distinct values in a column is found by counting increases, and every column is replaced by its distinct values. -/
def computeOutdeps (arr : ND ℤ) : Option (ND ℤ) :=
  let n := arr.shape.getD 1 0
  let sorted := fun q => (column arr q).mergeSort (fun a b => decide (a ≤ b))
  if n = 0 then none else
  let maxOut := ((List.range n).map fun q => increases (sorted q)).foldr max 0 + 1
  some (ND.ofFn [maxOut, n] fun w => (uniqueSized maxOut (sorted (w.getD 1 0))).getD (w.getD 0 0) (-1))

/-- `np.argmax(l == z)`: the first match, 0 if there is none. -/
def firstMatch (l : List ℤ) (z : ℤ) : ℤ := if z ∈ l then (l.idxOf z : ℤ) else 0

/-- `np.argmax(idx[:, None] == idx_out, axis=1)` (`jvp.py:87`). -/
def argmaxCols (idx out : ND ℤ) : ND ℤ :=
  ND.ofFn idx.shape fun w => firstMatch (column out (w.getD 1 0)) (idx.get w)

variable [AddCommMonoid F] [Inhabited F]

/-- `jax.vmap(segment_sum, in_axes=1, out_axes=1)(jac, idx)` (`jvp.py:107-108`) for arrays of shapes `(R, V, C)` and `(R, V)`:
segment `i` collects the entries whose index is `i`; negative and too large indices are dropped (trusted primitive of JAX). -/
def segSumCols (jac : ND F) (idx : ND ℤ) (M : ℕ) : ND F :=
  ND.ofFn (M :: jac.shape.tail) fun w =>
    ((List.range (jac.shape.getD 0 0)).map fun k =>
      if idx.get [k, w.getD 1 0] = (w.getD 0 0 : ℤ) then jac.get (k :: w.tail) else 0).sum

/-- The block segment sum (`jvp.py:92-112`): the axes along which the indices repeat are collapsed and moved to the back, the
others are merged, the sum is taken, and the axes are moved back. -/
def segLayout (jac : ND F) (idx : ND ℤ) (M : ℕ) (out : List ℕ) : Option (ND F) := do
  let c := compact idx
  let vmapped := (List.range c.1.ndim).filter fun i => decide (i ∉ c.2 ∧ 0 < i)
  let order := 0 :: (vmapped ++ c.2)
  let inv := argsort order
  let idx := dropLast c.2.length (c.1.transpose order)
  let jac := jac.transpose order
  let inShape := jac.shape
  let r := idx.shape.getD 0 0
  if r = 0 then none else
  let idx ← idx.reshape? [r, idx.shape.prod / r]
  if (idx.shape.take 2).prod = 0 then none else
  let jac ← jac.reshape? (idx.shape.take 2 ++ [jac.shape.prod / (idx.shape.take 2).prod])
  let res := segSumCols jac idx M
  let res ← res.reshape? (M :: inShape.tail)
  (res.transpose inv).reshape? (M :: out)

/-- `sparse_sum_jvp(laplace_args, axes, ...)` (`jvp.py:38-113`) for an array `x` of shape `s`, its Laplacian, the data and
indices of its Jacobian and resolved, nonnegative axes. -/
def sparseSumArr (T : ℕ) (x lapl data : ND F) (x0 : ND ℤ) (axes : List ℕ) : Option (ND F × ArrJac F × ND F) := do
  let y := sumDims x axes
  let yLapl := sumDims lapl axes
  let out := y.shape
  let reduced := 0 :: axes.map fun i => i + 1
  let order := reduced ++ (List.range data.ndim).filter fun i => decide (i ∉ reduced)
  let idx ← reshapeLead (x0.transpose order) [out.prod]
  let idxOut ← computeOutdeps idx
  let rows := idxOut.shape.getD 0 0
  let seg ←
    if T < rows then (maxN idx).map fun m => (idx, (none : Option (ND ℤ)), (m + 1).toNat)
    else (idxOut.reshape? (rows :: out)).map fun m => (argmaxCols idx idxOut, some m, rows)
  let jac ← reshapeLead (data.transpose order) [out.prod]
  let jac ← reshapeLead jac out
  let ids ← reshapeLead seg.1 out
  let res ← segLayout jac ids seg.2.2 out
  pure (y, ⟨res, seg.2.1⟩, yLapl)

end Folx.Layout

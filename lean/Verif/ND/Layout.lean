import Verif.ND.VmapSeq
import Mathlib.Algebra.BigOperators.Group.List.Basic

/-!
# Materialising sparse Jacobians: the array layout (`api.py:54-115`, `utils.py:335-358,413-425`)

`FwdJacobian.materialize_for_idx`, `get_index_mask`, `construct_jac_for` and `dense_array` on arrays with explicit shapes.
`Verif/Core/Jac.lean` models the same methods position by position; here the transpositions, reshapes and broadcasts are
kept.  `JAC_DIM = 0`.
-/

namespace Folx

namespace ND
variable {α : Type} [Inhabited α]

/-- `jnp.transpose(x, order)`: axis `order[j]` of `x` becomes axis `j`. -/
def transpose (x : ND α) (order : List ℕ) : ND α :=
  ofFn (order.map fun a => x.shape.getD a 0) fun idx =>
    x.get ((List.range x.shape.length).map fun j => idx.getD (order.idxOf j) 0)

/-- `x.reshape(shape)`, raising if the number of elements differs. -/
def reshape? (x : ND α) (shape : List ℕ) : Option (ND α) :=
  if h : x.shape.prod = shape.prod then some (x.reshape shape h) else none

end ND

namespace Layout
open Vmap

variable {α F : Type} [Inhabited α]

/-- Coordinates read by `broadcast_to`: aligned at the back, 0 along axes of size 1. -/
def bcoord (shape target idx : List ℕ) : List ℕ :=
  (List.range shape.length).map fun i =>
    if shape.getD i 0 = 1 then 0 else idx.getD (target.length - shape.length + i) 0

/-- `jnp.broadcast_to(x, target)` for a shape that broadcasts to `target`. -/
def broadcastTo (x : ND α) (target : List ℕ) : ND α :=
  ND.ofFn target fun idx => x.get (bcoord x.shape target idx)

/-- `broadcast` in `broadcast_except` (`utils.py:352-356`) for `axis = JAC_DIM = 0`: the axis is moved to the back, the
array is broadcast and the axis is moved to the front again. -/
def bexcept (m : List ℕ) (a : ND α) : ND α :=
  (broadcastTo (a.moveaxis 0 (a.ndim - 1)) (m ++ [a.shape.getD 0 0])).moveaxis m.length 0

/-- `np.take(arr, [0], axis=d)` (`utils.py:420`). -/
def take0 (arr : ND α) (d : ℕ) : ND α := ND.ofFn (arr.shape.set d 1) fun w => arr.get (w.set d 0)

/-- `(first_item == arr).all()` (`utils.py:421`): the first item is broadcast along `d`. -/
def repeats [DecidableEq α] (arr : ND α) (d : ℕ) : Bool :=
  (List.range arr.shape.prod).all fun k =>
    decide (arr.get ((unravelIdx arr.shape k).set d 0) = arr.get (unravelIdx arr.shape k))

/-- One iteration of the loop in `compact_repeated_dims_except` (`utils.py:419-423`). -/
def compactStep [DecidableEq α] (s : ND α × List ℕ) (d : ℕ) : ND α × List ℕ :=
  if repeats s.1 d then (take0 s.1 d, s.2 ++ [d]) else s

/-- `compact_repeated_dims_except(arr, axis=0)` (`utils.py:413-425`); taking item 0 of an empty axis raises, callers check
for empty axes. -/
def compact [DecidableEq α] (arr : ND α) : ND α × List ℕ :=
  ((List.range arr.ndim).filter fun d => decide (d ≠ 0)).foldl compactStep (arr, [])

/-- `np.argsort(order)` for a permutation of the axes (`api.py:85`): the position of each axis. -/
def argsort (order : List ℕ) : List ℕ := (List.range order.length).map fun j => order.idxOf j

/-- `idx[(..., *([0] * n))]` (`api.py:89`): item 0 along the last `n` axes. -/
def dropLast (n : ℕ) (x : ND α) : ND α :=
  ND.ofFn (x.shape.take (x.shape.length - n)) fun w => x.get (w ++ List.replicate n 0)

variable [AddCommMonoid F]

/-- `aggregate = vmap(segment_sum)` (`api.py:102-104`): row `b`, segment `i` collects the entries of row `b` whose index
is `i`; negative and too large indices are dropped.  `jax.vmap` and `jax.ops.segment_sum` are trusted primitives. -/
def aggregate [Inhabited F] (x : ND F) (idx : ND ℤ) (M : ℕ) : ND F :=
  ND.ofFn (x.shape.getD 0 0 :: M :: x.shape.drop 2) fun w =>
    ((List.range (x.shape.getD 1 0)).map fun k =>
      if idx.get [w.getD 0 0, k] = (w.getD 1 0 : ℤ) then x.get (w.getD 0 0 :: k :: w.drop 2) else 0).sum

/-- The transpositions, reshapes and the segment sum (`api.py:84-109`) for broadcast `x`, `idx` and the copied axes. -/
def aggregateLayout [Inhabited F] (x : ND F) (idx : ND ℤ) (copied : List ℕ) (M : ℕ) : Option (ND F) := do
  let indexed := (List.range idx.ndim).filter fun a => decide (a ∉ copied ∧ a ≠ 0)
  let order := indexed ++ 0 :: copied
  let inv := argsort order
  let x := x.transpose order
  let idx := dropLast copied.length (idx.transpose order)
  let n := indexed.length
  let outer := x.shape.take n
  let inner := x.shape.drop (n + 1)
  let x ← x.reshape? ((x.shape.take n).prod :: x.shape.drop n)
  let idx ← idx.reshape? ((idx.shape.take n).prod :: idx.shape.drop n)
  let r := aggregate x idx M
  if (outer ++ inner).prod = 0 then none else
  let r ← r.reshape? (outer ++ (r.shape.prod / (outer ++ inner).prod) :: inner)
  pure (r.transpose inv)

/-- `materialize_for_idx(idx, max_idx)` (`api.py:58-107`); `static`: `idx` is a numpy array. -/
def materialize [Inhabited F] (static : Bool) (data : ND F) (idx : ND ℤ) (M : ℕ) : Option (ND F) :=
  if static ∧ 0 ∈ idx.shape.tail then none else
  let idx := if static then (compact idx).1 else idx
  match broadcastShapes [data.shape.tail, idx.shape.tail] with
  | none => none
  | some m =>
    if 0 ∈ m ∨ data.shape.getD 0 0 ≠ idx.shape.getD 0 0 then none else
    let x := bexcept m data
    let idx := bexcept m idx
    if static then aggregateLayout x (compact idx).1 (compact idx).2 M else aggregateLayout x idx [] M

/-- `get_indices` (`api.py:125-130`) for one position: the first place where the mask value occurs in the outputs, -1 if
there is none. -/
def getIndex (outs : List ℤ) (a : ℤ) : ℤ := if a ∈ outs then (outs.idxOf a : ℤ) else -1

/-- `get_index_mask(outputs)` (`api.py:111-137`): `outputs` and the mask are broadcast, flattened to
`(rows, positions)`, compared position by position and reshaped; the argmax over no outputs raises. -/
def getIndexMask (mask : ND ℤ) (outs : ND ℤ) : Option (ND ℤ) :=
  match broadcastShapes [outs.shape.tail, mask.shape.tail] with
  | none => none
  | some m => do
    if m.prod = 0 ∨ outs.shape.getD 0 0 = 0 then none else
    let outs := bexcept m outs
    let mask := bexcept m mask
    let flatMask ← mask.reshape? [mask.shape.prod / m.prod, m.prod]
    let flatOuts ← outs.reshape? [outs.shape.prod / m.prod, m.prod]
    let res := ND.ofFn flatMask.shape fun w =>
      getIndex ((List.range (flatOuts.shape.getD 0 0)).map fun j => flatOuts.get [j, w.getD 1 0]) (flatMask.get w)
    res.reshape? mask.shape

/-- `construct_jac_for(idx)` (`api.py:143-158`) for a sparse Jacobian; for an empty index array it returns one row of
zeros. -/
def constructJacFor [Inhabited F] (static : Bool) (data : ND F) (x0 : ND ℤ) (idx : ND ℤ) : Option (ND F) :=
  if idx.shape.getD 0 0 = 0 then some (ND.ofFn (1 :: data.shape.tail) fun _ => 0) else
  match getIndexMask x0 idx with
  | none => none
  | some mask => materialize static data mask (idx.shape.getD 0 0)

/-- `max_n` (`api.py:170-174`) of a sparse Jacobian; the maximum of an empty array raises. -/
def maxN (x0 : ND ℤ) : Option ℤ :=
  match x0.data with
  | [] => none
  | a :: as => some (as.foldl max a)

/-- `dense_array` (`api.py:160-168`) of a sparse Jacobian: `construct_jac_for(arange(max_n + 1)[..., None, ..., None])`. -/
def denseArray [Inhabited F] (data : ND F) (x0 : ND ℤ) : Option (ND F) :=
  match maxN x0 with
  | none => none
  | some n => constructJacFor true data x0
    (ND.ofFn ((n + 1).toNat :: List.replicate (data.shape.length - 1) 1) fun w => (w.getD 0 0 : ℤ))

end Layout
end Folx

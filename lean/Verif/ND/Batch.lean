import Verif.ND.Array
import Mathlib.Data.Rat.Floor

/-!
# `batched_vmap` and `auto_batched_vmap` (`vmap.py`, `experimental/vmap.py`)

The arguments are modelled after `in_tree.flatten_up_to(args)` (`vmap.py:24-27`): one entry per leaf of `in_axes`,
each a pytree of arrays given by its list of leaves.  `fn` acts on that list; its result is given the same way,
one entry per leaf of `out_axes`, each a list of leaves.  Keyword arguments are part of `fn`
(`functools.partial`, `vmap.py:22`).
-/

namespace Folx.Batch

variable {α : Type} [Inhabited α]

/-- Pytrees grouped by the leaves of an axes specification. -/
abbrev Grouped (α : Type) := List (List (ND α))

/-- Shapes of all leaves. -/
def shapes (a : Grouped α) : List (List (List ℕ)) := a.map fun g => g.map ND.shape

/-- A function `jax` can trace: the shapes of the results depend on the shapes of the arguments only. -/
def Traced (fn : Grouped α → Grouped α) : Prop := ∀ a b, shapes a = shapes b → shapes (fn a) = shapes (fn b)

/-- Axis `ax` (possibly negative) of an array with `n` axes. -/
def normAxis (n : ℕ) (ax : ℤ) : ℕ := if ax < 0 then (ax + n).toNat else ax.toNat

instance : Inhabited (ND α) := ⟨⟨[0], [], rfl⟩⟩

/-- Leaf `l` of group `g`. -/
def leafAt (a : Grouped α) (g l : ℕ) : ND α := (a.getD g []).getD l default

/-- Stacking results: leaf by leaf, `y i` for `i < n` along the axis given for its group.  The structure and the
shapes are those of one traced call. -/
def stackGrouped (n : ℕ) (y : ℕ → Grouped α) (axes : ℕ → ℤ) : Grouped α :=
  (shapes (y 0)).mapIdx fun g ss => ss.mapIdx fun l s =>
    ND.stack n s (fun i => leafAt (y i) g l) (normAxis (s.length + 1) (axes g))

/-- Slice `i` of the arguments: along the given axis, or the whole argument for axis `None`. -/
def sliceArgs (inAxes : List (Option ℤ)) (args : Grouped α) (i : ℕ) : Grouped α :=
  List.zipWith (fun ax leaves => match ax with
    | none => leaves
    | some ax => leaves.map fun x => x.take i (normAxis x.ndim ax)) inAxes args

/-- `jax.vmap(fn, in_axes, out_axes)(*args)` (trusted primitive of JAX): result `i` is `fn` of the `i`-th slices,
results are stacked; arguments with axis `None` are passed whole. -/
def vmap (fn : Grouped α → Grouped α) (n : ℕ) (inAxes : List (Option ℤ)) (outAxes : List ℤ) (args : Grouped α) :
    Grouped α :=
  stackGrouped n (fun i => fn (sliceArgs inAxes args i)) (fun g => outAxes.getD g 0)

/-- `merge` (`vmap.py:34-37`): interleave mapped and static arguments again.  (Both lists are as long as `mask`
asks for; a missing element would raise.) -/
def merge {β : Type} : List Bool → List β → List β → List β
  | true :: m, x :: xs, ys => x :: merge m xs ys
  | false :: m, xs, y :: ys => y :: merge m xs ys
  | _, _, _ => []

/-- `x[remainder:]` along the leading axis. -/
def dropRows (x : ND α) (r : ℕ) : ND α :=
  match h : x.shape with
  | [] => x
  | n :: rest => ⟨(n - r) :: rest, x.data.drop (r * rest.prod), by
      rw [List.length_drop, x.wf, h, List.prod_cons, List.prod_cons, Nat.sub_mul]⟩

/-- `x[:remainder]` along the leading axis. -/
def takeRows (x : ND α) (r : ℕ) : ND α :=
  match h : x.shape with
  | [] => x
  | n :: rest => ⟨min r n :: rest, x.data.take (r * rest.prod), by
      rw [List.length_take, x.wf, h, List.prod_cons, List.prod_cons, Nat.mul_min_mul_right]⟩

/-- `x.reshape(num_batches, max_batch_size, *x.shape[1:])` (`vmap.py:56`), `None` if the sizes do not agree
(`reshape` raises). -/
def splitLeading (x : ND α) (a b : ℕ) : Option (ND α) :=
  if h : x.shape.prod = (a :: b :: x.shape.tail).prod then some (x.reshape _ h) else none

/-- `x.reshape(-1, *x.shape[2:])` (`vmap.py:68`). -/
def joinLeading (x : ND α) : ND α :=
  match h : x.shape with
  | a :: b :: rest => x.reshape ((a * b) :: rest) (by rw [h]; simp [Nat.mul_assoc])
  | _ => x

/-- `jnp.concatenate([r, x], axis=0)` (`vmap.py:73`); `None` if the shapes differ. -/
def concatRows (r x : ND α) : Option (ND α) :=
  match hr : r.shape, hx : x.shape with
  | n :: rest, m :: rest' =>
    if h : rest = rest' then some ⟨(n + m) :: rest, r.data ++ x.data, by
      subst h; rw [List.length_append, r.wf, x.wf, hr, hx]; simp [Nat.add_mul]⟩
    else none
  | _, _ => none

/-- Apply a partial function to all leaves (`jtu.tree_map`). -/
def mapLeavesM (f : ND α → Option (ND α)) (a : Grouped α) : Option (Grouped α) := a.mapM fun g => g.mapM f

/-- `jtu.tree_map` with two trees. -/
def zipLeavesM (f : ND α → ND α → Option (ND α)) (a b : Grouped α) : Option (Grouped α) :=
  if a.length = b.length ∧ ∀ p ∈ a.zip b, p.1.length = p.2.length then
    (a.zip b).mapM fun p => (p.1.zip p.2).mapM fun q => f q.1 q.2
  else none

/-- `batched_vmap(fn, max_batch_size, in_axes, out_axes)(*args)` (`vmap.py:11-83`).  `none` where Python raises.

* `lax.scan` over the leading axis calls the body on row `b` of every leaf and stacks the results along axis 0
  (trusted primitive of JAX), here `stackGrouped … 0`.
* `batch_size` is read off the first leaf of the first mapped argument (`vmap.py:39`). -/
def batchedVmap (fn : Grouped α → Grouped α) (maxBatch : ℕ) (inAxes : List (Option ℤ)) (outAxes : List ℤ)
    (args : Grouped α) : Option (Grouped α) :=
  let mask := inAxes.map Option.isSome
  let mapped := (args.zip inAxes).filterMap fun p => p.2.map fun _ => p.1
  let mappedAxes := inAxes.filterMap id
  let static := (args.zip inAxes).filterMap fun p => if p.2.isSome then none else some p.1
  match mapped, mappedAxes with
  | (x :: _) :: _, ax :: _ =>
    let batchSize := x.shape.getD (normAxis x.ndim ax) 0
    if batchSize ≤ maxBatch then some (vmap fn batchSize inAxes outAxes args)
    else if maxBatch = 0 then none
    else
      let num := batchSize / maxBatch
      let rem := batchSize % maxBatch
      let leading : Grouped α := List.zipWith (fun g ax => g.map fun x => x.moveaxis (normAxis x.ndim ax) 0)
        mapped mappedAxes
      let vmappedFn := fun (n : ℕ) (a : Grouped α) =>
        stackGrouped n (fun i => fn (merge mask (a.map fun g => g.map fun x => x.take i 0) static))
          (fun _ => 0)
      (mapLeavesM (fun x => splitLeading (dropRows x rem) num maxBatch) leading).bind fun loopArgs =>
      let scanned := stackGrouped num (fun b => vmappedFn maxBatch (loopArgs.map fun g => g.map fun x => x.take b 0))
          (fun _ => 0)
      let result := scanned.map fun g => g.map joinLeading
      (if rem > 0 then
        zipLeavesM concatRows (vmappedFn rem (leading.map fun g => g.map fun x => takeRows x rem)) result
      else some result).bind fun result =>
      some (List.zipWith (fun g ax => g.map fun x => x.moveaxis 0 (normAxis x.ndim ax)) result outAxes)
  | _, _ => none

end Folx.Batch

namespace Folx.Batch

variable {α : Type} [Inhabited α]

/-- The batch size `auto_batched_vmap` derives from two memory estimates (`experimental/vmap.py:59-66`).
`target_mem` is a Python float; it is modelled as a rational (`nan` and infinities make `int(...)` raise, which is
the case `none` of the estimates). -/
def autoBatchSize (targetMem : ℚ) (singleCost pairCost : ℤ) : ℕ :=
  let elementCost := pairCost - singleCost
  let baseCost := singleCost - elementCost
  if elementCost = 0 then 2147483648
  else (max ⌊(targetMem - baseCost) / elementCost⌋ 1).toNat

/-- `auto_batched_vmap(fn, in_axes, out_axes)(*args)` (`experimental/vmap.py:14-73`): `memStats` is
`jax.devices()[0].memory_stats()['bytes_limit'] * max_fraction` (`none`: the device reports no statistics, and the
decorator raises); `estimates` are the two results of `compute_memory` (`none`: an exception was raised while
computing them).  The warnings are left out. -/
def autoBatchedVmap (memStats : Option ℚ) (estimates : Option (ℤ × ℤ)) (fn : Grouped α → Grouped α)
    (inAxes : List (Option ℤ)) (outAxes : List ℤ) (args : Grouped α) : Option (Grouped α) :=
  match memStats with
  | none => none
  | some targetMem =>
    match estimates with
    | none => batchedVmap fn 1 inAxes outAxes args
    | some (single, pair) =>
      match batchedVmap fn (autoBatchSize targetMem single pair) inAxes outAxes args with
      | some r => some r
      | none => batchedVmap fn 1 inAxes outAxes args

end Folx.Batch

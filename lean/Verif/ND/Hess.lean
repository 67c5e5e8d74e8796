import Verif.ND.SumRule

/-!
# The second-order term on arrays with explicit shapes (`hessian.py:149-371`, `utils.py:247-261`)

`Verif/Core/Hess.lean` models the same functions position by position; here broadcasting of the kept axes, the removal of axes
of size 1, the nested `jax.vmap`, the collapsing of the index array and the removal of zero entries are kept.  The function
that computes the term for one slice is a parameter (`Verif/Core/Hess.lean` models it).  `JAC_DIM = 0`; `none` where Python raises.
Arrays without elements are not modelled.
-/

namespace Folx.Layout
open Vmap Dot

variable {F : Type}

/-- `FwdLaplArray` (`api.py:241-250`) as arrays. -/
structure ArrTrip (F : Type) where
  x : ND F
  jac : ArrJac F
  lapl : ND F

/-- `(*(x + (x >= JAC_DIM) for x in ax), JAC_DIM)` (`utils.py:256`) for canonical (non-negative) axes: the axes of the Jacobian that are not
vectorised. -/
def jacAx (ax : List ℕ) : List ℕ := ax.map (· + 1) ++ [0]

/-- `FwdJacobian.mask` (`api.py:189-198`). -/
def ArrJac.mask (j : ArrJac F) : ND ℤ :=
  match j.idx with
  | some m => m
  | none => ND.ofFn j.data.shape fun w => (w.getD 0 0 : ℤ)

/-- `np.sum(j.unique_idx >= 0)` (`api.py:48-56`, `hessian.py:215-217`). -/
def ArrJac.nUnique (j : ArrJac F) : ℕ :=
  match j.idx with
  | some m => (m.data.toFinset.filter (0 ≤ ·)).card
  | none => j.data.shape.getD 0 0

/-- `jnp.unique(x, size=size, fill_value=-1)` (`hessian.py:221`): the array is flattened. -/
def uniqueArr (size : ℕ) (x : ND ℤ) : ND ℤ := ND.ofFn [size] fun w => (uniqueSized size x.data).getD (w.getD 0 0) (-1)

/-- `np.intersect1d` / `np.union1d` (`hessian.py:241-246`): sorted, without repetitions. -/
def mergeSorted (inter : Bool) (a b : List ℤ) : List ℤ :=
  ((if inter then a.toFinset ∩ b.toFinset else a.toFinset ∪ b.toFinset).sort (· ≤ ·))

/-- The entries of the last axis at position `u`, without fill values (`remove_fill`, `hessian.py:149-165`). -/
def filteredAt (x : ND ℤ) (u : List ℕ) : List ℤ :=
  ((List.range (x.shape.getLastD 0)).map fun k => x.get (u ++ [k])).filter (0 ≤ ·)

/-- `functools.reduce(operation, lists)` (`hessian.py:183-185`). -/
def reduceLists (inter : Bool) : List (List ℤ) → List ℤ
  | [] => []
  | a :: as => as.foldl (mergeSorted inter) a

/-- `merge_and_populate` (`hessian.py:168-195`) on the arrays of all arguments (same shape): at every position the entries are
merged by `functools.reduce`, then all are filled up to the largest number. -/
def mergeAndPopulate (inter : Bool) (arrs : List (ND ℤ)) : ND ℤ :=
  let kept := ((arrs.map ND.shape).headD []).dropLast
  let merged := fun u => reduceLists inter (arrs.map fun x => filteredAt x u)
  let w := ((allIdx kept).map fun u => (merged u).length).foldr max 0
  ND.ofFn (kept ++ [w]) fun c => (merged (c.take kept.length)).getD (c.getD kept.length 0) (-1)

/-- The masks with the axes that are not vectorised (`hessian.py:205-214`). -/
def maskLeaves (args : List (ArrTrip F × List ℕ)) : List (ND ℤ × List ℕ) :=
  args.map fun a => (a.1.jac.mask, jacAx a.2)

/-- `max_size` (`hessian.py:215-217`). -/
def maxSizeArr (args : List (ArrTrip F × List ℕ)) : ℕ := (args.map fun a => a.1.jac.nUnique).foldr max 0

/-- `find_out_idx` (`hessian.py:198-251`); every argument with its canonical `in_axes`.  Component `a` of the result of the vectorised
`idx_fn` is the vectorised component `a`. -/
def findOutIdxArr (inter : Bool) (T : ℕ) (args : List (ArrTrip F × List ℕ)) : Option (Option (ND ℤ) × Bool) :=
  if (args.any fun a => a.1.jac.idx.isSome) = false then some (none, true) else do
  let masks := maskLeaves args
  let seqs ← vmapSequences (masks.map fun m => (m.1.shape, m.2))
  let inp := masks.map fun m => squeeze m.1 m.2
  let maxSize := maxSizeArr args
  let arrs ← (List.range args.length).mapM fun a =>
    nestedVmap (fun xs => uniqueArr (maxSize + 1) (xs.getD a (ND.ofFn [] fun _ => 0))) seqs inp
  let idx := mergeAndPopulate inter arrs
  let idx := idx.moveaxis (idx.ndim - 1) 0
  pure (some idx, decide (idx.shape.getD 0 0 ≥ maxSize ∨ idx.shape.getD 0 0 > T))

/-- `compact_repeated_dims_except(out_idx, JAC_DIM)`, then `None` in `out_idx_seq` and item 0 along every compressed axis
(`hessian.py:353-359`); `n = len(vmap_seq)`, an assignment beyond the end of the list raises. -/
def compressIdx (idx : ND ℤ) (n : ℕ) : Option (ND ℤ × List (Option ℕ)) :=
  (compact idx).2.foldr (fun c acc => match acc with
    | none => none
    | some (x, seq) => if c - 1 < seq.length then some (x.take 0 c, seq.set (c - 1) none) else none)
    (some ((compact idx).1, List.replicate n (some 1)))

/-- The leaves of a triple (x, Jacobian data, indices if there are any, Laplacian) with the axes that are not vectorised
(`utils.py:247-261`). -/
def ArrTrip.leaves (a : ArrTrip F × List ℕ) : List (ND (F ⊕ ℤ) × List ℕ) :=
  match a.1.jac.idx with
  | none => [(a.1.x.map Sum.inl, a.2), (a.1.jac.data.map Sum.inl, jacAx a.2), (a.1.lapl.map Sum.inl, a.2)]
  | some m => [(a.1.x.map Sum.inl, a.2), (a.1.jac.data.map Sum.inl, jacAx a.2), (m.map Sum.inr, jacAx a.2),
      (a.1.lapl.map Sum.inl, a.2)]

section
variable [Inhabited F]

/-- Elements of a leaf of numbers. -/
def numOf : F ⊕ ℤ → F
  | .inl x => x
  | .inr _ => default

/-- Elements of a leaf of indices. -/
def idxOf' : F ⊕ ℤ → ℤ
  | .inl _ => default
  | .inr z => z

/-- Rebuilding the triples from their leaves; the remaining leaves are the other arguments. -/
def unflatten : List (ArrTrip F × List ℕ) → List (ND (F ⊕ ℤ)) → List (ArrTrip F) × List (ND (F ⊕ ℤ))
  | [], l => ([], l)
  | a :: as, l =>
    match a.1.jac.idx, l with
    | none, x :: d :: y :: l =>
      let r := unflatten as l
      (⟨x.map numOf, ⟨d.map numOf, none⟩, y.map numOf⟩ :: r.1, r.2)
    | some _, x :: d :: m :: y :: l =>
      let r := unflatten as l
      (⟨x.map numOf, ⟨d.map numOf, some (m.map idxOf')⟩, y.map numOf⟩ :: r.1, r.2)
    | _, _ => ([], [])

/-- A function for one slice: triples, other arguments, indices. -/
abbrev SliceFn (F : Type) := List (ArrTrip F) → List (ND F) → Option (List ℤ) → ND F

/-- `hess_transform` as a function of the leaves (`hessian.py:333-350`); the last leaf is `out_idx` if it is not `None`. -/
def onLeaves (g : SliceFn F) (args : List (ArrTrip F × List ℕ)) (hasIdx : Bool) (l : List (ND (F ⊕ ℤ))) : ND F :=
  let r := unflatten args (if hasIdx then l.dropLast else l)
  g r.1 (r.2.map fun x => x.map numOf) (if hasIdx then (l.getLast?.map fun x => x.data.map idxOf') else none)

/-- Broadcasting, squeezing and nested `jax.vmap` of `hess_transform` (`hessian.py:326-330,352-365`). -/
def vmapHess (g : SliceFn F) (args : List (ArrTrip F × List ℕ)) (extras : List (ND F × List ℕ)) (outIdx : Option (ND ℤ)) :
    Option (ND F) := do
  let leaves := (args.flatMap ArrTrip.leaves) ++ extras.map fun e => (e.1.map Sum.inl, e.2)
  let seqs ← vmapSequences (leaves.map fun l => (l.1.shape, l.2))
  let sq := leaves.map fun l => squeeze l.1 l.2
  match outIdx with
  | none => nestedVmap (onLeaves g args false) seqs sq
  | some idx => do
    let c ← compressIdx idx seqs.length
    nestedVmap (onLeaves g args true) (List.zipWith (fun s o => s ++ [o]) seqs c.2) (sq ++ [c.1.map Sum.inr])

/-- `lapl_args.dense` (`api.py:359-361`). -/
def denseTrip [AddCommMonoid F] (t : ArrTrip F) : Option (ArrTrip F) :=
  match t.jac.idx with
  | none => some t
  | some m => (denseArray t.jac.data m).map fun d => ⟨t.x, ⟨d, none⟩, t.lapl⟩

/-- `x[(i₀, i₁, …)]` where every `iₖ` is 0 or an integer array (`hessian.py:271-283`), for the leading axes: the integer arrays are
read in parallel along one new leading axis; without any there is no such axis.  Out-of-range indices are clamped, as for
`jax` arrays (the indices of a Jacobian are a `numpy` array, which raises instead; this cannot happen when the ranks agree). -/
def advIndex {α : Type} [Inhabited α] (x : ND α) (n : ℕ) (idx : List (Option (List ℕ))) : Option (ND α) :=
  if x.shape.length < idx.length then none else
  let rest := x.shape.drop idx.length
  let at_ := fun (j : ℕ) => (List.range idx.length).map fun i => match idx.getD i none with
    | none => 0
    | some l => min (l.getD j 0) (x.shape.getD i 0 - 1)
  if idx.any Option.isSome then some (ND.ofFn (n :: rest) fun w => x.get (at_ (w.getD 0 0) ++ w.tail))
  else some (ND.ofFn rest fun w => x.get (at_ 0 ++ w))

/-- `x[(slice(None), i₀, i₁, …)]`. -/
def advIndexTail {α : Type} [Inhabited α] (x : ND α) (n : ℕ) (idx : List (Option (List ℕ))) : Option (ND α) :=
  if x.shape.length < idx.length + 1 then none else
  let rest := x.shape.drop (idx.length + 1)
  let at_ := fun (j : ℕ) => (List.range idx.length).map fun i => match idx.getD i none with
    | none => 0
    | some l => min (l.getD j 0) (x.shape.getD (i + 1) 0 - 1)
  if idx.any Option.isSome then
    some (ND.ofFn (x.shape.getD 0 0 :: n :: rest) fun w => x.get (w.getD 0 0 :: (at_ (w.getD 1 0) ++ w.drop 2)))
  else some (ND.ofFn (x.shape.getD 0 0 :: rest) fun w => x.get (w.getD 0 0 :: (at_ 0 ++ w.tail)))

/-- Positions at which some index is not `-1` (`hessian.py:262,268`): `mask` and `np.where(mask)`. -/
def nonzeroMask (idx : ND ℤ) : ND Bool :=
  ND.ofFn idx.shape.tail fun u => decide (∃ k < idx.shape.getD 0 0, idx.get (k :: u) ≠ -1)

/-- `np.where(mask)`, in row-major order. -/
def whereIdx (mask : ND Bool) : List (List ℕ) := (allIdx mask.shape).filter fun u => mask.get u

/-- One argument restricted to the positions `us` (`hessian.py:271-286`). -/
def restrictTrip (us : List (List ℕ)) (ndim : ℕ) (t : ArrTrip F) : Option (ArrTrip F) := do
  let idx := (List.range ndim).map fun i => if t.x.shape.getD i 0 = 1 then none else some (us.map fun u => u.getD i 0)
  let x ← advIndex t.x us.length idx
  let d ← advIndexTail t.jac.data us.length idx
  let l ← advIndex t.lapl us.length idx
  match t.jac.idx with
  | none => pure ⟨x, ⟨d, none⟩, l⟩
  | some m => do
    let m ← advIndexTail m us.length idx
    pure ⟨x, ⟨d, some m⟩, l⟩

/-- `remove_zero_entries` (`hessian.py:254-287`). -/
def removeZero (args : List (ArrTrip F × List ℕ)) (outIdx : Option (ND ℤ)) (denseOut : Bool) :
    Option (List (ArrTrip F × List ℕ) × Option (ND ℤ) × Option (ND Bool)) :=
  match denseOut, outIdx with
  | false, some idx =>
    let mask := nonzeroMask idx
    let us := whereIdx mask
    if 2 * us.length > mask.shape.prod then some (args, some idx, none) else do
    let newIdx := ND.ofFn [idx.shape.getD 0 0, us.length] fun w => idx.get (w.getD 0 0 :: us.getD (w.getD 1 0) [])
    let ts ← args.mapM fun a => (restrictTrip us mask.shape.length a.1).map fun t => (t, a.2)
    pure (ts, some newIdx, some mask)
  | _, _ => some (args, outIdx, none)

/-- `jnp.zeros_like(out).at[mask].set(result)` (`hessian.py:369-370`): the shape of the mask must be a prefix of the shape of `out`, the
result is broadcast to the selected positions. -/
def setMask [Zero F] (out : List ℕ) (mask : ND Bool) (result : ND F) : Option (ND F) :=
  if mask.shape ≠ out.take mask.shape.length then none else
  let us := whereIdx mask
  let target := us.length :: out.drop mask.shape.length
  if broadcastShapes [result.shape, target] ≠ some target then none else
  let r := broadcastTo result target
  some (ND.ofFn out fun w => if w.take mask.shape.length ∈ us then
    r.get (us.idxOf (w.take mask.shape.length) :: w.drop mask.shape.length) else 0)

/-- `in_axes = -1` for every argument (`hessian.py:322`), resolved for the array `x` of the argument. -/
def lastAxis (a : ArrTrip F × List ℕ) : ArrTrip F × List ℕ := (a.1, [a.1.x.shape.length - 1])

/-- `if dense_out and SPARSE_JHJ not in flags: lapl_args = lapl_args.dense` (`hessian.py:311-313`). -/
def densifyArgs [AddCommMonoid F] (densify : Bool) (args : List (ArrTrip F × List ℕ)) : Option (List (ArrTrip F × List ℕ)) :=
  if densify then args.mapM fun a => (denseTrip a.1).map fun t => (t, a.2) else some args

/-- `if mask is not None: result = zeros_like(out).at[mask].set(result)` (`hessian.py:369-370`). -/
def applyMask [Zero F] (out : List ℕ) (mask : Option (ND Bool)) (res : ND F) : Option (ND F) :=
  match mask with
  | none => some res
  | some mask => setMask out mask res

/-- The second part of `vmapped_jac_hessian_jac` (`hessian.py:315-371`). -/
def hessRest [AddCommMonoid F] (g : SliceFn F) (dot : Bool) (args : List (ArrTrip F × List ℕ)) (extras : List (ND F × List ℕ))
    (outIdx : Option (ND ℤ)) (denseOut : Bool) (out : List ℕ) : Option (ND F) :=
  if (outIdx.map fun i => i.shape.getD 0 0) = some 0 then some (ND.ofFn [] fun _ => 0) else
  if dot ∧ ∀ a ∈ args, a.2.length = 1 then do
    let r ← removeZero args outIdx denseOut
    let res ← vmapHess g (r.1.map lastAxis) extras r.2.1
    let res ← applyMask out r.2.2 res
    res.reshape? out
  else do
    let res ← vmapHess g args extras outIdx
    res.reshape? out

/-- `vmapped_jac_hessian_jac` (`hessian.py:290-371`) for a function with one output array of shape `out`: `inter` =
`LINEAR_IN_ONE in flags`, `sparseJHJ` = `SPARSE_JHJ in flags`, `dot` = `DOT_PRODUCT in flags`. -/
def hessArr [AddCommMonoid F] (g : SliceFn F) (inter sparseJHJ dot : Bool) (T : ℕ) (args : List (ArrTrip F × List ℕ))
    (extras : List (ND F × List ℕ)) (out : List ℕ) : Option (ND F) := do
  let fo ← findOutIdxArr inter T args
  let args' ← densifyArgs (fo.2 && !sparseJHJ) args
  hessRest g dot args' extras (if fo.2 && !sparseJHJ then none else fo.1) fo.2 out

end

end Folx.Layout

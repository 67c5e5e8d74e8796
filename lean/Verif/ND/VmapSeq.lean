import Verif.ND.Array

/-!
# Vectorisation over broadcast axes (`utils.py:118-244`)

`vmap_sequences_and_squeeze` and the nested `jax.vmap` built from its result (`hessian.py:226-232,363-368`).  The pytree
of arrays is given by its list of leaves, each with the canonical tuple of its `in_axes` ("skip axes").
-/

namespace Folx.Vmap

variable {α β : Type}

/-- An `in_axes` leaf (`utils.py:128-133`). -/
inductive AxSpec where
  | none
  | int (i : ℤ)
  | tuple (is : List ℤ)

/-- `canonicalize_axes` (`utils.py:135-147`); the assertion only checks the upper bound. -/
def canonicalize (s : AxSpec) (ndim : ℕ) : Option (List ℤ) :=
  let inp : List ℤ := match s with
    | .none => (List.range ndim).map fun (i : ℕ) => (i : ℤ)
    | .int i => [i]
    | .tuple is => is
  let pos : List ℤ := inp.map fun (i : ℤ) => if i ≥ 0 then i else i + (ndim : ℤ)
  if ∀ i ∈ pos, i < (ndim : ℤ) then some pos else none

/-- State of the loop in `vmap_sequence` (`utils.py:166-172`). -/
structure SeqState where
  currDim : ℕ
  skipped : ℕ
  maps : List (Option ℕ)

/-- One iteration of the loop in `vmap_sequence` (`utils.py:173-183`). -/
def seqStep (shape : List ℕ) (skip : List ℕ) (s : SeqState) (i : ℕ) : SeqState :=
  if i ∈ skip then { s with skipped := s.skipped + 1 }
  else if shape.length < shape.length - i + s.currDim then { s with maps := s.maps ++ [none] }
  else if shape.getD (s.currDim + s.skipped) 0 = 1 then
    { s with maps := s.maps ++ [none], currDim := s.currDim + 1 }
  else { s with maps := s.maps ++ [some s.skipped], currDim := s.currDim + 1 }

/-- `vmap_sequence(arr, shape, skip_axes)` (`utils.py:159-184`): `shape` is the broadcast shape.  (The reassignment of
`shape` in `:171` is never used afterwards.) -/
def vmapSequence (arr : List ℕ) (shape : List ℕ) (skip : List ℕ) : List (Option ℕ) :=
  let active := arr.length - skip.length
  let maps : List (Option ℕ) := if shape.length > active then List.replicate (shape.length - active) none else []
  ((List.range arr.length).foldl (seqStep arr skip) ⟨0, 0, maps⟩).maps

/-- `remove_axes` (`utils.py:187-198`), shape only. -/
def removeAxes (shape : List ℕ) (skip : List ℕ) : List ℕ :=
  (shape.zipIdx.filter fun p => decide (p.2 ∉ skip)).map Prod.fst

/-- Broadcasting of aligned sizes: all sizes other than 1 must agree. -/
def bcastDim (ds : List ℕ) : Option ℕ :=
  match ds.filter (· ≠ 1) with
  | [] => some 1
  | d :: ds => if ∀ e ∈ ds, e = d then some d else none

/-- `jnp.broadcast_shapes(*shapes)`: shapes are aligned at the back; sizes other than 1 must agree. -/
def broadcastShapes (shapes : List (List ℕ)) : Option (List ℕ) :=
  let rank := (shapes.map List.length).foldr max 0
  let padded := shapes.map fun s => List.replicate (rank - s.length) 1 ++ s
  (List.range rank).mapM fun i => bcastDim (padded.map fun s => s.getD i 1)

/-- `vmap_sequences(arrs, in_axes)` (`utils.py:201-220`): one list of axes (one per leaf) for every kept dimension of
the broadcast shape. -/
def vmapSequences (arrs : List (List ℕ × List ℕ)) : Option (List (List (Option ℕ))) :=
  match broadcastShapes (arrs.map fun a => removeAxes a.1 a.2) with
  | none => none
  | some b =>
    let maps := arrs.map fun a => vmapSequence a.1 b a.2
    let keep := (List.range b.length).filter fun i => maps.any fun m => (m.getD i none).isSome
    some (keep.map fun i => maps.map fun m => m.getD i none)

/-- Axes that survive `arg_squeeze_dims` (`utils.py:223-231`): `in_axes` and axes of size other than 1. -/
def squeezeShape (shape : List ℕ) (skip : List ℕ) : List ℕ :=
  (shape.zipIdx.filter fun p => decide (p.2 ∈ skip ∨ p.1 ≠ 1)).map Prod.fst

theorem squeezeAux (l : List (ℕ × ℕ)) (skip : List ℕ) :
    ((l.filter fun p => decide (p.2 ∈ skip ∨ p.1 ≠ 1)).map Prod.fst).prod = (l.map Prod.fst).prod := by
  induction l with
  | nil => rfl
  | cons p l ih =>
    by_cases h : p.2 ∈ skip ∨ p.1 ≠ 1
    · rw [List.filter_cons_of_pos (by simpa using h), List.map_cons, List.map_cons, List.prod_cons, List.prod_cons, ih]
    · rw [List.filter_cons_of_neg (by simpa using h), List.map_cons, List.prod_cons, ih]
      simp only [not_or, not_not] at h
      rw [h.2, one_mul]

theorem squeezeShape_prod (shape skip : List ℕ) : shape.prod = (squeezeShape shape skip).prod := by
  unfold squeezeShape
  rw [squeezeAux, List.zipIdx_map_fst]

/-- `_squeeze` (`utils.py:226-229`). -/
def squeeze (x : ND α) (skip : List ℕ) : ND α := x.reshape (squeezeShape x.shape skip) (squeezeShape_prod _ _)

variable [Inhabited α] [Inhabited β]

/-- What `jax.vmap` passes to the function for index `i`: slices of the mapped arguments, the others as they are. -/
def sliceAll (s : List (Option ℕ)) (i : ℕ) (xs : List (ND α)) : List (ND α) :=
  List.zipWith (fun ax x => match ax with
    | none => x
    | some a => x.take i a) s xs

/-- Sizes of the mapped axes; `none` for an axis out of range. -/
def mappedSizes (s : List (Option ℕ)) (xs : List (ND α)) : List (Option ℕ) :=
  (List.zipWith (fun ax x => ax.map fun a => x.shape[a]?) s xs).filterMap id

/-- The common size of the mapped axes: `jax.vmap` raises if there is none or if they differ. -/
def mapSize (s : List (Option ℕ)) (xs : List (ND α)) : Option ℕ :=
  match mappedSizes s xs with
  | [] => none
  | none :: _ => none
  | some n :: ds => if ∀ d ∈ ds, d = some n then some n else none

/-- `for s in seqs[::-1]: fn = jax.vmap(fn, in_axes=s)` applied to `xs` (`hessian.py:226-227,364-365`): the first sequence
is the outermost `vmap`.  `jax.vmap` with `out_axes=0` is a trusted primitive of JAX: result `i` is the function of the
slices, results are stacked along a new leading axis. -/
def nestedVmap (f : List (ND α) → ND β) : List (List (Option ℕ)) → List (ND α) → Option (ND β)
  | [], xs => some (f xs)
  | s :: ss, xs =>
    match mapSize s xs with
    | none => none
    | some n =>
      match nestedVmap f ss (sliceAll s 0 xs) with
      | none => none
      | some r0 => some (ND.stack n r0.shape (fun i => (nestedVmap f ss (sliceAll s i xs)).getD r0) 0)

/-- The vectorised call of `hessian.py:326-330,363-368`: squeeze, nested `vmap`; the result is flattened. -/
def vmapped (f : List (ND α) → ND β) (args : List (ND α × List ℕ)) : Option (List β) :=
  match vmapSequences (args.map fun a => (a.1.shape, a.2)) with
  | none => none
  | some seqs => (nestedVmap f seqs (args.map fun a => squeeze a.1 a.2)).map ND.data

end Folx.Vmap

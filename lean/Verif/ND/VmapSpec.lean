import Verif.ND.Array

/-!
# Specification: numpy broadcasting with excluded axes

Independent of `vmap_sequence`: at position `v` of the broadcast shape, an array contributes the sub-array along its
excluded (`in_axes`) axes whose other coordinates are given by the broadcasting rules.
-/

namespace Folx.Vmap

variable {α β : Type} [Inhabited α] [Inhabited β]

/-- Number of excluded axes before axis `i`. -/
def skipsBefore (skip : List ℕ) (i : ℕ) : ℕ := ((List.range i).filter fun k => decide (k ∈ skip)).length

/-- Element `c` of the sub-array at broadcast position `v`: an excluded axis takes its coordinate from `c`; another axis
takes the coordinate of `v` it is aligned with (from the back), or 0 if it has size 1. -/
def bindex (shape skip b v c : List ℕ) : List ℕ :=
  (List.range shape.length).map fun i =>
    if i ∈ skip then c.getD (skipsBefore skip i) 0
    else if shape.getD i 0 = 1 then 0
    else v.getD (b.length - (shape.length - skip.length) + (i - skipsBefore skip i)) 0

/-- Shape of the sub-arrays: the sizes of the excluded axes in order. -/
def skipShape (shape skip : List ℕ) : List ℕ :=
  (shape.zipIdx.filter fun p => decide (p.2 ∈ skip)).map Prod.fst

/-- Shape of the broadcast part: the sizes of the other axes in order. -/
def otherShape (shape skip : List ℕ) : List ℕ :=
  (shape.zipIdx.filter fun p => decide (p.2 ∉ skip)).map Prod.fst

/-- Size of the `j`-th dimension counted from the back; missing dimensions have size 1. -/
def dimBack (s : List ℕ) (j : ℕ) : ℕ := s.reverse.getD j 1

/-- numpy's broadcasting rules: `b` is the broadcast shape of `shapes`. -/
structure Broadcasts (shapes : List (List ℕ)) (b : List ℕ) : Prop where
  rank_le : ∀ s ∈ shapes, s.length ≤ b.length
  rank_eq : b = [] ∨ ∃ s ∈ shapes, s.length = b.length
  compat : ∀ s ∈ shapes, ∀ j, dimBack s j = 1 ∨ dimBack s j = dimBack b j
  tight : ∀ j, dimBack b j = 1 ∨ ∃ s ∈ shapes, dimBack s j = dimBack b j

/-- The sub-array of `x` at broadcast position `v`. -/
def bslice (x : ND α) (skip b v : List ℕ) : ND α :=
  ND.ofFn (skipShape x.shape skip) fun c => x.get (bindex x.shape skip b v c)

/-- A function `jax` can trace: the shape of the result depends on the shapes of the arguments only. -/
def TracedFn (f : List (ND α) → ND β) : Prop :=
  ∀ xs ys, xs.map ND.shape = ys.map ND.shape → (f xs).shape = (f ys).shape

/-- The broadcast application of `f`: at each position `v` of the broadcast shape `b`, `f` of the sub-arrays. -/
def broadcastApply (f : List (ND α) → ND β) (args : List (ND α × List ℕ)) (b : List ℕ) : ND β :=
  let at_ := fun v => f (args.map fun a => bslice a.1 a.2 b v)
  ND.ofFn (b ++ (at_ []).shape) fun idx => (at_ (idx.take b.length)).get (idx.drop b.length)

end Folx.Vmap

import Verif.ND.Hess
import Verif.ND.VmapSpec

/-!
# Specification: slices and index lists at broadcast positions

Independent of squeezing, nested `vmap`s, and of the way the index array is computed and stored.
-/

namespace Folx.Layout
open Vmap

variable {F : Type} [Inhabited F]

/-- The part of a triple that belongs to position `v` of the broadcast shape `b`: value, rows of the Jacobian (with their indices) and
Laplacian along the `in_axes`. -/
def sliceAt (b v : List ℕ) (a : ArrTrip F × List ℕ) : ArrTrip F :=
  ⟨bslice a.1.x a.2 b v,
   ⟨bslice a.1.jac.data (jacAx a.2) b v, a.1.jac.idx.map fun m => bslice m (jacAx a.2) b v⟩,
   bslice a.1.lapl a.2 b v⟩

/-- The inputs on which the slice of an argument at `v` depends, according to its indices. -/
def depsAt (b v : List ℕ) (a : ArrTrip F × List ℕ) : Finset ℤ :=
  (bslice a.1.jac.mask (jacAx a.2) b v).data.toFinset.filter (0 ≤ ·)

/-- The inputs that matter at `v`: those of any argument, or those common to all arguments (`inter`). -/
def mergedAt (inter : Bool) (args : List (ArrTrip F × List ℕ)) (b v : List ℕ) : Finset ℤ :=
  ((args.map (depsAt b v)).foldr (· ∪ ·) ∅).filter fun z => inter = true → ∀ a ∈ args, z ∈ depsAt b v a

/-- The largest number of inputs that matter at a position. -/
def mergedWidth (inter : Bool) (args : List (ArrTrip F × List ℕ)) (b : List ℕ) : ℕ :=
  ((Dot.allIdx b).map fun v => (mergedAt inter args b v).card).foldr max 0

/-- The index list at `v`: the inputs that matter in increasing order, filled up with `-1`. -/
def idxListAt (inter : Bool) (args : List (ArrTrip F × List ℕ)) (b v : List ℕ) : List ℤ :=
  (mergedAt inter args b v).sort (· ≤ ·) ++
    List.replicate (mergedWidth inter args b - (mergedAt inter args b v).card) (-1)

/-- A triple of arrays of consistent shapes, with distinct `in_axes` in range and no negative index other than `-1`. -/
structure TripOk (a : ArrTrip F × List ℕ) : Prop where
  data : a.1.jac.data.shape = a.1.jac.data.shape.getD 0 0 :: a.1.x.shape
  idx : ∀ m, a.1.jac.idx = some m → m.shape = a.1.jac.data.shape
  neg : ∀ m, a.1.jac.idx = some m → ∀ z ∈ m.data, -1 ≤ z
  lapl : a.1.lapl.shape = a.1.x.shape
  nodup : a.2.Nodup
  lt : ∀ d ∈ a.2, d < a.1.x.shape.length

/-- A slice function that `jax` can trace: the shape of its result depends on shapes only. -/
def TracedSlice (g : SliceFn F) : Prop :=
  ∀ ts ts' es es' i i', List.Forall₂ (fun t t' : ArrTrip F => t.x.shape = t'.x.shape ∧ t.jac.data.shape = t'.jac.data.shape ∧
      t.jac.idx.map ND.shape = t'.jac.idx.map ND.shape ∧ t.lapl.shape = t'.lapl.shape) ts ts' →
    List.Forall₂ (fun e e' : ND F => e.shape = e'.shape) es es' → Option.map List.length i = Option.map List.length i' →
    (g ts es i).shape = (g ts' es' i').shape

/-- What the slice function returns for the slices at position `v` and the indices `i`. -/
def termAt (g : SliceFn F) (args : List (ArrTrip F × List ℕ)) (extras : List (ND F × List ℕ)) (i : Option (List ℤ)) (b v : List ℕ) : ND F :=
  g (args.map (sliceAt b v)) (extras.map fun e => bslice e.1 e.2 b v) i

/-- `a'` is `a` with a dense Jacobian: row `i` is the sum of the stored rows with index `i`, and there is a row for every index. -/
structure DenseOf [AddCommMonoid F] (a a' : ArrTrip F × List ℕ) : Prop where
  ax : a'.2 = a.2
  x : a'.1.x = a.1.x
  lapl : a'.1.lapl = a.1.lapl
  idx : a'.1.jac.idx = none
  keep : a.1.jac.idx = none → a' = a
  rows : ∀ m, a.1.jac.idx = some m → ∃ N, a'.1.jac.data.shape = N :: a.1.x.shape ∧
    (∀ k p, k < m.shape.getD 0 0 → InB p a.1.x.shape → m.get (k :: p) < (N : ℤ)) ∧
    ∀ i p, i < N → InB p a.1.x.shape → a'.1.jac.data.get (i :: p) =
      ((List.range (m.shape.getD 0 0)).map fun k => if m.get (k :: p) = (i : ℤ) then a.1.jac.data.get (k :: p) else 0).sum

/-- The positions at which some input matters. -/
def activeAt (inter : Bool) (args : List (ArrTrip F × List ℕ)) (b : List ℕ) : List (List ℕ) :=
  (Dot.allIdx b).filter fun v => decide (mergedAt inter args b v).Nonempty

/-- An argument of a dot product: `in_axes` is the last axis, the rank is that of the broadcast shape plus one, and the other axes
have size 1 or the size of the broadcast shape. -/
structure LastAxis (a : ArrTrip F × List ℕ) (b : List ℕ) : Prop where
  ok : TripOk a
  ax : a.2 = [b.length]
  rank : a.1.x.shape.length = b.length + 1

end Folx.Layout

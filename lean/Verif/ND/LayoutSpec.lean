import Verif.ND.Array
import Mathlib.Algebra.BigOperators.Group.List.Basic

/-!
# Specification: entrywise segment sums

Independent of transpositions, reshapes and the collapsing of repeated axes.
-/

namespace Folx.Layout

/-- Element `(k, p)` of an array of shape `(K, s)` broadcast (numpy rules, aligned at the back) to `(K, m)`: the
coordinate along an axis of size 1 is 0. -/
def bget {α : Type} [Inhabited α] (x : ND α) (m : List ℕ) (k : ℕ) (p : List ℕ) : α :=
  x.get (k :: (List.range x.shape.tail.length).map fun i =>
    if x.shape.tail.getD i 0 = 1 then 0 else p.getD (m.length - x.shape.tail.length + i) 0)

/-- Entry by entry: element `(i, p)` is the sum of the rows `k` whose index at `p` is `i`. -/
def segSum {F : Type} [Inhabited F] [AddCommMonoid F] (data : ND F) (idx : ND ℤ) (m : List ℕ) (i : ℕ) (p : List ℕ) : F :=
  ((List.range (data.shape.getD 0 0)).map fun k =>
    if bget idx m k p = (i : ℤ) then bget data m k p else 0).sum

end Folx.Layout

import Verif.ND.Layout
import Verif.ND.DotSpec

/-!
# `dot_general` on arrays with explicit shapes (`wrapped_functions.py:37-183`)
-/

namespace Folx.Dot
open Vmap Layout

variable {α F : Type} [Inhabited α]

/-- `x[(..., *([None] * n))]` (`wrapped_functions.py:40-41,60`): `n` trailing axes of size 1. -/
def expand (x : ND α) (n : ℕ) : ND α := x.reshape (x.shape ++ List.replicate n 1) (by simp)

/-- The order of the axes in `rearrange` (`wrapped_functions.py:42-50`). -/
def rearrangeOrder (ndim : ℕ) (contract batch brd other : List ℕ) (rhs : Bool) : List ℕ :=
  let newDims := List.range' ndim other.length
  if rhs then batch ++ newDims ++ brd ++ contract else batch ++ brd ++ newDims ++ contract

/-- `rearrange` (`wrapped_functions.py:37-58`): new axes at the back, transposition to batch, left free, right free,
contracted axes, and the contracted axes merged into one (a dummy axis if there are none). -/
def rearrange (x : ND α) (contract batch brd other : List ℕ) (rhs : Bool) : Option (ND α) :=
  let y := (expand x other.length).transpose (rearrangeOrder x.ndim contract batch brd other rhs)
  if contract.length > 0 then
    y.reshape? (y.shape.take (y.ndim - contract.length) ++ [(y.shape.drop (y.ndim - contract.length)).prod])
  else some (expand y 1)

/-- Broadcasting multiplication `x * y` (`wrapped_functions.py:130`). -/
def mulB [Inhabited F] [Mul F] (x y : ND F) : Option (ND F) :=
  (broadcastShapes [x.shape, y.shape]).map fun b =>
    ND.ofFn b fun w => x.get (bcoord x.shape b w) * y.get (bcoord y.shape b w)

/-- The axes that are kept by `.sum(dims)`. -/
def keptDims (n : ℕ) (dims : List ℕ) : List ℕ := (List.range n).filter fun d => decide (d ∉ dims)

/-- `x.sum(dims)` (`wrapped_functions.py:130`). -/
def sumDims [Inhabited F] [AddMonoid F] (x : ND F) (dims : List ℕ) : ND F :=
  ND.ofFn (sizes x.shape (keptDims x.ndim dims)) fun idx =>
    ((allIdx (sizes x.shape dims)).map fun k => x.get (place x.ndim (keptDims x.ndim dims ++ dims) (idx ++ k))).sum

/-- `jnp.einsum('...i,...i->...', x, y)` (`wrapped_functions.py:166-174`): leading axes broadcast, last axes of equal
length contracted. -/
def dotLast [Inhabited F] [AddMonoid F] [Mul F] (x y : ND F) : Option (ND F) :=
  if x.shape.getLast? ≠ y.shape.getLast? then none else
  (broadcastShapes [x.shape.dropLast, y.shape.dropLast]).map fun b =>
    ND.ofFn b fun w => ((List.range (x.shape.getLast?.getD 0)).map fun k =>
      x.get (bcoord x.shape.dropLast b w ++ [k]) * y.get (bcoord y.shape.dropLast b w ++ [k])).sum

/-- `tuple(np.array(dims) - ndim)` (`wrapped_functions.py:136-139`). -/
def negDims (ndim : ℕ) (dims : List ℕ) : List ℤ := dims.map fun d : ℕ => (d : ℤ) - (ndim : ℤ)

/-- `dims == tuple(sorted(dims))` (`wrapped_functions.py:145-146`). -/
def isSorted (dims : List ℕ) : Bool := decide (dims.Pairwise (· ≤ ·))

/-- The condition of the special case without transpositions (`wrapped_functions.py:140-147`). -/
def noTranspose (dd : DotDims) (ln rn : ℕ) : Bool :=
  decide (negDims ln dd.lc = negDims rn dd.rc) && decide (negDims ln dd.lb = negDims rn dd.rb) &&
  decide (freeOf ln dd.lc dd.lb = List.range (freeOf ln dd.lc dd.lb).length) &&
  decide (freeOf rn dd.rc dd.rb = List.range (freeOf rn dd.rc dd.rb).length) &&
  isSorted dd.lb && isSorted dd.rb

/-- Shape of the rearranged left operand. -/
def leftShape (dd : DotDims) (ls rs : List ℕ) : List ℕ :=
  sizes ls dd.lb ++ sizes ls (freeOf ls.length dd.lc dd.lb) ++
    List.replicate (freeOf rs.length dd.rc dd.rb).length 1 ++ [(sizes ls dd.lc).prod]

/-- Shape of the rearranged right operand. -/
def rightShape (dd : DotDims) (ls rs : List ℕ) : List ℕ :=
  sizes rs dd.rb ++ List.replicate (freeOf ls.length dd.lc dd.lb).length 1 ++
    sizes rs (freeOf rs.length dd.rc dd.rb) ++ [(sizes rs dd.rc).prod]

/-- `rearrange` of the left operand (`wrapped_functions.py:92-101`). -/
def left (dd : DotDims) (rn : ℕ) (x : ND α) : Option (ND α) :=
  rearrange x dd.lc dd.lb (freeOf x.ndim dd.lc dd.lb) (freeOf rn dd.rc dd.rb) false

/-- `rearrange` of the right operand (`wrapped_functions.py:102-112`). -/
def right (dd : DotDims) (ln : ℕ) (y : ND α) : Option (ND α) :=
  rearrange y dd.rc dd.rb (freeOf y.ndim dd.rc dd.rb) (freeOf ln dd.lc dd.lb) true

/-- `inter_size == in_size` (`wrapped_functions.py:119-120,135`) for rearranged operands of the given shapes. -/
def interEqIn (l r : List ℕ) : Bool :=
  match broadcastShapes [l, r] with
  | none => false
  | some b => decide (b.prod = max l.prod r.prod)

/-- The value computed by `dot_general` (`wrapped_functions.py:62-184`) when at least one operand carries derivatives;
`allWeak`: both have sparse Jacobians. -/
def dotGeneral [Inhabited F] [AddMonoid F] [Mul F] (dd : DotDims) (allWeak : Bool) (x y : ND F) : Option (ND F) := do
  let l ← left dd y.ndim x
  let r ← right dd x.ndim y
  if interEqIn l.shape r.shape && allWeak then
    if noTranspose dd x.ndim y.ndim then do
      let p ← mulB x y
      pure (sumDims p dd.lc)
    else do
      let p ← mulB l r
      pure (sumDims p [p.ndim - 1])
  else dotLast l r

end Folx.Dot

import Verif.ND.FirstRule
import Verif.ND.HessSlice
import Verif.Core.Flags

/-!
# A wrapped function applied to arrays (`wrapper.py:34-139`, `hessian.py:333-350,374-407`, `tree_utils.py:21-28`)

`forward`, `jvp` and `jac_hessian_jac_trace` put together, for functions with one output array and at least one argument with derivatives.
The value, the first and the second derivative of the function (`jax`) are parameters.  `none` where Python raises.
Not modelled: scatter functions (`Verif/Core/Scatter.lean`), functions flagged `LINEAR_IN_ONE` that
are no products (none is registered; `Verif/Core/Hess.lean`), the final `astype`.
-/

namespace Folx.Layout
open Vmap Dot

/-- `in_axes` of the registration: `None`, with the keyword argument `axes` of the call if there is one, or a tuple. -/
inductive InAxes where
  | unset (kw : Option (List ℕ))
  | axes (l : List ℤ)

/-- The axes that the first-order rules see (`jvp.py:130-143`); `sum` = `SUMMATION in flags` (such functions are registered without `in_axes`). -/
def InAxes.first (sum : Bool) : InAxes → AxesKind
  | .unset none => .all
  | .unset (some l) => if sum then .summation l else .reduction (.flat (l.map Int.ofNat))
  | .axes [] => .elementwise
  | .axes (i :: l) => .reduction (.flat (i :: l))

/-- The axes that the second-order rules see for an array with `nd` axes (`broadcast_shapes_to_args`, `utils.py:118-156, 276`): `None` stands for all
axes; the keyword argument is not looked at. -/
def InAxes.second (nd : ℕ) : InAxes → List ℕ
  | .unset _ => List.range nd
  | .axes l => l.map (axisOf nd)

variable {F : Type} [CommRing F] [Inhabited F] {k : ℕ}

/-- Shape of the slices that the function is applied to. -/
abbrev InAxes.slice (ax : InAxes) (s : List ℕ) : List ℕ := skipShape s (ax.second s.length)

/-- A function in a call of `wrap_forward_laplacian(fn, in_axes, flags, ...)` (`wrapper.py:74-96`) with `k` arguments with derivatives, of shapes `ss`, and a
result of shape `out`. -/
structure ArrFn (F : Type) [CommRing F] {k : ℕ} (ss : Fin k → List ℕ) (out : List ℕ) where
  flags : Flags
  inAxes : InAxes
  /-- the first argument of the function carries derivatives (`hessian.py:389`) -/
  firstIsLapl : Bool
  /-- complex arguments and a real result (`hessian.py:91`) -/
  c2r : Bool
  /-- the function of the arguments with derivatives, elements in row-major order (`wrapper.py:109`) -/
  fwd : ((a : Fin k) → Fin (ss a).prod → F) → Fin out.prod → F
  /-- its derivative (`jax.jvp`) -/
  deriv : ((a : Fin k) → Fin (ss a).prod → F) → Deriv F ss out
  /-- the function on integer arrays (`jvp.py:255-330`) -/
  ifwd : Option ((Fin k → ND ℤ) → ND ℤ)
  /-- shape of the result for one slice -/
  sliceOut : List ℕ
  /-- the second derivative of the function on slices -/
  hess : SliceHess F fun a => (inAxes.slice (ss a)).prod
  /-- anything: where a rule for one slice raises -/
  junk : F
  /-- `custom_jac_hessian_jac` (`wrapper.py:80`), if there is one, when the operands at these positions carry derivatives (`merge`, `hessian.py:342`) -/
  customFor : List ℕ → Option (SliceFn F) := fun _ => none

variable {ss : Fin (k + 1) → List ℕ} {out : List ℕ}

/-- `jac_hessian_jac_trace` (`hessian.py:333-350, 374-407`). -/
def ArrFn.second (A : ArrFn F ss out) (T : ℕ) (args : Fin (k + 1) → ArrTrip F) (extras : List (ND F × List ℕ)) : Option (ND F) :=
  let trips := List.ofFn fun a => (args a, A.inAxes.second (args a).x.ndim)
  if A.flags.has Flags.LINEAR then some (ND.ofFn [] fun _ => 0)
  else if A.flags.has Flags.LINEAR_IN_ONE ∧ k = 0 then some (ND.ofFn [] fun _ => 0)
  else if A.flags.has Flags.LINEAR_IN_FIRST ∧ A.firstIsLapl ∧ k = 0 then some (ND.ofFn [] fun _ => 0)
  else if let some g := A.customFor (List.range (k + 1)) then
    hessArr g (A.flags.has Flags.LINEAR_IN_ONE) (A.flags.has Flags.SPARSE_JHJ) (A.flags.has Flags.DOT_PRODUCT) T trips extras out
  else if A.flags.has Flags.MULTIPLICATION then
    if k = 1 then hessArr (productSlice (A.inAxes.slice (ss 0)) A.sliceOut A.junk) true (A.flags.has Flags.SPARSE_JHJ) (A.flags.has Flags.DOT_PRODUCT) T trips extras out
    else none
  else if A.flags.has Flags.LINEAR_IN_ONE then none
  else hessArr (generalSlice (fun a => A.inAxes.slice (ss a)) A.sliceOut A.c2r A.hess A.junk) false (A.flags.has Flags.SPARSE_JHJ) (A.flags.has Flags.DOT_PRODUCT) T
    trips extras out

/-- `a + b` with numpy broadcasting (`tree_utils.py:21-28`). -/
def addB (x y : ND F) : Option (ND F) := do
  let s ← broadcastShapes [x.shape, y.shape]
  pure (ND.ofFn s fun w => x.get (bcoord x.shape s w) + y.get (bcoord y.shape s w))

/-- The values of the arguments. -/
def valuesOf (ss : Fin (k + 1) → List ℕ) (args : Fin (k + 1) → ArrTrip F) : (a : Fin (k + 1)) → Fin (ss a).prod → F :=
  fun a => vecOf (args a).x (ss a).prod

/-- `new_fn` (`wrapper.py:98-130`). -/
def ArrFn.wrapped (A : ArrFn F ss out) (T : ℕ) (args : Fin (k + 1) → ArrTrip F) (extras : List (ND F × List ℕ)) : Option (ArrTrip F) := do
  let r ← jvpArr T (A.flags.has Flags.INDEXING) (A.flags.has Flags.JOIN_JVP) (A.inAxes.first (A.flags.has Flags.SUMMATION)) (A.deriv (valuesOf ss args)) A.ifwd args
  let h ← A.second T args extras
  let l ← addB r.2 h
  pure ⟨toND out (A.fwd (valuesOf ss args)), r.1, l⟩

end Folx.Layout

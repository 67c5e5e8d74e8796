import Verif.ND.HessSpec
import Verif.ND.RuleSpec
import Verif.ND.SumRuleMain
import Verif.Core.Hess

/-!
# The rules for one slice on arrays (`hessian.py:73-146`)

`general_jac_hessian_jac` and `dot_product_jac_hessian_jac` applied to the arrays of one slice; the arrays are flattened row by
row (`ravel_pytree`).  The second derivative of the function (nested `jax.jvp`, `jax.jacfwd`, `jax.jacrev`) is a parameter.
-/

namespace Folx.Layout
open Vmap Dot

variable {F : Type} [CommRing F] [Inhabited F] {k : ℕ}

/-- Argument `a` of a slice. -/
def tripAt (ts : List (ArrTrip F)) (a : ℕ) : ArrTrip F :=
  ts.getD a ⟨ND.ofFn [] fun _ => 0, ⟨ND.ofFn [0] fun _ => 0, none⟩, ND.ofFn [] fun _ => 0⟩

/-- The second derivative of the function at a point, for given other arguments; arguments flattened to vectors of sizes `ds`, values by
positions of the output of a slice. -/
abbrev SliceHess (F : Type) [CommRing F] (ds : Fin k → ℕ) := List (ND F) → ((a : Fin k) → Fin (ds a) → F) →
  ((a : Fin k) → Fin (ds a) → F) →ₗ[F] ((a : Fin k) → Fin (ds a) → F) →ₗ[F] (List ℕ → F)

/-- `general_jac_hessian_jac` (`hessian.py:73-105`) on slices of shapes `ss` with output shape `o`.  `junk` where it raises. -/
def generalSlice (ss : Fin k → List ℕ) (o : List ℕ) (c2r : Bool) (hess : SliceHess F fun a => (ss a).prod) (junk : F) : SliceFn F :=
  fun ts es i =>
    match reducedJacobians (fun a => (tripAt ts a).jac.rep (ss a)) i with
    | .error _ => ND.ofFn o fun _ => junk
    | .ok rows =>
      let H := hess es fun a c => (tripAt ts a).x.get (unravelIdx (ss a) c)
      ND.ofFn o (if maxLen rows > ∑ a, (ss a).prod then
        (if c2r then viaHvp H (maxLen rows) (col rows) else viaHessian H (maxLen rows) (col rows))
        else viaTrace H (maxLen rows) (col rows))

/-- `dot_product_jac_hessian_jac` (`hessian.py:135-146`, `utils.py:47-53,71-78`) on two slices of shape `s`; the output has one
element.  `junk` where it raises. -/
def productSlice (s o : List ℕ) (junk : F) : SliceFn F := fun ts _ i =>
  match reducedJacobians (fun a : Fin 2 => (tripAt ts a).jac.rep s) i with
  | .error _ => ND.ofFn o fun _ => junk
  | .ok rows => ND.ofFn o fun _ => 2 * ∑ r ∈ Finset.range (maxLen rows), ∑ c : Fin s.prod, col rows r 0 c * col rows r 1 c

/-! ### Specification -/

/-- `g` computes `tr(J H Jᵀ)` for slices of shapes `ss` with output shape `o`, where `J` has the rows that it is asked for. -/
structure TraceRule (ss : Fin k → List ℕ) (o : List ℕ) (hess : SliceHess F fun a => (ss a).prod) (g : SliceFn F) : Prop where
  shape : ∀ ts es i, (g ts es i).shape = o
  value : ∀ ts es i rows, reducedJacobians (fun a => (tripAt ts a).jac.rep (ss a)) i = .ok rows → ∀ q, InB q o →
    (g ts es i).get q = ∑ r ∈ Finset.range (maxLen rows),
      hess es (fun a c => (tripAt ts a).x.get (unravelIdx (ss a) c)) (col rows r) (col rows r) q

/-- Number of elements of the slices of an argument. -/
abbrev sliceSize (a : ArrTrip F × List ℕ) : ℕ := (skipShape a.1.x.shape a.2).prod

/-- The element of an argument that is number `c` of its slice at broadcast position `v`. -/
def elemAt (b v : List ℕ) (a : ArrTrip F × List ℕ) (c : ℕ) : List ℕ :=
  bindex a.1.x.shape a.2 b v (unravelIdx (skipShape a.1.x.shape a.2) c)

/-- The point at which the function is evaluated at broadcast position `v`. -/
def pointAt (args : Fin k → ArrTrip F × List ℕ) (b v : List ℕ) : (a : Fin k) → Fin (sliceSize (args a)) → F :=
  fun a c => (args a).1.x.get (elemAt b v (args a) c)

/-- The derivatives of its arguments with respect to input `i`. -/
def derivAt (args : Fin k → ArrTrip F × List ℕ) (b v : List ℕ) (i : ℕ) : (a : Fin k) → Fin (sliceSize (args a)) → F :=
  fun a c => (args a).1.jac.entry i (elemAt b v (args a) c)

/-- `R`, broadcast to the output shape `b ++ o`, is at broadcast position `v` the sum over all `n` inputs of the quadratic form
`Q v` of the derivatives of the arguments there. -/
structure IsSecondOrder (n : ℕ) (args : Fin k → ArrTrip F × List ℕ)
    (Q : List ℕ → ((a : Fin k) → Fin (sliceSize (args a)) → F) → List ℕ → F) (b o : List ℕ) (R : ND F) : Prop where
  shape : Broadcasts [R.shape, b ++ o] (b ++ o)
  value : ∀ v q, InB v b → InB q o → R.get (bcoord R.shape (b ++ o) (v ++ q)) =
    ∑ i ∈ Finset.range n, Q v (derivAt args b v i) q

/-- Twice the dot product of the derivatives of the two arguments of a product. -/
def dotForm {args : Fin 2 → ArrTrip F × List ℕ} {s : List ℕ} (hs : ∀ a, skipShape (args a).1.x.shape (args a).2 = s)
    (d : (a : Fin 2) → Fin (sliceSize (args a)) → F) : F :=
  2 * ∑ c : Fin s.prod, d 0 (Fin.cast (congrArg List.prod (hs 0).symm) c) * d 1 (Fin.cast (congrArg List.prod (hs 1).symm) c)

/-- A call of a vectorised function: `k` arguments with Jacobians with respect to `n` inputs, other arguments, no empty arrays; sparse Jacobians have a row.  The
arguments without their `in_axes` broadcast to `b`, together with the other arguments to `B`. -/
structure HessCall (n : ℕ) (args : Fin k → ArrTrip F × List ℕ) (extras : List (ND F × List ℕ)) (b B : List ℕ) : Prop where
  pos : 0 < k
  ok : ∀ a, TripOk (args a)
  jac : ∀ a, (args a).1.jac.For n (args a).1.x.shape
  size : ∀ a, 0 ∉ (args a).1.x.shape
  rows : ∀ a, (args a).1.jac.idx ≠ none → 0 < (args a).1.jac.data.shape.getD 0 0
  ext : ∀ e ∈ extras, e.2.Nodup ∧ ∀ d ∈ e.2, d < e.1.shape.length
  extSize : ∀ e ∈ extras, 0 ∉ e.1.shape
  argShape : Broadcasts ((List.ofFn args).map fun a => otherShape a.1.x.shape a.2) b
  allShape : Broadcasts (((List.ofFn args).map fun a => otherShape a.1.x.shape a.2) ++ extras.map fun e => otherShape e.1.shape e.2) B

/-- The call is treated as dense: some position depends on as many inputs as any argument, or on more than the threshold. -/
def denseCall (inter : Bool) (T : ℕ) (args : List (ArrTrip F × List ℕ)) (b : List ℕ) : Prop :=
  mergedWidth inter args b ≥ maxSizeArr args ∨ mergedWidth inter args b > T

end Folx.Layout

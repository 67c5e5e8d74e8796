import Verif.ND.FirstRule
import Verif.ND.RuleSpec

/-!
# Specification: first derivatives of functions of several arrays

Independent of concatenations, masks, segment sums and the choice of a rule.
-/

namespace Folx.Layout
open Vmap Dot

variable {F : Type} [CommRing F] [Inhabited F] {k : ℕ} {ss : Fin (k + 1) → List ℕ} {o : List ℕ}

/-- An argument of shape `s` with its derivatives with respect to `n` inputs and its Laplacian; a sparse Jacobian has at least one row. -/
structure ArgFor (n : ℕ) (s : List ℕ) (a : ArrTrip F) : Prop where
  x : a.x.shape = s
  jac : a.jac.For n s
  lapl : a.lapl.shape = s
  rows : a.jac.idx ≠ none → 0 < a.jac.data.shape.getD 0 0
  size : 0 ∉ s

/-- The derivatives of all elements of all arguments with respect to input `i`. -/
def derivsOf (ss : Fin (k + 1) → List ℕ) (args : Fin (k + 1) → ArrTrip F) (i : ℕ) : (a : Fin (k + 1)) → Fin (ss a).prod → F :=
  fun a c => (args a).jac.entry i (unravelIdx (ss a) c)

/-- The Laplacians of all elements of all arguments. -/
def laplsOf (ss : Fin (k + 1) → List ℕ) (args : Fin (k + 1) → ArrTrip F) : (a : Fin (k + 1)) → Fin (ss a).prod → F :=
  fun a c => (args a).lapl.get (unravelIdx (ss a) c)

/-- `r` holds the images under the derivative `D` of the derivatives with respect to every input and of the Laplacians, as a Jacobian with respect to `n` inputs. -/
structure IsPush (n : ℕ) (D : Deriv F ss o) (args : Fin (k + 1) → ArrTrip F) (r : FirstOut F) : Prop where
  ok : r.1.For n o
  rows : r.1.idx ≠ none → 0 < r.1.data.shape.getD 0 0
  entry : ∀ i q, InB q o → r.1.entry i q = (toND o (D (derivsOf ss args i))).get q
  shape : r.2.shape = o
  lapl : ∀ q, InB q o → r.2.get q = (toND o (D (laplsOf ss args))).get q

/-- An elementwise function with numpy broadcasting: all arguments broadcast to the shape of the result, and element `q` of the result depends on each
argument only at the element that broadcasting puts there. -/
structure Elementwise (D : Deriv F ss o) : Prop where
  bcast : ∀ a, Broadcasts [ss a, o] o
  dep : ∀ t q, InB q o → (∀ a (c : Fin (ss a).prod), unravelIdx (ss a) c = bcoord (ss a) o q → t a c = 0) → (toND o (D t)).get q = 0

end Folx.Layout

namespace Folx.Layout
open Vmap Dot

variable {F : Type} [CommRing F] [Inhabited F] {k : ℕ} {ss : Fin (k + 1) → List ℕ} {o : List ℕ}

/-- An indexing function: every element of the result is an element of an argument, at a place that is the same for the values and for the indices `f` is
applied to; or it comes from elsewhere, and then its index is the fill value. -/
structure Indexing (D : Deriv F ss o) (f : (Fin (k + 1) → ND ℤ) → ND ℤ) : Prop where
  shape : ∀ x, (∀ a, (x a).shape = ss a) → (f x).shape = o
  src : ∀ q, InB q o →
    (∃ a p, InB p (ss a) ∧ (∀ t, (toND o (D t)).get q = (toND (ss a) (t a)).get p) ∧ ∀ x, (∀ b, (x b).shape = ss b) → (f x).get q = (x a).get p) ∨
    ((∀ t, (toND o (D t)).get q = 0) ∧ ∀ x, (∀ b, (x b).shape = ss b) → (f x).get q = -1)

/-- Adding two sparse Jacobians raises: their row counts differ and neither is 1. -/
def AddRaises (j j' : ArrJac F) : Prop :=
  ∃ m m', j.idx = some m ∧ j'.idx = some m' ∧ m.shape.getD 0 0 ≠ m'.shape.getD 0 0 ∧ m.shape.getD 0 0 ≠ 1 ∧ m'.shape.getD 0 0 ≠ 1

/-- Adding two sparse Jacobians broadcasts one row over several: one has one row, the other more (or none), and all their indices agree. -/
def AddClash (o : List ℕ) (j j' : ArrJac F) : Prop :=
  ∃ m m', j.idx = some m ∧ j'.idx = some m' ∧ m.shape.getD 0 0 ≠ m'.shape.getD 0 0 ∧
    ((m.shape.getD 0 0 = 1 ∧ ∀ r p, r < m'.shape.getD 0 0 → InB p o → m'.get (r :: p) = m.get (0 :: p)) ∨
     (m'.shape.getD 0 0 = 1 ∧ ∀ r p, r < m.shape.getD 0 0 → InB p o → m'.get (0 :: p) = m.get (r :: p)))

/-- What the registered axes say about a function with derivative `D`: nothing if there are none; that it is elementwise; that it is the sum of the argument along
the axes; or, for every argument, dependence only on the elements that share the coordinates along the other axes (numpy broadcasting of these to the result). -/
def AxesOk (ax : AxesKind) (D : Deriv F ss o) : Prop :=
  match ax with
  | .elementwise => Elementwise D
  | .summation dims => dims.Nodup ∧ ∀ a, (∀ d ∈ dims, d < (ss a).length) ∧ dropDims (ss a) dims = o ∧
      ∀ t q, InB q o → (toND o (D (Pi.single a t))).get q = sumOver (ss a) dims (toND (ss a) t).get q
  | .reduction (.flat axes) => ∀ a, (∀ i ∈ axes, -((ss a).length : ℤ) ≤ i ∧ i < (ss a).length) ∧ (axes.map (axisOf (ss a).length)).Nodup ∧
      Broadcasts [dropDims (ss a) (axes.map (axisOf (ss a).length)), o] o ∧
      ∀ t q, InB q o → (∀ p, InB p (ss a) → keptOf (axes.map (axisOf (ss a).length)) p = bcoord (dropDims (ss a) (axes.map (axisOf (ss a).length))) o q →
        (toND (ss a) t).get p = 0) → (toND o (D (Pi.single a t))).get q = 0
  | .reduction (.nested _) => False
  | .all => True

/-- The axes that a reduction of an argument of shape `s` reduces; `none` for elementwise functions and sums. -/
def reducedAxes (s : List ℕ) : AxesKind → Option (List ℕ)
  | .reduction (.flat (i :: l)) => some ((i :: l).map (axisOf s.length))
  | .all => if s = [] then none else some (List.range s.length)
  | _ => none

/-- No element of the argument depends on any input: a reduction of a sparse Jacobian raises (B32). -/
def NoDeps (ax : AxesKind) (s : List ℕ) (j : ArrJac F) : Prop :=
  ∃ dims m, reducedAxes s ax = some dims ∧ j.idx = some m ∧ ∀ u, InB u (dropDims s dims) → depsOf m s dims u = ∅

/-- No broadcasting of rows happens when the Jacobians are added one after the other. -/
def AddSafe (o : List ℕ) : ArrJac F → List (ArrJac F) → Prop
  | _, [] => True
  | acc, j :: l => ¬ AddClash o acc j ∧ ∀ acc', addJacArr acc j = some acc' → AddSafe o acc' l

/-- Adding the Jacobians one after the other raises. -/
def SumRaises : ArrJac F → List (ArrJac F) → Prop
  | _, [] => False
  | acc, j :: l => AddRaises acc j ∨ ∃ acc', addJacArr acc j = some acc' ∧ SumRaises acc' l

/-- The largest number of inputs on which elements that are reduced together depend. -/
def widest (m : ND ℤ) (s dims : List ℕ) : ℕ := ((allIdx (dropDims s dims)).map fun u => (depsOf m s dims u).card).foldr max 0

end Folx.Layout

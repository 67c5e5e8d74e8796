import Verif.ND.SumRule

/-!
# Specification: Jacobians and reductions on arrays

Independent of the transpositions, reshapes and segment sums of the rules.
-/

namespace Folx.Layout
open Dot

variable {F : Type} [AddCommMonoid F] [Inhabited F]

/-- The derivative of element `p` with respect to input `i` that a Jacobian stored as arrays represents: for a dense one row `i`
of the data, for a sparse one the sum over the rows whose index at `p` is `i`. -/
def ArrJac.entry (j : ArrJac F) (i : ℕ) (p : List ℕ) : F :=
  match j.idx with
  | none => if i < j.data.shape.getD 0 0 then j.data.get (i :: p) else 0
  | some m => ((List.range (j.data.shape.getD 0 0)).map fun k =>
      if m.get (k :: p) = (i : ℤ) then j.data.get (k :: p) else 0).sum

/-- A Jacobian of an array of shape `s` with respect to `n` inputs: a dense one has at most `n` rows; a sparse one has indices
of the shape of the data, below `n`, and `-1` only where the data are zero. -/
def ArrJac.For (j : ArrJac F) (n : ℕ) (s : List ℕ) : Prop :=
  (∃ K, j.data.shape = K :: s) ∧
  match j.idx with
  | none => j.data.shape.getD 0 0 ≤ n
  | some m => m.shape = j.data.shape ∧ ∀ k p, k < j.data.shape.getD 0 0 → InB p s →
      m.get (k :: p) < n ∧ (m.get (k :: p) < 0 → m.get (k :: p) = -1 ∧ j.data.get (k :: p) = 0)

/-- The coordinates of a position along the axes that are not reduced. -/
def keptOf (dims : List ℕ) (p : List ℕ) : List ℕ := ((List.range p.length).filter fun d => d ∉ dims).map fun d => p.getD d 0

/-- An axis of an array with `n` axes; negative ones count from the back. -/
def axisOf (n : ℕ) (i : ℤ) : ℕ := (if i < 0 then i + n else i).toNat

/-- The sum of `f` over the positions of an array of shape `s` whose kept coordinates are `q`. -/
def sumOver (s dims : List ℕ) (f : List ℕ → F) (q : List ℕ) : F :=
  (((allIdx s).filter fun p => keptOf dims p = q).map f).sum

/-- The shape that remains when the axes `dims` are removed. -/
def dropDims (s dims : List ℕ) : List ℕ := ((List.range s.length).filter fun d => d ∉ dims).map fun d => s.getD d 0

/-- The inputs on which the elements with kept coordinates `u` depend, according to the indices `x0`. -/
def depsOf (x0 : ND ℤ) (s dims u : List ℕ) : Finset ℤ :=
  (((allIdx s).filter fun p => keptOf dims p = u).flatMap fun p =>
    (List.range (x0.shape.getD 0 0)).map fun k => x0.get (k :: p)).toFinset.erase (-1)

/-- A linear function from arrays of shape `s` to arrays of shape `o`. -/
structure LinearArr {F : Type} [Semiring F] [Inhabited F] (push : ND F → ND F) (s o : List ℕ) : Prop where
  shape : ∀ t : ND F, t.shape = s → (push t).shape = o
  add : ∀ t u v : ND F, t.shape = s → u.shape = s → v.shape = s → (∀ p, InB p s → v.get p = t.get p + u.get p) →
    ∀ q, InB q o → (push v).get q = (push t).get q + (push u).get q
  smul : ∀ (c : F) (t v : ND F), t.shape = s → v.shape = s → (∀ p, InB p s → v.get p = c * t.get p) →
    ∀ q, InB q o → (push v).get q = c * (push t).get q

/-- Element `q` of the result depends only on the elements whose kept coordinates are `κ q`. -/
def DependsOn {F : Type} [Zero F] [Inhabited F] (push : ND F → ND F) (s dims o : List ℕ) (κ : List ℕ → List ℕ) : Prop :=
  ∀ t : ND F, t.shape = s → ∀ q, InB q o → (∀ p, InB p s → keptOf dims p = κ q → t.get p = 0) → (push t).get q = 0

end Folx.Layout

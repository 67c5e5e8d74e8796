import Verif.ND.Wrap
import Verif.ND.FirstSpec
import Verif.Prog.Rep

/-!
# Specification: arrays that hold value, derivatives and Laplacian of a function

Independent of the rules.  Elements of arrays are numbered in row-major order.
-/

namespace Folx.Layout
open Vmap Dot

variable {X : Type} [NormedAddCommGroup X] [NormedSpace ℝ X] {F : Type} [RCLike F] [Inhabited F]

/-- The arrays `t` hold the values of `u` (arrays of shape `s` that depend on a point of `X`) at the base point, its derivatives in the base directions (the derivative
in direction `i` is the Jacobian entry for input `i`) and the sum of its second derivatives in these directions. -/
structure ArrRep (B : Base X) (s : List ℕ) (t : ArrTrip F) (u : X → Fin s.prod → F) : Prop where
  arg : ArgFor B.n s t
  x : ∀ p, InB p s → t.x.get p = (toND s (u B.x0)).get p
  deriv : ∃ D H, HasFDeriv2At u D H B.x0 ∧
    (∀ (i : Fin B.n) p, InB p s → t.jac.entry i p = (toND s (D (B.dir i))).get p) ∧
    ∀ p, InB p s → t.lapl.get p = (toND s (∑ i, H (B.dir i) (B.dir i))).get p

/-- The slice of an array (of shape `s`, along the axes `skip`) that belongs to position `v` of the batch shape `b`. -/
def sliceVec {α : Type} [Inhabited α] (s skip b v : List ℕ) (x : Fin s.prod → α) : Fin (skipShape s skip).prod → α :=
  fun c => (toND s x).get (bindex s skip b v (unravelIdx (skipShape s skip) c))

variable {k : ℕ} {ss : Fin k → List ℕ} {out : List ℕ}

/-- `A` is the function `φ` of slices (and slices of the other arguments), vectorised over the batch shape `B` with numpy broadcasting; it is twice
differentiable at `x`, and `A.deriv` and `A.hess` are its derivatives; a custom rule for the second-order term is right. -/
structure ArrFn.Computes (A : ArrFn F ss out) (extras : List (ND F × List ℕ)) (B : List ℕ)
    (φ : List (ND F) → ((a : Fin k) → Fin (A.inAxes.slice (ss a)).prod → F) → List ℕ → F) (x : (a : Fin k) → Fin (ss a).prod → F) : Prop where
  shape : out = B ++ A.sliceOut
  value : ∀ y v q, InB v B → InB q A.sliceOut → (toND out (A.fwd y)).get (v ++ q) =
    φ (extras.map fun e => bslice e.1 e.2 B v) (fun a => sliceVec (ss a) (A.inAxes.second (ss a).length) B v (y a)) q
  fst : ∃ D : ((a : Fin k) → Fin (ss a).prod → F) →L[ℝ] (Fin out.prod → F), HasFDerivAt A.fwd D x ∧ ∀ t, D t = A.deriv x t
  snd : ∀ v q, InB v B → InB q A.sliceOut → ∃ D H,
    HasFDeriv2At (fun z => φ (extras.map fun e => bslice e.1 e.2 B v) z q) D H (fun a => sliceVec (ss a) (A.inAxes.second (ss a).length) B v (x a)) ∧
    ∀ s t, H s t = A.hess (extras.map fun e => bslice e.1 e.2 B v) (fun a => sliceVec (ss a) (A.inAxes.second (ss a).length) B v (x a)) s t q
  /-- a custom rule for the second-order term is right, unless the function is declared linear in its only argument; functions that are linear in each argument have none -/
  custom : ¬ (A.flags.has Flags.LINEAR_IN_FIRST = true ∧ A.firstIsLapl = true ∧ k = 1) → ∀ g, A.customFor (List.range k) = some g →
    A.flags.has Flags.LINEAR_IN_ONE = false ∧ TraceRule (fun a => A.inAxes.slice (ss a)) A.sliceOut A.hess g := by intro _ g hg; cases hg

/-- The axes of the function fit the shapes of its arguments; the arguments without them broadcast to `b`, together with the other arguments to `B`. -/
structure ArrFn.Batch (A : ArrFn F ss out) (extras : List (ND F × List ℕ)) (b B : List ℕ) : Prop where
  range : ∀ l, A.inAxes = .axes l → ∀ a, ∀ i ∈ l, -((ss a).length : ℤ) ≤ i ∧ i < (ss a).length
  nodup : ∀ a, (A.inAxes.second (ss a).length).Nodup
  ext : ∀ e ∈ extras, e.2.Nodup ∧ ∀ d ∈ e.2, d < e.1.shape.length
  extSize : ∀ e ∈ extras, 0 ∉ e.1.shape
  argShape : Broadcasts (List.ofFn fun a => otherShape (ss a) (A.inAxes.second (ss a).length)) b
  allShape : Broadcasts ((List.ofFn fun a => otherShape (ss a) (A.inAxes.second (ss a).length)) ++ extras.map fun e => otherShape e.1.shape e.2) B

/-- The dot product of the two slices (their product if the slices have one element). -/
def sliceDot {ss : Fin 2 → List ℕ} {s : List ℕ} (hs : ∀ a, ss a = s) (z : (a : Fin 2) → Fin (ss a).prod → F) : F :=
  ∑ c : Fin s.prod, z 0 (Fin.cast (congrArg List.prod (hs 0).symm) c) * z 1 (Fin.cast (congrArg List.prod (hs 1).symm) c)

end Folx.Layout

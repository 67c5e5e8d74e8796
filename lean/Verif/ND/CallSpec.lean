import Verif.ND.Split
import Verif.ND.WrapSpec

/-!
# Specification: registered functions whose declarations are true

`A` is a function of `m + 1` arrays with its flags and axes (`register_function`, `wrap_forward_laplacian`).  Nothing here refers to the rules.
-/

namespace Folx.Layout
open Vmap Dot

variable {F : Type} [RCLike F] [Inhabited F] {m : ℕ} {shape : Fin (m + 1) → List ℕ} {out : List ℕ}

/-- The slices of all operands at position `v` of the batch shape `b`. -/
def ArrFn.slices (A : ArrFn F shape out) (b v : List ℕ) (x : (i : Fin (m + 1)) → Fin (shape i).prod → F) : (i : Fin (m + 1)) → Fin (A.inAxes.slice (shape i)).prod → F :=
  fun i => sliceVec (shape i) (A.inAxes.second (shape i).length) b v (x i)

/-- `φ` is the product of its two operands (the dot product, if slices have several elements). -/
def ArrFn.Product (A : ArrFn F shape out) (φ : List (ND F) → ((i : Fin (m + 1)) → Fin (A.inAxes.slice (shape i)).prod → F) → List ℕ → F) : Prop :=
  m = 1 ∧ ∃ (s : List ℕ) (hs : ∀ i, A.inAxes.slice (shape i) = s), ∀ es z q,
    φ es z q = ∑ c : Fin s.prod, z 0 (Fin.cast (congrArg List.prod (hs 0).symm) c) * z (Fin.last m) (Fin.cast (congrArg List.prod (hs (Fin.last m)).symm) c)

/-- The declarations of `A` are true at `x`:  `A` is `φ` vectorised over the batch shape `b`, the derivatives are right, the axes and the flags say the truth. -/
structure ArrFn.Truthful (A : ArrFn F shape out) (ifwd : (acts : List (Fin (m + 1))) → Option ((Fin acts.length → ND ℤ) → ND ℤ)) (b : List ℕ)
    (φ : List (ND F) → ((i : Fin (m + 1)) → Fin (A.inAxes.slice (shape i)).prod → F) → List ℕ → F) (x : (i : Fin (m + 1)) → Fin (shape i).prod → F) : Prop where
  /-- no arrays without elements -/
  argSize : ∀ i, 0 ∉ shape i
  outSize : 0 ∉ out
  computes : A.Computes [] b φ x
  batch : A.Batch [] b b
  /-- results depend on the operands as the axes say -/
  axes : AxesOk (A.inAxes.first (A.flags.has Flags.SUMMATION)) (A.deriv x)
  /-- `INDEXING`: every element of the result is an element of an operand (or constant), and the function on integer arrays takes the same one (or `-1`) -/
  index : A.flags.has Flags.INDEXING = true → ∀ a0 rest f, (a0 :: rest).Nodup → ifwd (a0 :: rest) = some f →
    Indexing (k := rest.length) (ss := fun a => shape ((a0 :: rest).get a)) (A.deriv x ∘ₗ extendBy (P := fun i => Fin (shape i).prod) (a0 :: rest).get) f
  /-- custom rules for the second-order term are right, whichever operands carry derivatives (if it is declared linear in the first: not for the first alone); functions that are linear in each operand have none -/
  custom : ∀ acts g, acts ≠ [] → acts.Pairwise (· < ·) → (A.flags.has Flags.LINEAR_IN_FIRST = true → acts ≠ [0]) → A.customFor (acts.map Fin.val) = some g → A.flags.has Flags.LINEAR_IN_ONE = false ∧
    TraceRule (fun a : Fin acts.length => A.inAxes.slice (shape (acts.get a))) A.sliceOut (A.restrict ifwd acts x).hess g := by intro _ _ _ _ _ hg; cases hg
  /-- the flags that concern second derivatives: `LINEAR`; products; or none but `LINEAR_IN_FIRST` -/
  second : (A.flags.has Flags.LINEAR = true ∧ ∀ v q, InB v b → InB q A.sliceOut → ∀ s t, A.hess [] (A.slices b v x) s t q = 0) ∨
    (A.flags.has Flags.LINEAR = false ∧ A.flags.has Flags.MULTIPLICATION = true ∧ A.Product φ ∧
      (A.flags.has Flags.DOT_PRODUCT = true → A.inAxes = .axes [-1] ∧ ∀ i, (shape i).length = b.length + 1)) ∨
    (A.flags.has Flags.LINEAR_IN_ONE = false ∧
      (A.flags.has Flags.LINEAR_IN_FIRST = true → ∀ v q, InB v b → InB q A.sliceOut → ∀ s t, A.hess [] (A.slices b v x) (Pi.single 0 s) (Pi.single 0 t) q = 0))

/-- With sparse Jacobians: no call in which sparse Jacobians of sums or elementwise functions of several operands are added (B1), no sparse-to-dense second-order rule
(`SPARSE_JHJ`) for functions that are not linear in each operand, no batch axes of size 1 in dot products (B9), an indexing function that can be applied to integers. -/
structure ArrFn.SparseSafe (A : ArrFn F shape out) (ifwd : (acts : List (Fin (m + 1))) → Option ((Fin acts.length → ND ℤ) → ND ℤ)) (b : List ℕ) : Prop where
  jhj : A.flags.has Flags.SPARSE_JHJ = false ∨ A.flags.has Flags.LINEAR_IN_ONE = true
  sums : (∀ i, reducedAxes (shape i) (A.inAxes.first (A.flags.has Flags.SUMMATION)) ≠ none) ∨ m = 0 ∨
    (m ≤ 1 ∧ (A.flags.has Flags.INDEXING = true ∨ A.inAxes = .axes []))
  dot : A.flags.has Flags.DOT_PRODUCT = true → A.flags.has Flags.LINEAR = false → 1 ∉ b
  index : A.flags.has Flags.INDEXING = true → ∀ a0 rest, ifwd (a0 :: rest) ≠ none

end Folx.Layout

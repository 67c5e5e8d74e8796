import Mathlib.Algebra.BigOperators.Group.Finset.Basic
import Mathlib.Algebra.BigOperators.Ring.Finset
import Mathlib.Algebra.Ring.Int.Defs
import Mathlib.Algebra.BigOperators.Fin
import Mathlib.Data.Fintype.Basic
import Mathlib.Data.Fintype.BigOperators
import Mathlib.Order.WithBot
import Mathlib.Data.List.GetD
import Mathlib.Data.Finset.Lattice.Fold
import Mathlib.Data.Int.Order.Basic
import Mathlib.Tactic.Ring
import Mathlib.Tactic.Linarith
import Verif.Interp.Env

/-!
# Jacobians (model of `folx/api.py:19-238`)

An array with position type `P` (its multi-indices) and scalars `F` is a function `P → F`.
The Jacobian axis (`JAC_DIM = 0`, `api.py:16`) is the outer list of rows.
Layout questions (transposes and reshapes on the way) are treated in `Verif/ND`.
-/

namespace Folx

open Folx.Interp (Err)
open scoped BigOperators

variable {P Q F : Type}

/-- One storage row of a sparse Jacobian: `x0_idx[r]` and `data[r]` (`api.py:41-42`). -/
structure Row (P F : Type) where
  idx : P → ℤ
  val : P → F

/-- `FwdJacobian` (`api.py:19-46`): `weak` iff `x0_idx` is present. -/
inductive Jac (P F : Type) where
  | dense (rows : List (P → F))
  | sparse (rows : List (Row P F))

/-- `np.arange(m)` broadcast along the trailing axes (`api.py:167-168,194-198`). -/
def arange (m : ℕ) : List (P → ℤ) := (List.range m).map fun (i : ℕ) (_ : P) => (i : ℤ)

namespace Jac

/-- `FwdJacobian.weak` (`api.py:44-46`). -/
def weak : Jac P F → Bool
  | dense _ => false
  | sparse _ => true

/-- Number of storage rows, `data.shape[JAC_DIM]`. -/
def nrows : Jac P F → ℕ
  | dense rows => rows.length
  | sparse rows => rows.length

/-- `FwdJacobian.data` (`api.py:41`). -/
def data : Jac P F → List (P → F)
  | dense rows => rows
  | sparse rows => rows.map Row.val

/-- `FwdJacobian.mask` (`api.py:189-198`): the stored indices, or `arange` for a dense Jacobian. -/
def mask : Jac P F → List (P → ℤ)
  | dense rows => arange rows.length
  | sparse rows => rows.map Row.idx

end Jac

/-- `jax.ops.segment_sum(x, ids, num_segments)` applied independently at every position
(`api.py:101-105`): entries whose id is negative or `≥ num_segments` are dropped. -/
def segSum [AddCommMonoid F] (numSegments : ℕ) (ids : List (P → ℤ)) (vals : List (P → F)) :
    List (P → F) :=
  (List.range numSegments).map fun (s : ℕ) (p : P) =>
    ((ids.zip vals).map fun iv => if iv.1 p = (s : ℤ) then iv.2 p else 0).sum

/-- The index of the first output equal to `z`, or `-1` (`get_indices`, `api.py:126-130`). -/
def matchIdx (outs : List ℤ) (z : ℤ) : ℤ := if z ∈ outs then (outs.idxOf z : ℤ) else -1

namespace Jac

/-- `FwdJacobian.get_index_mask(outputs)` (`api.py:109-137`).  `argmax` over an empty axis raises. -/
def getIndexMask (rows : List (Row P F)) (outs : List (P → ℤ)) : Except Err (List (P → ℤ)) :=
  if outs = [] then .error .emptyArgmax
  else .ok (rows.map fun r p => matchIdx (outs.map (· p)) (r.idx p))

/-- `FwdJacobian.materialize_for_idx(idx, max_idx)` (`api.py:58-107`): a segment sum of the data.
The compaction of repeated dimensions and the transposes in the source are a layout optimisation;
they are modelled separately in `Verif/ND/Layout.lean`. -/
def materializeForIdx [AddCommMonoid F] (rows : List (Row P F)) (ids : List (P → ℤ)) (maxIdx : ℕ) :
    List (P → F) :=
  segSum maxIdx ids (rows.map Row.val)

/-- The sparse branch of `construct_jac_for(idx)` (`api.py:152-158`) for an index array with the
shape of the Jacobian. -/
def constructSparse [AddCommMonoid F] (rows : List (Row P F)) (outs : List (P → ℤ)) :
    Except Err (List (P → F)) :=
  if outs = [] then .ok [fun _ => 0]
  else
    match getIndexMask rows outs with
    | .error e => .error e
    | .ok ids => .ok (materializeForIdx rows ids outs.length)

/-- `max_n` of a sparse Jacobian (`api.py:171-173`): `np.max(x0_idx)`; `⊥` for an empty array
(where numpy raises). -/
def maxN [Fintype P] (rows : List (Row P F)) : WithBot ℤ :=
  rows.foldr (fun r m => max (Finset.univ.sup fun p => ((r.idx p : ℤ) : WithBot ℤ)) m) ⊥

/-- `dense_array` (`api.py:160-168`).  A dense Jacobian is returned as it is; a sparse one is
materialised for `arange(max_n + 1)`, so it may have fewer rows than the function has inputs. -/
def denseArray [AddCommMonoid F] [Fintype P] : Jac P F → Except Err (List (P → F))
  | dense rows => .ok rows
  | sparse rows =>
    match maxN rows with
    | ⊥ => .error .emptyReduction
    | (m : ℤ) => constructSparse rows (arange (m + 1).toNat)

/-- `as_dense` (`api.py:176-178`). -/
def asDense [AddCommMonoid F] [Fintype P] (J : Jac P F) : Except Err (Jac P F) :=
  match J.denseArray with
  | .error e => .error e
  | .ok rows => .ok (dense rows)

end Jac

/-- JAX's read of `data[i]` along the Jacobian axis: a negative index counts from the end, an index
that is too large is clamped (`api.py:157`, jax indexing semantics). -/
def jaxTake [AddCommMonoid F] (rows : List (P → F)) (i : ℤ) : P → F :=
  let k : ℤ := if i < 0 then i + rows.length else i
  rows.getD (min (max k 0) ((rows.length : ℤ) - 1)).toNat (fun _ => 0)

namespace Jac

/-- `construct_jac_for(idx)` (`api.py:143-158`) for a one-dimensional index vector, as used inside the
vmapped Hessian computation. -/
def constructFor [AddCommMonoid F] [Fintype P] (J : Jac P F) (idx : Option (List ℤ)) :
    Except Err (List (P → F)) :=
  match idx with
  | none => J.denseArray
  | some is =>
    if is = [] then .ok [fun _ => 0]
    else match J with
      | dense rows => .ok (is.map (jaxTake rows))
      | sparse rows => constructSparse rows (is.map fun i _ => i)

end Jac

/-- `extend_jacobians(*x, axis=JAC_DIM)` (`utils.py:361-379`) for one array, given the target length. -/
def extendTo [Zero F] (rows : List (P → F)) (m : ℕ) : List (P → F) :=
  rows ++ List.replicate (m - rows.length) (fun _ => 0)

/-- `add_jacobians` (`utils.py:520-525`). -/
def addJacobians [AddCommMonoid F] (a b : List (P → F)) : List (P → F) :=
  let m := max a.length b.length
  ((extendTo a m).zip (extendTo b m)).map fun r p => r.1 p + r.2 p

/-- `np.broadcast_shapes` on the leading axis: defined iff equal or one of them is `1`. -/
def brdcastLen (m n : ℕ) : Option ℕ :=
  if m = n then some m else if m = 1 then some n else if n = 1 then some m else none

/-- numpy broadcasting of a list of rows along the leading axis to length `m`. -/
def brdcastRows {β : Type} (l : List β) (m : ℕ) : List β :=
  match l with
  | [x] => List.replicate m x
  | _ => l

namespace Jac

/-- `FwdJacobian.__add__` (`api.py:208-224`).  Note that `(other.x0_idx == self.x0_idx).all()` and
`self.data + other.data` broadcast the leading axis; incompatible lengths raise. -/
def add [AddCommMonoid F] [Fintype P] [DecidableEq P] : Jac P F → Jac P F → Except Err (Jac P F)
  | sparse r1, sparse r2 =>
    match brdcastLen r1.length r2.length with
    | none => .error .shape
    | some m =>
      let b1 := brdcastRows r1 m
      let b2 := brdcastRows r2 m
      if ∀ r ∈ b1.zip b2, ∀ p, r.2.idx p = r.1.idx p then
        .ok (sparse ((b1.zip b2).map fun r => ⟨r.1.idx, fun p => r.1.val p + r.2.val p⟩))
      else .ok (sparse (r1 ++ r2))
  | J1, J2 =>
    match J1.denseArray, J2.denseArray with
    | .ok a, .ok b => .ok (dense (addJacobians a b))
    | .error e, _ => .error e
    | _, .error e => .error e

end Jac

/-! ## Specification: the matrix a Jacobian denotes -/

namespace Jac

/-- The dense matrix a Jacobian stands for: row `i` is the derivative with respect to input `i`.
For a sparse Jacobian it is the sum of all stored entries with index `i`. -/
def den [AddCommMonoid F] : Jac P F → ℕ → P → F
  | dense rows, i, p => (rows.getD i (fun _ => 0)) p
  | sparse rows, i, p => (rows.map fun r => if r.idx p = (i : ℤ) then r.val p else 0).sum

/-- Well-formedness with respect to `n` inputs: indices stay below `n`, and the only negative index is
`-1` (padding), whose entries are zero. -/
def Wf [Zero F] (n : ℕ) : Jac P F → Prop
  | dense rows => rows.length ≤ n
  | sparse rows => ∀ r ∈ rows, ∀ p, r.idx p < n ∧ (r.idx p < 0 → r.idx p = -1 ∧ r.val p = 0)

end Jac

/-- `FwdLaplArray` (`api.py:241-249`): value, Jacobian, Laplacian. -/
structure Trip (P F : Type) where
  x : P → F
  jac : Jac P F
  lapl : P → F

end Folx

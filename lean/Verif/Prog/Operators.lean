import Verif.Prog.Interp
import Verif.Interp.Init
import Mathlib.Analysis.Calculus.FDeriv.Basic
import Mathlib.Analysis.RCLike.Basic

/-!
# Model of `folx/operators.py`

`jax.grad` and `jax.linearize` are external and modelled by their meaning: the array of partial derivatives, and the
derivative at the point.  A user function `f` is a function of arrays of any shape; for shapes it does not accept
(indexing an axis that does not exist, a matrix product with the wrong rank, …) it raises, modelled by `none`.
-/

namespace Folx.Operators

open Folx Folx.Interp

/-- A JAX array: shape and entries in row-major order. -/
structure Arr where
  shape : List ℕ
  data : List ℝ

/-- A function from arrays to scalars: for every accepted shape a function of the entries. -/
abbrev ScalarFn := (s : List ℕ) → Option ((Fin s.prod → ℝ) → ℝ)

/-- `jax.grad(f)(x)` (external). -/
noncomputable def jaxGrad {n : ℕ} (f : (Fin n → ℝ) → ℝ) (x : Fin n → ℝ) : Fin n → ℝ :=
  fun i => fderiv ℝ f x (Pi.single i 1)

/-- `jax.linearize(g, x)` (external): the value and the derivative at `x`. -/
noncomputable def jaxLinearize {n m : ℕ} (g : (Fin n → ℝ) → Fin m → ℝ) (x : Fin n → ℝ) :
    (Fin m → ℝ) × ((Fin n → ℝ) → Fin m → ℝ) :=
  (g x, fun t => fderiv ℝ g x t)

/-- `jnp.eye(n)[i]`. -/
def eyeRow {n : ℕ} (i : Fin n) : Fin n → ℝ := fun j => if j = i then 1 else 0

/-- `jax.lax.scan(lambda i, _: (i + 1, step(i)), i, None, length)`: final carry and per-step outputs. -/
def scanIdx {E : Type} (step : ℕ → E) : ℕ → ℕ → ℕ × List E
  | i, 0 => (i, [])
  | i, k + 1 => let r := scanIdx step (i + 1) k; (r.1, step i :: r.2)

/-- What an operator returns: `(laplacian, jacobian)`. -/
structure Result where
  laplacian : Arr
  jacobian : Arr

/-- `ForwardLaplacianOperator(sparsity_threshold)(f)(x)` (`operators.py:27-38`), for a function given by its jaxpr `j`
(constants `consts`) whose only output has shape `oshape`.  `x` is one array.  If the output is a plain array (the
function does not depend on its input) the attribute access raises.  Jacobian rows are the leading axis. -/
def forwardOp (reg : String → Option (Prim ℝ)) (junk : List (PVal ℝ) → PVal ℝ) (sparsityThreshold : ℚ)
    (d : ℕ) (j : Jaxpr (Op d ℝ) (PArr ℝ)) (consts : List (PArr ℝ)) (oshape : List ℕ) {n : ℕ} (x : Fin n → ℝ) :
    Except Err Result :=
  match forwardLaplacian reg junk sparsityThreshold d j consts .absent [⟨n, .plain x⟩] with
  | .error e => .error e
  | .ok [⟨_, .lapl t⟩] =>
    match t.jac.denseArray with
    | .error e => .error e
    | .ok rows => .ok ⟨⟨oshape, List.ofFn t.lapl⟩, ⟨rows.length :: oshape, rows.flatMap List.ofFn⟩⟩
  | .ok _ => .error .type

/-- `LoopLaplacianOperator()(f)(x)` (`operators.py:41-62`): `x` is flattened, `f_` restores the shape. -/
noncomputable def loopOp (f : ScalarFn) (xShape : List ℕ) (x : Fin xShape.prod → ℝ) : Except Err Result :=
  match f xShape with
  | none => .error .shape
  | some f_ =>
    let n := xShape.prod
    let lin := jaxLinearize (jaxGrad f_) x
    let ys := (scanIdx (fun i => if h : i < n then lin.2 (eyeRow ⟨i, h⟩) ⟨i, h⟩ else 0) 0 n).2
    .ok ⟨⟨[n], ys⟩, ⟨[n], List.ofFn lin.1⟩⟩

/-- `x.reshape(-1)` of an array of shape `s`, as entries of an array of shape `[prod s]`. -/
def flattened {s : List ℕ} (x : Fin s.prod → ℝ) : Fin [s.prod].prod → ℝ := fun i => x (i.cast (by simp))

/-- `ParallelLaplacianOperator()(f)(x)` (`operators.py:65-79`): `f` itself is applied to the flattened array. -/
noncomputable def parallelOp (f : ScalarFn) (xShape : List ℕ) (x : Fin xShape.prod → ℝ) : Except Err Result :=
  match f [xShape.prod] with
  | none => .error .shape
  | some f_ =>
    let n := [xShape.prod].prod
    let lin := jaxLinearize (jaxGrad f_) (flattened x)
    let mat : Fin n → Fin n → ℝ := fun i => lin.2 (eyeRow i)
    .ok ⟨⟨[n], List.ofFn fun i => mat i i⟩, ⟨[n], List.ofFn lin.1⟩⟩

end Folx.Operators

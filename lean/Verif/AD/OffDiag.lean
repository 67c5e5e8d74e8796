import Verif.AD.General
import Verif.AD.AdSpec

/-!
# The mixed block of the Hessian in `off_diagblock_jac_hessian_jac` (`hessian.py:108-132`, `utils.py:104-115`)

JAX's own `jax.jacrev` and `jax.jacfwd` (not those of `folx/ad.py`) are external and modelled by what JAX documents them to
compute: `vjp` along, resp. `jvp` along the rows of the identity.  Real arrays only: `jax.jacrev` raises for the other dtypes.
-/

namespace Folx.AD

variable {D E m : ℕ}

/-- `jax.jacrev(f)(x)` for a flat argument and a flat result (external). -/
noncomputable def jaxJacrev (f : (Fin D → ℝ) → Fin m → ℝ) (x : Fin D → ℝ) : Fin m → Fin D → ℝ := fun p i => jaxVjp f x (eyeRow p) i

/-- `array_wise_flat_wrap(fn, *x)` (`utils.py:104-115`): every argument flat on its own, the results concatenated; `fn` takes two
arrays, whose positions are numbered by `e0` and `e1`. -/
def arrayWiseFlatWrap {P0 P1 : Type} {l : ℕ} {osize : Fin l → ℕ} (e0 : P0 ≃ Fin D) (e1 : P1 ≃ Fin E) (fn : (P0 → ℝ) → (P1 → ℝ) → Tuple osize ℝ) :
    (Fin D → ℝ) → (Fin E → ℝ) → Fin (∑ j, osize j) → ℝ :=
  fun x y => ravel (fn (fun p => x (e0 p)) fun p => y (e1 p))

/-- `jax.jacfwd(jac_lhs, argnums=1)(x, y)` (`hessian.py:119-124`). -/
noncomputable def offDiagHessian (f : (Fin D → ℝ) → (Fin E → ℝ) → Fin m → ℝ) (x : Fin D → ℝ) (y : Fin E → ℝ) : Fin m → Fin D → Fin E → ℝ :=
  let jacLhs : (Fin E → ℝ) → (Fin m × Fin D) → ℝ := fun rhs o => jaxJacrev (fun lhs => f lhs rhs) x o.1 o.2
  fun p i j => jaxJvp jacLhs y (eyeRow j) (p, i)

end Folx.AD

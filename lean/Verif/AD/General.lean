import Verif.AD.Ad

/-!
# `general_jac_hessian_jac` on top of the AD transforms (`hessian.py:73-105`, `utils.py:89-101`)

Arguments and results are tuples of arrays, flattened row by row (`Tuple`).
-/

namespace Folx.AD

variable {F G : Type} [RCLike F] [RCLike G] {k l : ℕ} {size : Fin k → ℕ} {osize : Fin l → ℕ}

/-- `flat_wrap(fn, *x)` (`utils.py:89-101`). -/
def flatWrap (f : Tuple size F → Tuple osize G) : (Fin (∑ j, size j) → F) → Fin (∑ j, osize j) → G :=
  fun x => ravel (f (unravel x))

/-- `jnp.concatenate([x.T for x in grads_2d], axis=0)` (`hessian.py:90`): `rows a c` is row `c` of the Jacobian of argument `a`. -/
def concatT {K : ℕ} (rows : (a : Fin k) → Fin K → Fin (size a) → F) : Fin (∑ j, size j) → Fin K → F :=
  fun i c => rows (finSigmaFinEquiv.symm i).1 c (finSigmaFinEquiv.symm i).2

open Classical in
/-- `general_jac_hessian_jac` (`hessian.py:73-105`), for the rows that `get_reduced_jacobians` returns; `K` and `∑ j, size j` are the code's `inp_dim` and
`jac_dim`.  Complex numbers throughout, as for `jacrev`. -/
noncomputable def generalJHJ {K : ℕ} (f : Tuple size F → Tuple osize G) (x : Tuple size F) (rows : (a : Fin k) → Fin K → Fin (size a) → F) : Tuple osize ℂ :=
  let flatFn := flatWrap f
  let flatX := ravel x
  let grad2d := concatT rows
  let flatOut : Fin (∑ j, osize j) → ℂ :=
    if K > ∑ j, size j then
      if IsComplex F ∧ ¬ IsComplex G then fun p => ((jhjViaHvp flatFn flatX grad2d p).re : ℂ)
      else jhjViaHessian flatFn flatX grad2d
    else fun p => RCLike.map G ℂ (jhjViaTrace flatFn flatX grad2d p)
  unravel flatOut

end Folx.AD

import Verif.Prog.Slogdet
import Verif.Calc.CNorm

/-!
# The absolute value of complex arrays (model of `wrapped_functions.py:262-293`, `custom_hessian.py:56-78`)

The scalars are `F` with `RCLike F`, as everywhere; the branch modelled here is the one taken for complex arrays
(`F = ℂ`).  The result is real; it is stored as element of `F`.
-/

namespace Folx

open Folx.Interp (Err)

variable {F : Type} [RCLike F]

/-- `complex_abs_jac_hessian_jac` (`custom_hessian.py:56-78`) on one slice (one element).  It looks at the stored data of
the Jacobian, whatever the indices, and not at `materialize_idx`. -/
noncomputable def absRule {V : Type} : CustomRule 1 (fun _ => 1) V Unit F := fun _ sargs _ =>
  let x := (sargs 0).x 0
  let J := (sargs 0).jac.data
  let y : ℝ := ‖x‖
  let xJ := J.map fun r => reDot x (r 0)
  .ok fun _ => (((J.map fun r => ‖r 0‖ * ‖r 0‖).sum / y - (xJ.map fun a => a * a).sum / y ^ 3 : ℝ) : F)

/-- The pull-back of `1` under `complex_abs` at `z`: `vjp(complex_abs, x)(ones)` (`jvp.py:204,460`, `ad.py:44-52`), i.e.
the number `c` with `Re (c t) = (re z re t + im z im t) / |z|` (`wrapped_functions.py:268-280`); see
`absPull_spec`. -/
noncomputable def absPull (z : F) : F := star z / ((‖z‖ : ℝ) : F)

/-- `wrap_forward_laplacian(complex_abs, in_axes=(), custom_jac_hessian_jac=complex_abs_jac_hessian_jac)`
(`wrapped_functions.py:285-290`) before the final type cast.  The operand has the shape of the output, so Jacobian and
Laplacian are multiplied with the pull-back of `1` (`jvp.py:201-206,456-463`).  The declared second derivative is not
looked at, since there is a custom rule; it is set to `0`. -/
noncomputable def absInst (m : ℕ) : HInst 1 (fun _ => Fin m) (Fin m) F :=
  elemHInst (fun _ z => ((‖z 0‖ : ℝ) : F)) (fun _ z _ => absPull (z 0)) (fun _ _ _ _ => 0) (fun _ q => q)
    (fun _ => some (Equiv.refl _)) Flags.GENERAL true true (some absRule)

/-- `abs_wrapper` (`wrapped_functions.py:283-293`) for complex input.  The final cast to the (real) type of the value
(`wrapper.py:121-133`, `api.py:283-293`) takes real parts of Jacobian and Laplacian.  On a plain operand the primitive is
evaluated as usual. -/
noncomputable def cabsPrim (F : Type) [RCLike F] (m : ℕ) : Prim F where
  nIn := 1
  size := fun _ => m
  nOut := 1
  outSize := fun _ => m
  fwd := fun x _ q => ((‖x 0 q‖ : ℝ) : F)
  rule := fun T o =>
    match o 0 with
    | .plain a => .ok fun _ => .plain fun q => ((‖a q‖ : ℝ) : F)
    | .lapl t =>
      match (absInst m).wrapped T (fun _ => t) with
      | .error e => .error e
      | .ok c => .ok fun _ => .lapl
        ⟨c.x, c.jac.mapAt fun _ z => ((RCLike.re z : ℝ) : F), fun q => ((RCLike.re (c.lapl q) : ℝ) : F)⟩

end Folx

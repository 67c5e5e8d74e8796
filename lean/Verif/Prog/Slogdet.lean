import Verif.Prog.Kinds
import Mathlib.Analysis.SpecialFunctions.Log.Basic
import Verif.Core.Custom

/-!
# `slogdet` (model of `custom_hessian.py:11-53`, `wrapped_functions.py:194-259`)

An array of shape `(b, m, m)` (leading axes flattened to `b`) has positions `Fin (b * (m * m))`, row-major.
`0 × 0` matrices are not modelled.
-/

namespace Folx

open Matrix
open Folx.Interp (Err)

variable {F : Type} [RCLike F] {b m : ℕ}

/-- Matrix `q` of the batch. -/
def mats (y : Fin (b * (m * m)) → F) (q : Fin b) : Matrix (Fin m) (Fin m) F :=
  toMat fun c => y (finProdFinEquiv (q, c))

/-- `jnp.vdot(jacobian.T.conj(), tangent)` with `jacobian = jnp.linalg.inv(primals)` (`wrapped_functions.py:216-219`):
`vdot` conjugates its first argument. -/
noncomputable def slogdetJvp (y t : Fin (b * (m * m)) → F) (q : Fin b) : F :=
  ∑ i, ∑ j, star (star ((mats y q)⁻¹ j i)) * mats t q i j

/-- `slogdet_jac_hessian_jac` (`custom_hessian.py:11-53`), the complex-valued trace before taking the real part: the
sum over the Jacobian rows `J` of `trace_of_product` of `(A⁻¹J)ᵀ` and `A⁻¹J`, negated, for every matrix of the batch
(`batched_vmap`, see C34).  `jnp.linalg.inv` is Mathlib's inverse. -/
noncomputable def slogdetCustom (b m : ℕ) : CustomRule 1 (fun _ => b * (m * m)) Unit (Fin b) F := fun _ sargs idx =>
  match (sargs 0).jac.constructFor idx with
  | .error e => .error e
  | .ok rows => .ok fun q => -(rows.map fun r => slogdetTerm (mats (sargs 0).x q) (mats r q)).sum

/-- The bilinear form `s, t ↦ -tr (A⁻¹ s A⁻¹ t)` for every matrix of the batch.  Only used to state what the rule should
compute; the rule itself does not look at it. -/
noncomputable def slogdetForm (y : Fin (b * (m * m)) → F) :
    ((a : Fin 1) → Fin (b * (m * m)) → F) →ₗ[F] ((a : Fin 1) → Fin (b * (m * m)) → F) →ₗ[F] (Fin b → F) :=
  LinearMap.mk₂ F (fun s t q => - trace ((mats y q)⁻¹ * mats (s 0) q * (mats y q)⁻¹ * mats (t 0) q))
    (fun s s' t => by
      funext q
      rw [show mats ((s + s') 0) q = mats (s 0) q + mats (s' 0) q from rfl]
      simp only [mul_add, add_mul, trace_add, Pi.add_apply, neg_add])
    (fun c s t => by
      funext q
      rw [show mats ((c • s) 0) q = c • mats (s 0) q from rfl]
      simp only [mul_smul_comm, smul_mul_assoc, trace_smul, Pi.smul_apply, smul_neg])
    (fun s t t' => by
      funext q
      rw [show mats ((t + t') 0) q = mats (t 0) q + mats (t' 0) q from rfl]
      simp only [mul_add, trace_add, Pi.add_apply, neg_add])
    (fun c s t => by
      funext q
      rw [show mats ((c • t) 0) q = c • mats (t 0) q from rfl]
      simp only [mul_smul_comm, trace_smul, Pi.smul_apply, smul_neg])

/-- `wrap_forward_laplacian(slogdet, custom_jac_hessian_jac=slogdet_jac_hessian_jac)` (`wrapped_functions.py:243-245`)
with default `in_axes=None` (all axes are reduced) and no flags.  The wrapped function returns a pair; JAX evaluates the
pair-valued rules component by component.  For complex input the tangent of the first output is the value
`tr(A⁻¹ t)` and the tangent of the second its real part (`:220-227`), likewise for the second-order term
(`custom_hessian.py:50-53`); for real input they are `0` and `tr(A⁻¹ t)`.  So both outputs are determined by the
"cached" triple computed here; its value component is not used. -/
noncomputable def slogdetInst (b m : ℕ) (hm : 0 < m) : HInst 1 (fun _ => Fin (b * (m * m))) (Fin b) F where
  fwd := fun _ _ => 0
  jvp := fun y =>
    { toFun := fun t q => slogdetJvp (y 0) (t 0) q
      map_add' := fun s t => by
        funext q
        simp only [slogdetJvp, Pi.add_apply]
        rw [← Finset.sum_add_distrib]
        refine Finset.sum_congr rfl fun i _ => ?_
        rw [← Finset.sum_add_distrib]
        refine Finset.sum_congr rfl fun j _ => ?_
        rw [show mats (s 0 + t 0) q i j = mats (s 0) q i j + mats (t 0) q i j from rfl, mul_add]
      map_smul' := fun c t => by
        funext q
        simp only [slogdetJvp, Pi.smul_apply, RingHom.id_apply, smul_eq_mul, Finset.mul_sum]
        refine Finset.sum_congr rfl fun i _ => Finset.sum_congr rfl fun j _ => ?_
        rw [show mats (c • t 0) q i j = c * mats (t 0) q i j from rfl, mul_left_comm] }
  flags := Flags.GENERAL
  elem := false
  π := fun _ q => finProdFinEquiv (q, ⟨0, Nat.mul_pos hm hm⟩)
  same := fun _ => none
  ax := fun _ => .red ⟨Unit, Fin (b * (m * m)), (Equiv.uniqueProd _ Unit).symm, fun _ => ()⟩
  src := fun _ => none
  static := true
  role := fun _ => .operand
  multi := true
  V := Unit
  K := fun _ => Unit
  O := Fin b
  dim := fun _ => b * (m * m)
  hsplit := fun _ => (Equiv.uniqueProd _ Unit).symm
  hκ := fun _ v => v
  out := (Equiv.uniqueProd _ Unit).symm
  hess := fun _ y => slogdetForm (y 0)
  firstIsLapl := true
  oneAxis := false
  c2r := false
  custom := some (slogdetCustom b m)

/-- Apply a function, depending on the position, to the stored entries of a Jacobian. -/
def Jac.mapAt {P G : Type} (f : P → F → G) : Jac P F → Jac P G
  | .dense rows => .dense (rows.map fun r p => f p (r p))
  | .sparse rows => .sparse (rows.map fun r => ⟨r.idx, fun p => f p (r.val p)⟩)

/-- The sign (phase) of a determinant and the logarithm of its absolute value, `jnp.linalg.slogdet`. -/
noncomputable def detSign (d : F) : F := d / (‖d‖ : F)
/-- The logarithm of the absolute value of a determinant. -/
noncomputable def detLog (d : F) : F := ((Real.log ‖d‖ : ℝ) : F)

/-- Both outputs on plain arrays: `0` the sign, `1` the logarithm. -/
noncomputable def slogdetFwd (y : Fin (b * (m * m)) → F) (j : Fin 2) (q : Fin b) : F :=
  if j = 0 then detSign (mats y q).det else detLog (mats y q).det

/-- The imaginary parts of the stored data, squared and summed: `sign_jac_dot` (`wrapped_functions.py:249-251`). -/
noncomputable def imDot (J : Jac (Fin b) F) (q : Fin b) : F :=
  (J.data.map fun r => ((RCLike.im (r q) * RCLike.im (r q) : ℝ) : F)).sum

/-- `slogdet_wrapper` (`wrapped_functions.py:238-259`); the inner call has threshold `0` (`:246`).  `cplx` says whether
the input is complex.  If so, the second output is the real part of the cached triple (`:222-223`,
`custom_hessian.py:50-52`), and the first is rebuilt from its imaginary part (`wrapped_functions.py:248-256`).  If not, the second output
is the cached triple and the sign is returned as plain array (`wrapped_functions.py:257-258`).  On a plain operand the primitive is
evaluated as usual. -/
noncomputable def slogdetPrim (F : Type) [RCLike F] (cplx : Bool) (b m : ℕ) (hm : 0 < m) : Prim F where
  nIn := 1
  size := fun _ => b * (m * m)
  nOut := 2
  outSize := fun _ => b
  fwd := fun x => slogdetFwd (x 0)
  rule := fun _ o =>
    match o 0 with
    | .plain a => .ok fun j => .plain (slogdetFwd a j)
    | .lapl t =>
      match (slogdetInst b m hm).wrapped 0 (fun _ => t) with
      | .error e => .error e
      | .ok c =>
        let sign := slogdetFwd t.x 0
        .ok fun j =>
          if j = 0 then
            if cplx then .lapl ⟨sign, c.jac.mapAt fun q z => RCLike.I * sign q * ((RCLike.im z : ℝ) : F),
              fun q => sign q * (RCLike.I * ((RCLike.im (c.lapl q) : ℝ) : F) - imDot c.jac q)⟩
            else .plain sign
          else
            if cplx then .lapl ⟨slogdetFwd t.x 1, c.jac.mapAt fun _ z => ((RCLike.re z : ℝ) : F),
              fun q => ((RCLike.re (c.lapl q) : ℝ) : F)⟩
            else .lapl ⟨slogdetFwd t.x 1, c.jac, c.lapl⟩

end Folx

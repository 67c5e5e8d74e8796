import Verif.Core.Hess
import Verif.Interp.Eval

/-!
# Specification: the form of a value

The form of a `FwdLaplArray` is everything about it that is known when a function is traced: its size, whether it carries
derivatives, whether the Jacobian is sparse, how many rows it has, and the mask (`x0_idx`, a numpy array, `api.py:41-46`).
The value, the data of the Jacobian and the Laplacian are traced arrays.
-/

namespace Folx

open Folx.Interp (Err)

/-- Two computations raise the same error, or return related results. -/
inductive ExRel {α β : Type} (R : α → β → Prop) : Except Err α → Except Err β → Prop
  | error (e : Err) : ExRel R (.error e) (.error e)
  | ok {x : α} {y : β} (h : R x y) : ExRel R (.ok x) (.ok y)

variable {P Q F : Type}

/-- Two Jacobians of the same form: both dense or both sparse, with equal masks (hence equally many rows). -/
def Jac.Same (J J' : Jac P F) : Prop := J.weak = J'.weak ∧ J.mask = J'.mask

/-- Two operands of the same form. -/
def Opd.Same {m : ℕ} : Opd F m → Opd F m → Prop
  | .plain _, .plain _ => True
  | .lapl t, .lapl t' => t.jac.Same t'.jac
  | _, _ => False

/-- Two values of the interpreter of the same form: same size, same Jacobian structure. -/
def PVal.Same (v v' : PVal F) : Prop := v.sig = v'.sig

/-- The form of the results of a primitive's rule depends only on the form of the operands, and on the values of the
operands in `fixed`. -/
def Prim.FormStable (p : Prim F) (T : ℕ) (fixed : Fin p.nIn → Bool) : Prop :=
  ∀ o o' : (i : Fin p.nIn) → Opd F (p.size i), (∀ i, (o i).Same (o' i)) → (∀ i, fixed i = true → o i = o' i) →
    ExRel (fun r r' => ∀ j, (r j).Same (r' j)) (p.rule T o) (p.rule T o')

end Folx

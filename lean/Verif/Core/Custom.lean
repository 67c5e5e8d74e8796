import Verif.Core.HessSpec
import Mathlib.LinearAlgebra.BilinearMap
import Mathlib.Algebra.Field.Basic
import Mathlib.LinearAlgebra.Matrix.NonsingularInverse
import Mathlib.Logic.Equiv.Fin.Basic

/-!
# Custom second-order rules (model of `folx/custom_hessian.py`) and concrete wrapped functions
-/

namespace Folx

open Folx.Interp (Err)

variable {k : ℕ} {P : Fin k → Type} {Q F : Type}

/-! ### Concrete wrapped functions -/

section Concrete
variable [CommRing F]

/-- Bilinear form with coefficients `B a b` on slices with one element per argument. -/
def coeffForm (B : Fin k → Fin k → F) :
    ((a : Fin k) → Fin ((fun _ => 1 : Fin k → ℕ) a) → F) →ₗ[F]
      ((a : Fin k) → Fin ((fun _ => 1 : Fin k → ℕ) a) → F) →ₗ[F] (Unit → F) :=
  LinearMap.mk₂ F (fun s t _ => ∑ a, ∑ b, B a b * s a 0 * t b 0)
    (fun s s' t => by funext _; simp [mul_add, add_mul, Finset.sum_add_distrib])
    (fun c s t => by
      funext _
      simp only [Pi.smul_apply, smul_eq_mul, Finset.mul_sum]
      exact Finset.sum_congr rfl fun a _ => Finset.sum_congr rfl fun b _ => by ring)
    (fun s t t' => by funext _; simp [mul_add, Finset.sum_add_distrib])
    (fun c s t => by
      funext _
      simp only [Pi.smul_apply, smul_eq_mul, Finset.mul_sum]
      exact Finset.sum_congr rfl fun a _ => Finset.sum_congr rfl fun b _ => by ring)

theorem coeffForm_apply (B : Fin k → Fin k → F) (s t : (a : Fin k) → Fin ((fun _ => 1 : Fin k → ℕ) a) → F)
    (o : Unit) : coeffForm B s t o = ∑ a, ∑ b, B a b * s a 0 * t b 0 := rfl

theorem coeffForm_single (B : Fin k → Fin k → F) (a b : Fin k) (s t : Fin 1 → F) (o : Unit) :
    coeffForm B (Pi.single (M := fun a => Fin ((fun _ => 1 : Fin k → ℕ) a) → F) a s)
      (Pi.single (M := fun a => Fin ((fun _ => 1 : Fin k → ℕ) a) → F) b t) o = B a b * s 0 * t 0 := by
  rw [coeffForm_apply, Finset.sum_eq_single a, Finset.sum_eq_single b]
  · simp
  · intro c _ hc
    rw [Pi.single_eq_of_ne hc]; simp
  · simp
  · intro c _ hc
    rw [Pi.single_eq_of_ne hc]; simp
  · simp

/-- An elementwise function with `in_axes=()`: output element `q` is `φ q` of the elements at the broadcast
positions; `D` and `D2` are its first and second partial derivatives.  Slices are single elements
(`hessian.py:326-330` with empty `in_axes`). -/
def elemHInst (φ : Q → (Fin k → F) → F) (D : Q → (Fin k → F) → Fin k → F)
    (D2 : Q → (Fin k → F) → Fin k → Fin k → F) (π : (a : Fin k) → Q → P a)
    (same : (a : Fin k) → Option (Q ≃ P a)) (flags : Flags) (firstIsLapl c2r : Bool) [Fintype Q]
    (custom : Option (CustomRule k (fun _ => 1) Q Unit F)) : HInst k P Q F where
  fwd := fun x q => φ q fun a => x a (π a q)
  jvp := fun x =>
    { toFun := fun t q => ∑ a, D q (fun b => x b (π b q)) a * t a (π a q)
      map_add' := fun s t => by funext q; simp [mul_add, Finset.sum_add_distrib]
      map_smul' := fun c t => by funext q; simp [Finset.mul_sum, mul_left_comm] }
  flags := flags
  elem := true
  π := π
  same := same
  ax := fun a => .elem (π a)
  src := fun _ => none
  static := true
  role := fun _ => .operand
  multi := false
  V := Q
  K := P
  O := Unit
  dim := fun _ => 1
  hsplit := fun a => (Equiv.prodUnique (P a) (Fin 1)).symm
  hκ := π
  out := (Equiv.prodUnique Q Unit).symm
  hess := fun q x => coeffForm (D2 q fun a => x a 0)
  firstIsLapl := firstIsLapl
  oneAxis := false
  c2r := c2r
  custom := custom

/-- Bilinear form of an inner product of two slices of length `d`. -/
def dotForm (d : ℕ) :
    ((a : Fin 2) → Fin ((fun _ => d : Fin 2 → ℕ) a) → F) →ₗ[F]
      ((a : Fin 2) → Fin ((fun _ => d : Fin 2 → ℕ) a) → F) →ₗ[F] (Unit → F) :=
  LinearMap.mk₂ F (fun s t _ => ∑ c, (s 0 c * t 1 c + t 0 c * s 1 c))
    (fun s s' t => by
      funext _
      simp only [Pi.add_apply]
      rw [← Finset.sum_add_distrib]
      exact Finset.sum_congr rfl fun c _ => by ring)
    (fun c s t => by
      funext _
      simp only [Pi.smul_apply, smul_eq_mul, Finset.mul_sum]
      exact Finset.sum_congr rfl fun b _ => by ring)
    (fun s t t' => by
      funext _
      simp only [Pi.add_apply]
      rw [← Finset.sum_add_distrib]
      exact Finset.sum_congr rfl fun c _ => by ring)
    (fun c s t => by
      funext _
      simp only [Pi.smul_apply, smul_eq_mul, Finset.mul_sum]
      exact Finset.sum_congr rfl fun b _ => by ring)

theorem dotForm_apply (d : ℕ) (s t : (a : Fin 2) → Fin ((fun _ => d : Fin 2 → ℕ) a) → F) (o : Unit) :
    dotForm d s t o = ∑ c, (s 0 c * t 1 c + t 0 c * s 1 c) := rfl

theorem dotForm_single (d : ℕ) (a : Fin 2) (s t : Fin d → F) (o : Unit) :
    dotForm d (Pi.single (M := fun a => Fin ((fun _ => d : Fin 2 → ℕ) a) → F) a s)
      (Pi.single (M := fun a => Fin ((fun _ => d : Fin 2 → ℕ) a) → F) a t) o = 0 := by
  rw [dotForm_apply]
  apply Finset.sum_eq_zero
  intro c _
  rcases (show a = 0 ∨ a = 1 by omega) with rfl | rfl
  · rw [Pi.single_eq_of_ne (i := (0 : Fin 2)) (by decide : (1 : Fin 2) ≠ 0),
      Pi.single_eq_of_ne (i := (0 : Fin 2)) (by decide : (1 : Fin 2) ≠ 0)]
    simp
  · rw [Pi.single_eq_of_ne (i := (1 : Fin 2)) (by decide : (0 : Fin 2) ≠ 1),
      Pi.single_eq_of_ne (i := (1 : Fin 2)) (by decide : (0 : Fin 2) ≠ 1)]
    simp

/-- A batched inner product of two arrays along their last axes of length `d`, with broadcasting of the
remaining axes (`dot_last`, `wrapped_functions.py:166-183`).  The broadcast maps `π` belong to elementwise
functions and are not looked at. -/
def dotHInst (P : Fin 2 → Type) (K : Fin 2 → Type) (d : ℕ) (V : Type) [Fintype V]
    (split : (a : Fin 2) → P a ≃ K a × Fin d)
    (κ : (a : Fin 2) → V → K a) (flags : Flags) (oneAxis : Bool) (π : (a : Fin 2) → V → P a)
    [∀ a, Fintype (K a)] [∀ a, DecidableEq (K a)] : HInst 2 P V F where
  fwd := fun x v => ∑ c, x 0 ((split 0).symm (κ 0 v, c)) * x 1 ((split 1).symm (κ 1 v, c))
  jvp := fun x =>
    { toFun := fun t v => ∑ c, (t 0 ((split 0).symm (κ 0 v, c)) * x 1 ((split 1).symm (κ 1 v, c)) +
        x 0 ((split 0).symm (κ 0 v, c)) * t 1 ((split 1).symm (κ 1 v, c)))
      map_add' := fun s t => by
        funext v
        simp only [Pi.add_apply]
        rw [← Finset.sum_add_distrib]
        exact Finset.sum_congr rfl fun c _ => by ring
      map_smul' := fun c t => by
        funext v
        simp only [Pi.smul_apply, smul_eq_mul, RingHom.id_apply, Finset.mul_sum]
        exact Finset.sum_congr rfl fun b _ => by ring }
  flags := flags
  elem := false
  π := π
  same := fun _ => none
  ax := fun a => .red ⟨K a, Fin d, split a, κ a⟩
  src := fun _ => none
  static := true
  role := fun _ => .operand
  multi := false
  V := V
  K := K
  O := Unit
  dim := fun _ => d
  hsplit := split
  hκ := κ
  out := (Equiv.prodUnique V Unit).symm
  hess := fun _ _ => dotForm d
  firstIsLapl := true
  oneAxis := oneAxis
  c2r := false
  custom := none

end Concrete

/-! ### The rules of `custom_hessian.py` -/

section Rules
variable [Field F] {V : Type}

/-- `div_jac_hessian_jac` (`custom_hessian.py:81-100`) with two derivative-carrying operands: numerator `0`,
denominator `1`. -/
def divRule2 : CustomRule 2 (fun _ => 1) V Unit F := fun _ sargs idx =>
  match reducedJacobians (fun a => (sargs a).jac) idx with
  | .error e => .error e
  | .ok rows =>
    let x := (sargs 0).x 0
    let y := (sargs 1).x 0
    let JJrr := ∑ s ∈ Finset.range (maxLen rows), col rows s 1 0 * col rows s 1 0
    let JJlr := ∑ s ∈ Finset.range (maxLen rows), col rows s 0 0 * col rows s 1 0
    let ry2 := (y * y)⁻¹
    let Hlr := -2 * ry2
    let Hrr := 2 * x * (ry2 / y)
    .ok fun _ => Hlr * JJlr + Hrr * JJrr

/-- `div_jac_hessian_jac` (`custom_hessian.py:101-105`) when only the denominator carries derivatives;
`num` is the numerator of each slice. -/
def divRule1 (num : V → F) : CustomRule 1 (fun _ => 1) V Unit F := fun v sargs idx =>
  match reducedJacobians (fun a => (sargs a).jac) idx with
  | .error e => .error e
  | .ok rows =>
    let H := 2 * num v * ((sargs 0).x 0 * (sargs 0).x 0 * (sargs 0).x 0)⁻¹
    .ok fun _ => (∑ s ∈ Finset.range (maxLen rows), col rows s 0 0 * col rows s 0 0) * H

/-- A slice of length `m * m` as a matrix (row-major). -/
def toMat {m : ℕ} (f : Fin (m * m) → F) : Matrix (Fin m) (Fin m) F :=
  fun i j => f (finProdFinEquiv (i, j))

/-- `trace_of_product` of the transposed and the plain `A⁻¹ J` (`custom_hessian.py:33-40`) for one index. -/
noncomputable def slogdetTerm {m : ℕ} (A J : Matrix (Fin m) (Fin m) F) : F :=
  let M : Matrix (Fin m) (Fin m) F := fun i d => ∑ j, A⁻¹ i j * J j d
  ∑ d, ∑ i, M i d * M d i

end Rules

end Folx

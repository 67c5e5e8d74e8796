import Verif.Core.Hess

/-!
# `jax.lax.scatter_p` as a wrapped function (`folx/wrapped_functions.py:400-404`)

`operand.at[idx].set(updates)`: the indices are integers and never carry derivatives, so operand and
updates are the possible derivative-carrying arguments.
-/

namespace Folx

open Folx.Interp (Err)

variable {F : Type} [CommRing F]

/-- Result of writing `upd` into `op` (specification of `jax.lax.scatter`): `hit q` is the update that ends up
in element `q`, `none` if the element is not overwritten.  Updates with out-of-bounds indices are dropped
by JAX, and among several updates of one element JAX picks one; both are in `hit`. -/
def scatterSet {P₀ P₁ β : Type} (hit : P₀ → Option P₁) (op : P₀ → β) (upd : P₁ → β) (q : P₀) : β :=
  match hit q with
  | some u => upd u
  | none => op q

/-- What folx sees of one call of `scatter_p`. -/
structure Scatter (P₀ P₁ : Type) where
  hit : P₀ → Option P₁
  /-- the indices are known at trace time -/
  static : Bool
  /-- the dimension numbers are those of a segment operation (`jvp.py:359-364`) -/
  seg : Option (Seg P₁ P₀)
  /-- operand / updates are zero-dimensional arrays with the given only element -/
  opScalar : Option P₀
  updScalar : Option P₁
  /-- updates and operand have the same shape -/
  updSame : Option (P₀ ≃ P₁)

/-- Consistency of the description of a call. -/
structure Scatter.Ok {P₀ P₁ : Type} (c : Scatter P₀ P₁) : Prop where
  seg : ∀ g, c.seg = some g → ∀ q u, c.hit q = some u → g.ids u = g.pos q
  opScalar : ∀ p, c.opScalar = some p → ∀ q, q = p
  updScalar : ∀ p, c.updScalar = some p → ∀ u, u = p

/-- `tuple(range(ndim))` (`jvp.py:132-138`): empty for a zero-dimensional array, else all axes. -/
def rangeAxes {P Q : Type} [Fintype P] : Option P → ArgAx P Q
  | some p => .elem fun _ => p
  | none => .red ⟨Unit, P, (Equiv.uniqueProd P Unit).symm, fun _ => ()⟩

/-- `FunctionFlags.INDEXING | FunctionFlags.SCATTER` (`wrapped_functions.py:402`). -/
def scatterFlags : Flags := Flags.INDEXING ||| Flags.SCATTER

variable {P : Fin 2 → Type} [∀ a, Fintype (P a)]

/-- `scatter_p` with derivative-carrying operand (argument `0`) and updates (argument `1`).  The masks can be
scattered at trace time iff the indices are known then (`jvp.py:266-302`).  `π` belongs to elementwise
functions and the second-order data to functions that are not linear; neither is looked at. -/
def scatterInst (c : Scatter (P 0) (P 1)) (π : (a : Fin 2) → P 0 → P a) : HInst 2 P (P 0) F where
  fwd := fun x => scatterSet c.hit (x 0) (x 1)
  jvp := fun _ =>
    { toFun := fun t => scatterSet c.hit (t 0) (t 1)
      map_add' := fun s t => by
        funext q; simp only [scatterSet, Pi.add_apply]; split <;> rfl
      map_smul' := fun r t => by
        funext q; simp only [scatterSet, Pi.smul_apply, RingHom.id_apply]; split <;> rfl }
  flags := scatterFlags
  elem := false
  π := π
  same := fun a => match a with
    | 0 => some (Equiv.refl _)
    | 1 => c.updSame
  ax := fun a => match a with
    | 0 => rangeAxes c.opScalar
    | 1 => rangeAxes c.updScalar
  src := fun q => match c.hit q with
    | some u => some ⟨1, u⟩
    | none => some ⟨0, q⟩
  static := c.static
  role := fun a => match a with
    | 0 => .operand
    | 1 => .updates
  multi := false
  seg := fun a => match a with
    | 0 => none
    | 1 => c.seg
  V := P 0
  K := P
  O := Unit
  dim := fun _ => 1
  hsplit := fun a => (Equiv.prodUnique (P a) (Fin 1)).symm
  hκ := π
  out := (Equiv.prodUnique (P 0) Unit).symm
  hess := fun _ _ => 0
  firstIsLapl := true
  oneAxis := false
  c2r := false
  custom := none

/-- `scatter_p` when only the operand carries derivatives; the updates `u` are captured.  Evaluating the index
operation on the mask (integers) with the floating-point `u` raises, so the indexing rule always falls
back to the dense one (`jvp.py:266-311`): `static` is `false`. -/
def scatterOperand {P₀ P₁ : Type} [Fintype P₀] (c : Scatter P₀ P₁) (u : P₁ → F) :
    HInst 1 (fun _ => P₀) P₀ F where
  fwd := fun x => scatterSet c.hit (x 0) u
  jvp := fun _ =>
    { toFun := fun t => scatterSet c.hit (t 0) (fun _ => 0)
      map_add' := fun s t => by
        funext q; simp only [scatterSet, Pi.add_apply]; split <;> simp
      map_smul' := fun r t => by
        funext q; simp only [scatterSet, Pi.smul_apply, RingHom.id_apply]; split <;> simp }
  flags := scatterFlags
  elem := false
  π := fun _ q => q
  same := fun _ => some (Equiv.refl _)
  ax := fun _ => rangeAxes c.opScalar
  src := fun _ => none
  static := false
  role := fun _ => .operand
  multi := false
  V := P₀
  K := fun _ => P₀
  O := Unit
  dim := fun _ => 1
  hsplit := fun _ => (Equiv.prodUnique P₀ (Fin 1)).symm
  hκ := fun _ q => q
  out := (Equiv.prodUnique P₀ Unit).symm
  hess := fun _ _ => 0
  firstIsLapl := true
  oneAxis := false
  c2r := false
  custom := none

/-- `scatter_p` when only the updates carry derivatives; the operand `x₀` is captured (`static` as in
`scatterOperand`).  `π` is not looked at. -/
def scatterUpdates {P₀ P₁ : Type} [Fintype P₀] [Fintype P₁] (c : Scatter P₀ P₁) (x₀ : P₀ → F) (π : P₀ → P₁) :
    HInst 1 (fun _ => P₁) P₀ F where
  fwd := fun x => scatterSet c.hit x₀ (x 0)
  jvp := fun _ =>
    { toFun := fun t => scatterSet c.hit (fun _ => 0) (t 0)
      map_add' := fun s t => by
        funext q; simp only [scatterSet, Pi.add_apply]; split <;> simp
      map_smul' := fun r t => by
        funext q; simp only [scatterSet, Pi.smul_apply, RingHom.id_apply]; split <;> simp }
  flags := scatterFlags
  elem := false
  π := fun _ => π
  same := fun _ => c.updSame
  ax := fun _ => rangeAxes c.updScalar
  src := fun _ => none
  static := false
  role := fun _ => .updates
  multi := false
  seg := fun _ => c.seg
  V := P₀
  K := fun _ => P₁
  O := Unit
  dim := fun _ => 1
  hsplit := fun _ => (Equiv.prodUnique P₁ (Fin 1)).symm
  hκ := fun _ => π
  out := (Equiv.prodUnique P₀ Unit).symm
  hess := fun _ _ => 0
  firstIsLapl := false
  oneAxis := false
  c2r := false
  custom := none

end Folx

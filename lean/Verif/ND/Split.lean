import Verif.ND.Wrap
import Verif.ND.Convert

/-!
# Arguments with and without derivatives (`utils.py:264-297`, `wrapper.py:98-130`) and array-level functions as primitives of programs

A function of `n` arrays is called with some operands that carry derivatives and some that do not.  `split_args` passes the former to the rules and keeps the latter, with
their axes, as other arguments; the rules see the function of the former (`merge`).
-/

namespace Folx.Layout
open Vmap Dot
open Folx.Interp (Err)

section
variable {F : Type} [CommRing F] {n m : ℕ} {P : Fin n → Type}

/-- Tangents of all operands from tangents of the operands `act`: zero for the others. -/
def extendBy (act : Fin m → Fin n) : ((a : Fin m) → P (act a) → F) →ₗ[F] ((i : Fin n) → P i → F) :=
  ∑ a, LinearMap.single F (fun i => P i → F) (act a) ∘ₗ LinearMap.proj a

open Classical in
/-- `merge(args, extra)` (`utils.py:290-295`): operand `act a` is `y a`, the others are taken from `c`. -/
noncomputable def mergeAt (act : Fin m → Fin n) (c : (i : Fin n) → P i → F) (y : (a : Fin m) → P (act a) → F) : (i : Fin n) → P i → F :=
  fun i => if ∃ a, act a = i then extendBy act y i else c i

end

variable {F : Type} [CommRing F] [Inhabited F] {n : ℕ} {shape : Fin n → List ℕ} {out : List ℕ}

/-- The operands that are not in `acts`, in order (`utils.py:287`). -/
def otherOps (acts : List (Fin n)) : List (Fin n) := (List.finRange n).filter fun i => decide (i ∉ acts)

/-- The other arguments with their axes (`utils.py:287-288`). -/
def ArrFn.extrasOf (A : ArrFn F shape out) (acts : List (Fin n)) (x : (i : Fin n) → Fin (shape i).prod → F) : List (ND F × List ℕ) :=
  (otherOps acts).map fun i => (toND (shape i) (x i), A.inAxes.second (shape i).length)

/-- The slices of the other arguments, by operand. -/
def ArrFn.extraSlices (A : ArrFn F shape out) (acts : List (Fin n)) (es : List (ND F)) : (i : Fin n) → Fin (A.inAxes.slice (shape i)).prod → F :=
  fun i => vecOf (es.getD ((otherOps acts).idxOf i) ⟨[0], [], rfl⟩) _

/-- The function of the operands `a0 :: rest` that carry derivatives (`utils.py:276-297`, `wrapper.py:46-47, 98-114`); `A` is the function of all operands, `x` their
values.  `ifwd`: the function on integer arrays for these operands. -/
noncomputable def ArrFn.restrict (A : ArrFn F shape out) (ifwd : (acts : List (Fin n)) → Option ((Fin acts.length → ND ℤ) → ND ℤ)) (acts : List (Fin n))
    (x : (i : Fin n) → Fin (shape i).prod → F) : ArrFn F (fun a : Fin acts.length => shape (acts.get a)) out where
  flags := A.flags
  inAxes := A.inAxes
  firstIsLapl := acts.any fun i => decide (i.val = 0)
  c2r := A.c2r
  fwd y := A.fwd (mergeAt acts.get x y)
  deriv y := A.deriv (mergeAt acts.get x y) ∘ₗ extendBy (P := fun i => Fin (shape i).prod) acts.get
  ifwd := ifwd acts
  sliceOut := A.sliceOut
  hess es z := (A.hess [] (mergeAt acts.get (A.extraSlices acts es) z)).compl₁₂
    (extendBy (P := fun i => Fin (A.inAxes.slice (shape i)).prod) acts.get) (extendBy (P := fun i => Fin (A.inAxes.slice (shape i)).prod) acts.get)
  junk := A.junk
  customFor l := A.customFor (l.map fun a => (acts.map Fin.val).getD a 0)

/-- The operands with derivatives (`utils.py:284-285`). -/
def actsOf {size : Fin n → ℕ} (o : (i : Fin n) → Opd F (size i)) : List (Fin n) := (List.finRange n).filter fun i => (o i).isLapl

/-- `new_fn(args, kwargs, sparsity_threshold)` (`wrapper.py:98-137`) on operands by positions. -/
noncomputable def ArrFn.call (A : ArrFn F shape out) (ifwd : (acts : List (Fin n)) → Option ((Fin acts.length → ND ℤ) → ND ℤ)) (T : ℕ)
    (o : (i : Fin n) → Opd F (shape i).prod) : Option (Opd F out.prod) :=
  match actsOf o with
  | [] => some (.plain (A.fwd fun i => (o i).x))
  | a0 :: rest =>
    ((A.restrict ifwd (a0 :: rest) fun i => (o i).x).wrapped (k := rest.length) T (fun a => tripArr (shape ((a0 :: rest).get a)) (o ((a0 :: rest).get a)).trip)
      (A.extrasOf (a0 :: rest) fun i => (o i).x)).map fun t => .lapl (arrTrip out t)

/-- An array-level function as a primitive of programs. -/
noncomputable def ArrFn.prim (A : ArrFn F shape out) (ifwd : (acts : List (Fin n)) → Option ((Fin acts.length → ND ℤ) → ND ℤ)) : Prim F where
  nIn := n
  size i := (shape i).prod
  nOut := 1
  outSize _ := out.prod
  fwd x _ := A.fwd x
  rule T o :=
    match A.call ifwd T o with
    | none => .error .other
    | some r => .ok fun _ => r

end Folx.Layout

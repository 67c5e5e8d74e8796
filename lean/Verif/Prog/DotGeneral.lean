import Verif.Prog.NDPos

/-!
# The rule of `dot_general` on values of the interpreter (`wrapped_functions.py:62-184`)

The building blocks are functions wrapped by `wrap_forward_laplacian`; the position maps come from the shapes.
-/

namespace Folx

open Vmap Layout Dot Filter Topology
open Folx.Interp (Err)

variable {F : Type} [RCLike F]

/-- `F` has a default element (values outside of arrays are never looked at). -/
local instance instInhabitedScalar : Inhabited F := ⟨0⟩

/-- Two operands. -/
def pairOpd {a b : ℕ} (x : Opd F a) (y : Opd F b) : (i : Fin 2) → Opd F (![a, b] i)
  | 0 => x
  | 1 => y

/-- `isinstance(x, FwdLaplArray) and x.jacobian.weak` (`wrapped_functions.py:85-90`). -/
def Opd.isWeak {m : ℕ} : Opd F m → Bool
  | .plain _ => false
  | .lapl t => t.jac.weak

/-- The wrapped function `rearrange` (`wrapped_functions.py:37-58`) on an operand of shape `s`: `z` is its result on
the array of positions. -/
noncomputable def rearrangeStd (s : List ℕ) (hs : 0 < s.prod) (z : ND ℕ) : Std F :=
  arrStd 1 (oneSize s.prod) z.shape.prod (fun _ => hs)
    (pick (fun _ q => some ⟨0, gatherOf (some z) s.prod hs q⟩) fun _ => 0) Flags.INDEXING
    (fun _ => allAxes z.shape.prod s.prod hs (decide (s = []))) (fun _ => none)
    (fun _ q => some ⟨0, gatherOf (some z) s.prod hs q⟩) true false fun _ _ _ => none

/-- `x * y` in `fwd_lapl_mul_sum` (`wrapped_functions.py:125-136`): the multiplication of the traced function.  The
rank promotion of `jax.numpy` adds leading axes of size 1, which does not move positions. -/
noncomputable def mulStd (s t b : List ℕ) (hs : 0 < s.prod) (ht : 0 < t.prod) : Std F :=
  elemStd 2 ![s.prod, t.prod] b.prod (fun z => z 0 * z 1) Flags.MULTIPLICATION
    (fun | 0 => bpos s b hs | 1 => bpos t b ht)
    (fun | 0 => if h : s = b then some (finCongr (by rw [h]; rfl)) else none
         | 1 => if h : t = b then some (finCongr (by rw [h]; rfl)) else none) fun _ _ _ => none

/-- How a reduction along no axes is treated: elementwise (`jvp.py:140-142`). -/
def sumAxes (b : List ℕ) : (dims : List ℕ) → (hp : (keptDims b.length dims ++ dims).Perm (List.range b.length)) →
    ArgAx (Fin b.prod) (Fin (sizes b (keptDims b.length dims)).prod)
  | [], hp => .elem fun q => (axesSplit b _ [] hp).symm (q, ⟨0, Nat.one_pos⟩)
  | d :: ds, hp => someAxes (axesSplit b _ (d :: ds) hp) fun q => q

/-- The shape is unchanged if there is nothing to reduce. -/
def sumSame (b : List ℕ) : (dims : List ℕ) → (hp : (keptDims b.length dims ++ dims).Perm (List.range b.length)) →
    Option (Fin (sizes b (keptDims b.length dims)).prod ≃ Fin b.prod)
  | [], hp => some ((Equiv.prodUnique _ (Fin 1)).symm.trans (axesSplit b _ [] hp).symm)
  | _ :: _, _ => none

/-- `.sum(dims)` in `fwd_lapl_mul_sum` (`wrapped_functions.py:125-136`): `reduce_sum` (`wrapped_functions.py:324-328`). -/
noncomputable def sumStd (b dims : List ℕ) (hb : 0 < b.prod)
    (hp : (keptDims b.length dims ++ dims).Perm (List.range b.length)) : Std F :=
  arrStd 1 (oneSize b.prod) (sizes b (keptDims b.length dims)).prod (fun _ => hb)
    (reduceFn (axesSplit b _ dims hp) (fun q => q) fun v => ∑ c, v c) Flags.SUMMATION
    (fun _ => sumAxes b dims hp) (fun _ => sumSame b dims hp) (fun _ _ => none) true (decide (dims.length = 1))
    fun _ _ _ => none

/-- Positions of an array, the last axis split off. -/
def lastSplit (s : List ℕ) (d : ℕ) (h : s.getLast? = some d) : Fin s.prod ≃ Fin s.dropLast.prod × Fin d :=
  (finCongr (by
    obtain ⟨l, rfl⟩ := List.getLast?_eq_some_iff.mp h
    simp)).trans finProdFinEquiv.symm

/-- `dot_last` (`wrapped_functions.py:166-183`) on operands of shapes `s` and `t` with last axis `d`. -/
noncomputable def dotLastStd (s t O : List ℕ) (d : ℕ) (h1 : s.getLast? = some d) (h2 : t.getLast? = some d) (hd : 0 < d)
    (hs : 0 < s.dropLast.prod) (ht : 0 < t.dropLast.prod) : Std F :=
  dotStd ![s.prod, t.prod] O.prod d hd (fun i => Fin (![s.dropLast.prod, t.dropLast.prod] i))
    (fun | 0 => lastSplit s d h1 | 1 => lastSplit t d h2)
    (fun | 0 => bpos s.dropLast O hs | 1 => bpos t.dropLast O ht)

/-- `fwd_lapl_mul_sum` (`wrapped_functions.py:125-136`) on operands of shapes `s` and `t`; `dims` are the axes of the
product (`-1` resolved). -/
noncomputable def mulSumRule (T : ℕ) (s t : List ℕ) (hs : 0 < s.prod) (ht : 0 < t.prod) (x : Opd F s.prod)
    (y : Opd F t.prod) (dims : ℕ → List ℕ) : Except Err (PVal F) :=
  match broadcastShapes [s, t] with
  | none => .error .shape
  | some b =>
    match (mulStd s t b hs ht).toWPrim.call T (pairOpd x y) with
    | .error e => .error e
    | .ok p =>
      if h : 0 < b.prod ∧ (keptDims b.length (dims b.length) ++ dims b.length).Perm (List.range b.length) then
        match (sumStd b (dims b.length) h.1 h.2).toWPrim.call T (fun _ => p) with
        | .error e => .error e
        | .ok r => .ok ⟨_, r⟩
      else .error .shape

/-- The general solution (`wrapped_functions.py:166-184`) on rearranged operands. -/
noncomputable def dotLastRule (T : ℕ) (s t : List ℕ) (x : Opd F s.prod) (y : Opd F t.prod) : Except Err (PVal F) :=
  match broadcastShapes [s.dropLast, t.dropLast] with
  | none => .error .shape
  | some O =>
    if h : s.getLast? = some (s.getLast?.getD 0) ∧ t.getLast? = some (s.getLast?.getD 0) ∧ 0 < s.getLast?.getD 0 ∧
        0 < s.dropLast.prod ∧ 0 < t.dropLast.prod then
      match (dotLastStd s t O _ h.1 h.2.1 h.2.2.1 h.2.2.2.1 h.2.2.2.2).toWPrim.call T (pairOpd x y) with
      | .error e => .error e
      | .ok r => .ok ⟨_, r⟩
    else .error .shape

/-- `dot_general(args, kwargs, sparsity_threshold)` (`wrapped_functions.py:62-184`) on operands of shapes `ls` and
`rs`.  Arrays without elements are not modelled. -/
noncomputable def dotGeneralRule (dd : DotDims) (ls rs : List ℕ) (T : ℕ) (x : Opd F ls.prod) (y : Opd F rs.prod) :
    Except Err (PVal F) :=
  if x.isLapl = false ∧ y.isLapl = false then
    .ok ⟨(outShape dd ls rs).prod, .plain (vecOf (contraction dd (toND ls x.x) (toND rs y.x)) _)⟩
  else if h : 0 < ls.prod ∧ 0 < rs.prod then
    match left dd rs.length (iota ls), right dd ls.length (iota rs) with
    | some zl, some zr =>
      match (rearrangeStd ls h.1 zl).toWPrim.call T (fun _ => x), (rearrangeStd rs h.2 zr).toWPrim.call T (fun _ => y) with
      | .ok l, .ok r =>
        if interEqIn zl.shape zr.shape && (x.isWeak && y.isWeak) then
          if noTranspose dd ls.length rs.length then mulSumRule T ls rs h.1 h.2 x y fun _ => dd.lc
          else if h' : 0 < zl.shape.prod ∧ 0 < zr.shape.prod then
            mulSumRule T zl.shape zr.shape h'.1 h'.2 l r fun n => [n - 1]
          else .error .other
        else dotLastRule T zl.shape zr.shape l r
      | .error e, _ => .error e
      | _, .error e => .error e
    | _, _ => .error .shape
  else .error .other

/-- `dot_general` as primitive with dimension numbers `dd` on operands of shapes `ls` and `rs`. -/
noncomputable def dotPrim (dd : DotDims) (ls rs : List ℕ) : Prim F where
  nIn := 2
  size := ![ls.prod, rs.prod]
  nOut := 1
  outSize := fun _ => (outShape dd ls rs).prod
  fwd := fun x _ => vecOf (contraction dd (toND ls (x 0)) (toND rs (x 1))) _
  rule := fun T o =>
    match dotGeneralRule dd ls rs T (o 0) (o 1) with
    | .error e => .error e
    | .ok v =>
      match castTo (outShape dd ls rs).prod v with
      | .error e => .error e
      | .ok r => .ok fun _ => r

end Folx

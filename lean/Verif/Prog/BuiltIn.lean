import Verif.Prog.DotTotal
import Verif.Props.SlogdetProps
import Verif.Props.ArrayProps

/-!
# The registry as one table

`BuiltIn name p dom index sp`: `p` is the function registered under `name` (`wrapped_functions.py:297-441`) for some operand
shapes and parameters, for real operands.  `dom` is where the function is smooth (or, for functions without derivative, locally
constant).  `index` are the operands that hold indices.  `sp` is what is required of the parameters with sparsity enabled, and
`False` for the functions whose sparse rules are defective (`scatter`: C40) or may return short dense Jacobians (`slogdet`).
Not in the table: functions of complex operands (`abs` C20, `conj`, `real`, `imag` C14) and conversion to discrete types (C37).
-/

namespace Folx

open Filter Topology Vmap Dot
open Folx.Interp (Err)

attribute [local instance] instInhabitedScalar

/-- `x` holds integers. -/
def IntArr {m : ℕ} (x : Fin m → ℝ) : Prop := ∀ p, ∃ k : ℤ, x p = k

/-- Along the axes `dims` one element is strictly larger (`sgn = 1`) or smaller (`sgn = -1`) than all others. -/
def UniqueExtremum (sgn : ℝ) (s dims : List ℕ) (x : Fin s.prod → ℝ) : Prop :=
  ∀ w, InB w (sizes s (keptDims s.length dims)) → ∃ k, InB k (sizes s dims) ∧ ∀ k', InB k' (sizes s dims) → k' ≠ k →
    sgn * along s dims x w k' < sgn * along s dims x w k

/-- The functions registered by default, for real operands (`wrapped_functions.py:297-441`). -/
inductive BuiltIn : String → (p : Prim ℝ) → (dom : ((i : Fin p.nIn) → Fin (p.size i) → ℝ) → Prop) →
    (index : Fin p.nIn → Bool) → (sp : Prop) → Prop
  /-- the elementwise functions -/
  | elem (k : ℤ) (e : ElemEntry) (he : e ∈ elemTable k) (size : Fin e.arity → ℕ) (out : ℕ)
      (π : (i : Fin e.arity) → Fin out → Fin (size i)) (same : (i : Fin e.arity) → Option (Fin out ≃ Fin (size i)))
      (hsame : ∀ i ε, same i = some ε → ∀ q, ε q = π i q) :
      BuiltIn e.name (e.std size out π same (e.custom π)).toWPrim.toPrim (fun x => ∀ q, e.dom fun i => x i (π i q))
        (fun _ => false) (∀ i, Nonempty (Fin out) → Function.Surjective (π i))
  /-- the functions that drop derivatives -/
  | drop (e : DropEntry) (he : e ∈ dropTable) (size : Fin e.arity → ℕ) (out : ℕ)
      (π : (i : Fin e.arity) → Fin out → Fin (size i)) :
      BuiltIn e.name (e.prim size out π) (fun x => ∀ q, e.dom fun i => x i (π i q)) (fun _ => false) True
  /-- `:324-328` -/
  | reduceSum (s dims : List ℕ) (hs : 0 < s.prod) (hp : (keptDims s.length dims ++ dims).Perm (List.range s.length)) :
      BuiltIn "reduce_sum" (reduceSumOp ℝ s dims hs hp).toWPrim.toPrim (fun _ => True) (fun _ => false) True
  /-- `:329-333` -/
  | reduceMax (s dims : List ℕ) (hs : 0 < s.prod) (hp : (keptDims s.length dims ++ dims).Perm (List.range s.length)) :
      BuiltIn "reduce_max" (reduceMaxOp s dims hs hp).toWPrim.toPrim (fun x => UniqueExtremum 1 s dims (x (0 : Fin 1)))
        (fun _ => false) True
  /-- `:334-338` -/
  | reduceMin (s dims : List ℕ) (hs : 0 < s.prod) (hp : (keptDims s.length dims ++ dims).Perm (List.range s.length)) :
      BuiltIn "reduce_min" (reduceMinOp s dims hs hp).toWPrim.toPrim (fun x => UniqueExtremum (-1) s dims (x (0 : Fin 1)))
        (fun _ => false) True
  /-- `:339-341` -/
  | reduceProd (s dims : List ℕ) (hs : 0 < s.prod) (hp : (keptDims s.length dims ++ dims).Perm (List.range s.length)) :
      BuiltIn "reduce_prod" (reduceProdOp ℝ s dims hs hp).toWPrim.toPrim (fun _ => True) (fun _ => false) True
  /-- `:342-344` -/
  | cumsum (s : List ℕ) (axis : ℕ) (reverse oneAxis : Bool) (hs : 0 < s.prod) :
      BuiltIn "cumsum" ((cumsumOp s axis reverse hs).prim List.sum oneAxis) (fun _ => True) (fun _ => false) True
  /-- `:360-362` -/
  | broadcastInDim (s t dims : List ℕ) (hs : 0 < s.prod) (h : BroadcastOk s t dims) (static oneAxis : Bool) :
      BuiltIn "broadcast_in_dim" ((broadcastInDimOp s t dims hs).prim ℝ static oneAxis) (fun _ => True) (fun _ => false)
        (static = true)
  /-- `:363-365` -/
  | reshape (s t : List ℕ) (hs : 0 < s.prod) (h : s.prod = t.prod) (static oneAxis : Bool) :
      BuiltIn "reshape" ((reshapeOp s t hs).prim ℝ static oneAxis) (fun _ => True) (fun _ => false) (static = true)
  /-- `:366-368` -/
  | slice (s start limit stride : List ℕ) (hs : 0 < s.prod) (h : SliceOk s start limit stride) (static oneAxis : Bool) :
      BuiltIn "slice" ((sliceOp s start limit stride hs).prim ℝ static oneAxis) (fun _ => True) (fun _ => false)
        (static = true)
  /-- `:369-374`; the operands after the first are start indices -/
  | dynamicSlice (s sizes : List ℕ) (hs : 0 < s.prod) (hl : sizes.length = s.length)
      (h : ∀ d < s.length, sizes.getD d 0 ≤ s.getD d 0) (static oneAxis : Bool) :
      BuiltIn "dynamic_slice" ((dynamicSliceOp s sizes hs).prim ℝ static oneAxis)
        (fun x => ∀ d : Fin s.length, IntArr (x (Fin.succ d))) (fun i => decide (i.val ≠ 0)) (static = true)
  /-- `:375-380` -/
  | concatenate (k : ℕ) (shapes : Fin k → List ℕ) (axis : ℕ) (out : List ℕ) (hs : ∀ i, 0 < (shapes i).prod)
      (h : CatOk shapes axis out) (static oneAxis : Bool) :
      BuiltIn "concatenate" ((concatenateOp shapes axis out hs).prim ℝ static oneAxis) (fun _ => True) (fun _ => false)
        (static = true)
  /-- `:381-383`; the first operand holds the numbers of the selected cases -/
  | selectN (s : List ℕ) (k : ℕ) (scalar : Bool) (hs : 0 < s.prod) (static oneAxis : Bool) :
      BuiltIn "select_n" ((selectNOp s k scalar hs).prim ℝ static oneAxis)
        (fun x => ∀ p, ∃ j : Fin k, x (0 : Fin (k + 1)) p = ((j : ℕ) : ℤ)) (fun i => decide (i.val = 0))
        (static = true ∧ (s ≠ [] ∨ k ≤ 2))
  /-- `:384-386`; the second operand holds start indices -/
  | gather (s ids out sliceSizes : List ℕ) (g : GatherDims) (hs : 0 < s.prod) (hi : 0 < ids.prod)
      (h : GatherOk s ids out sliceSizes g) (static oneAxis : Bool) :
      BuiltIn "gather" ((gatherOp s ids out sliceSizes g hs hi).prim ℝ static oneAxis)
        (fun x => IntArr (x (1 : Fin 2))) (fun i => decide (i.val = 1)) (static = true)
  /-- `:387-389` -/
  | transpose (s perm : List ℕ) (hs : 0 < s.prod) (h : perm.Perm (List.range s.length)) (static oneAxis : Bool) :
      BuiltIn "transpose" ((transposeOp s perm hs).prim ℝ static oneAxis) (fun _ => True) (fun _ => false) (static = true)
  /-- `:390-392` -/
  | squeeze (s dims : List ℕ) (hs : 0 < s.prod) (static oneAxis : Bool) :
      BuiltIn "squeeze" ((squeezeOp s dims hs).prim ℝ static oneAxis) (fun _ => True) (fun _ => false) (static = true)
  /-- `:393` -/
  | rev (s dims : List ℕ) (hs : 0 < s.prod) (static oneAxis : Bool) :
      BuiltIn "rev" ((revOp s dims hs).prim ℝ static oneAxis) (fun _ => True) (fun _ => false) (static = true)
  /-- `:407-411`; the second operand holds indices -/
  | scatterAdd (s ids upd : List ℕ) (g : ScatterDims) (hs : 0 < s.prod) (hi : 0 < ids.prod) (hu : 0 < upd.prod)
      (oneAxis : Bool) :
      BuiltIn "scatter_add" ((scatterCombineOp s ids upd g hs hi hu).prim List.sum oneAxis) (fun x => IntArr (x (1 : Fin 3)))
        (fun i => decide (i.val = 1)) (s ≠ [] ∧ upd ≠ [])
  /-- `:412-416` -/
  | scatterMax (s ids upd : List ℕ) (g : ScatterDims) (hs : 0 < s.prod) (hi : 0 < ids.prod) (hu : 0 < upd.prod)
      (oneAxis : Bool) :
      BuiltIn "scatter_max" ((scatterCombineOp s ids upd g hs hi hu).prim listMax oneAxis)
        (fun x => IntArr (x (1 : Fin 3)) ∧ (scatterCombineOp s ids upd g hs hi hu).NoTie 1 x)
        (fun i => decide (i.val = 1)) (s ≠ [] ∧ upd ≠ [])
  /-- `:417-421` -/
  | scatterMin (s ids upd : List ℕ) (g : ScatterDims) (hs : 0 < s.prod) (hi : 0 < ids.prod) (hu : 0 < upd.prod)
      (oneAxis : Bool) :
      BuiltIn "scatter_min" ((scatterCombineOp s ids upd g hs hi hu).prim listMin oneAxis)
        (fun x => IntArr (x (1 : Fin 3)) ∧ (scatterCombineOp s ids upd g hs hi hu).NoTie (-1) x)
        (fun i => decide (i.val = 1)) (s ≠ [] ∧ upd ≠ [])
  /-- `:400-406`; see `Verif/Core/Scatter.lean` for the role of `c` -/
  | scatter (size : Fin 2 → ℕ) (c : Scatter (Fin (size 0)) (Fin (size 1))) (hc : c.Ok)
      (π : (a : Fin 2) → Fin (size 0) → Fin (size a)) :
      BuiltIn "scatter" (scatterPrim c π) (fun _ => True) (fun _ => false) False
  /-- `:302`, `:61-183` -/
  | dotGeneral (dd : DotDims) (ls rs : List ℕ) (h : dd.Ok ls rs) (hl : 0 < ls.prod) (hr : 0 < rs.prod) :
      BuiltIn "dot_general" (dotPrim dd ls rs) (fun _ => True) (fun _ => false)
        (interEqIn (leftShape dd ls rs) (rightShape dd ls rs) = true → noTranspose dd ls.length rs.length = true →
          SpecialOk dd ls.length rs.length)
  /-- `:440` `:204-278` -/
  | slogdet (b m : ℕ) (hm : 0 < m) :
      BuiltIn "slogdet" (slogdetPrim ℝ DetField.ofReal.cplx b m hm) (fun x => ∀ q, (mats (x (0 : Fin 1)) q).det ≠ 0)
        (fun _ => false) False
  /-- `:434` `:187-192`, from one floating point type to another (conversion to discrete types is in C37) -/
  | convert (m : ℕ) :
      BuiltIn "convert_element_type" (mapPrim m (ContinuousLinearMap.id ℝ ℝ)) (fun _ => True) (fun _ => false) True

end Folx

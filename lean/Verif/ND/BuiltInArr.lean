import Verif.ND.MoveArr
import Verif.Prog.BuiltIn
import Verif.Props.RedArrProps
import Verif.Props.ArrReturnProps

/-!
# The registry as one table of functions of arrays

`ArrBuiltIn name p dom sp any ret`: `p` is the function registered under `name` (`wrapped_functions.py:297-441`) on arrays of some shapes, with every operation on Jacobians at the
level of arrays (C51-C59).  `dom`: where it is smooth (or, for functions without derivative, locally constant).  `sp`: what is required of shapes and parameters with sparsity
enabled.  `any`: what is required if Jacobians may be short.  `ret`: where calls with sparse Jacobians cannot raise.

Not in the table: functions of complex operands (`abs`, `conj`, `real`, `imag`), `scatter` (C40), conversion to discrete types (C37).  Index operands
are parameters.  No arrays without elements.
-/

namespace Folx.Layout
open Vmap Dot Filter Topology

/-- The elements that `scatter_add`, `scatter_max`, `scatter_min` combine to the element at `w`: that of the operand (0) and those of the updates (1) that go there. -/
def combineTerms (s upd : List ℕ) (g : ScatterDims) (index : ND ℤ) (w : List ℕ) : List (Fin 2 × List ℕ) :=
  (0, w) :: ((allIdx upd).filter fun u => g.hits s.length index u w).map fun u => (1, u)

/-- In place of index operands. -/
def noInts : ND ℤ := ND.ofFn [] fun _ => 0

/-- The functions that copy elements (`wrapped_functions.py:360-393`): where the element at `w` is copied from. -/
inductive Moves : (name : String) → {m : ℕ} → (shape : Fin (m + 1) → List ℕ) → (out : List ℕ) → (src : List ℕ → Option (Fin (m + 1) × List ℕ)) → Prop
  /-- `:360-362` -/
  | broadcastInDim (s t dims : List ℕ) (hs : 0 < s.prod) (h : BroadcastOk s t dims) :
      Moves "broadcast_in_dim" (m := 0) (fun _ => s) t ((broadcastInDimOp s t dims hs).index fun _ => noInts)
  /-- `:363-365` -/
  | reshape (s t : List ℕ) (hs : 0 < s.prod) (h : s.prod = t.prod) : Moves "reshape" (m := 0) (fun _ => s) t ((reshapeOp s t hs).index fun _ => noInts)
  /-- `:366-368` -/
  | slice (s start limit stride : List ℕ) (hs : 0 < s.prod) (h : SliceOk s start limit stride) :
      Moves "slice" (m := 0) (fun _ => s) (sliceOp s start limit stride hs).out ((sliceOp s start limit stride hs).index fun _ => noInts)
  /-- `:369-374`; the start indices `x` are parameters -/
  | dynamicSlice (s sizes : List ℕ) (hs : 0 < s.prod) (hl : sizes.length = s.length) (h : ∀ d < s.length, sizes.getD d 0 ≤ s.getD d 0)
      (x : (i : Fin (s.length + 1)) → Fin ((dynamicSliceOp s sizes hs).shapes i).prod → ℝ) (hx : ∀ d : Fin s.length, IntArr (x d.succ)) :
      Moves "dynamic_slice" (m := 0) (fun _ => s) sizes fun w => ((dynamicSliceOp s sizes hs).index ((dynamicSliceOp s sizes hs).ints x) w).map fun r => (0, r.2)
  /-- `:375-380` -/
  | concatenate (m : ℕ) (shapes : Fin (m + 1) → List ℕ) (axis : ℕ) (out : List ℕ) (hs : ∀ i, 0 < (shapes i).prod) (h : CatOk shapes axis out) :
      Moves "concatenate" shapes out ((concatenateOp shapes axis out hs).index fun _ => noInts)
  /-- `:381-383`; the numbers `x 0` of the selected cases are parameters -/
  | selectN (s : List ℕ) (m : ℕ) (scalar : Bool) (hs : 0 < s.prod) (x : (i : Fin (m + 2)) → Fin ((selectNOp s (m + 1) scalar hs).shapes i).prod → ℝ)
      (hx : ∀ p, ∃ j : Fin (m + 1), x 0 p = ((j : ℕ) : ℤ)) :
      Moves "select_n" (m := m) (fun _ => s) s fun w => ((selectNOp s (m + 1) scalar hs).index ((selectNOp s (m + 1) scalar hs).ints x) w).bind fun r =>
        Fin.cases (motive := fun _ => Option (Fin (m + 1) × List ℕ)) none (fun j => some (j, r.2)) r.1
  /-- `:384-386`; the start indices `x 1` are parameters -/
  | gather (s ids out sliceSizes : List ℕ) (g : GatherDims) (hs : 0 < s.prod) (hi : 0 < ids.prod) (h : GatherOk s ids out sliceSizes g)
      (x : (i : Fin 2) → Fin ((gatherOp s ids out sliceSizes g hs hi).shapes i).prod → ℝ) (hx : IntArr (x 1)) :
      Moves "gather" (m := 0) (fun _ => s) out fun w => ((gatherOp s ids out sliceSizes g hs hi).index ((gatherOp s ids out sliceSizes g hs hi).ints x) w).map fun r => (0, r.2)
  /-- `:387-389` -/
  | transpose (s perm : List ℕ) (hs : 0 < s.prod) (h : perm.Perm (List.range s.length)) :
      Moves "transpose" (m := 0) (fun _ => s) (transposeOp s perm hs).out ((transposeOp s perm hs).index fun _ => noInts)
  /-- `:390-392` -/
  | squeeze (s dims : List ℕ) (hs : 0 < s.prod) : Moves "squeeze" (m := 0) (fun _ => s) (squeezeOp s dims hs).out ((squeezeOp s dims hs).index fun _ => noInts)
  /-- `:393` -/
  | rev (s dims : List ℕ) (hs : 0 < s.prod) : Moves "rev" (m := 0) (fun _ => s) s ((revOp s dims hs).index fun _ => noInts)

/-- The functions registered by default, on arrays of real numbers (`wrapped_functions.py:297-441`). -/
inductive ArrBuiltIn : String → (p : Prim ℝ) → (dom : ((i : Fin p.nIn) → Fin (p.size i) → ℝ) → Prop) → (sp any ret : Prop) → Prop
  /-- the elementwise functions; `junk` is what the custom rule of `div` returns for shapes it does not expect -/
  | elem (k : ℤ) (e : ElemEntry) (he : e ∈ elemTable k) (fil : Bool) (junk : ℝ) (shape : Fin e.arity → List ℕ) (out : List ℕ) (hs : ∀ i, 0 ∉ shape i) (h0 : 0 ∉ out)
      (hb : Broadcasts (List.ofFn shape) out) :
      ArrBuiltIn e.name ((e.arr fil junk shape out).prim fun _ => none) (e.InDomain shape out) True (e.flags.has Flags.LINEAR_IN_ONE = true ∨ e.arity = 1)
        (e.flags.has Flags.LINEAR_IN_ONE = true ∨ ∀ i, ∃ j, out = List.replicate j 1 ++ shape i)
  /-- the functions that drop derivatives -/
  | drop (e : DropEntry) (he : e ∈ dropTable) (size : Fin e.arity → ℕ) (out : ℕ) (π : (i : Fin e.arity) → Fin out → Fin (size i)) :
      ArrBuiltIn e.name (e.prim size out π) (fun x => ∀ q, e.dom fun i => x i (π i q)) True True True
  /-- `:324-328` -/
  | reduceSum (fil : Bool) (s dims : List ℕ) (h0 : 0 ∉ s) (hd : dims.Nodup) (hr : ∀ d ∈ dims, d < s.length) :
      ArrBuiltIn "reduce_sum" ((sumArr (F := ℝ) fil s dims).prim fun _ => none) (fun _ => True) True True True
  /-- `:329-333` -/
  | reduceMax (fil : Bool) (s dims : List ℕ) (h0 : 0 ∉ s) (hd : dims.Nodup) (hr : ∀ d ∈ dims, d < s.length) :
      ArrBuiltIn "reduce_max" ((maxArr fil s dims).prim fun _ => none) (fun x => AttainedOnce (· < ·) s dims (x (0 : Fin 1))) True True False
  /-- `:334-338` -/
  | reduceMin (fil : Bool) (s dims : List ℕ) (h0 : 0 ∉ s) (hd : dims.Nodup) (hr : ∀ d ∈ dims, d < s.length) :
      ArrBuiltIn "reduce_min" ((minArr fil s dims).prim fun _ => none) (fun x => AttainedOnce (· > ·) s dims (x (0 : Fin 1))) True True False
  /-- `:339-341` -/
  | reduceProd (fil : Bool) (s dims : List ℕ) (h0 : 0 ∉ s) (hd : dims.Nodup) (hr : ∀ d ∈ dims, d < s.length) :
      ArrBuiltIn "reduce_prod" ((prodArr (F := ℝ) fil s dims).prim fun _ => none) (fun _ => True) True True False
  /-- `:342-344` -/
  | cumsum (fil : Bool) (s : List ℕ) (axis : ℕ) (reverse : Bool) (h0 : 0 ∉ s) :
      ArrBuiltIn "cumsum" ((cumsumArr (F := ℝ) fil s axis reverse).prim fun _ => none) (fun _ => True) True True False
  /-- `:360-393` -/
  | move (fil : Bool) (name : String) {m : ℕ} (shape : Fin (m + 1) → List ℕ) (out : List ℕ) (src : List ℕ → Option (Fin (m + 1) × List ℕ)) (h : Moves name shape out src)
      (hs : ∀ i, 0 ∉ shape i) (h0 : 0 ∉ out) : ArrBuiltIn name (movePrim fil shape out src) (fun _ => True) (m ≤ 1) (m ≤ 1) (m = 0)
  /-- `:407-411`; the indices are parameters -/
  | scatterAdd (fil : Bool) (s upd : List ℕ) (g : ScatterDims) (hs : 0 < s.prod) (hu : 0 < upd.prod) (index : ND ℤ) :
      ArrBuiltIn "scatter_add" ((addArr (m := 1) fil (two s upd) s (combineTerms s upd g index)).prim fun _ => none) (fun _ => True) (s ≠ [] ∧ upd ≠ []) (s ≠ [] ∧ upd ≠ []) False
  /-- `:412-416`; the indices are parameters -/
  | scatterMax (fil : Bool) (s upd : List ℕ) (g : ScatterDims) (hs : 0 < s.prod) (hu : 0 < upd.prod) (index : ND ℤ) :
      ArrBuiltIn "scatter_max" ((bestArr (m := 1) fil (two s upd) s (combineTerms s upd g index) listMax).prim fun _ => none)
        (OneBest (m := 1) (· < ·) (two s upd) s (combineTerms s upd g index)) (s ≠ [] ∧ upd ≠ []) (s ≠ [] ∧ upd ≠ []) False
  /-- `:417-421`; the indices are parameters -/
  | scatterMin (fil : Bool) (s upd : List ℕ) (g : ScatterDims) (hs : 0 < s.prod) (hu : 0 < upd.prod) (index : ND ℤ) :
      ArrBuiltIn "scatter_min" ((bestArr (m := 1) fil (two s upd) s (combineTerms s upd g index) listMin).prim fun _ => none)
        (OneBest (m := 1) (· > ·) (two s upd) s (combineTerms s upd g index)) (s ≠ [] ∧ upd ≠ []) (s ≠ [] ∧ upd ≠ []) False
  /-- `:302`, `:61-183` -/
  | dotGeneral (dd : DotDims) (ls rs : List ℕ) (h : dd.Ok ls rs) (hl : 0 ∉ ls) (hr : 0 ∉ rs) :
      ArrBuiltIn "dot_general" (dotArrPrim dd ls rs) (fun _ => True)
        (1 ∉ outShape dd ls rs ∧ (interEqIn (leftShape dd ls rs) (rightShape dd ls rs) = true → noTranspose dd ls.length rs.length = true → SpecialOk dd ls.length rs.length))
        (1 ∉ outShape dd ls rs ∧ (interEqIn (leftShape dd ls rs) (rightShape dd ls rs) = true → noTranspose dd ls.length rs.length = true → SpecialOk dd ls.length rs.length)) False
  /-- `:440` `:204-278` -/
  | slogdet (b m : ℕ) (hm : 0 < m) : ArrBuiltIn "slogdet" (slogdetPrim ℝ DetField.ofReal.cplx b m hm) (fun x => ∀ q, (mats (x (0 : Fin 1)) q).det ≠ 0) False True False
  /-- `:434` `:187-192` -/
  | convert (m : ℕ) : ArrBuiltIn "convert_element_type" (mapPrim m (ContinuousLinearMap.id ℝ ℝ)) (fun _ => True) True True True

end Folx.Layout

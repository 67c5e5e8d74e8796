import Verif.ND.CallLib
import Verif.ND.HessDot
import Verif.ND.RuleSpecProofs
import Verif.Prog.DotTotal

/-!
# `dot_general` on arrays (`wrapped_functions.py:37-183`)

The rearrangements, the multiplication, the sum and the dot product of the last axes are array-level functions (`ArrFn.call`, `wrap_forward_laplacian`).
-/

namespace Folx.Layout
open Vmap Dot Filter Topology

variable {F : Type} [RCLike F]

attribute [local instance] instInhabitedScalar

/-- The shapes of two operands. -/
def two (s t : List ℕ) : Fin 2 → List ℕ
  | 0 => s
  | 1 => t

/-- Two operands. -/
def pairArr {s t : List ℕ} (x : Opd F s.prod) (y : Opd F t.prod) : (i : Fin 2) → Opd F (two s t i).prod
  | 0 => x
  | 1 => y

/-- Two arrays. -/
def pairVec {s t : List ℕ} (x : Fin s.prod → F) (y : Fin t.prod → F) : (i : Fin 2) → Fin (two s t i).prod → F
  | 0 => x
  | 1 => y

/-- Where the elements of the rearranged operand come from: `z` is the result of `rearrange` on the array of positions. -/
def rearrSrc (s : List ℕ) (hs : 0 < s.prod) (z : ND ℕ) : Fin z.shape.prod → Option ((_ : Fin 1) × Fin s.prod) :=
  fun q => some ⟨0, gatherOf (some z) s.prod hs q⟩

/-- The wrapped function `rearrange` (`wrapped_functions.py:37-58`, `INDEXING`) on an operand of shape `s`: `z` is its result on the array of positions. -/
noncomputable def rearrArr (s : List ℕ) (hs : 0 < s.prod) (z : ND ℕ) : ArrFn F (k := 1) (fun _ => s) z.shape :=
  takeArr (m := 0) (shape := fun _ => s) true (rearrSrc s hs z) 0

/-- A call of `rearrange` with an operand that may carry derivatives (`wrapped_functions.py:92-112`). -/
noncomputable def rearrCall (T : ℕ) (s : List ℕ) (hs : 0 < s.prod) (z : ND ℕ) (x : Opd F s.prod) : Option (Opd F z.shape.prod) :=
  (rearrArr s hs z).call (fun acts => some (takeIdx (m := 0) (shape := fun _ => s) (rearrSrc s hs z) acts)) T fun _ => x

/-- `fwd_lapl_mul_sum` (`wrapped_functions.py:125-136`): the multiplication and the sum of the traced function, by their registered rules.  The rank promotion of `jax.numpy` adds
leading axes of size 1, as broadcasting does; `dims` are the axes of the product (`-1` resolved). -/
noncomputable def mulSumArr (T : ℕ) (s t : List ℕ) (x : Opd F s.prod) (y : Opd F t.prod) (dims : ℕ → List ℕ) : Option (PVal F) :=
  match broadcastShapes [s, t] with
  | none => none
  | some b =>
    match (mulArr true (two s t) b).call (fun _ => none) T (pairArr x y) with
    | none => none
    | some p => ((sumArr true b (dims b.length)).call (fun _ => none) T fun _ => p).map fun r => ⟨_, r⟩

/-- The function `dot_last`, wrapped (`wrapped_functions.py:166-183`), on operands of shapes `s` and `t` whose last axes have `d` elements; the other axes broadcast to `O`. -/
noncomputable def dotLastFn (s t O : List ℕ) (d : ℕ) (h : ∀ a, slicesOf [-1] (two s t a) = [d]) : ArrFn F (k := 2) (two s t) O :=
  redFn (k := 2) (Flags.DOT_PRODUCT ||| Flags.JOIN_JVP ||| Flags.SPARSE_JHJ) true [-1] (two s t) O (sliceDot h) (dotD h) (dotH h)

/-- The general solution (`wrapped_functions.py:166-184`) on rearranged operands. -/
noncomputable def dotLastArr (T : ℕ) (s t : List ℕ) (x : Opd F s.prod) (y : Opd F t.prod) : Option (PVal F) :=
  match broadcastShapes [s.dropLast, t.dropLast] with
  | none => none
  | some O =>
    if h : ∀ a, slicesOf [-1] (two s t a) = [s.getLast?.getD 0] then
      ((dotLastFn s t O _ h).call (fun _ => none) T (pairArr x y)).map fun r => ⟨_, r⟩
    else none

/-- `dot_general(args, kwargs, sparsity_threshold)` (`wrapped_functions.py:62-184`) on operands of shapes `ls` and `rs`.  Arrays without elements are not modelled. -/
noncomputable def dotArrRule (dd : DotDims) (ls rs : List ℕ) (T : ℕ) (x : Opd F ls.prod) (y : Opd F rs.prod) : Option (PVal F) :=
  if x.isLapl = false ∧ y.isLapl = false then
    some ⟨(outShape dd ls rs).prod, .plain (vecOf (contraction dd (toND ls x.x) (toND rs y.x)) _)⟩
  else if h : 0 < ls.prod ∧ 0 < rs.prod then
    match left dd rs.length (iota ls), right dd ls.length (iota rs) with
    | some zl, some zr =>
      match rearrCall T ls h.1 zl x, rearrCall T rs h.2 zr y with
      | some l, some r =>
        if interEqIn zl.shape zr.shape && (x.isWeak && y.isWeak) then
          if noTranspose dd ls.length rs.length then mulSumArr T ls rs x y fun _ => dd.lc
          else mulSumArr T zl.shape zr.shape l r fun n => [n - 1]
        else dotLastArr T zl.shape zr.shape l r
      | _, _ => none
    | _, _ => none
  else none

/-- `dot_general` as primitive of programs over arrays, with dimension numbers `dd` on operands of shapes `ls` and `rs`. -/
noncomputable def dotArrPrim (dd : DotDims) (ls rs : List ℕ) : Prim F where
  nIn := 2
  size i := (two ls rs i).prod
  nOut := 1
  outSize := fun _ => (outShape dd ls rs).prod
  fwd := fun x _ => vecOf (contraction dd (toND ls (x 0)) (toND rs (x 1))) _
  rule := fun T o =>
    match dotArrRule dd ls rs T (o 0) (o 1) with
    | none => .error .other
    | some v =>
      match castTo (outShape dd ls rs).prod v with
      | .error e => .error e
      | .ok r => .ok fun _ => r

/-! ### The values -/

theorem mulArr_value {s t b : List ℕ} (h : Broadcasts [s, t] b) (x : Fin s.prod → F) (y : Fin t.prod → F) :
    mulB (toND s x) (toND t y) = some (toND b ((mulArr true (two s t) b).fwd (pairVec x y))) := by
  unfold mulB
  have : broadcastShapes [(toND s x).shape, (toND t y).shape] = some b := broadcastShapes_iff.mpr h
  rw [this, Option.map_some]
  congr 1
  refine ND.ext_get rfl fun w hw => ?_
  have hw' : InB w b := hw
  rw [ND.get_ofFn _ hw', toND_get _ _ hw']
  have h' : Broadcasts (List.ofFn (two s t)) b := h
  show _ = pickAt (two s t) b (unravelIdx b (ravelIdx b w)) (pairVec x y) 0 * pickAt (two s t) b (unravelIdx b (ravelIdx b w)) (pairVec x y) 1
  rw [unravelIdx_ravelIdx hw', pickAt_get h' hw']
  rfl

theorem sumArr_value {b dims : List ℕ} (hp : (keptDims b.length dims ++ dims).Perm (List.range b.length)) (x : Fin b.prod → F) :
    sumDims (toND b x) dims = toND (dropDims b dims) ((sumArr true b dims).fwd fun _ => x) := by
  rw [sumDims_toND b dims hp]
  show toND (dropDims b dims) _ = _
  congr 1
  funext q
  show _ = sumOver b dims (byCoord b x) (unravelIdx (sizes b (keptDims b.length dims)) q) + 0
  rw [add_zero, sumOver_eq hp]
  refine Finset.sum_congr rfl fun c _ => ?_
  rw [byCoord_get (inB_unravelIdx (Fin.isLt _)), toND_get _ _ (inB_unravelIdx (Fin.isLt _))]
  congr 1
  apply Fin.ext
  exact (ravelIdx_unravelIdx (Fin.isLt _)).symm

end Folx.Layout

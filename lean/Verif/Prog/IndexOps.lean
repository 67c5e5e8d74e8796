import Mathlib.Algebra.Order.Round
import Verif.Prog.Run
import Verif.Prog.Total
import Verif.Prog.NDPos

/-!
# The registered operations that move elements, on arrays with shapes

`wrapped_functions.py:360-393`.  An operation is given by the element every output index is copied from
(the XLA/JAX documentation of the primitive); index operands hold integers.
-/

namespace Folx

open Filter Topology Vmap Dot
open Folx.Interp (Err)

variable {F : Type} [RCLike F]

attribute [local instance] instInhabitedScalar

/-- The integer stored in an element of an integer array. -/
noncomputable def asInt (z : F) : ℤ := round (RCLike.re z)

theorem asInt_intCast (k : ℤ) : asInt ((k : ℤ) : F) = k := by
  unfold asInt
  rw [← RCLike.ofReal_intCast, RCLike.ofReal_re, round_intCast]

theorem asInt_const (k : ℤ) : ∀ᶠ z in 𝓝 ((k : ℤ) : F), asInt z = k := by
  have hc : ContinuousAt (fun z : F => RCLike.re z) ((k : ℤ) : F) := RCLike.continuous_re.continuousAt
  have hre : RCLike.re ((k : ℤ) : F) = (k : ℝ) := by rw [← RCLike.ofReal_intCast, RCLike.ofReal_re]
  have hball : Set.Ioo ((k : ℝ) - 1 / 2) (k + 1 / 2) ∈ 𝓝 (RCLike.re ((k : ℤ) : F)) := by
    rw [hre]
    exact Ioo_mem_nhds (by linarith) (by linarith)
  filter_upwards [hc hball] with z hz
  unfold asInt
  rw [round_eq, Int.floor_eq_iff]
  constructor
  · linarith [hz.1]
  · linarith [hz.2]

/-- An indexing function flagged linear, evaluated at trace time on sparse Jacobians, never raises. -/
theorem WPrim.index_total (p : WPrim F) (T : ℕ)
    (hf : ∀ {k} (e : Fin k ↪o Fin p.nIn) x, (p.inst e x).flags.has Flags.INDEXING = true ∧
      (p.inst e x).flags.has Flags.LINEAR = true ∧ (p.inst e x).static = true ∧ (p.inst e x).multi = false)
    (o : (i : Fin p.nIn) → Opd F (p.size i)) (hl : ∃ i, (o i).isLapl = true)
    (hd : ∀ i t, o i = .lapl t → t.jac.weak = true) : ∃ r, p.call T o = .ok r := by
  have hcard : 0 < (WPrim.laplIdx o).card := by
    obtain ⟨i, hi⟩ := hl
    exact Finset.card_pos.mpr ⟨i, (WPrim.mem_laplIdx o i).mpr hi⟩
  unfold WPrim.call
  rw [if_neg (Nat.pos_iff_ne_zero.mp hcard)]
  have hall : allWeak (fun a => (o (WPrim.laplEmb o a)).trip) = true := by
    unfold allWeak
    simp only [decide_eq_true_eq]
    intro a
    have h1 := (WPrim.laplEmb_range o (WPrim.laplEmb o a)).mp ⟨a, rfl⟩
    cases ho : o (WPrim.laplEmb o a) with
    | plain _ => rw [ho] at h1; simp [Opd.isLapl] at h1
    | lapl t => exact hd _ t ho
  obtain ⟨f1, f2, f3, f4⟩ := hf (WPrim.laplEmb o) fun i => (o i).x
  obtain ⟨c, hc⟩ : ∃ c, jvpRule (p.inst (WPrim.laplEmb o) fun i => (o i).x).toInst T
      (fun a => (o (WPrim.laplEmb o a)).trip) = .ok c := by
    unfold jvpRule
    rw [if_pos (Or.inr ⟨hall, Or.inl f1⟩)]
    unfold parallelJvp
    rw [if_neg (by rw [hall]; simp), if_pos f1]
    unfold sparseIndex
    rw [if_pos f3, if_neg (by rw [f4]; simp)]
    exact ⟨_, rfl⟩
  have hh : (p.inst (WPrim.laplEmb o) fun i => (o i).x).hessianTransform T
      (fun a => (o (WPrim.laplEmb o a)).trip) = .ok fun _ => 0 := by
    unfold HInst.hessianTransform
    rw [if_pos f2]
  unfold HInst.wrapped
  rw [hc, hh]
  exact ⟨_, rfl⟩

/-- An operation copying elements.  `data i`: elements of operand `i` may be copied; the other operands are integer arrays.
`index ints w`: the operand and the index of the element copied to output index `w`. -/
structure IndexOp where
  nIn : ℕ
  shapes : Fin nIn → List ℕ
  pos : ∀ i, 0 < (shapes i).prod
  out : List ℕ
  data : Fin nIn → Bool
  index : ((i : Fin nIn) → ND ℤ) → List ℕ → Option (Fin nIn × List ℕ)

namespace IndexOp

variable (op : IndexOp)

/-- The integer operands (zeros in place of the others). -/
noncomputable def ints (x : (i : Fin op.nIn) → Fin (op.shapes i).prod → F) (i : Fin op.nIn) : ND ℤ :=
  toND (op.shapes i) fun p => if op.data i then 0 else asInt (x i p)

/-- The position copied to position `q`. -/
noncomputable def src (x : (i : Fin op.nIn) → Fin (op.shapes i).prod → F) (q : Fin op.out.prod) :
    Option (Σ i : Fin op.nIn, Fin (op.shapes i).prod) :=
  (op.index (op.ints x) (unravelIdx op.out q)).map fun r =>
    ⟨r.1, finOr _ (op.pos r.1) (ravelIdx (op.shapes r.1) r.2)⟩

/-- The operation wrapped with `flags=INDEXING` (`wrapped_functions.py:360-393`).  `static`: the index operands are known
at trace time (`jvp.py:306-313`). -/
noncomputable def std (F : Type) [RCLike F] (static oneAxis : Bool) : Std F :=
  arrStd op.nIn (fun i => (op.shapes i).prod) op.out.prod op.pos (pick op.src fun _ => 0) Flags.INDEXING
    (fun i => allAxes op.out.prod (op.shapes i).prod (op.pos i) (op.shapes i).isEmpty) (fun _ => none) op.src static
    oneAxis fun _ _ _ => none

/-- The primitive in the interpreter. -/
noncomputable def prim (F : Type) [RCLike F] (static oneAxis : Bool) : Prim F := (op.std F static oneAxis).toWPrim.toPrim

/-- The integer operands hold integers and every output element is copied from an existing element of a data operand. -/
structure Valid (x : (i : Fin op.nIn) → Fin (op.shapes i).prod → F) : Prop where
  int : ∀ i, op.data i = false → ∀ p, ∃ k : ℤ, x i p = k
  inb : ∀ w, InB w op.out → ∃ i v, op.index (op.ints x) w = some (i, v) ∧ op.data i = true ∧ InB v (op.shapes i)

theorem ints_const {x : (i : Fin op.nIn) → Fin (op.shapes i).prod → F} (h : op.Valid x) :
    ∀ᶠ y in 𝓝 x, op.ints y = op.ints x := by
  have key : ∀ i p, ∀ᶠ y in 𝓝 x, (if op.data i then (0 : ℤ) else asInt (y i p)) = if op.data i then 0 else asInt (x i p) := by
    intro i p
    by_cases hd : op.data i = true
    · simp [hd]
    · have hd : op.data i = false := by simpa using hd
      obtain ⟨k, hk⟩ := h.int i hd p
      have hc : ContinuousAt (fun y : (i : Fin op.nIn) → Fin (op.shapes i).prod → F => y i p) x :=
        ((continuous_apply p).comp (continuous_apply i)).continuousAt
      have hev := asInt_const (F := F) k
      rw [← hk] at hev
      filter_upwards [hc.eventually hev] with y hy
      simp only [hd, Bool.false_eq_true, if_false]
      rw [hy, hk, asInt_intCast]
  have h2 : ∀ᶠ y in 𝓝 x, ∀ i p, (if op.data i then (0 : ℤ) else asInt (y i p)) = if op.data i then 0 else asInt (x i p) :=
    eventually_all.mpr fun i => eventually_all.mpr fun p => key i p
  filter_upwards [h2] with y hy
  funext i
  unfold ints
  congr 1
  funext p
  exact hy i p

theorem src_const {x : (i : Fin op.nIn) → Fin (op.shapes i).prod → F} (h : op.Valid x) :
    ∀ᶠ y in 𝓝 x, op.src y = op.src x := by
  filter_upwards [op.ints_const h] with y hy
  funext q
  unfold src
  rw [hy]

theorem true_at (static oneAxis : Bool) (n : ℕ) {x : (i : Fin op.nIn) → Fin (op.shapes i).prod → F} (h : op.Valid x) :
    (op.std F static oneAxis).TrueAt n x :=
  arr_index n (fun i => (op.shapes i).isEmpty) (fun i hi => by
    rw [List.isEmpty_iff] at hi
    rw [hi]; rfl) _ x (op.src_const h)

/-- What the operation computes. -/
theorem meaning (static oneAxis : Bool) {x : (i : Fin op.nIn) → Fin (op.shapes i).prod → F} (h : op.Valid x)
    {w : List ℕ} (hw : InB w op.out) {i : Fin op.nIn} {v : List ℕ} (hi : op.index (op.ints x) w = some (i, v)) :
    (toND op.out ((op.prim F static oneAxis).fwd x (0 : Fin 1))).get w = (toND (op.shapes i) (x i)).get v := by
  obtain ⟨i', v', h1, -, h3⟩ := h.inb w hw
  obtain ⟨rfl, rfl⟩ : i = i' ∧ v = v' := by
    have := hi.symm.trans h1
    simpa using this
  show (toND op.out (pick op.src (fun _ => 0) x)).get w = _
  rw [toND_get _ _ hw, toND_get _ _ h3]
  unfold pick src
  dsimp only
  rw [unravelIdx_ravelIdx hw, hi]
  simp only [Option.map_some, copyOr]
  rw [finOr_of_lt (ravelIdx_lt h3)]

/-- At most two operands are copied from, or none of them is a scalar. -/
def FewScalars : Prop :=
  (∀ i, op.data i = true → op.shapes i ≠ []) ∨
    ∀ i j k, op.data i = true → op.data j = true → op.data k = true → i = j ∨ j = k ∨ i = k

theorem noDefect (static oneAxis : Bool) (T : ℕ) (hf : op.FewScalars)
    (o : (i : Fin op.nIn) → Opd F ((op.shapes i).prod)) (hp : ∀ i, op.data i = false → (o i).isLapl = false) :
    (((op.std F static oneAxis).inst (WPrim.laplEmb o) fun i => (o i).x).NoDefect T
      fun a => (o (WPrim.laplEmb o a)).trip) := by
  have hdata : ∀ a, op.data (WPrim.laplEmb o a) = true := by
    intro a
    by_contra hc
    have h1 := hp (WPrim.laplEmb o a) (by simpa using hc)
    have h2 := (WPrim.laplEmb_range o _).mp ⟨a, rfl⟩
    rw [h1] at h2
    simp at h2
  refine ⟨fun ht => ?_, fun _ => Or.inr (Or.inr (Or.inl ?_))⟩
  · rcases hf with hf | hf
    · right
      intro a _
      have hne : (op.shapes (WPrim.laplEmb o a)).isEmpty = false := by
        have := hf _ (hdata a)
        cases hs : op.shapes (WPrim.laplEmb o a) with
        | nil => exact absurd hs this
        | cons _ _ => rfl
      refine ⟨⟨Unit, Fin (op.shapes (WPrim.laplEmb o a)).prod, (Equiv.uniqueProd _ Unit).symm, fun _ => ()⟩, ?_⟩
      show allAxes op.out.prod (op.shapes (WPrim.laplEmb o a)).prod _ (op.shapes (WPrim.laplEmb o a)).isEmpty = _
      unfold allAxes
      rw [hne]
      rfl
    · left
      intro a b ha hb
      by_contra hab
      apply ht
      right
      refine ⟨?_, Or.inl ?_⟩
      · unfold allWeak
        simp only [decide_eq_true_eq]
        intro d
        rcases hf _ _ _ (hdata a) (hdata b) (hdata d) with h | h | h
        · exact absurd ((WPrim.laplEmb o).injective h) hab
        · rw [← (WPrim.laplEmb o).injective h]; exact hb
        · rw [← (WPrim.laplEmb o).injective h]; exact ha
      · show Flags.INDEXING.has Flags.INDEXING = true
        decide
  · show Flags.INDEXING.has Flags.LINEAR_IN_ONE = true
    decide

/-- Calls of these operations hit no defect. -/
theorem goodCall (static oneAxis : Bool) (T n : ℕ) (hf : op.FewScalars)
    (o : (i : Fin op.nIn) → Opd F ((op.shapes i).prod)) (hp : ∀ i, op.data i = false → (o i).isLapl = false)
    (hv : op.Valid fun i => (o i).x) : GoodCall T n (op.prim F static oneAxis) o :=
  .wrapped (op.std F static oneAxis) o (op.true_at static oneAxis n hv) (op.noDefect static oneAxis T hf o hp)

/-- With all Jacobians sparse (and the index operands known) or all dense the rule returns. -/
theorem returns (static oneAxis : Bool) (T n : ℕ) (o : (i : Fin op.nIn) → Opd F ((op.shapes i).prod))
    (hl : ∃ i, (o i).isLapl = true) (hv : op.Valid fun i => (o i).x)
    (hd : static = true ∧ (∀ i t, o i = .lapl t → t.jac.weak = true) ∨
      ∀ i t, o i = .lapl t → t.jac.weak = false ∧ t.jac.nrows = n) :
    ∃ r, (op.prim F static oneAxis).rule T o = .ok r := by
  rcases hd with ⟨rfl, hd⟩ | hd
  · obtain ⟨r, hr⟩ := (op.std F true oneAxis).toWPrim.index_total T
      (fun _ _ => ⟨(by decide : Flags.INDEXING.has Flags.INDEXING = true),
        (by decide : Flags.INDEXING.has Flags.LINEAR = true), rfl, rfl⟩) o hl hd
    exact ⟨fun _ => r, by simp only [prim, WPrim.toPrim, hr]⟩
  · exact Std.total (op.std F static oneAxis) T n (fun i => (o i).x) (op.true_at static oneAxis n hv)
      (fun _ _ _ hc => by simp [std, arrStd] at hc) o (fun _ => rfl) hl hd

end IndexOp

/-! ### The operations -/

theorem inB_range {s : List ℕ} {f : ℕ → ℕ} (h : ∀ d < s.length, f d < s.getD d 0) :
    InB ((List.range s.length).map f) s := by
  unfold InB
  rw [List.forall₂_iff_get]
  refine ⟨by simp, fun i h1 h2 => ?_⟩
  have := h i h2
  rw [List.getD_eq_getElem _ _ h2] at this
  simpa using this

/-- `reshape` (`wrapped_functions.py:363-365`): the elements in row-major order. -/
def reshapeOp (s t : List ℕ) (hs : 0 < s.prod) : IndexOp where
  nIn := 1
  shapes := fun _ => s
  pos := fun _ => hs
  out := t
  data := fun _ => true
  index := fun _ w => some (0, unravelIdx s (ravelIdx t w))

/-- `broadcast_in_dim` (`wrapped_functions.py:360-362`): operand dimension `d` is result dimension `dims[d]`, or has size 1. -/
def broadcastInDimOp (s t dims : List ℕ) (hs : 0 < s.prod) : IndexOp where
  nIn := 1
  shapes := fun _ => s
  pos := fun _ => hs
  out := t
  data := fun _ => true
  index := fun _ w => some (0, (List.range s.length).map fun d =>
    if s.getD d 0 = 1 then 0 else w.getD (dims.getD d 0) 0)

/-- `slice` (`wrapped_functions.py:366-368`): element `start + stride * w` in every dimension. -/
def sliceOp (s start limit stride : List ℕ) (hs : 0 < s.prod) : IndexOp where
  nIn := 1
  shapes := fun _ => s
  pos := fun _ => hs
  out := (List.range s.length).map fun d =>
    (limit.getD d 0 - start.getD d 0 + stride.getD d 1 - 1) / stride.getD d 1
  data := fun _ => true
  index := fun _ w => some (0, (List.range s.length).map fun d => start.getD d 0 + stride.getD d 1 * w.getD d 0)

/-- `dynamic_slice` (`wrapped_functions.py:369-374`): a window of the given sizes; the start indices (one scalar operand per
dimension) are clamped so that the window fits. -/
def dynamicSliceOp (s sizes : List ℕ) (hs : 0 < s.prod) : IndexOp where
  nIn := s.length + 1
  shapes := Fin.cons s fun _ => []
  pos := Fin.cases hs fun _ => Nat.one_pos
  out := sizes
  data := Fin.cons true fun _ => false
  index := fun ints w => some (0, (List.range s.length).map fun d =>
    (if h : d < s.length then
      (max 0 (min ((ints (Fin.succ ⟨d, h⟩)).get []) (s.getD d 0 - sizes.getD d 0 : ℕ))).toNat
     else 0) + w.getD d 0)

/-- Elements before operand `i` along the axis. -/
def catOffset {k : ℕ} (shapes : Fin k → List ℕ) (axis : ℕ) (i : Fin k) : ℕ :=
  ∑ j : Fin k with j < i, (shapes j).getD axis 0

/-- `concatenate` (`wrapped_functions.py:375-380`). -/
def concatenateOp {k : ℕ} (shapes : Fin k → List ℕ) (axis : ℕ) (out : List ℕ) (hs : ∀ i, 0 < (shapes i).prod) :
    IndexOp where
  nIn := k
  shapes := shapes
  pos := hs
  out := out
  data := fun _ => true
  index := fun _ w =>
    ((List.finRange k).find? fun i => decide (catOffset shapes axis i ≤ w.getD axis 0 ∧
      w.getD axis 0 < catOffset shapes axis i + (shapes i).getD axis 0)).map fun i =>
      (i, w.set axis (w.getD axis 0 - catOffset shapes axis i))

/-- `select_n(which, *cases)` (`wrapped_functions.py:381-383`): `which` is a scalar or has the shape of the cases. -/
def selectNOp (s : List ℕ) (k : ℕ) (scalar : Bool) (hs : 0 < s.prod) : IndexOp where
  nIn := k + 1
  shapes := Fin.cons (if scalar then [] else s) fun _ => s
  pos := Fin.cases (by cases scalar <;> simp [hs]) fun _ => hs
  out := s
  data := Fin.cons false fun _ => true
  index := fun ints w =>
    let j := ((ints 0).get (if scalar then [] else w)).toNat
    if h : 0 ≤ (ints 0).get (if scalar then [] else w) ∧ j < k then some (Fin.succ ⟨j, h.2⟩, w) else none

/-- `transpose` (`wrapped_functions.py:387-389`): result dimension `j` is operand dimension `perm[j]`. -/
def transposeOp (s perm : List ℕ) (hs : 0 < s.prod) : IndexOp where
  nIn := 1
  shapes := fun _ => s
  pos := fun _ => hs
  out := perm.map fun a => s.getD a 0
  data := fun _ => true
  index := fun _ w => some (0, (List.range s.length).map fun d => w.getD (perm.idxOf d) 0)

/-- The dimensions that are not removed. -/
def keptOf (n : ℕ) (dims : List ℕ) : List ℕ := (List.range n).filter fun d => decide (d ∉ dims)

/-- `squeeze` (`wrapped_functions.py:390-392`). -/
def squeezeOp (s dims : List ℕ) (hs : 0 < s.prod) : IndexOp where
  nIn := 1
  shapes := fun _ => s
  pos := fun _ => hs
  out := (keptOf s.length dims).map fun a => s.getD a 0
  data := fun _ => true
  index := fun _ w => some (0, (List.range s.length).map fun d =>
    if d ∈ dims then 0 else w.getD ((keptOf s.length dims).idxOf d) 0)

/-- `rev` (`wrapped_functions.py:393`). -/
def revOp (s dims : List ℕ) (hs : 0 < s.prod) : IndexOp where
  nIn := 1
  shapes := fun _ => s
  pos := fun _ => hs
  out := s
  data := fun _ => true
  index := fun _ w => some (0, (List.range s.length).map fun d =>
    if d ∈ dims then s.getD d 0 - 1 - w.getD d 0 else w.getD d 0)

/-- `GatherDimensionNumbers`. -/
structure GatherDims where
  offset : List ℕ
  collapsed : List ℕ
  startMap : List ℕ
  opBatch : List ℕ
  idxBatch : List ℕ

/-- The coordinates of the output that number the slices. -/
def GatherDims.batchOf (g : GatherDims) (w : List ℕ) : List ℕ :=
  ((List.range w.length).filter fun k => decide (k ∉ g.offset)).map fun k => w.getD k 0

/-- Operand dimensions that appear in the output. -/
def GatherDims.window (g : GatherDims) (n : ℕ) : List ℕ :=
  (List.range n).filter fun d => decide (d ∉ g.collapsed ∧ d ∉ g.opBatch)

/-- `gather(operand, indices)` (`wrapped_functions.py:384-386`), XLA semantics: the coordinate along operand dimension `d` is
the (clamped) start index, plus the batch coordinate, plus the offset inside the slice. -/
def gatherOp (s ids out sliceSizes : List ℕ) (g : GatherDims) (hs : 0 < s.prod) (hi : 0 < ids.prod) : IndexOp where
  nIn := 2
  shapes := ![s, ids]
  pos := Fin.cases hs (Fin.cases hi fun i => i.elim0)
  out := out
  data := ![true, false]
  index := fun ints w => some (0, (List.range s.length).map fun d =>
    (if d ∈ g.startMap then
      (max 0 (min ((ints 1).get (g.batchOf w ++ [g.startMap.idxOf d])) (s.getD d 0 - sliceSizes.getD d 0 : ℕ))).toNat
     else 0) +
    (if d ∈ g.opBatch then (g.batchOf w).getD (g.idxBatch.getD (g.opBatch.idxOf d) 0) 0 else 0) +
    (if d ∈ g.window s.length then w.getD (g.offset.getD ((g.window s.length).idxOf d) 0) 0 else 0))

theorem reshape_valid {s t : List ℕ} (hs : 0 < s.prod) (h : s.prod = t.prod) (x : (i : Fin 1) → Fin s.prod → F) :
    (reshapeOp s t hs).Valid x where
  int := fun _ hd => by simp [reshapeOp] at hd
  inb := fun w hw => ⟨(0 : Fin 1), _, rfl, rfl, inB_unravelIdx (by rw [h]; exact ravelIdx_lt hw)⟩

/-- The parameters of `broadcast_in_dim`: every operand dimension has size 1 or the size of its result dimension. -/
def BroadcastOk (s t dims : List ℕ) : Prop :=
  ∀ d < s.length, dims.getD d 0 < t.length ∧ (s.getD d 0 = 1 ∨ s.getD d 0 = t.getD (dims.getD d 0) 0)

theorem broadcast_valid {s t dims : List ℕ} (hs : 0 < s.prod) (h : BroadcastOk s t dims)
    (x : (i : Fin 1) → Fin s.prod → F) : (broadcastInDimOp s t dims hs).Valid x where
  int := fun _ hd => by simp [broadcastInDimOp] at hd
  inb := fun w hw => ⟨(0 : Fin 1), _, rfl, rfl, inB_range (s := s) fun d hd => by
    obtain ⟨h1, h2⟩ := h d hd
    split
    · rename_i h3; rw [h3]; exact Nat.one_pos
    · rename_i h3
      rcases h2 with h2 | h2
      · exact absurd h2 h3
      · rw [h2]; exact InB.getD_lt hw h1⟩

/-- The parameters of `slice`. -/
def SliceOk (s start limit stride : List ℕ) : Prop :=
  ∀ d < s.length, start.getD d 0 ≤ limit.getD d 0 ∧ limit.getD d 0 ≤ s.getD d 0 ∧ 0 < stride.getD d 1

theorem slice_valid {s start limit stride : List ℕ} (hs : 0 < s.prod) (h : SliceOk s start limit stride)
    (x : (i : Fin 1) → Fin s.prod → F) : (sliceOp s start limit stride hs).Valid x where
  int := fun _ hd => by simp [sliceOp] at hd
  inb := fun w hw => ⟨(0 : Fin 1), _, rfl, rfl, inB_range (s := s) fun d hd => by
    obtain ⟨h1, h2, h3⟩ := h d hd
    have hlt := InB.getD_lt hw (k := d) (by simpa [sliceOp] using hd)
    have hlt : w.getD d 0 < (limit.getD d 0 - start.getD d 0 + stride.getD d 1 - 1) / stride.getD d 1 := by
      have e : (sliceOp s start limit stride hs).out.getD d 0 =
          (limit.getD d 0 - start.getD d 0 + stride.getD d 1 - 1) / stride.getD d 1 := by
        show ((List.range s.length).map _).getD d 0 = _
        rw [List.getD_eq_getElem _ _ (by simpa using hd)]
        simp
      rwa [e] at hlt
    rw [Nat.lt_div_iff_mul_lt h3] at hlt
    have hc : stride.getD d 1 * w.getD d 0 = w.getD d 0 * stride.getD d 1 := Nat.mul_comm _ _
    rw [hc]
    rw [Nat.mul_comm] at hlt
    omega⟩

theorem dynamicSlice_valid {s sizes : List ℕ} (hs : 0 < s.prod) (hl : sizes.length = s.length)
    (h : ∀ d < s.length, sizes.getD d 0 ≤ s.getD d 0)
    (x : (i : Fin (s.length + 1)) → Fin ((dynamicSliceOp s sizes hs).shapes i).prod → F)
    (hi : ∀ (d : Fin s.length) p, ∃ k : ℤ, x d.succ p = k) : (dynamicSliceOp s sizes hs).Valid x where
  int := fun i hd p => by
    revert hd p
    refine Fin.cases ?_ (fun d => ?_) i
    · intro hd; simp [dynamicSliceOp] at hd
    · intro _ p; exact hi d p
  inb := fun w hw => ⟨(0 : Fin (s.length + 1)), _, rfl, rfl, inB_range (s := s) fun d hd => by
    have hlt : w.getD d 0 < sizes.getD d 0 := InB.getD_lt hw (k := d) (show d < sizes.length by omega)
    have h2 := h d hd
    rw [dif_pos hd]
    suffices key : ∀ z : ℤ, (max 0 (min z ((s.getD d 0 - sizes.getD d 0 : ℕ) : ℤ))).toNat + w.getD d 0 < s.getD d 0 from
      key _
    intro z
    have : (max 0 (min z ((s.getD d 0 - sizes.getD d 0 : ℕ) : ℤ))).toNat ≤ s.getD d 0 - sizes.getD d 0 := by
      rw [Int.toNat_le]
      exact max_le (Int.natCast_nonneg _) (min_le_right _ _)
    omega⟩

/-- The operands of `concatenate` agree outside the axis and the result has their total length along it. -/
structure CatOk {k : ℕ} (shapes : Fin k → List ℕ) (axis : ℕ) (out : List ℕ) : Prop where
  lt : axis < out.length
  rest : ∀ i, (shapes i).length = out.length ∧ ∀ d < out.length, d ≠ axis → (shapes i).getD d 0 = out.getD d 0
  total : out.getD axis 0 = ∑ i, (shapes i).getD axis 0

theorem catOffset_succ {k : ℕ} (shapes : Fin (k + 1) → List ℕ) (axis : ℕ) (i : Fin k) :
    catOffset shapes axis i.succ = (shapes 0).getD axis 0 + catOffset (fun j => shapes j.succ) axis i := by
  unfold catOffset
  simp only [Finset.sum_filter]
  rw [Fin.sum_univ_succ]
  simp

/-- Every coordinate below the total length belongs to one operand. -/
theorem cat_exists {k : ℕ} (shapes : Fin k → List ℕ) (axis c : ℕ) (h : c < ∑ i, (shapes i).getD axis 0) :
    ∃ i, catOffset shapes axis i ≤ c ∧ c < catOffset shapes axis i + (shapes i).getD axis 0 := by
  induction k generalizing c with
  | zero => simp at h
  | succ k ih =>
    rw [Fin.sum_univ_succ] at h
    by_cases hc : c < (shapes 0).getD axis 0
    · refine ⟨0, ?_, ?_⟩
      · simp [catOffset]
      · simpa [catOffset] using hc
    · obtain ⟨i, h1, h2⟩ := ih (fun j => shapes j.succ) (c - (shapes 0).getD axis 0) (by omega)
      refine ⟨i.succ, ?_, ?_⟩
      · rw [catOffset_succ]; omega
      · rw [catOffset_succ]; omega

theorem concatenate_valid {k : ℕ} {shapes : Fin k → List ℕ} {axis : ℕ} {out : List ℕ} (hs : ∀ i, 0 < (shapes i).prod)
    (h : CatOk shapes axis out) (x : (i : Fin k) → Fin (shapes i).prod → F) :
    (concatenateOp shapes axis out hs).Valid x where
  int := fun _ hd => by simp [concatenateOp] at hd
  inb := fun w hw => by
    have hw : InB w out := hw
    have hc : w.getD axis 0 < ∑ i, (shapes i).getD axis 0 := by
      rw [← h.total]; exact InB.getD_lt hw h.lt
    obtain ⟨i, h1, h2⟩ := cat_exists shapes axis _ hc
    have hsome : ((List.finRange k).find? fun i => decide (catOffset shapes axis i ≤ w.getD axis 0 ∧
      w.getD axis 0 < catOffset shapes axis i + (shapes i).getD axis 0)).isSome := by
      rw [List.find?_isSome]
      exact ⟨i, List.mem_finRange i, by simpa using ⟨h1, h2⟩⟩
    obtain ⟨j, hj⟩ := Option.isSome_iff_exists.mp hsome
    have hj' := List.find?_some hj
    simp only [decide_eq_true_eq] at hj'
    refine ⟨j, w.set axis (w.getD axis 0 - catOffset shapes axis j), ?_, rfl, ?_⟩
    · show Option.map _ (List.find? _ _) = _
      rw [hj]
      rfl
    · show InB _ (shapes j)
      unfold InB
      rw [List.forall₂_iff_get]
      have hwl := hw.length_eq
      refine ⟨by rw [List.length_set, hwl, (h.rest j).1], fun d h3 h4 => ?_⟩
      have hd : d < out.length := by rw [← (h.rest j).1]; exact h4
      simp only [List.get_eq_getElem, List.getElem_set]
      split
      · rename_i ha
        subst ha
        rw [List.getD_eq_getElem _ _ h4] at hj'
        omega
      · rename_i ha
        have h5 := (h.rest j).2 d hd (fun hh => ha hh.symm)
        have h6 := InB.getD_lt hw hd
        rw [← h5, List.getD_eq_getElem _ _ h4, List.getD_eq_getElem _ _ (by omega)] at h6
        exact h6

theorem selectN_valid {s : List ℕ} {k : ℕ} {scalar : Bool} (hs : 0 < s.prod)
    (x : (i : Fin (k + 1)) → Fin ((selectNOp s k scalar hs).shapes i).prod → F)
    (hi : ∀ p, ∃ j : Fin k, x 0 p = ((j : ℕ) : ℤ)) : (selectNOp s k scalar hs).Valid x where
  int := fun i hd p => by
    revert hd p
    refine Fin.cases ?_ (fun d => ?_) i
    · intro _ p
      obtain ⟨j, hj⟩ := hi p
      exact ⟨_, hj⟩
    · intro hd; simp [selectNOp] at hd
  inb := fun w hw => by
    have hw : InB w s := hw
    have hw' : InB (if scalar then [] else w) ((selectNOp s k scalar hs).shapes (0 : Fin (k + 1))) := by
      show InB _ (if scalar then [] else s)
      cases scalar
      · exact hw
      · exact List.Forall₂.nil
    have hget : ∃ j : Fin k, ((selectNOp s k scalar hs).ints x (0 : Fin (k + 1))).get (if scalar then [] else w) = (j : ℕ) := by
      unfold IndexOp.ints
      rw [toND_get _ _ hw']
      obtain ⟨j, hj⟩ := hi ⟨_, ravelIdx_lt hw'⟩
      refine ⟨j, ?_⟩
      show (if false then (0 : ℤ) else asInt (x 0 _)) = _
      rw [if_neg (by decide), hj, asInt_intCast]
    obtain ⟨j, hj⟩ := hget
    refine ⟨j.succ, w, ?_, rfl, hw⟩
    show (if h : 0 ≤ _ ∧ _ then some _ else none) = _
    rw [dif_pos (by rw [hj]; exact ⟨Int.natCast_nonneg _, j.2⟩)]
    simp only [hj, Int.toNat_natCast]
    rfl

theorem transpose_valid {s perm : List ℕ} (hs : 0 < s.prod) (hp : perm.Perm (List.range s.length))
    (x : (i : Fin 1) → Fin s.prod → F) : (transposeOp s perm hs).Valid x where
  int := fun _ hd => by simp [transposeOp] at hd
  inb := fun w hw => ⟨(0 : Fin 1), _, rfl, rfl, inB_range (s := s) fun d hd => by
    have hw : InB w (perm.map fun a => s.getD a 0) := hw
    have hmem : d ∈ perm := hp.mem_iff.mpr (by simpa using hd)
    have hlt := List.idxOf_lt_length_iff.mpr hmem
    have := InB.getD_lt hw (k := perm.idxOf d) (by simpa using hlt)
    rwa [List.getD_eq_getElem (n := perm.idxOf d) (l := perm.map _) _ (by simpa using hlt), List.getElem_map,
      List.getElem_idxOf hlt] at this⟩

theorem squeeze_valid {s dims : List ℕ} (hs : 0 < s.prod)
    (x : (i : Fin 1) → Fin s.prod → F) : (squeezeOp s dims hs).Valid x where
  int := fun _ hd => by simp [squeezeOp] at hd
  inb := fun w hw => ⟨(0 : Fin 1), _, rfl, rfl, inB_range (s := s) fun d hd => by
    have hw : InB w ((keptOf s.length dims).map fun a => s.getD a 0) := hw
    split
    · exact prod_pos_of hs _ (by rw [List.getD_eq_getElem _ _ hd]; exact List.getElem_mem _)
    · rename_i hnd
      have hmem : d ∈ keptOf s.length dims := by simp [keptOf, hd, hnd]
      have hlt := List.idxOf_lt_length_iff.mpr hmem
      have := InB.getD_lt hw (k := (keptOf s.length dims).idxOf d) (by simpa using hlt)
      rwa [List.getD_eq_getElem (n := (keptOf s.length dims).idxOf d) (l := (keptOf s.length dims).map _) _ (by simpa using hlt),
        List.getElem_map, List.getElem_idxOf hlt] at this⟩

theorem rev_valid {s dims : List ℕ} (hs : 0 < s.prod)
    (x : (i : Fin 1) → Fin s.prod → F) : (revOp s dims hs).Valid x where
  int := fun _ hd => by simp [revOp] at hd
  inb := fun w hw => ⟨(0 : Fin 1), _, rfl, rfl, inB_range (s := s) fun d hd => by
    have hw : InB w s := hw
    have := InB.getD_lt hw hd
    split <;> omega⟩

/-- Well-formed parameters of `gather`. -/
structure GatherOk (s ids out sliceSizes : List ℕ) (g : GatherDims) : Prop where
  slice : ∀ d < s.length, sliceSizes.getD d 0 ≤ s.getD d 0
  dropped : ∀ d < s.length, d ∉ g.window s.length → sliceSizes.getD d 0 = 1
  offset : ∀ d ∈ g.window s.length, g.offset.getD ((g.window s.length).idxOf d) 0 < out.length ∧
    out.getD (g.offset.getD ((g.window s.length).idxOf d) 0) 0 = sliceSizes.getD d 0
  ids : ids = g.batchOf out ++ [g.startMap.length]
  batch : ∀ d ∈ g.opBatch, d ∉ g.startMap ∧ g.idxBatch.getD (g.opBatch.idxOf d) 0 < (g.batchOf out).length ∧
    (g.batchOf out).getD (g.idxBatch.getD (g.opBatch.idxOf d) 0) 0 = s.getD d 0

theorem inB_batchOf {g : GatherDims} {w out : List ℕ} (h : InB w out) : InB (g.batchOf w) (g.batchOf out) := by
  unfold GatherDims.batchOf
  rw [h.length_eq]
  unfold InB
  rw [List.forall₂_map_left_iff, List.forall₂_map_right_iff, List.forall₂_same]
  intro k hk
  exact InB.getD_lt h (by simpa using (List.mem_filter.mp hk).1)

theorem gather_valid {s ids out sliceSizes : List ℕ} {g : GatherDims} (hs : 0 < s.prod) (hi : 0 < ids.prod)
    (h : GatherOk s ids out sliceSizes g)
    (x : (i : Fin 2) → Fin ((gatherOp s ids out sliceSizes g hs hi).shapes i).prod → F)
    (hx : ∀ p, ∃ k : ℤ, x 1 p = k) : (gatherOp s ids out sliceSizes g hs hi).Valid x where
  int := fun i hd p => by
    revert hd p
    refine Fin.cases ?_ (fun d => ?_) i
    · intro hd; simp [gatherOp] at hd
    · obtain rfl : d = 0 := Subsingleton.elim _ _
      intro _ p; exact hx p
  inb := fun w hw => ⟨(0 : Fin 2), _, rfl, rfl, inB_range (s := s) fun d hd => by
    have hw : InB w out := hw
    have hle := h.slice d hd
    have hcl : ∀ z : ℤ, (max 0 (min z ((s.getD d 0 - sliceSizes.getD d 0 : ℕ) : ℤ))).toNat ≤
        s.getD d 0 - sliceSizes.getD d 0 := by
      intro z
      rw [Int.toNat_le]
      exact max_le (Int.natCast_nonneg _) (min_le_right _ _)
    by_cases hwin : d ∈ g.window s.length
    · have hb : d ∉ g.opBatch := by
        have := (List.mem_filter.mp hwin).2
        simp only [decide_eq_true_eq] at this
        exact this.2
      obtain ⟨h1, h2⟩ := h.offset d hwin
      have h3 := InB.getD_lt hw h1
      rw [h2] at h3
      rw [if_neg hb, if_pos hwin]
      split
      · have := hcl ((IndexOp.ints (gatherOp s ids out sliceSizes g hs hi) x (1 : Fin 2)).get
          (g.batchOf w ++ [g.startMap.idxOf d]))
        omega
      · omega
    · have h1 := h.dropped d hd hwin
      rw [if_neg hwin]
      by_cases hb : d ∈ g.opBatch
      · obtain ⟨b1, b2, b3⟩ := h.batch d hb
        have h3 := InB.getD_lt (inB_batchOf (g := g) hw) b2
        rw [b3] at h3
        rw [if_neg b1, if_pos hb]
        omega
      · rw [if_neg hb]
        split
        · have := hcl ((IndexOp.ints (gatherOp s ids out sliceSizes g hs hi) x (1 : Fin 2)).get
            (g.batchOf w ++ [g.startMap.idxOf d]))
          omega
        · omega⟩

end Folx

import Verif.Props.BuiltInArrProps

/-!
# C72: what the registered functions that copy elements compute

`Verif/ND/BuiltInArr.lean` lists them by the element every element of the result is copied from.  Here their values are stated with array indices.
-/

namespace Folx.Layout
open Vmap Dot Filter Topology

/-- The registry contains, under `name` and for operands of the given shapes, the function with result shape `out` whose element at `w` is `value x w`
(`wrapped_functions.py:360-393`).  `x i`: operand `i`, in row-major order. -/
def Registered (name : String) {m : ℕ} (shape : Fin (m + 1) → List ℕ) (out : List ℕ) (value : ((i : Fin (m + 1)) → Fin (shape i).prod → ℝ) → List ℕ → ℝ) : Prop :=
  ∃ src, Moves name shape out src ∧ ∀ (fil : Bool) (x : (i : Fin (m + 1)) → Fin (shape i).prod → ℝ) (w : List ℕ), InB w out →
    (toND out ((movePrim fil shape out src).fwd x (0 : Fin 1))).get w = value x w

theorem registered_of {name : String} {m : ℕ} {shape : Fin (m + 1) → List ℕ} {out : List ℕ} {src : List ℕ → Option (Fin (m + 1) × List ℕ)} (h : Moves name shape out src)
    (at_ : List ℕ → Fin (m + 1) × List ℕ) (hs : ∀ w, InB w out → src w = some (at_ w)) :
    Registered name shape out fun x w => (toND (shape (at_ w).1) (x (at_ w).1)).get (at_ w).2 := by
  refine ⟨src, h, fun fil x w hw => ?_⟩
  obtain ⟨i, v, h1, h2⟩ := C72_inside h hw
  have h3 : (at_ w) = (i, v) := Option.some.inj ((hs w hw).symm.trans h1)
  have h4 := C72_move_value (shape := shape) fil x hw h1 h2
  refine h4.trans ?_
  show _ = (toND (shape (at_ w).1) (x (at_ w).1)).get (at_ w).2
  rw [h3]

/-- **C72 (reshape).**  The elements keep their row-major order. -/
theorem C72_reshape {s t : List ℕ} (hs : 0 < s.prod) (h : s.prod = t.prod) :
    Registered "reshape" (m := 0) (fun _ => s) t fun x w => (toND s (x 0)).get (unravelIdx s (ravelIdx t w)) :=
  registered_of (.reshape s t hs h) (fun w => (0, unravelIdx s (ravelIdx t w))) fun _ _ => rfl

/-- **C72 (broadcast_in_dim).**  Operand dimension `d` is dimension `dims[d]` of the result, or has size 1. -/
theorem C72_broadcast_in_dim {s t dims : List ℕ} (hs : 0 < s.prod)
    (h : ∀ d < s.length, dims.getD d 0 < t.length ∧ (s.getD d 0 = 1 ∨ s.getD d 0 = t.getD (dims.getD d 0) 0)) :
    Registered "broadcast_in_dim" (m := 0) (fun _ => s) t fun x w =>
      (toND s (x 0)).get ((List.range s.length).map fun d => if s.getD d 0 = 1 then 0 else w.getD (dims.getD d 0) 0) :=
  registered_of (.broadcastInDim s t dims hs h) (fun w => (0, (List.range s.length).map fun d => if s.getD d 0 = 1 then 0 else w.getD (dims.getD d 0) 0)) fun _ _ => rfl

/-- **C72 (slice).**  `x[start:limit:stride]` in every dimension. -/
theorem C72_slice {s start limit stride : List ℕ} (hs : 0 < s.prod) (h : SliceOk s start limit stride) :
    Registered "slice" (m := 0) (fun _ => s) ((List.range s.length).map fun d => (limit.getD d 0 - start.getD d 0 + stride.getD d 1 - 1) / stride.getD d 1) fun x w =>
      (toND s (x 0)).get ((List.range s.length).map fun d => start.getD d 0 + stride.getD d 1 * w.getD d 0) :=
  registered_of (.slice s start limit stride hs h) (fun w => (0, (List.range s.length).map fun d => start.getD d 0 + stride.getD d 1 * w.getD d 0)) fun _ _ => rfl

/-- **C72 (transpose).**  Dimension `j` of the result is dimension `perm[j]` of the operand. -/
theorem C72_transpose {s perm : List ℕ} (hs : 0 < s.prod) (h : perm.Perm (List.range s.length)) :
    Registered "transpose" (m := 0) (fun _ => s) (perm.map fun a => s.getD a 0) fun x w =>
      (toND s (x 0)).get ((List.range s.length).map fun d => w.getD (perm.idxOf d) 0) :=
  registered_of (.transpose s perm hs h) (fun w => (0, (List.range s.length).map fun d => w.getD (perm.idxOf d) 0)) fun _ _ => rfl

/-- **C72 (squeeze).**  The listed dimensions disappear, the coordinates of the others keep their order. -/
theorem C72_squeeze {s dims : List ℕ} (hs : 0 < s.prod) :
    Registered "squeeze" (m := 0) (fun _ => s) (((List.range s.length).filter fun d => d ∉ dims).map fun d => s.getD d 0) fun x w =>
      (toND s (x 0)).get ((List.range s.length).map fun d => if d ∈ dims then 0 else w.getD (((List.range s.length).filter fun e => e ∉ dims).idxOf d) 0) :=
  registered_of (.squeeze s dims hs) (fun w => (0, (List.range s.length).map fun d => if d ∈ dims then 0 else w.getD (((List.range s.length).filter fun e => e ∉ dims).idxOf d) 0)) fun _ _ => rfl

/-- **C72 (rev).**  The listed dimensions are reversed. -/
theorem C72_rev {s dims : List ℕ} (hs : 0 < s.prod) :
    Registered "rev" (m := 0) (fun _ => s) s fun x w =>
      (toND s (x 0)).get ((List.range s.length).map fun d => if d ∈ dims then s.getD d 0 - 1 - w.getD d 0 else w.getD d 0) :=
  registered_of (.rev s dims hs) (fun w => (0, (List.range s.length).map fun d => if d ∈ dims then s.getD d 0 - 1 - w.getD d 0 else w.getD d 0)) fun _ _ => rfl

/-- **C72 (dynamic_slice).**  A window of the given sizes; the start indices are clamped so that it fits. -/
theorem C72_dynamic_slice {s sizes : List ℕ} (hs : 0 < s.prod) (hl : sizes.length = s.length) (h : ∀ d < s.length, sizes.getD d 0 ≤ s.getD d 0) (start : Fin s.length → ℤ) :
    Registered "dynamic_slice" (m := 0) (fun _ => s) sizes fun x w =>
      (toND s (x 0)).get (List.ofFn fun d : Fin s.length => (max 0 (min (start d) (s.getD d 0 - sizes.getD d 0 : ℕ))).toNat + w.getD d 0) := by
  refine registered_of (.dynamicSlice s sizes hs hl h
    (Fin.cons (α := fun i => Fin ((dynamicSliceOp s sizes hs).shapes i).prod → ℝ) (fun _ => 0) fun d _ => (start d : ℝ)) fun d p => ⟨start d, rfl⟩)
    (fun w => (0, List.ofFn fun d : Fin s.length => (max 0 (min (start d) (s.getD d 0 - sizes.getD d 0 : ℕ))).toNat + w.getD d 0)) fun w _ => ?_
  show some ((0 : Fin 1), (List.range s.length).map _) = some _
  congr 2
  refine List.ext_getElem (by simp) fun d h1 h2 => ?_
  have hd : d < s.length := by simpa using h2
  rw [List.getElem_map, List.getElem_range, List.getElem_ofFn, dif_pos hd]
  congr 5
  show (toND [] fun p => if false then (0 : ℤ) else asInt (start ⟨d, hd⟩ : ℝ)).get [] = _
  rw [toND_get _ _ List.Forall₂.nil, if_neg (by simp)]
  exact asInt_intCast (F := ℝ) _

theorem cat_inB {m : ℕ} {shapes : Fin (m + 1) → List ℕ} {axis : ℕ} {out : List ℕ} (h : CatOk shapes axis out) (i : Fin (m + 1)) {v : List ℕ} (hv : InB v (shapes i)) :
    InB (v.set axis (catOffset shapes axis i + v.getD axis 0)) out := by
  have hlen := (h.rest i).1
  have hvl := hv.length_eq
  have hva : v.getD axis 0 < (shapes i).getD axis 0 := InB.getD_lt hv (by rw [hlen]; exact h.lt)
  unfold InB
  rw [List.forall₂_iff_get]
  refine ⟨by rw [List.length_set, hvl, hlen], fun d h3 h4 => ?_⟩
  simp only [List.get_eq_getElem, List.getElem_set]
  split
  · rename_i ha
    subst ha
    have htot := h.total
    rw [List.getD_eq_getElem _ _ h4] at htot
    rw [htot]
    calc catOffset shapes axis i + v.getD axis 0 < catOffset shapes axis i + (shapes i).getD axis 0 := by omega
      _ = ∑ j ∈ insert i (Finset.univ.filter fun j => j < i), (shapes j).getD axis 0 := by
        rw [Finset.sum_insert (by simp)]
        unfold catOffset
        rw [Nat.add_comm]
      _ ≤ ∑ j, (shapes j).getD axis 0 := Finset.sum_le_sum_of_subset (Finset.subset_univ _)
  · rename_i ha
    have h5 := (h.rest i).2 d h4 (fun hh => ha hh.symm)
    have h6 := InB.getD_lt hv (k := d) (by rw [hlen]; exact h4)
    rw [h5, List.getD_eq_getElem _ _ h4, List.getD_eq_getElem _ _ (by rw [hvl, hlen]; exact h4)] at h6
    exact h6

/-- **C72 (concatenate).**  Element `v` of operand `i` lands behind the earlier operands along the axis, whatever the number of operands; and there is nothing else in the result. -/
theorem C72_concatenate {m : ℕ} {shapes : Fin (m + 1) → List ℕ} {axis : ℕ} {out : List ℕ} (hs : ∀ i, 0 < (shapes i).prod) (h : CatOk shapes axis out) :
    ∃ src, Moves "concatenate" shapes out src ∧ ∀ (fil : Bool) (x : (i : Fin (m + 1)) → Fin (shapes i).prod → ℝ),
      (∀ (i : Fin (m + 1)) (v : List ℕ), InB v (shapes i) →
        (toND out ((movePrim fil shapes out src).fwd x (0 : Fin 1))).get (v.set axis ((∑ j : Fin (m + 1) with j < i, (shapes j).getD axis 0) + v.getD axis 0)) = (toND (shapes i) (x i)).get v) ∧
      ∀ w, InB w out → ∃ i v, InB v (shapes i) ∧ w = v.set axis ((∑ j : Fin (m + 1) with j < i, (shapes j).getD axis 0) + v.getD axis 0) := by
  refine ⟨_, .concatenate m shapes axis out hs h, fun fil x => ⟨fun i v hv => ?_, fun w hw => ?_⟩⟩
  · -- the same element as that of the operation on elements
    have h0 := (C49_concatenate (F := ℝ) true true 1 1 Nat.one_pos hs h (fun i => .plain (x i))).2 x i v hv
    have hw : InB (v.set axis (catOffset shapes axis i + v.getD axis 0)) out := cat_inB h i hv
    obtain ⟨i', v', h1, h2⟩ := C72_inside (.concatenate m shapes axis out hs h) hw
    refine (C72_move_value (shape := shapes) fil x hw h1 h2).trans ?_
    exact ((concatenateOp shapes axis out hs).meaning (F := ℝ) true true (concatenate_valid hs h x) hw h1).symm.trans h0
  · obtain ⟨i, v, h1, h2⟩ := C72_inside (.concatenate m shapes axis out hs h) hw
    refine ⟨i, v, h2, ?_⟩
    obtain ⟨j, hj, he⟩ := Option.map_eq_some_iff.mp h1
    obtain ⟨rfl, rfl⟩ : j = i ∧ w.set axis (w.getD axis 0 - catOffset shapes axis j) = v := by simpa using he
    have hj' := List.find?_some hj
    simp only [decide_eq_true_eq] at hj'
    have hax : axis < w.length := by rw [hw.length_eq]; exact h.lt
    have hg : (w.set axis (w.getD axis 0 - catOffset shapes axis j)).getD axis 0 = w.getD axis 0 - catOffset shapes axis j := by
      rw [List.getD_eq_getElem _ _ (by simpa using hax)]
      simp
    show w = (w.set axis _).set axis (catOffset shapes axis j + _)
    rw [hg, List.set_set, Nat.add_sub_cancel' hj'.1]
    refine List.ext_getElem (by simp) fun d h1 h2 => ?_
    rw [List.getElem_set]
    split
    · rename_i h; subst h; rw [List.getD_eq_getElem _ _ h1]
    · rfl

/-- **C72 (select_n).**  With case numbers of the shape of the cases every element comes from its case. -/
theorem C72_select_n {s : List ℕ} {m : ℕ} (hs : 0 < s.prod) (which : Fin s.prod → Fin (m + 1)) :
    ∃ src, Moves "select_n" (m := m) (fun _ => s) s src ∧ ∀ (fil : Bool) (x : (i : Fin (m + 1)) → Fin s.prod → ℝ) (w : List ℕ) (hw : InB w s),
      (toND s ((movePrim fil (fun _ => s) s src).fwd x (0 : Fin 1))).get w = (toND s (x (which ⟨ravelIdx s w, ravelIdx_lt hw⟩))).get w := by
  refine ⟨_, .selectN s m false hs (Fin.cons (α := fun i => Fin ((selectNOp s (m + 1) false hs).shapes i).prod → ℝ) (fun p => (((which p : ℕ) : ℤ) : ℝ)) fun _ _ => 0)
    fun p => ⟨which p, rfl⟩, fun fil x w hw => ?_⟩
  refine C72_move_value (shape := fun _ => s) fil x hw ?_ hw
  have hget : ((selectNOp s (m + 1) false hs).ints (Fin.cons (α := fun i => Fin ((selectNOp s (m + 1) false hs).shapes i).prod → ℝ) (fun p => (((which p : ℕ) : ℤ) : ℝ)) fun _ _ => 0)
      (0 : Fin (m + 2))).get (if false = true then [] else w) = (which ⟨ravelIdx s w, ravelIdx_lt hw⟩ : ℕ) := by
    rw [if_neg (by decide)]
    have hw' : InB w ((selectNOp s (m + 1) false hs).shapes (0 : Fin (m + 2))) := hw
    unfold IndexOp.ints
    rw [toND_get _ _ hw']
    show (if false then (0 : ℤ) else asInt ((((which _ : ℕ) : ℤ) : ℝ))) = _
    rw [if_neg (by simp)]
    exact asInt_intCast (F := ℝ) _
  have hidx : (selectNOp s (m + 1) false hs).index ((selectNOp s (m + 1) false hs).ints (Fin.cons (α := fun i => Fin ((selectNOp s (m + 1) false hs).shapes i).prod → ℝ)
      (fun p => (((which p : ℕ) : ℤ) : ℝ)) fun _ _ => 0)) w = some ((which ⟨ravelIdx s w, ravelIdx_lt hw⟩).succ, w) := by
    show (if h : 0 ≤ _ ∧ _ then some _ else none) = _
    rw [dif_pos (by rw [hget]; exact ⟨Int.natCast_nonneg _, (which _).2⟩)]
    exact congrArg some (Prod.ext (Fin.ext (congrArg Nat.succ ((congrArg Int.toNat hget).trans (Int.toNat_natCast _)))) rfl)
  show Option.bind _ _ = _
  rw [hidx]
  rfl

/-- **C72 (select_n).**  A single case number selects the whole case. -/
theorem C72_select_n_scalar {s : List ℕ} {m : ℕ} (hs : 0 < s.prod) (which : Fin (m + 1)) :
    Registered "select_n" (m := m) (fun _ => s) s fun x w => (toND s (x which)).get w := by
  refine registered_of (.selectN s m true hs (Fin.cons (α := fun i => Fin ((selectNOp s (m + 1) true hs).shapes i).prod → ℝ) (fun _ => (((which : ℕ) : ℤ) : ℝ)) fun _ _ => 0)
    fun p => ⟨which, rfl⟩) (fun w => (which, w)) fun w hw => ?_
  have hget : ((selectNOp s (m + 1) true hs).ints (Fin.cons (α := fun i => Fin ((selectNOp s (m + 1) true hs).shapes i).prod → ℝ) (fun _ => (((which : ℕ) : ℤ) : ℝ)) fun _ _ => 0)
      (0 : Fin (m + 2))).get (if true = true then [] else w) = (which : ℕ) := by
    rw [if_pos rfl]
    have hw' : InB [] ((selectNOp s (m + 1) true hs).shapes (0 : Fin (m + 2))) := List.Forall₂.nil
    unfold IndexOp.ints
    rw [toND_get _ _ hw']
    show (if false then (0 : ℤ) else asInt ((((which : ℕ) : ℤ) : ℝ))) = _
    rw [if_neg (by simp)]
    exact asInt_intCast (F := ℝ) _
  have hidx : (selectNOp s (m + 1) true hs).index ((selectNOp s (m + 1) true hs).ints (Fin.cons (α := fun i => Fin ((selectNOp s (m + 1) true hs).shapes i).prod → ℝ)
      (fun _ => (((which : ℕ) : ℤ) : ℝ)) fun _ _ => 0)) w = some (which.succ, w) := by
    show (if h : 0 ≤ _ ∧ _ then some _ else none) = _
    rw [dif_pos (by rw [hget]; exact ⟨Int.natCast_nonneg _, which.2⟩)]
    exact congrArg some (Prod.ext (Fin.ext (congrArg Nat.succ ((congrArg Int.toNat hget).trans (Int.toNat_natCast _)))) rfl)
  show Option.bind _ _ = _
  rw [hidx]
  rfl

/-- **C72 (gather).**  The coordinate along dimension `d` of the operand: the start index, clamped so that the slice fits, plus the batch coordinate, plus the offset inside the slice. -/
theorem C72_gather {s ids out sliceSizes : List ℕ} {g : GatherDims} (hs : 0 < s.prod) (hi : 0 < ids.prod) (h : GatherOk s ids out sliceSizes g) (start : Fin ids.prod → ℤ) :
    Registered "gather" (m := 0) (fun _ => s) out fun x w => (toND s (x 0)).get ((List.range s.length).map fun d =>
      (if d ∈ g.startMap then (max 0 (min ((toND ids start).get (g.batchOf w ++ [g.startMap.idxOf d])) (s.getD d 0 - sliceSizes.getD d 0 : ℕ))).toNat else 0) +
      (if d ∈ g.opBatch then (g.batchOf w).getD (g.idxBatch.getD (g.opBatch.idxOf d) 0) 0 else 0) +
      (if d ∈ g.window s.length then w.getD (g.offset.getD ((g.window s.length).idxOf d) 0) 0 else 0)) := by
  have hint : (gatherOp s ids out sliceSizes g hs hi).ints (Fin.cons (α := fun i : Fin 2 => Fin ((gatherOp s ids out sliceSizes g hs hi).shapes i).prod → ℝ) (fun _ => 0)
      (Fin.cons (fun p => (start p : ℝ)) fun i => i.elim0)) (1 : Fin 2) = toND ids start := by
    show toND ids (fun p => if false then (0 : ℤ) else asInt (start p : ℝ)) = _
    congr 1
    funext p
    rw [if_neg (by simp)]
    exact asInt_intCast (F := ℝ) _
  refine registered_of (.gather s ids out sliceSizes g hs hi h (Fin.cons (α := fun i : Fin 2 => Fin ((gatherOp s ids out sliceSizes g hs hi).shapes i).prod → ℝ) (fun _ => 0)
      (Fin.cons (fun p => (start p : ℝ)) fun i => i.elim0)) fun p => ⟨start p, rfl⟩) (fun w => (0, (List.range s.length).map fun d =>
      (if d ∈ g.startMap then (max 0 (min ((toND ids start).get (g.batchOf w ++ [g.startMap.idxOf d])) (s.getD d 0 - sliceSizes.getD d 0 : ℕ))).toNat else 0) +
      (if d ∈ g.opBatch then (g.batchOf w).getD (g.idxBatch.getD (g.opBatch.idxOf d) 0) 0 else 0) +
      (if d ∈ g.window s.length then w.getD (g.offset.getD ((g.window s.length).idxOf d) 0) 0 else 0))) fun w _ => ?_
  rw [← hint]
  rfl

/-- **C72 (elementwise functions).**  The element at `w` is the function of the elements that numpy broadcasting puts there: shapes are aligned at the back, size 1 is stretched. -/
theorem C72_elementwise_value (e : ElemEntry) (fil : Bool) (junk : ℝ) {shape : Fin e.arity → List ℕ} {out : List ℕ} (hb : Broadcasts (List.ofFn shape) out)
    (x : (i : Fin e.arity) → Fin (shape i).prod → ℝ) {w : List ℕ} (hw : InB w out) :
    (toND out (((e.arr fil junk shape out).prim fun _ => none).fwd x (0 : Fin 1))).get w =
      e.fn fun i => (toND (shape i) (x i)).get ((List.range (shape i).length).map fun d =>
        if (shape i).getD d 0 = 1 then 0 else w.getD (out.length - (shape i).length + d) 0) := by
  refine (toND_get out _ hw).trans ?_
  show e.fn (pickAt shape out (unravelIdx out (ravelIdx out w)) x) = _
  rw [unravelIdx_ravelIdx hw, pickAt_get hb hw]
  rfl

/-- **C72 (reduce_sum).**  The element at `q` is the sum of the elements whose remaining coordinates are `q`. -/
theorem C72_sum_value (fil : Bool) {s dims : List ℕ} (x : (i : Fin 1) → Fin s.prod → ℝ) {q : List ℕ} (hq : InB q (dropDims s dims)) :
    (toND (dropDims s dims) (((sumArr fil s dims).prim fun _ => none).fwd x (0 : Fin 1))).get q = (((allIdx s).filter fun p => keptOf dims p = q).map (toND s (x 0)).get).sum := by
  refine (toND_get (dropDims s dims) _ hq).trans ?_
  show sumL s dims (x 0) _ + 0 = _
  rw [add_zero]
  exact (toND_get _ _ hq).symm.trans (sumL_get (x 0) hq)

/-- **C72 (dot_general).**  The product of an `m × k` and a `k × n` matrix. -/
theorem C72_matmul_value {m k n : ℕ} (x : (i : Fin 2) → Fin (two [m, k] [k, n] i).prod → ℝ) {i j : ℕ} (hi : i < m) (hj : j < n) :
    (toND [m, n] ((dotArrPrim ⟨[1], [0], [], []⟩ [m, k] [k, n]).fwd x (0 : Fin 1))).get [i, j] =
      ∑ l ∈ Finset.range k, (toND [m, k] (x 0)).get [i, l] * (toND [k, n] (x 1)).get [l, j] := by
  have e := contraction_matmul (x := toND [m, k] (x (0 : Fin 2))) (y := toND [k, n] (x (1 : Fin 2))) (m := m) (k := k) (n := n) rfl rfl i j hi hj
  rw [← List.sum_toFinset _ List.nodup_range, List.toFinset_range] at e
  refine Eq.trans ?_ e
  exact congrArg (fun y : ND ℝ => y.get [i, j]) (toND_vecOf (contraction ⟨[1], [0], [], []⟩ (toND [m, k] (x (0 : Fin 2))) (toND [k, n] (x (1 : Fin 2)))) [m, n] rfl)

/-! ### Examples -/

/-- `rev` of a 2×3 array along the second dimension: element `(1, 0)` of the result is element `(1, 2)` of the operand. -/
example : ∃ src, Moves "rev" (m := 0) (fun _ => [2, 3]) [2, 3] src ∧ ∀ x : (i : Fin 1) → Fin ([2, 3] : List ℕ).prod → ℝ,
    (toND [2, 3] ((movePrim true (fun _ => [2, 3]) [2, 3] src).fwd x (0 : Fin 1))).get [1, 0] = (toND [2, 3] (x 0)).get [1, 2] := by
  obtain ⟨src, h1, h2⟩ := C72_rev (s := [2, 3]) (dims := [1]) (by decide)
  exact ⟨src, h1, fun x => h2 true x [1, 0] (by decide +kernel)⟩

/-- `x[1:5:2]`: element 1 of the result is element 3 of `x`. -/
example : ∃ src, Moves "slice" (m := 0) (fun _ => [6]) [2] src ∧ ∀ x : (i : Fin 1) → Fin ([6] : List ℕ).prod → ℝ,
    (toND [2] ((movePrim true (fun _ => [6]) [2] src).fwd x (0 : Fin 1))).get [1] = (toND [6] (x 0)).get [3] := by
  obtain ⟨src, h1, h2⟩ := C72_slice (s := [6]) (start := [1]) (limit := [5]) (stride := [2]) (by decide) (by
    intro d hd
    obtain rfl : d = 0 := by simpa using hd
    decide)
  exact ⟨src, h1, fun x => h2 true x [1] (by decide +kernel)⟩

/-- The window of size 2 starting at index 7 of an array of length 5 starts at index 3. -/
example : ∃ src, Moves "dynamic_slice" (m := 0) (fun _ => [5]) [2] src ∧ ∀ x : (i : Fin 1) → Fin ([5] : List ℕ).prod → ℝ,
    (toND [2] ((movePrim true (fun _ => [5]) [2] src).fwd x (0 : Fin 1))).get [1] = (toND [5] (x 0)).get [4] := by
  obtain ⟨src, h1, h2⟩ := C72_dynamic_slice (s := [5]) (sizes := [2]) (by decide) rfl (by
    intro d hd
    obtain rfl : d = 0 := by simpa using hd
    decide) fun _ => 7
  exact ⟨src, h1, fun x => h2 true x [1] (by decide +kernel)⟩

/-- Two arrays of lengths 2 and 3: element 1 of the second is element 3 of the result. -/
example : ∃ src, Moves "concatenate" (m := 1) (two [2] [3]) [5] src ∧ ∀ x : (i : Fin 2) → Fin (two [2] [3] i).prod → ℝ,
    (toND [5] ((movePrim true (two [2] [3]) [5] src).fwd x (0 : Fin 1))).get [3] = (toND [3] (x 1)).get [1] := by
  obtain ⟨src, h1, h2⟩ := C72_concatenate (m := 1) (shapes := two [2] [3]) (axis := 0) (out := [5]) (by decide)
    ⟨by decide, by decide, by decide⟩
  exact ⟨src, h1, fun x => (h2 true x).1 1 [1] (by decide +kernel)⟩

end Folx.Layout

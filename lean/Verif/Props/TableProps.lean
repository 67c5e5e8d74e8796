import Verif.Props.MoveValueProps

/-!
# C72: the entries of the table of registered functions, name by name

`ArrBuiltIn` (`Verif/ND/BuiltInArr.lean`) is the table the statements about programs refer to.  Here: for every name there is an entry, what it computes, and where it counts as smooth.
-/

namespace Folx.Layout
open Vmap Dot Filter Topology

/-- Under `name` the table has a function of arrays of the given shapes, smooth where `dom` holds, usable with sparse Jacobians under `sp`; its element at `w` is described by `spec`. -/
def InTable (name : String) {k : ℕ} (shape : Fin k → List ℕ) (out : List ℕ) (dom : ((i : Fin k) → Fin (shape i).prod → ℝ) → Prop) (sp : Prop)
    (spec : ((i : Fin k) → Fin (shape i).prod → ℝ) → List ℕ → ℝ → Prop) : Prop :=
  ∃ (A : ArrFn ℝ shape out) (any ret : Prop), ArrBuiltIn name (A.prim fun _ => none) dom sp any ret ∧
    ∀ (x : (i : Fin k) → Fin (shape i).prod → ℝ) (w : List ℕ), InB w out → spec x w ((toND out (A.fwd x)).get w)

/-- **C72 (table, elementwise functions).**  For every entry of `elemTable` and every shapes that broadcast: the function of the elements that broadcasting puts together, smooth
where it is smooth at each of them. -/
theorem C72_table_elementwise (k : ℤ) (e : ElemEntry) (he : e ∈ elemTable k) {shape : Fin e.arity → List ℕ} {out : List ℕ} (hs : ∀ i, 0 ∉ shape i) (h0 : 0 ∉ out)
    (hb : Broadcasts (List.ofFn shape) out) :
    InTable e.name shape out
      (fun x => ∀ w, InB w out → e.dom fun i => (toND (shape i) (x i)).get ((List.range (shape i).length).map fun d =>
        if (shape i).getD d 0 = 1 then 0 else w.getD (out.length - (shape i).length + d) 0)) True
      fun x w y => y = e.fn fun i => (toND (shape i) (x i)).get ((List.range (shape i).length).map fun d =>
        if (shape i).getD d 0 = 1 then 0 else w.getD (out.length - (shape i).length + d) 0) :=
  ⟨e.arr true 0 shape out, _, _, .elem k e he true 0 shape out hs h0 hb, fun x _ hw => C72_elementwise_value e true 0 hb x hw⟩

/-- **C72 (table, sums).** -/
theorem C72_table_sum {s dims : List ℕ} (h0 : 0 ∉ s) (hd : dims.Nodup) (hr : ∀ d ∈ dims, d < s.length) :
    InTable "reduce_sum" (k := 1) (fun _ => s) (dropDims s dims) (fun _ => True) True
      fun x q y => y = (((allIdx s).filter fun p => keptOf dims p = q).map (toND s (x 0)).get).sum :=
  ⟨sumArr true s dims, _, _, .reduceSum true s dims h0 hd hr, fun x _ hq => C72_sum_value true x hq⟩

/-- **C72 (table, products).** -/
theorem C72_table_prod {s dims : List ℕ} (h0 : 0 ∉ s) (hd : dims.Nodup) (hr : ∀ d ∈ dims, d < s.length) :
    InTable "reduce_prod" (k := 1) (fun _ => s) (dropDims s dims) (fun _ => True) True
      fun x q y => y = (((allIdx s).filter fun p => keptOf dims p = q).map (toND s (x 0)).get).prod :=
  ⟨prodArr true s dims, _, _, .reduceProd true s dims h0 hd hr, fun x _ hq => C69_prod_value true (x 0) hq⟩

/-- **C72 (table, maxima).**  Smooth where every maximum is attained once. -/
theorem C72_table_max {s dims : List ℕ} (h0 : 0 ∉ s) (hd : dims.Nodup) (hr : ∀ d ∈ dims, d < s.length) :
    InTable "reduce_max" (k := 1) (fun _ => s) (dropDims s dims)
      (fun x => ∀ q, InB q (dropDims s dims) → ∃ p, InB p s ∧ keptOf dims p = q ∧ ∀ p', InB p' s → keptOf dims p' = q → p' ≠ p → (toND s (x 0)).get p' < (toND s (x 0)).get p) True
      fun x q y => (∃ p, InB p s ∧ keptOf dims p = q) → IsGreatest {a | ∃ p, InB p s ∧ keptOf dims p = q ∧ a = (toND s (x 0)).get p} y :=
  ⟨maxArr true s dims, _, _, .reduceMax true s dims h0 hd hr, fun x q hq hne => by
    obtain ⟨h1, p, h2, h3, h4⟩ := C69_max_value true (x 0) hq hne
    exact ⟨⟨p, h2, h3, h4⟩, by rintro a ⟨p', h5, h6, rfl⟩; exact h1 p' h5 h6⟩⟩

/-- **C72 (table, minima).** -/
theorem C72_table_min {s dims : List ℕ} (h0 : 0 ∉ s) (hd : dims.Nodup) (hr : ∀ d ∈ dims, d < s.length) :
    InTable "reduce_min" (k := 1) (fun _ => s) (dropDims s dims)
      (fun x => ∀ q, InB q (dropDims s dims) → ∃ p, InB p s ∧ keptOf dims p = q ∧ ∀ p', InB p' s → keptOf dims p' = q → p' ≠ p → (toND s (x 0)).get p < (toND s (x 0)).get p') True
      fun x q y => (∃ p, InB p s ∧ keptOf dims p = q) → IsLeast {a | ∃ p, InB p s ∧ keptOf dims p = q ∧ a = (toND s (x 0)).get p} y :=
  ⟨minArr true s dims, _, _, .reduceMin true s dims h0 hd hr, fun x q hq hne => by
    obtain ⟨h1, p, h2, h3, h4⟩ := C69_min_value true (x 0) hq hne
    exact ⟨⟨p, h2, h3, h4⟩, by rintro a ⟨p', h5, h6, rfl⟩; exact h1 p' h5 h6⟩⟩

/-- **C72 (table, cumulative sums).**  The sum of the elements at the positions that differ at most along the axis and come before (with `reverse`: after). -/
theorem C72_table_cumsum {s : List ℕ} (axis : ℕ) (reverse : Bool) (h0 : 0 ∉ s) :
    InTable "cumsum" (k := 1) (fun _ => s) s (fun _ => True) True
      fun x q y => y = (((allIdx s).filter fun p => keptOf [axis] p = keptOf [axis] q ∧ if reverse then q.getD axis 0 ≤ p.getD axis 0 else p.getD axis 0 ≤ q.getD axis 0).map
        (toND s (x 0)).get).sum :=
  ⟨cumsumArr true s axis reverse, _, _, .cumsum true s axis reverse h0, fun x _ hq => C69_cumsum_value true axis reverse (x 0) hq⟩

/-- **C72 (table, `scatter_add`).**  The element of the operand and the updates that go there (`hits`, `C50`). -/
theorem C72_table_scatter_add {s upd : List ℕ} {g : ScatterDims} (hs : 0 < s.prod) (hu : 0 < upd.prod) (index : ND ℤ) :
    InTable "scatter_add" (k := 2) (two s upd) s (fun _ => True) (s ≠ [] ∧ upd ≠ [])
      fun x w y => y = (toND s (x 0)).get w + (((allIdx upd).filter fun u => g.hits s.length index u w).map fun u => (toND upd (x 1)).get u).sum :=
  ⟨addArr (m := 1) true (two s upd) s (combineTerms s upd g index), _, _, .scatterAdd true s upd g hs hu index, fun x _ hw => C72_scatter_add_value true x hw⟩

/-- **C72 (table, `scatter_max`).**  Smooth where, at every position, one of the candidates is larger than all others. -/
theorem C72_table_scatter_max {s upd : List ℕ} {g : ScatterDims} (hs : 0 < s.prod) (hu : 0 < upd.prod) (index : ND ℤ) :
    InTable "scatter_max" (k := 2) (two s upd) s (OneBest (m := 1) (· < ·) (two s upd) s (combineTerms s upd g index)) (s ≠ [] ∧ upd ≠ [])
      fun x w y => IsGreatest {a | a = (toND s (x 0)).get w ∨ ∃ u, InB u upd ∧ g.hits s.length index u w = true ∧ a = (toND upd (x 1)).get u} y :=
  ⟨bestArr (m := 1) true (two s upd) s (combineTerms s upd g index) listMax, _, _, .scatterMax true s upd g hs hu index, fun x _ hw => C72_scatter_max_value true x hw⟩

/-- **C72 (table, `scatter_min`).** -/
theorem C72_table_scatter_min {s upd : List ℕ} {g : ScatterDims} (hs : 0 < s.prod) (hu : 0 < upd.prod) (index : ND ℤ) :
    InTable "scatter_min" (k := 2) (two s upd) s (OneBest (m := 1) (· > ·) (two s upd) s (combineTerms s upd g index)) (s ≠ [] ∧ upd ≠ [])
      fun x w y => IsLeast {a | a = (toND s (x 0)).get w ∨ ∃ u, InB u upd ∧ g.hits s.length index u w = true ∧ a = (toND upd (x 1)).get u} y :=
  ⟨bestArr (m := 1) true (two s upd) s (combineTerms s upd g index) listMin, _, _, .scatterMin true s upd g hs hu index, fun x _ hw => C72_scatter_min_value true x hw⟩

/-- **C72 (table, copies).**  A function described by `Registered` is in the table; with sparse Jacobians if it copies from at most two arrays. -/
theorem C72_table_move {name : String} {m : ℕ} {shape : Fin (m + 1) → List ℕ} {out : List ℕ} {value : ((i : Fin (m + 1)) → Fin (shape i).prod → ℝ) → List ℕ → ℝ}
    (h : Registered name shape out value) (hs : ∀ i, 0 ∉ shape i) (h0 : 0 ∉ out) (fil : Bool) :
    ∃ src, ArrBuiltIn name (movePrim fil shape out src) (fun _ => True) (m ≤ 1) (m ≤ 1) (m = 0) ∧
      ∀ (x : (i : Fin (m + 1)) → Fin (shape i).prod → ℝ) (w : List ℕ), InB w out → (toND out ((movePrim fil shape out src).fwd x (0 : Fin 1))).get w = value x w := by
  obtain ⟨src, h1, h2⟩ := h
  exact ⟨src, .move fil name shape out src h1 hs h0, h2 fil⟩

/-- **C72 (table, contractions).**  Every element of the result is the sum over the contracted coordinates of the products of the two elements with the same batch and contracted
coordinates (`element`, spelt out in `Verif/ND/DotSpec.lean`; for matrices `C72_matmul_value`). -/
theorem C72_table_dot (dd : DotDims) (ls rs : List ℕ) (h : dd.Ok ls rs) (hl : 0 ∉ ls) (hr : 0 ∉ rs) :
    (∃ sp any ret : Prop, ArrBuiltIn "dot_general" (dotArrPrim dd ls rs) (fun _ => True) sp any ret) ∧
    ∀ (x : (i : Fin 2) → Fin (two ls rs i).prod → ℝ) (w : List ℕ), InB w (outShape dd ls rs) →
      (toND (outShape dd ls rs) ((dotArrPrim dd ls rs).fwd x (0 : Fin 1))).get w = element dd (toND ls (x 0)) (toND rs (x 1))
        (w.take dd.lb.length) ((w.drop dd.lb.length).take (freeOf ls.length dd.lc dd.lb).length) ((w.drop dd.lb.length).drop (freeOf ls.length dd.lc dd.lb).length) := by
  refine ⟨⟨_, _, _, .dotGeneral dd ls rs h hl hr⟩, fun x w hw => ?_⟩
  have e : (contraction dd (toND ls (x (0 : Fin 2))) (toND rs (x (1 : Fin 2)))).get w = element dd (toND ls (x 0)) (toND rs (x 1))
      (w.take dd.lb.length) ((w.drop dd.lb.length).take (freeOf ls.length dd.lc dd.lb).length) ((w.drop dd.lb.length).drop (freeOf ls.length dd.lc dd.lb).length) := by
    unfold contraction
    exact ND.get_ofFn _ hw
  exact (congrArg (fun y : ND ℝ => y.get w) (toND_vecOf (contraction dd (toND ls (x (0 : Fin 2))) (toND rs (x (1 : Fin 2)))) (outShape dd ls rs) rfl)).trans e

/-- **C72 (table, determinants).**  A batch of `b` real `m × m` matrices: where no determinant vanishes the first result is its sign and the second the logarithm of its absolute
value. -/
theorem C72_table_slogdet (b m : ℕ) (hm : 0 < m) :
    (∃ sp any ret : Prop, ArrBuiltIn "slogdet" (slogdetPrim ℝ DetField.ofReal.cplx b m hm)
      (fun x => ∀ q : Fin b, (Matrix.of fun i j : Fin m => x (0 : Fin 1) (finProdFinEquiv (q, finProdFinEquiv (i, j)))).det ≠ 0) sp any ret) ∧
    ∀ (x : (i : Fin 1) → Fin (b * (m * m)) → ℝ) (q : Fin b), (Matrix.of fun i j : Fin m => x 0 (finProdFinEquiv (q, finProdFinEquiv (i, j)))).det ≠ 0 →
      (slogdetPrim ℝ DetField.ofReal.cplx b m hm).fwd x (0 : Fin 2) q = SignType.sign (Matrix.of fun i j : Fin m => x 0 (finProdFinEquiv (q, finProdFinEquiv (i, j)))).det ∧
      Real.exp ((slogdetPrim ℝ DetField.ofReal.cplx b m hm).fwd x (1 : Fin 2) q) = |(Matrix.of fun i j : Fin m => x 0 (finProdFinEquiv (q, finProdFinEquiv (i, j)))).det| := by
  refine ⟨⟨_, _, _, .slogdet b m hm⟩, fun x q h => ?_⟩
  set d := (Matrix.of fun i j : Fin m => x 0 (finProdFinEquiv (q, finProdFinEquiv (i, j)))).det with hd
  have e0 : (slogdetPrim ℝ DetField.ofReal.cplx b m hm).fwd x (0 : Fin 2) q = d / |d| := rfl
  have e1 : (slogdetPrim ℝ DetField.ofReal.cplx b m hm).fwd x (1 : Fin 2) q = Real.log |d| := rfl
  rw [e0, e1, Real.exp_log (abs_pos.mpr h)]
  refine ⟨?_, rfl⟩
  rcases lt_or_gt_of_ne h with h | h
  · rw [abs_of_neg h, sign_neg h, div_neg, div_self h.ne]
    simp
  · rw [abs_of_pos h, sign_pos h, div_self h.ne']
    simp

/-! ### Examples -/

/-- `jnp.max(x, axis=1)` of a 2×3 array is in the table; element 0 of the result is the largest element of the first row. -/
example : ∃ (A : ArrFn ℝ (k := 1) (fun _ => [2, 3]) (dropDims [2, 3] [1])) (dom : ((i : Fin 1) → Fin ([2, 3] : List ℕ).prod → ℝ) → Prop) (any ret : Prop),
    ArrBuiltIn "reduce_max" (A.prim fun _ => none) dom True any ret ∧
    ∀ x : (i : Fin 1) → Fin ([2, 3] : List ℕ).prod → ℝ, (toND [2, 3] (x 0)).get [0, 2] ≤ (toND (dropDims [2, 3] [1]) (A.fwd x)).get [0] := by
  obtain ⟨A, any, ret, h1, h2⟩ := C72_table_max (s := [2, 3]) (dims := [1]) (by decide) (by decide) (by decide)
  exact ⟨A, _, any, ret, h1, fun x => (h2 x [0] (by decide +kernel) ⟨[0, 2], by decide +kernel, by decide⟩).2 ⟨[0, 2], by decide +kernel, by decide, rfl⟩⟩

/-- `x / y` for a 2×2 array and a vector: element `(1, 0)` is `x[1, 0] / y[0]`; smooth where `y` has no zeros. -/
example : ∃ (A : ArrFn ℝ (two [2, 2] [2]) [2, 2]) (dom : ((i : Fin 2) → Fin (two [2, 2] [2] i).prod → ℝ) → Prop) (any ret : Prop),
    ArrBuiltIn "div" (A.prim fun _ => none) dom True any ret ∧ (∀ x, (∀ j, x 1 j ≠ 0) → dom x) ∧
    ∀ x : (i : Fin 2) → Fin (two [2, 2] [2] i).prod → ℝ, (toND [2, 2] (A.fwd x)).get [1, 0] = (toND [2, 2] (x 0)).get [1, 0] / (toND [2] (x 1)).get [0] := by
  obtain ⟨A, any, ret, h1, h2⟩ := C72_table_elementwise 0 ⟨"div", 2, fun z => z 0 / z 1, Flags.LINEAR_IN_FIRST, true, fun z => z 1 ≠ 0⟩ (by simp [elemTable])
    (shape := two [2, 2] [2]) (out := [2, 2]) (by decide) (by decide) (broadcastShapes_iff.mp (by decide +kernel))
  refine ⟨A, _, any, ret, h1, fun x hx w hw => ?_, fun x => h2 x [1, 0] (by decide +kernel)⟩
  have hin : InB ((List.range (two [2, 2] [2] 1).length).map fun d =>
      if (two [2, 2] [2] 1).getD d 0 = 1 then 0 else w.getD (([2, 2] : List ℕ).length - (two [2, 2] [2] 1).length + d) 0) (two [2, 2] [2] 1) := by
    obtain ⟨a, is, rfl, ha, h⟩ := InB.cons_right hw
    obtain ⟨b, js, rfl, hb, h'⟩ := InB.cons_right h
    show InB [b] [2]
    simp [hb]
  show (toND (two [2, 2] [2] 1) (x 1)).get _ ≠ 0
  rw [toND_get _ _ hin]
  exact hx _

end Folx.Layout

import Verif.ND.BuiltInArr
import Verif.Props.ArrRunProps
import Verif.Props.ScanTotalProps

/-!
# C72, C73: the default registry on arrays; programs that are smooth everywhere

C72: every function of the default registry (`Verif/ND/BuiltInArr.lean`) on arrays is exact where it is smooth, so programs over the registry are.
C73: for programs whose functions are smooth everywhere there is nothing to check about the inputs.
-/

namespace Folx.Layout
open Vmap Dot Filter Topology

theorem inside_of {op : IndexOp} {x : (i : Fin op.nIn) → Fin (op.shapes i).prod → ℝ} (h : op.Valid x) {w : List ℕ} (hw : InB w op.out) :
    ∃ i v, op.index (op.ints x) w = some (i, v) ∧ op.data i = true ∧ InB v (op.shapes i) := h.inb w hw

/-- **C72 (copies).**  The functions that copy elements copy an existing element of an operand to every element of the result. -/
theorem C72_inside {name : String} {m : ℕ} {shape : Fin (m + 1) → List ℕ} {out : List ℕ} {src : List ℕ → Option (Fin (m + 1) × List ℕ)} (h : Moves name shape out src)
    {w : List ℕ} (hw : InB w out) : ∃ i v, src w = some (i, v) ∧ InB v (shape i) := by
  cases h with
  | broadcastInDim s _ dims hs h =>
    obtain ⟨i, v, h1, -, h2⟩ := inside_of (broadcast_valid hs h fun _ _ => (0 : ℝ)) hw
    exact ⟨i, v, h1, h2⟩
  | reshape s _ hs h =>
    obtain ⟨i, v, h1, -, h2⟩ := inside_of (reshape_valid hs h fun _ _ => (0 : ℝ)) hw
    exact ⟨i, v, h1, h2⟩
  | slice s start limit stride hs h =>
    obtain ⟨i, v, h1, -, h2⟩ := inside_of (slice_valid hs h fun _ _ => (0 : ℝ)) hw
    exact ⟨i, v, h1, h2⟩
  | dynamicSlice s _ hs hl h x hx =>
    obtain ⟨i, v, h1, h3, h2⟩ := inside_of (dynamicSlice_valid hs hl h x hx) hw
    refine ⟨0, v, congrArg (Option.map fun r : Fin (s.length + 1) × List ℕ => ((0 : Fin 1), r.2)) h1, ?_⟩
    clear h1
    revert h3 h2
    refine Fin.cases (fun _ h => h) (fun d h => ?_) i
    exact absurd h (by simp [dynamicSliceOp])
  | concatenate m shapes axis _ hs h =>
    obtain ⟨i, v, h1, -, h2⟩ := inside_of (concatenate_valid hs h fun _ _ => (0 : ℝ)) hw
    exact ⟨i, v, h1, h2⟩
  | selectN s m scalar hs x hx =>
    obtain ⟨i, v, h1, h3, h2⟩ := inside_of (selectN_valid hs x hx) hw
    revert h1 h3 h2
    refine Fin.cases (fun _ h => absurd h (by simp [selectNOp])) (fun d h1 _ h2 => ?_) i
    exact ⟨d, v, congrArg (fun o : Option (Fin (m + 2) × List ℕ) => o.bind fun r => Fin.cases (motive := fun _ => Option (Fin (m + 1) × List ℕ)) none (fun j => some (j, r.2)) r.1) h1, h2⟩
  | gather s ids _ sliceSizes g hs hi h x hx =>
    obtain ⟨i, v, h1, h3, h2⟩ := inside_of (gather_valid hs hi h x hx) hw
    refine ⟨0, v, congrArg (Option.map fun r : Fin 2 × List ℕ => ((0 : Fin 1), r.2)) h1, ?_⟩
    clear h1
    revert h3 h2
    refine Fin.cases (fun _ h => h) (fun d h => ?_) i
    obtain rfl : d = (0 : Fin 1) := Subsingleton.elim (α := Fin 1) _ _
    exact absurd h (by show ¬ (false = true); decide)
  | transpose s perm hs h =>
    obtain ⟨i, v, h1, -, h2⟩ := inside_of (transpose_valid hs h fun _ _ => (0 : ℝ)) hw
    exact ⟨i, v, h1, h2⟩
  | squeeze s dims hs =>
    obtain ⟨i, v, h1, -, h2⟩ := inside_of (squeeze_valid hs fun _ _ => (0 : ℝ)) hw
    exact ⟨i, v, h1, h2⟩
  | rev s dims hs =>
    obtain ⟨i, v, h1, -, h2⟩ := inside_of (rev_valid hs fun _ _ => (0 : ℝ)) hw
    exact ⟨i, v, h1, h2⟩

/-- **C72 (copies, meaning).**  The result has there the element of the operand. -/
theorem C72_move_value {m : ℕ} {shape : Fin (m + 1) → List ℕ} {out : List ℕ} {src : List ℕ → Option (Fin (m + 1) × List ℕ)} (fil : Bool)
    (x : (i : Fin (m + 1)) → Fin (shape i).prod → ℝ) {w : List ℕ} (hw : InB w out) {i : Fin (m + 1)} {v : List ℕ} (h : src w = some (i, v)) (hv : InB v (shape i)) :
    (toND out ((movePrim fil shape out src).fwd x (0 : Fin 1))).get w = (toND (shape i) (x i)).get v := move_value (fil := fil) hw h hv

theorem listMax_greatest {l : List ℝ} (h : l ≠ []) : IsGreatest {a | a ∈ l} (listMax l) := by
  obtain ⟨a, ha⟩ := List.exists_mem_of_ne_nil l h
  cases hm : l.maximum with
  | bot => exact absurd (List.maximum_eq_bot.mp hm) h
  | coe m =>
    obtain ⟨h1, h2⟩ := List.maximum_eq_coe_iff.mp hm
    rw [listMax_eq h1 h2]
    exact ⟨h1, h2⟩

theorem listMin_least {l : List ℝ} (h : l ≠ []) : IsLeast {a | a ∈ l} (listMin l) := by
  cases hm : l.minimum with
  | top => exact absurd (List.minimum_eq_top.mp hm) h
  | coe m =>
    obtain ⟨h1, h2⟩ := List.minimum_eq_coe_iff.mp hm
    rw [listMin_eq h1 h2]
    exact ⟨h1, h2⟩

theorem two_ne {s t : List ℕ} (h : s ≠ [] ∧ t ≠ []) (i : Fin 2) : two s t i ≠ [] := by
  fin_cases i
  · exact h.1
  · exact h.2

theorem combineTerms_in {s upd : List ℕ} {g : ScatterDims} (index : ND ℤ) : ∀ w, InB w s → ∀ r ∈ combineTerms s upd g index w, InB r.2 (two s upd r.1) := by
  intro w hw r hr
  rcases List.mem_cons.mp hr with rfl | hr
  · exact hw
  · obtain ⟨u, h1, rfl⟩ := List.mem_map.mp hr
    exact mem_allIdx.mp (List.mem_filter.mp h1).1

/-- **C72 (scatter).**  `scatter_add` sums, at every position of the operand, the element of the operand and the updates that go there. -/
theorem C72_scatter_add_value {s upd : List ℕ} {g : ScatterDims} {index : ND ℤ} (fil : Bool) (x : (i : Fin 2) → Fin (two s upd i).prod → ℝ) {w : List ℕ} (hw : InB w s) :
    (toND s (((addArr (m := 1) fil (two s upd) s (combineTerms s upd g index)).prim fun _ => none).fwd x (0 : Fin 1))).get w =
      (toND s (x 0)).get w + (((allIdx upd).filter fun u => g.hits s.length index u w).map fun u => (toND upd (x 1)).get u).sum := by
  refine (add_value (m := 1) (fil := fil) hw (combineTerms_in index w hw)).trans ?_
  unfold combineTerms
  rw [List.map_cons, List.sum_cons, List.map_map]
  rfl

/-- **C72 (scatter).**  `scatter_max` takes the largest of them. -/
theorem C72_scatter_max_value {s upd : List ℕ} {g : ScatterDims} {index : ND ℤ} (fil : Bool) (x : (i : Fin 2) → Fin (two s upd i).prod → ℝ) {w : List ℕ} (hw : InB w s) :
    IsGreatest {a | a = (toND s (x 0)).get w ∨ ∃ u, InB u upd ∧ g.hits s.length index u w = true ∧ a = (toND upd (x 1)).get u}
      ((toND s (((bestArr (m := 1) fil (two s upd) s (combineTerms s upd g index) listMax).prim fun _ => none).fwd x (0 : Fin 1))).get w) := by
  have e := best_value (m := 1) (fil := fil) (φ := listMax) (x := x) hw (combineTerms_in (g := g) index w hw)
  refine e.symm ▸ ?_
  have hset : {a | a = (toND s (x 0)).get w ∨ ∃ u, InB u upd ∧ g.hits s.length index u w = true ∧ a = (toND upd (x 1)).get u} =
      {a | a ∈ (combineTerms s upd g index w).map fun r => (toND (two s upd r.1) (x r.1)).get r.2} := by
    ext a
    unfold combineTerms
    simp only [Set.mem_setOf_eq, List.map_cons, List.map_map, List.mem_cons, List.mem_map, List.mem_filter, mem_allIdx, Function.comp]
    refine or_congr Iff.rfl ⟨?_, ?_⟩
    · rintro ⟨u, h1, h2, rfl⟩
      exact ⟨u, ⟨h1, h2⟩, rfl⟩
    · rintro ⟨u, ⟨h1, h2⟩, rfl⟩
      exact ⟨u, h1, h2, rfl⟩
  rw [hset]
  exact listMax_greatest (by unfold combineTerms; simp)

/-- **C72 (scatter).**  `scatter_min` takes the smallest of them. -/
theorem C72_scatter_min_value {s upd : List ℕ} {g : ScatterDims} {index : ND ℤ} (fil : Bool) (x : (i : Fin 2) → Fin (two s upd i).prod → ℝ) {w : List ℕ} (hw : InB w s) :
    IsLeast {a | a = (toND s (x 0)).get w ∨ ∃ u, InB u upd ∧ g.hits s.length index u w = true ∧ a = (toND upd (x 1)).get u}
      ((toND s (((bestArr (m := 1) fil (two s upd) s (combineTerms s upd g index) listMin).prim fun _ => none).fwd x (0 : Fin 1))).get w) := by
  have e := best_value (m := 1) (fil := fil) (φ := listMin) (x := x) hw (combineTerms_in (g := g) index w hw)
  refine e.symm ▸ ?_
  have hset : {a | a = (toND s (x 0)).get w ∨ ∃ u, InB u upd ∧ g.hits s.length index u w = true ∧ a = (toND upd (x 1)).get u} =
      {a | a ∈ (combineTerms s upd g index w).map fun r => (toND (two s upd r.1) (x r.1)).get r.2} := by
    ext a
    unfold combineTerms
    simp only [Set.mem_setOf_eq, List.map_cons, List.map_map, List.mem_cons, List.mem_map, List.mem_filter, mem_allIdx, Function.comp]
    refine or_congr Iff.rfl ⟨?_, ?_⟩
    · rintro ⟨u, h1, h2, rfl⟩
      exact ⟨u, ⟨h1, h2⟩, rfl⟩
    · rintro ⟨u, ⟨h1, h2⟩, rfl⟩
      exact ⟨u, h1, h2, rfl⟩
  rw [hset]
  exact listMin_least (by unfold combineTerms; simp)

section
variable {name : String} {p : Prim ℝ} {dom : ((i : Fin p.nIn) → Fin (p.size i) → ℝ) → Prop} {sp any ret : Prop} {x : (i : Fin p.nIn) → Fin (p.size i) → ℝ}

theorem two_notMem {s t : List ℕ} (hs : 0 < s.prod) (ht : 0 < t.prod) (i : Fin 2) : 0 ∉ two s t i := by
  fin_cases i
  · exact notMem_pos hs
  · exact notMem_pos ht

theorem max_truthful {fil : Bool} {s dims : List ℕ} {x : Fin 1 → Fin s.prod → ℝ} (h0 : 0 ∉ s) (hd : dims.Nodup) (hr : ∀ d ∈ dims, d < s.length) (hx : AttainedOnce (· < ·) s dims (x 0)) :
    (maxArr fil s dims).Truthful (m := 0) (fun _ => none) [] (fun _ z q => (toND (dropDims s dims) (groupFn s dims listMax (unslice (fun _ : Fin 1 => s) z 0))).get q) x :=
  pick_truthful h0 hd hr fun w => by
    obtain ⟨p, h1, h2⟩ := hx.group w
    exact ⟨p, max_near h1 h2⟩

theorem min_truthful {fil : Bool} {s dims : List ℕ} {x : Fin 1 → Fin s.prod → ℝ} (h0 : 0 ∉ s) (hd : dims.Nodup) (hr : ∀ d ∈ dims, d < s.length) (hx : AttainedOnce (· > ·) s dims (x 0)) :
    (minArr fil s dims).Truthful (m := 0) (fun _ => none) [] (fun _ z q => (toND (dropDims s dims) (groupFn s dims listMin (unslice (fun _ : Fin 1 => s) z 0))).get q) x :=
  pick_truthful h0 hd hr fun w => by
    obtain ⟨p, h1, h2⟩ := hx.group w
    exact ⟨p, min_near h1 h2⟩

/-- **C72 (functions).**  Every registered function is exact at the points of its domain; with sparsity under the condition of its entry. -/
theorem C72_good (h : ArrBuiltIn name p dom sp any ret) (s : Bool) (hs : s = true → sp) (hx : dom x) (n : ℕ) : ArrGood s n p x := by
  cases h with
  | elem k e he fil junk shape out hs' h0 hb => exact C61_programs he fil junk hs' h0 hb hx s n
  | drop e he size out π => exact .dropped _ _ _ _ _ x (drop_prim_const e he size out π x hx)
  | reduceSum fil s' dims h0 hd hr => exact (C62_sum s n fil h0 hd hr x).good
  | reduceMax fil s' dims h0 hd hr => exact C69_max s n fil h0 hd hr x hx
  | reduceMin fil s' dims h0 hd hr => exact C69_min s n fil h0 hd hr x hx
  | reduceProd fil s' dims h0 hd hr => exact C69_prod s n fil h0 hd hr x
  | cumsum fil s' axis reverse h0 => exact C69_cumsum s n fil axis reverse h0 x
  | move fil name shape out src h hs' h0 => exact move_good hs' h0 s hs n
  | scatterAdd fil s' upd g hs' hu y =>
    exact add_good (two_notMem hs' hu) (notMem_pos hs') s (fun h => Or.inr fun i => by
      have := hs h
      fin_cases i
      · exact this.1
      · exact this.2) n
  | scatterMax fil s' upd g hs' hu y =>
    exact .array _ _ _ _ x (scatterMax_truthful (two_notMem hs' hu) (notMem_pos hs') (combineTerms_in y) hx) fun h => best_safe (Or.inr (two_ne (hs h)))
  | scatterMin fil s' upd g hs' hu y =>
    exact .array _ _ _ _ x (scatterMin_truthful (two_notMem hs' hu) (notMem_pos hs') (combineTerms_in y) hx) fun h => best_safe (Or.inr (two_ne (hs h)))
  | dotGeneral dd ls rs h hl hr => exact .dot dd ls rs h hl hr hs x
  | slogdet b m hm =>
    cases s with
    | true => exact (hs rfl).elim
    | false => exact .core _ x (.slogdet DetField.ofReal b m hm x hx rfl) rfl
  | convert m => exact .mapped m _ x

/-- **C72 (functions, short Jacobians).**  Under the condition of its entry it is exact whatever Jacobians its operands have. -/
theorem C72_any (h : ArrBuiltIn name p dom sp any ret) (ha : any) (hx : dom x) : AnyGood p x := by
  cases h with
  | elem k e he fil junk shape out hs' h0 hb =>
    have h := elemTable_arr k e he fil junk shape out hs' h0 hb x hx
    obtain ⟨nm, a, fn, flags, d, dom⟩ := e
    cases a with
    | zero => exact absurd h id
    | succ m =>
      obtain ⟨b, φ, h1, h2⟩ := h
      exact .array _ _ b φ x h1 h2 (ha.imp id fun h => by simpa using h)
  | drop e he size out π => exact .dropped _ _ _ _ _ x (drop_prim_const e he size out π x hx)
  | reduceSum fil s' dims h0 hd hr => exact .array _ _ _ _ x (sumArr_truthful h0 hd hr) sumArr_safe (Or.inr rfl)
  | reduceMax fil s' dims h0 hd hr => exact .array _ _ _ _ x (max_truthful h0 hd hr hx) (redArr_safe (by decide) (by decide) (by decide)) (Or.inr rfl)
  | reduceMin fil s' dims h0 hd hr => exact .array _ _ _ _ x (min_truthful h0 hd hr hx) (redArr_safe (by decide) (by decide) (by decide)) (Or.inr rfl)
  | reduceProd fil s' dims h0 hd hr => exact .array _ _ _ _ x (prodArr_truthful h0 hd hr) (redArr_safe (by decide) (by decide) (by decide)) (Or.inr rfl)
  | cumsum fil s' axis reverse h0 => exact .array _ _ _ _ x (cumsumArr_truthful h0) cumsumArr_safe (Or.inr rfl)
  | move fil name shape out src h hs' h0 => exact move_any hs' h0 ha
  | scatterAdd fil s' upd g hs' hu y =>
    exact add_any (two_notMem hs' hu) (notMem_pos hs') (Or.inr fun i => by
      fin_cases i
      · exact ha.1
      · exact ha.2)
  | scatterMax fil s' upd g hs' hu y =>
    exact .array _ _ _ _ x (scatterMax_truthful (two_notMem hs' hu) (notMem_pos hs') (combineTerms_in y) hx) (best_safe (Or.inr (two_ne ha))) (Or.inl (by show Flags.LINEAR.has _ = true; decide))
  | scatterMin fil s' upd g hs' hu y =>
    exact .array _ _ _ _ x (scatterMin_truthful (two_notMem hs' hu) (notMem_pos hs') (combineTerms_in y) hx) (best_safe (Or.inr (two_ne ha))) (Or.inl (by show Flags.LINEAR.has _ = true; decide))
  | dotGeneral dd ls rs h hl hr => exact .dot dd ls rs h hl hr ha x
  | slogdet b m hm => exact .slogdet DetField.ofReal b m hm x hx
  | convert m => exact .mapped m _ x

/-- **C72 (functions, returns).**  Its calls return, with sparsity disabled always, with sparsity under the condition of its entry. -/
theorem C72_total (h : ArrBuiltIn name p dom sp any ret) (s : Bool) (hs : s = true → ret) (hx : dom x) (n : ℕ) : ArrTotal s n p x := by
  cases h with
  | elem k e he fil junk shape out hs' h0 hb =>
    cases s with
    | true => exact C62_elementwise true n he fil junk hs' h0 hb hx (hs rfl)
    | false =>
      have h := elemTable_arr k e he fil junk shape out hs' h0 hb x hx
      obtain ⟨nm, a, fn, flags, d, dom⟩ := e
      cases a with
      | zero => exact absurd h id
      | succ m =>
        obtain ⟨b, φ, h1, h2⟩ := h
        exact .array _ _ b φ x h1 fun h => absurd h (by decide)
  | drop e he size out π => exact .dropped _ _ _ _ _ x (drop_prim_const e he size out π x hx)
  | reduceSum fil s' dims h0 hd hr => exact C62_sum s n fil h0 hd hr x
  | reduceMax fil s' dims h0 hd hr => exact .array _ _ _ _ x (max_truthful h0 hd hr hx) fun h => (hs h).elim
  | reduceMin fil s' dims h0 hd hr => exact .array _ _ _ _ x (min_truthful h0 hd hr hx) fun h => (hs h).elim
  | reduceProd fil s' dims h0 hd hr => exact .array _ _ _ _ x (prodArr_truthful h0 hd hr) fun h => (hs h).elim
  | cumsum fil s' axis reverse h0 => exact .array _ _ _ _ x (cumsumArr_truthful h0) fun h => (hs h).elim
  | move fil name shape out src h hs' h0 => exact move_total hs' h0 s hs n
  | scatterAdd fil s' upd g hs' hu y =>
    cases s with
    | true => exact (hs rfl).elim
    | false => exact add_total (two_notMem hs' hu) (notMem_pos hs') n
  | scatterMax fil s' upd g hs' hu y =>
    cases s with
    | true => exact (hs rfl).elim
    | false => exact .array _ _ _ _ x (scatterMax_truthful (two_notMem hs' hu) (notMem_pos hs') (combineTerms_in y) hx) fun h => absurd h (by decide)
  | scatterMin fil s' upd g hs' hu y =>
    cases s with
    | true => exact (hs rfl).elim
    | false => exact .array _ _ _ _ x (scatterMin_truthful (two_notMem hs' hu) (notMem_pos hs') (combineTerms_in y) hx) fun h => absurd h (by decide)
  | dotGeneral dd ls rs h hl hr =>
    cases s with
    | true => exact (hs rfl).elim
    | false => exact .dot dd ls rs h hl hr rfl x
  | slogdet b m hm =>
    cases s with
    | true => exact (hs rfl).elim
    | false => exact .core _ x (.slogdet DetField.ofReal b m hm x hx rfl) (fun T => slogdet_totalAt _ hm T n x) rfl
  | convert m => exact .mapped m _ x

end
end Folx.Layout

namespace Folx
open Folx.Layout Folx.Interp Folx.Vmap Folx.Dot

/-- The condition under which calls with sparse Jacobians return is the stronger one. -/
theorem Layout.ArrBuiltIn.sp_of_ret {name : String} {p : Prim ℝ} {dom : ((i : Fin p.nIn) → Fin (p.size i) → ℝ) → Prop} {sp any ret : Prop} (h : ArrBuiltIn name p dom sp any ret) (hr : ret) : sp := by
  cases h with
  | move fil name shape out src h hs h0 => exact hr.le.trans (by decide)
  | scatterAdd => exact hr.elim
  | scatterMax => exact hr.elim
  | scatterMin => exact hr.elim
  | dotGeneral => exact hr.elim
  | reduceMax => trivial
  | reduceMin => trivial
  | reduceProd => trivial
  | cumsum => trivial
  | slogdet => exact hr.elim
  | _ => trivial

/-- `p` is a function of the default registry and `x` is in its domain; with `s`, the condition for sparse Jacobians holds. -/
def DefaultAt (s : Bool) (p : Prim ℝ) (x : (i : Fin p.nIn) → Fin (p.size i) → ℝ) : Prop :=
  ∃ name dom sp any ret, ArrBuiltIn name p dom sp any ret ∧ (s = true → sp) ∧ dom x

/-- The same with the condition for short Jacobians. -/
def DefaultAnyAt (p : Prim ℝ) (x : (i : Fin p.nIn) → Fin (p.size i) → ℝ) : Prop :=
  ∃ name dom sp any ret, ArrBuiltIn name p dom sp any ret ∧ any ∧ dom x

/-- The same with the condition under which calls with sparse Jacobians return. -/
def DefaultRetAt (s : Bool) (p : Prim ℝ) (x : (i : Fin p.nIn) → Fin (p.size i) → ℝ) : Prop :=
  ∃ name dom sp any ret, ArrBuiltIn name p dom sp any ret ∧ (s = true → ret) ∧ dom x

section
variable (reg : String → Option (Prim ℝ)) (junk : List (PVal ℝ) → PVal ℝ) (t : ℚ) {n : ℕ} (hn : 0 < n) (sizes : List ℕ) (hs : sizes.sum = n) (d : ℕ)
  (j : Jaxpr (Op d ℝ) (PArr ℝ)) (consts : List (PArr ℝ))
include hn hs

/-- **C72 (programs).**  Whatever program is built from the functions of the default registry, with any threshold and all weights: where the functions it calls are smooth,
`forward_laplacian` returns the function's value, its gradient and its weighted Laplacian. -/
theorem C72_exact (weights : Weights ℝ) (w x : Fin n → ℝ)
    (hw : weightArrs weights sizes = .ok (unflat sizes w))
    (hd : DomProg (evPlain d) (DomP reg (DefaultAt (decide (0 < threshold t n))) d) j consts (unflat sizes x))
    (ys : List (PVal ℝ)) (h : forwardLaplacian reg junk t d j consts weights (plainArgs sizes x) = .ok ys) :
    ∃ f : List (FArr (Fin n → ℝ) ℝ),
      (∀ z, evalPlain d j consts (unflat sizes z) = .ok (f.map fun g => g.at z)) ∧ List.Forall₂ (ExactVal w x) ys f := by
  refine C59_exact reg junk t hn sizes hs d j consts weights w x hw (fun s hs' => ?_) ys h
  exact domRun_mono _ _ _ (DomP.mono reg _ _ (fun p y ⟨_, _, _, _, _, h1, h2, h3⟩ => C72_good h1 _ h2 h3 n) d) _ _ (hd s hs')

/-- **C72 (programs, without weights).** -/
theorem C72_correct (x : Fin n → ℝ)
    (hd : DomProg (evPlain d) (DomP reg (DefaultAt (decide (0 < threshold t n))) d) j consts (unflat sizes x))
    (ys : List (PVal ℝ)) (h : forwardLaplacian reg junk t d j consts .absent (plainArgs sizes x) = .ok ys) :
    ∃ f : List (FArr (Fin n → ℝ) ℝ),
      (∀ z, evalPlain d j consts (unflat sizes z) = .ok (f.map fun g => g.at z)) ∧ List.Forall₂ (Correct x) ys f := by
  obtain ⟨f, h1, h2⟩ := C72_exact reg junk t hn sizes hs d j consts .absent (fun _ => 1) x (weights_absent sizes hs) hd ys h
  exact ⟨f, h1, h2.imp fun v g hv => correct_of_exact x v g hv⟩

/-- **C72 (programs, short Jacobians).**  The same with determinants in the program. -/
theorem C72_short (weights : Weights ℝ) (w x : Fin n → ℝ)
    (hw : weightArrs weights sizes = .ok (unflat sizes w))
    (hd : DomProg (evPlain d) (DomP reg DefaultAnyAt d) j consts (unflat sizes x))
    (ys : List (PVal ℝ)) (h : forwardLaplacian reg junk t d j consts weights (plainArgs sizes x) = .ok ys) :
    ∃ f : List (FArr (Fin n → ℝ) ℝ),
      (∀ z, evalPlain d j consts (unflat sizes z) = .ok (f.map fun g => g.at z)) ∧ List.Forall₂ (ExactVal w x) ys f := by
  refine C71_exact reg junk t hn sizes hs d j consts weights w x hw (fun s hs' => ?_) ys h
  exact domRun_mono _ _ _ (DomP.mono reg _ _ (fun p y ⟨_, _, _, _, _, h1, h2, h3⟩ => C72_any h1 h2 h3) d) _ _ (hd s hs')

/-- **C72 (programs, returns).**  With sparsity disabled `forward_laplacian` returns whenever the function does (with sparsity, under the condition of the entries). -/
theorem C72_returns (x : Fin n → ℝ)
    (hd : DomProg (evPlain d) (DomP reg (DefaultRetAt (decide (0 < threshold t n))) d) j consts (unflat sizes x))
    (hns : ∀ e ∈ j.eqns, NoScan reg d e.op)
    (hbound : ∀ v, Atom.var v ∈ j.outvars → (readsOf j.eqns j.outvars).count v ≤ 2147483647)
    (zs : List (PArr ℝ)) (he : evalPlain d j consts (unflat sizes x) = .ok zs) :
    ∃ ys, forwardLaplacian reg junk t d j consts .absent (plainArgs sizes x) = .ok ys ∧
      ∃ f : List (FArr (Fin n → ℝ) ℝ),
        (∀ z, evalPlain d j consts (unflat sizes z) = .ok (f.map fun g => g.at z)) ∧ List.Forall₂ (Correct x) ys f := by
  refine C62_correct reg junk t hn sizes hs d j consts x (fun s hs' => ?_) hns hbound zs he
  exact domRun_mono _ _ _ (DomP.mono reg _ _ (fun p y ⟨_, _, _, _, _, h1, h2, h3⟩ => C72_total h1 _ h2 h3 n) d) _ _ (hd s hs')

end

/-! ### Programs that are smooth everywhere -/

/-- The program only calls functions with `P`; jitted functions with registered names compute what the registered function computes; the outputs of scan bodies are the carry. -/
def UsesOnly {F : Type} [RCLike F] (reg : String → Option (Prim F)) (P : Prim F → Prop) : (d : ℕ) → Op d F → Prop
  | 0, op => nomatch op
  | _ + 1, .prim p => P p
  | d + 1, .pjit name j consts =>
      match reg name with
      | some p => P p ∧ ∀ ys zs, p.bind ys = .ok zs → evalSpec (evPlain d) j consts ys = .ok zs
      | none => ∀ e ∈ j.eqns, UsesOnly reg P d e.op
  | d + 1, .scan s => s.body.outvars.length = s.numCarry ∧ ∀ e ∈ s.body.eqns, UsesOnly reg P d e.op

/-- A function of the default registry that is smooth (or locally constant) at every point; with `s`, the condition for sparse Jacobians holds. -/
def SmoothFn (s : Bool) (p : Prim ℝ) : Prop := ∃ name dom sp any ret, ArrBuiltIn name p dom sp any ret ∧ (s = true → sp) ∧ ∀ x, dom x

/-- The same with the condition for short Jacobians. -/
def SmoothAnyFn (p : Prim ℝ) : Prop := ∃ name dom sp any ret, ArrBuiltIn name p dom sp any ret ∧ any ∧ ∀ x, dom x

/-- The same with the condition under which calls with sparse Jacobians return. -/
def SmoothRetFn (s : Bool) (p : Prim ℝ) : Prop := ∃ name dom sp any ret, ArrBuiltIn name p dom sp any ret ∧ (s = true → ret) ∧ ∀ x, dom x

theorem domRun_everywhere {O V : Type} (ev : O → List V → Except Err (List V)) (dom : O → List V → Prop) :
    ∀ (es : List (Eqn O V)) (s : SEnv V), (∀ e ∈ es, ∀ xs, dom e.op xs) → DomRun ev dom s es
  | [], _, _ => trivial
  | e :: es, _, h => fun xs _ => ⟨h e (by simp) xs, fun s' _ => domRun_everywhere ev dom es s' fun e' he => h e' (by simp [he])⟩

theorem scanDom_everywhere {V : Type} (b : List V → Except Err (List V)) (dB : List V → Prop) (h : ∀ xs, dB xs) (consts : List V) (nc : ℕ) (xsAt : ℕ → List V) :
    ∀ (ts : List ℕ) (c : List V), ScanDom b dB consts nc xsAt ts c
  | [], _ => trivial
  | _ :: ts, _ => ⟨h _, fun _ _ => scanDom_everywhere b dB h consts nc xsAt ts _⟩

theorem UsesOnly.domP {F : Type} [RCLike F] {reg : String → Option (Prim F)} {P : Prim F → Prop} {good : (p : Prim F) → ((i : Fin p.nIn) → Fin (p.size i) → F) → Prop}
    (hg : ∀ p, P p → ∀ x, good p x) : ∀ (d : ℕ) (op : Op d F), UsesOnly reg P d op → ∀ xs, DomP reg good d op xs
  | 0, op, _, _ => nomatch op
  | d + 1, op, h, xs => by
    cases op with
    | prim p => exact fun x _ => hg p h x
    | pjit name j consts =>
      simp only [UsesOnly] at h
      simp only [DomP]
      cases hreg : reg name with
      | some p =>
        simp only [hreg] at h ⊢
        exact ⟨fun x _ => hg p h.1 x, h.2⟩
      | none =>
        simp only [hreg] at h ⊢
        exact fun s _ => domRun_everywhere _ _ _ _ fun e he ys => UsesOnly.domP hg d e.op (h e he) ys
    | scan s =>
      simp only [UsesOnly] at h
      simp only [DomP]
      exact ⟨h.1, scanDom_everywhere _ _ (fun ys s' _ => domRun_everywhere _ _ _ _ fun e he zs => UsesOnly.domP hg d e.op (h.2 e he) zs) _ _ _ _ _⟩

theorem usesOnly_prog {F : Type} [RCLike F] {reg : String → Option (Prim F)} {P : Prim F → Prop} {good : (p : Prim F) → ((i : Fin p.nIn) → Fin (p.size i) → F) → Prop}
    (hg : ∀ p, P p → ∀ x, good p x) {d : ℕ} {j : Jaxpr (Op d F) (PArr F)} (h : ∀ e ∈ j.eqns, UsesOnly reg P d e.op) (consts args : List (PArr F)) :
    DomProg (evPlain d) (DomP reg good d) j consts args :=
  fun s _ => domRun_everywhere _ _ _ _ fun e he ys => (h e he).domP hg d e.op ys

section
variable (reg : String → Option (Prim ℝ)) (junk : List (PVal ℝ) → PVal ℝ) (t : ℚ) {n : ℕ} (hn : 0 < n) (sizes : List ℕ) (hs : sizes.sum = n) (d : ℕ)
  (j : Jaxpr (Op d ℝ) (PArr ℝ)) (consts : List (PArr ℝ))
include hn hs

/-- **C73.**  For a program built from functions that are smooth everywhere, there is one list `f` of functions such that the program computes `f` and, at every point and with
all weights, what `forward_laplacian` returns is the value, the gradient and the weighted Laplacian of `f` there. -/
theorem C73_exact (h : ∀ e ∈ j.eqns, UsesOnly reg (SmoothFn (decide (0 < threshold t n))) d e.op)
    (weights : Weights ℝ) (w x : Fin n → ℝ) (hw : weightArrs weights sizes = .ok (unflat sizes w))
    (ys : List (PVal ℝ)) (hy : forwardLaplacian reg junk t d j consts weights (plainArgs sizes x) = .ok ys) :
    ∃ f : List (FArr (Fin n → ℝ) ℝ), (∀ z, evalPlain d j consts (unflat sizes z) = .ok (f.map fun g => g.at z)) ∧ List.Forall₂ (ExactVal w x) ys f :=
  C72_exact reg junk t hn sizes hs d j consts weights w x hw
    (usesOnly_prog (fun _ ⟨_, _, _, _, _, h1, h2, h3⟩ x => ⟨_, _, _, _, _, h1, h2, h3 x⟩) h _ _) ys hy

/-- **C73 (short Jacobians).** -/
theorem C73_short (h : ∀ e ∈ j.eqns, UsesOnly reg SmoothAnyFn d e.op)
    (weights : Weights ℝ) (w x : Fin n → ℝ) (hw : weightArrs weights sizes = .ok (unflat sizes w))
    (ys : List (PVal ℝ)) (hy : forwardLaplacian reg junk t d j consts weights (plainArgs sizes x) = .ok ys) :
    ∃ f : List (FArr (Fin n → ℝ) ℝ), (∀ z, evalPlain d j consts (unflat sizes z) = .ok (f.map fun g => g.at z)) ∧ List.Forall₂ (ExactVal w x) ys f :=
  C72_short reg junk t hn sizes hs d j consts weights w x hw
    (usesOnly_prog (fun _ ⟨_, _, _, _, _, h1, h2, h3⟩ x => ⟨_, _, _, _, _, h1, h2, h3 x⟩) h _ _) ys hy

/-- **C73 (the forward Laplacian as a function).**  If such a program has no `scan` and returns at one point, `forward_laplacian` of it returns at every point, and is everywhere
the value, the gradient and the Laplacian of the function that the program computes. -/
theorem C73_everywhere (h : ∀ e ∈ j.eqns, UsesOnly reg (SmoothRetFn (decide (0 < threshold t n))) d e.op)
    (hns : ∀ e ∈ j.eqns, NoScan reg d e.op)
    (hbound : ∀ v, Atom.var v ∈ j.outvars → (readsOf j.eqns j.outvars).count v ≤ 2147483647)
    (x0 : Fin n → ℝ) (zs : List (PArr ℝ)) (he : evalPlain d j consts (unflat sizes x0) = .ok zs) :
    ∃ f : List (FArr (Fin n → ℝ) ℝ), (∀ z, evalPlain d j consts (unflat sizes z) = .ok (f.map fun g => g.at z)) ∧
      ∀ x, ∃ ys, forwardLaplacian reg junk t d j consts .absent (plainArgs sizes x) = .ok ys ∧ List.Forall₂ (Correct x) ys f := by
  have hd : ∀ x : Fin n → ℝ, DomProg (evPlain d) (DomP reg (DefaultRetAt (decide (0 < threshold t n))) d) j consts (unflat sizes x) := fun x =>
    usesOnly_prog (fun _ ⟨_, _, _, _, _, h1, h2, h3⟩ x => ⟨_, _, _, _, _, h1, h2, h3 x⟩) h _ _
  obtain ⟨_, _, f, hf, _⟩ := C72_returns reg junk t hn sizes hs d j consts x0 (hd x0) hns hbound zs he
  refine ⟨f, hf, fun x => ?_⟩
  obtain ⟨ys, h1, g, hg, h2⟩ := C72_returns reg junk t hn sizes hs d j consts x (hd x) hns hbound _ (hf x)
  obtain rfl : f = g := farr_ext f g fun z => Except.ok.inj ((hf z).symm.trans (hg z))
  exact ⟨ys, h1, h2⟩

end
/-! ### `jnp.tanh(y @ y.T).sum()` where `y = x.reshape(2, 2)` -/

namespace GramDemo
open DotArrDemo
open ArrDemo hiding expP expA exp_bind exp_good

noncomputable def reshapeP : Prim ℝ := movePrim (m := 0) true (fun _ => [4]) [2, 2] ((reshapeOp [4] [2, 2] (by decide)).index fun _ => noInts)
noncomputable def transposeP : Prim ℝ := movePrim (m := 0) true (fun _ => [2, 2]) (transposeOp [2, 2] [1, 0] (by decide)).out ((transposeOp [2, 2] [1, 0] (by decide)).index fun _ => noInts)
/-- The entry `tanh` of the table. -/
noncomputable def tanhE : ElemEntry := ⟨"tanh", 1, fun z => Real.sinh (z 0) / Real.cosh (z 0), Flags.GENERAL, false, fun _ => True⟩
noncomputable def tanhP : Prim ℝ := (tanhE.arr true 0 (fun _ => [2, 2]) [2, 2]).prim fun _ => none
noncomputable def totalP : Prim ℝ := (sumArr (F := ℝ) true [2, 2] [0, 1]).prim fun _ => none

theorem reshape_smooth (s : Bool) : SmoothRetFn s reshapeP :=
  ⟨_, _, _, _, _, .move true "reshape" (m := 0) (fun _ => [4]) [2, 2] _ (.reshape [4] [2, 2] _ rfl) (fun _ => by decide) (by decide), fun _ => rfl, fun _ => trivial⟩

theorem transpose_smooth (s : Bool) : SmoothRetFn s transposeP :=
  ⟨_, _, _, _, _, .move true "transpose" (m := 0) (fun _ => [2, 2]) _ _ (.transpose [2, 2] [1, 0] _ (by decide)) (fun _ => by decide) (by decide), fun _ => rfl, fun _ => trivial⟩

theorem tanh_smooth (s : Bool) : SmoothRetFn s tanhP :=
  ⟨_, _, _, _, _, .elem 0 tanhE (by simp [elemTable, tanhE]) true 0 (fun _ => [2, 2]) [2, 2] (fun _ => by decide) (by decide) (broadcastShapes_iff.mp (by decide +kernel)),
    fun _ => Or.inr fun _ => ⟨0, rfl⟩, fun _ _ _ => trivial⟩

theorem total_smooth (s : Bool) : SmoothRetFn s totalP :=
  ⟨_, _, _, _, _, .reduceSum true [2, 2] [0, 1] (by decide) (by decide) (by decide), fun _ => trivial, fun _ => trivial⟩

theorem matmul_smooth : SmoothRetFn false dotP :=
  ⟨_, _, _, _, _, .dotGeneral mm [2, 2] [2, 2] mm_ok (by decide) (by decide), fun h => absurd h (by decide), fun _ => trivial⟩

noncomputable def prog : Jaxpr (Op 1 ℝ) (PArr ℝ) where
  constvars := []
  invars := [0]
  eqns := [
    ⟨OpStep.prim reshapeP, [.var 0], [1]⟩,
    ⟨OpStep.prim transposeP, [.var 1], [2]⟩,
    ⟨OpStep.prim dotP, [.var 1, .var 2], [3]⟩,
    ⟨OpStep.prim tanhP, [.var 3], [4]⟩,
    ⟨OpStep.prim totalP, [.var 4], [5]⟩]
  outvars := [.var 5]

theorem prog_calls (P : Prim ℝ → Prop) (h1 : P reshapeP) (h2 : P transposeP) (h3 : P dotP) (h4 : P tanhP) (h5 : P totalP) :
    ∀ e ∈ prog.eqns, UsesOnly Demo.reg P 1 e.op := by
  intro e he
  simp only [prog, List.mem_cons, List.not_mem_nil, or_false] at he
  rcases he with rfl | rfl | rfl | rfl | rfl
  · exact h1
  · exact h2
  · exact h3
  · exact h4
  · exact h5

theorem take_at {m : ℕ} {shape : Fin (m + 1) → List ℕ} {out : List ℕ} {src : Fin out.prod → Option ((i : Fin (m + 1)) × Fin (shape i).prod)} (y : (i : Fin (m + 1)) → Fin (shape i).prod → ℝ)
    {q : Fin out.prod} {r : (i : Fin (m + 1)) × Fin (shape i).prod} (h : src q = some r) : takeL src y q + 0 = y r.1 r.2 := by
  rw [add_zero, takeL_apply, h]

theorem reshape_bind (a : Fin 4 → ℝ) : reshapeP.bind [⟨4, a⟩] = .ok [⟨4, a⟩] := by
  have h : (moveArr (F := ℝ) (m := 0) true (fun _ => [4]) [2, 2] ((reshapeOp [4] [2, 2] (by decide)).index fun _ => noInts)).fwd (fun _ => a) = a := by
    funext q
    refine take_at (m := 0) (shape := fun _ => [4]) (out := [2, 2]) (r := ⟨0, q⟩) (fun _ => a) ?_
    revert q
    decide +kernel
  have h2 := bind_of reshapeP [⟨4, a⟩] (fun _ => a) rfl
  rw [h2]
  exact congrArg (fun r => Except.ok [(⟨4, r⟩ : PArr ℝ)]) h

/-- The transposed matrix. -/
def tr (a : Fin 4 → ℝ) : Fin 4 → ℝ := ![a 0, a 2, a 1, a 3]

theorem transpose_bind (a : Fin 4 → ℝ) : transposeP.bind [⟨4, a⟩] = .ok [⟨4, tr a⟩] := by
  have h : (moveArr (F := ℝ) (m := 0) true (fun _ => [2, 2]) (transposeOp [2, 2] [1, 0] (by decide)).out ((transposeOp [2, 2] [1, 0] (by decide)).index fun _ => noInts)).fwd (fun _ => a) = tr a := by
    funext q
    refine (take_at (m := 0) (shape := fun _ => [2, 2]) (out := [2, 2]) (r := ⟨0, (show Fin 4 → Fin ([2, 2] : List ℕ).prod from (![0, 2, 1, 3] : Fin 4 → Fin 4)) q⟩) (fun _ => a) ?_).trans ?_
    · fin_cases q <;> decide +kernel
    · fin_cases q <;> rfl
  have h2 := bind_of transposeP [⟨4, a⟩] (fun _ => a) rfl
  rw [h2]
  exact congrArg (fun r => Except.ok [(⟨4, r⟩ : PArr ℝ)]) h

theorem tanh_bind (a : Fin 4 → ℝ) : tanhP.bind [⟨4, a⟩] = .ok [⟨4, fun q => Real.sinh (a q) / Real.cosh (a q)⟩] := by
  have h : (tanhE.arr true 0 (fun _ => [2, 2]) [2, 2]).fwd (fun _ => a) = fun q : Fin 4 => Real.sinh (a q) / Real.cosh (a q) := by
    funext q
    exact congrArg (fun z : Fin 1 → ℝ => Real.sinh (z 0) / Real.cosh (z 0)) (pick_same (k := 1) (s := [2, 2]) (broadcastShapes_iff.mp (by decide +kernel)) (fun _ => a) q)
  have h2 := bind_of tanhP [⟨4, a⟩] (fun _ => a) rfl
  rw [h2]
  exact congrArg (fun r => Except.ok [(⟨4, r⟩ : PArr ℝ)]) h

theorem total_bind (a : Fin 4 → ℝ) : totalP.bind [⟨4, a⟩] = .ok [⟨1, fun _ => a 0 + a 1 + a 2 + a 3⟩] := by
  have h : (sumArr (F := ℝ) true [2, 2] [0, 1]).fwd (fun _ => a) = fun _ : Fin 1 => a 0 + a 1 + a 2 + a 3 := by
    funext q
    show sumL [2, 2] [0, 1] a q + 0 = _
    rw [add_zero]
    have e : ∀ q : Fin 1, ((allIdx [2, 2]).filter fun p => Layout.keptOf [0, 1] p = unravelIdx [] q) = [[0, 0], [0, 1], [1, 0], [1, 1]] := by decide +kernel
    refine (congrArg (fun l => (List.map (byCoord [2, 2] (F := ℝ) (a : Fin ([2, 2] : List ℕ).prod → ℝ)) l).sum) (e q)).trans ?_
    show a 0 + (a 1 + (a 2 + (a 3 + 0))) = _
    ring
  have h2 := bind_of totalP [⟨4, a⟩] (fun _ => a) rfl
  rw [h2]
  exact congrArg (fun r => Except.ok [(⟨1, r⟩ : PArr ℝ)]) h

/-- `jnp.tanh(y @ y.T).sum()` -/
noncomputable def gram (x : Fin 4 → ℝ) : ℝ :=
  let p := matmul x (tr x)
  Real.sinh (p 0) / Real.cosh (p 0) + Real.sinh (p 1) / Real.cosh (p 1) + Real.sinh (p 2) / Real.cosh (p 2) + Real.sinh (p 3) / Real.cosh (p 3)

theorem prog_eval (x : Fin 4 → ℝ) : evalPlain 1 prog [] (unflat [4] x) = .ok [⟨1, fun _ => gram x⟩] := by
  rw [unflat_four]
  have h1 : evPlain 1 (OpStep.prim reshapeP) [⟨4, x⟩] = .ok [⟨4, x⟩] := reshape_bind x
  exact eval_of (ev := evPlain 1) (j := prog) rfl (run_step _ _ rfl h1 _ rfl (run_step _ _ rfl (transpose_bind x) _ rfl (run_step _ _ rfl (dot_bind x (tr x)) _ rfl
    (run_step _ _ rfl (tanh_bind (matmul x (tr x))) _ rfl (run_step _ _ rfl (total_bind _) _ rfl rfl))))) rfl

end GramDemo

open GramDemo in
/-- With sparsity disabled `forward_laplacian` returns for every input, and returns the derivatives of `gram`. -/
example (junk : List (PVal ℝ) → PVal ℝ) (x : Fin 4 → ℝ) : ∃ ys, forwardLaplacian Demo.reg junk 0 1 GramDemo.prog [] .absent (plainArgs [4] x) = .ok ys ∧
    List.Forall₂ (Correct x) ys [⟨1, fun z _ => gram z⟩] := by
  obtain ⟨f, f1, f2⟩ := C73_everywhere Demo.reg junk 0 (n := 4) (by decide) [4] rfl 1 GramDemo.prog []
    (GramDemo.prog_calls _ (reshape_smooth _) (transpose_smooth _) matmul_smooth (tanh_smooth _) (total_smooth _))
    (by
      intro e he
      simp only [GramDemo.prog, List.mem_cons, List.not_mem_nil, or_false] at he
      rcases he with rfl | rfl | rfl | rfl | rfl <;> trivial)
    (fun v _ => le_trans (List.count_le_length ..) (by decide)) 0 _ (GramDemo.prog_eval 0)
  rw [farr_ext f [⟨1, fun z _ => gram z⟩] fun z => Except.ok.inj ((f1 z).symm.trans (GramDemo.prog_eval z))] at f2
  exact f2 x

open GramDemo in
/-- With every threshold: whatever it returns is right (no condition on the input is left). -/
example (junk : List (PVal ℝ) → PVal ℝ) (t : ℚ) (x : Fin 4 → ℝ) (ys : List (PVal ℝ)) (h : forwardLaplacian Demo.reg junk t 1 GramDemo.prog [] .absent (plainArgs [4] x) = .ok ys) :
    List.Forall₂ (ExactVal (fun _ => 1) x) ys [⟨1, fun z _ => gram z⟩] := by
  have up : ∀ p, SmoothRetFn true p → SmoothFn (decide (0 < threshold t 4)) p := fun p ⟨_, _, sp, _, ret, h1, h2, h3⟩ => ⟨_, _, sp, _, ret, h1, fun _ => h1.sp_of_ret (h2 rfl), h3⟩
  obtain ⟨f, f1, f2⟩ := C73_exact Demo.reg junk t (n := 4) (by decide) [4] rfl 1 GramDemo.prog []
    (GramDemo.prog_calls _ (up _ (reshape_smooth _)) (up _ (transpose_smooth _)) ⟨_, _, _, _, _, .dotGeneral DotArrDemo.mm [2, 2] [2, 2] DotArrDemo.mm_ok (by decide) (by decide),
      fun _ => ⟨by decide, fun _ h => absurd h (by decide)⟩, fun _ => trivial⟩ (up _ (tanh_smooth _)) (up _ (total_smooth _)))
    .absent (fun _ => 1) x (weights_absent [4] rfl) ys h
  rw [farr_ext f [⟨1, fun z _ => gram z⟩] fun z => Except.ok.inj ((f1 z).symm.trans (GramDemo.prog_eval z))] at f2
  exact f2

/-! ### `x.at[2].max(y)` -/

namespace ScatterMaxDemo

/-- One index: the third element. -/
def index : ND ℤ := ND.ofFn [1, 1] fun _ => 2
def dims : ScatterDims := ⟨[], [0], [0], [], []⟩
noncomputable def a : Fin ([3] : List ℕ).prod → ℝ := fun i => if i.val = 2 then 3 else if i.val = 1 then 1 else 5
noncomputable def b : Fin ([1] : List ℕ).prod → ℝ := fun _ => 4
noncomputable def operands : (i : Fin 2) → Fin (two [3] [1] i).prod → ℝ := pairVec (s := [3]) (t := [1]) a b

theorem a_two : (toND [3] a).get [2] = 3 := by
  rw [toND_get _ _ (by decide +kernel : InB [2] [3])]
  exact if_pos (by decide +kernel)

theorem b_at {u : List ℕ} (hu : InB u [1]) : (toND [1] b).get u = 4 := toND_get _ _ hu
noncomputable def maxP : Prim ℝ := (bestArr (m := 1) true (two [3] [1]) [3] (combineTerms [3] [1] dims index) Layout.listMax).prim fun _ => none

theorem terms_at : combineTerms [3] [1] dims index [0] = [(0, [0])] ∧ combineTerms [3] [1] dims index [1] = [(0, [1])] ∧ combineTerms [3] [1] dims index [2] = [(0, [2]), (1, [0])] := by
  decide +kernel

theorem no_tie : OneBest (m := 1) (· < ·) (two [3] [1]) [3] (combineTerms [3] [1] dims index) operands := by
  intro w hw
  have : w = [0] ∨ w = [1] ∨ w = [2] := by
    have h := mem_allIdx.mpr hw
    have e : allIdx [3] = [[0], [1], [2]] := by decide +kernel
    rw [e] at h
    simpa using h
  rcases this with rfl | rfl | rfl
  · rw [terms_at.1]
    exact ⟨(0, [0]), by simp, fun r' h hne => absurd (by simpa using h) hne⟩
  · rw [terms_at.2.1]
    exact ⟨(0, [1]), by simp, fun r' h hne => absurd (by simpa using h) hne⟩
  · rw [terms_at.2.2]
    refine ⟨(1, [0]), by simp, fun r' h hne => ?_⟩
    obtain rfl : r' = (0, [2]) := by
      rcases List.mem_cons.mp h with h | h
      · exact h
      · exact absurd (by simpa using h) hne
    show (toND [3] a).get [2] < (toND [1] b).get [0]
    rw [a_two, b_at (by decide +kernel)]
    norm_num

/-- A case of the entry `scatter_max`: with sparse Jacobians it is exact at this point. -/
example (n : ℕ) : ArrGood true n maxP operands :=
  C72_good (.scatterMax true [3] [1] dims (by decide) (by decide) index) true (fun _ => ⟨by simp, by simp⟩) no_tie n

/-- And the third element of the result is that of the update, `4`. -/
example : (toND [3] (maxP.fwd operands (0 : Fin 1))).get [2] = 4 := by
  refine (C72_scatter_max_value (s := [3]) (upd := [1]) (g := dims) (index := index) true operands (w := [2]) (by decide +kernel)).unique ⟨Or.inr ⟨[0], by decide +kernel, by decide +kernel, ?_⟩, ?_⟩
  · exact (b_at (by decide +kernel)).symm
  · rintro c (rfl | ⟨u, hu, -, rfl⟩)
    · show (toND [3] a).get [2] ≤ 4
      rw [a_two]
      norm_num
    · exact (b_at hu).le

end ScatterMaxDemo

end Folx

import Verif.Props.ArrayProps

/-!
# C49, C50: `x[ids]` and `x.at[ids].add(y)` along the leading axis

`C49_gather` and `C50_scatter_add` describe all dimension numbers.  Here they are read off for the numbers JAX emits for `x[ids]`
and `x.at[ids].add(y)`; the statements mention array elements only.
-/

namespace Folx

open Filter Topology Vmap Dot

variable {F : Type} [RCLike F]

attribute [local instance] instInhabitedScalar

/-- The dimensions `1, …, r`. -/
def tailDims (r : ℕ) : List ℕ := (List.range r).map (· + 1)

/-- `GatherDimensionNumbers` of `x[ids]` for `ids` with one axis. -/
def takeDims (r : ℕ) : GatherDims := ⟨tailDims r, [0], [0], [], []⟩

/-- `ScatterDimensionNumbers` of `x.at[ids].add(y)`. -/
def putDims (r : ℕ) : ScatterDims := ⟨tailDims r, [0], [0], [], []⟩

theorem tail_batch (r i : ℕ) (v : List ℕ) (hv : v.length = r) :
    ((List.range (i :: v).length).filter fun k => decide (k ∉ tailDims r)).map (fun k => (i :: v).getD k 0) = [i] := by
  have h1 : (List.range (i :: v).length).filter (fun k => decide (k ∉ tailDims r)) = [0] := by
    rw [List.length_cons, List.range_succ_eq_map, List.filter_cons_of_pos (by simp [tailDims])]
    congr 1
    rw [List.filter_eq_nil_iff]
    intro k hk
    obtain ⟨j, hj, rfl⟩ := List.mem_map.mp hk
    have := List.mem_range.mp hj
    simp [tailDims]
    omega
  rw [h1]
  rfl

theorem tail_window (r : ℕ) : (List.range (r + 1)).filter (fun d => decide (d ∉ [0] ∧ d ∉ ([] : List ℕ))) = tailDims r := by
  rw [List.range_succ_eq_map, List.filter_cons_of_neg (by simp)]
  rw [List.filter_eq_self.mpr]
  · rfl
  · intro k hk
    obtain ⟨j, _, rfl⟩ := List.mem_map.mp hk
    simp

theorem tail_idxOf {r d : ℕ} (hd : d < r) : (tailDims r).idxOf (d + 1) = d := by
  have hl : d < (tailDims r).length := by simp [tailDims, hd]
  have hn : (tailDims r).Nodup := List.nodup_range.map (fun a b h => Nat.succ.inj h)
  have := hn.idxOf_getElem d hl
  simpa [tailDims] using this

theorem tail_getD {r d : ℕ} (hd : d < r) : (tailDims r).getD d 0 = d + 1 := by
  rw [List.getD_eq_getElem _ _ (by simp [tailDims, hd])]
  simp [tailDims]

theorem mem_tail {r d : ℕ} : d + 1 ∈ tailDims r ↔ d < r := by simp [tailDims]

theorem zero_tail {r : ℕ} : 0 ∉ tailDims r := by simp [tailDims]

theorem take_ok {m k : ℕ} {rest : List ℕ} (hm : 0 < m) :
    GatherOk (m :: rest) [k, 1] (k :: rest) (1 :: rest) (takeDims rest.length) where
  slice := by
    intro d _
    cases d with
    | zero => exact hm
    | succ d => simp
  dropped := by
    intro d hd h
    rw [show (takeDims rest.length).window (m :: rest).length = tailDims rest.length from tail_window _] at h
    cases d with
    | zero => rfl
    | succ d => exact absurd (mem_tail.mpr (by simpa using hd)) h
  offset := by
    intro d hd
    rw [show (takeDims rest.length).window (m :: rest).length = tailDims rest.length from tail_window _] at hd ⊢
    cases d with
    | zero => exact absurd hd zero_tail
    | succ d =>
      have hd := mem_tail.mp hd
      rw [tail_idxOf hd, show (takeDims rest.length).offset.getD d 0 = d + 1 from tail_getD hd]
      exact ⟨by simpa using hd, rfl⟩
  ids := by
    have := tail_batch rest.length k rest rfl
    rw [show (takeDims rest.length).batchOf (k :: rest) = [k] from this]
    rfl
  batch := by intro d hd; exact absurd (show d ∈ ([] : List ℕ) from hd) (by simp)

/-- **C49, `x[ids]`** for an array of any rank and shape and `k` integers known to be plain: the rule is exact, and row `i` of the
result is row `ids i` of `x`, out-of-range numbers being clamped. -/
theorem C49_take (static oneAxis : Bool) (T n : ℕ) (hn : 0 < n) {m k : ℕ} {rest : List ℕ} (hs : 0 < (m :: rest).prod)
    (hk : 0 < [k, 1].prod)
    (o : (i : Fin 2) → Opd F ((gatherOp (m :: rest) [k, 1] (k :: rest) (1 :: rest) (takeDims rest.length) hs hk).shapes i).prod)
    (start : Fin [k, 1].prod → ℤ) (ho : o (1 : Fin 2) = .plain fun p => (start p : F)) :
    ((gatherOp (m :: rest) [k, 1] (k :: rest) (1 :: rest) (takeDims rest.length) hs hk).prim F static oneAxis).ExactCall T n o ∧
    ∀ (x : Fin (m :: rest).prod → F) (i : Fin k) (v : List ℕ), InB v rest →
      (toND (k :: rest) (((gatherOp (m :: rest) [k, 1] (k :: rest) (1 :: rest) (takeDims rest.length) hs hk).prim F static
        oneAxis).fwd
        (Fin.cons (α := fun i : Fin 2 => Fin ((gatherOp (m :: rest) [k, 1] (k :: rest) (1 :: rest) (takeDims rest.length) hs
          hk).shapes i).prod → F) x (Fin.cons (fun p => (start p : F)) fun i => i.elim0)) (0 : Fin 1))).get (i :: v) =
        (toND (m :: rest) x).get ((max 0 (min (start ⟨i, by simp⟩) (m - 1))).toNat :: v) := by
  have hm : 0 < m := Nat.pos_of_ne_zero fun h => by simp [h] at hs
  obtain ⟨h1, h2⟩ := C49_gather (F := F) static oneAxis T n hn hs hk (take_ok (k := k) (rest := rest) hm) o start ho
  refine ⟨h1, fun x i v hv => (h2 x (i :: v) (List.Forall₂.cons i.2 hv)).trans (congrArg _ ?_)⟩
  have hb : (takeDims rest.length).batchOf (i :: v) = [(i : ℕ)] := tail_batch rest.length i v hv.length_eq
  have hw : (takeDims rest.length).window (m :: rest).length = tailDims rest.length := tail_window _
  rw [hb, hw]
  have hvl := hv.length_eq
  refine List.ext_getElem (by simp [hvl]) fun d hd1 hd2 => ?_
  rw [List.getElem_map, List.getElem_range]
  cases d with
  | zero =>
    rw [if_pos (by simp [takeDims]), if_neg (by simp [takeDims]), if_neg zero_tail]
    have hin : InB [(i : ℕ), 0] [k, 1] := List.Forall₂.cons i.2 (List.Forall₂.cons Nat.one_pos List.Forall₂.nil)
    have hg : (toND [k, 1] start).get ([(i : ℕ)] ++ [(takeDims rest.length).startMap.idxOf 0]) = start ⟨i, by simp⟩ := by
      refine (toND_get [k, 1] start hin).trans (congrArg start (Fin.ext ?_))
      show ravelIdx [k, 1] [(i : ℕ), 0] = i
      simp [ravelIdx]
    rw [hg]
    simp only [List.getD_cons_zero, List.getElem_cons_zero, Nat.add_zero]
    rw [Nat.cast_sub hm]
    rfl
  | succ d =>
    have hd : d < rest.length := by simpa [hvl] using hd2
    rw [if_neg (by simp [takeDims]), if_neg (by simp [takeDims]), if_pos (mem_tail.mpr hd), tail_idxOf hd,
      show (takeDims rest.length).offset.getD d 0 = d + 1 from tail_getD hd]
    simp [hvl, hd]

theorem put_hits {r k : ℕ} (at_ : Fin [k, 1].prod → ℤ) (i : Fin k) (v' : List ℕ) (hv' : v'.length = r) (a : ℕ) (v : List ℕ)
    (hv : v.length = r) :
    (putDims r).hits (r + 1) (toND [k, 1] at_) (i :: v') (a :: v) = decide (at_ ⟨i, by simp⟩ = a ∧ v' = v) := by
  unfold ScatterDims.hits
  rw [decide_eq_decide]
  have hb : (putDims r).batchOf (i :: v') = [(i : ℕ)] := tail_batch r i v' hv'
  have hw : (putDims r).window (r + 1) = tailDims r := tail_window _
  have hin : InB [(i : ℕ), 0] [k, 1] := List.Forall₂.cons i.2 (List.Forall₂.cons Nat.one_pos List.Forall₂.nil)
  have hg : (toND [k, 1] at_).get ([(i : ℕ)] ++ [(putDims r).map.idxOf 0]) = at_ ⟨i, by simp⟩ := by
    refine (toND_get [k, 1] at_ hin).trans (congrArg at_ (Fin.ext ?_))
    show ravelIdx [k, 1] [(i : ℕ), 0] = i
    simp [ravelIdx]
  have h0 : (putDims r).coord (r + 1) (toND [k, 1] at_) (i :: v') 0 = at_ ⟨i, by simp⟩ := by
    unfold ScatterDims.coord
    rw [hb, hw, if_pos (by simp [putDims]), if_neg (by simp [putDims]), if_neg zero_tail, hg]
    simp
  have hS : ∀ d < r, (putDims r).coord (r + 1) (toND [k, 1] at_) (i :: v') (d + 1) = v'.getD d 0 := by
    intro d hd
    unfold ScatterDims.coord
    rw [hb, hw, if_neg (by simp [putDims]), if_neg (by simp [putDims]), if_pos (mem_tail.mpr hd), tail_idxOf hd,
      show (putDims r).updWindow.getD d 0 = d + 1 from tail_getD hd]
    simp
  constructor
  · intro h
    refine ⟨by rw [← h0, h 0 (Nat.succ_pos _)]; rfl, List.ext_getElem (by rw [hv, hv']) fun d h1 h2 => ?_⟩
    have h3 := h (d + 1) (by omega)
    rw [hS d (by omega)] at h3
    simpa [List.getElem?_eq_getElem h1, List.getElem?_eq_getElem h2] using h3
  · rintro ⟨h1, rfl⟩ d hd
    cases d with
    | zero => rw [h0, h1]; rfl
    | succ d => rw [hS d (by omega)]; rfl

theorem allIdx_cons (k : ℕ) (rest : List ℕ) :
    allIdx (k :: rest) = (List.range k).flatMap fun i => (allIdx rest).map fun v => i :: v := by
  unfold allIdx
  induction k with
  | zero => simp
  | succ k ih =>
    rw [List.range_succ, List.flatMap_append, ← ih, List.prod_cons, List.prod_cons, Nat.succ_mul, List.range_add, List.map_append]
    refine congrArg₂ (· ++ ·) rfl ?_
    · simp only [List.flatMap_cons, List.flatMap_nil, List.append_nil, List.map_map]
      refine List.map_congr_left fun j hj => ?_
      have hj := List.mem_range.mp hj
      show unravelIdx ((k + 1) :: rest) (k * rest.prod + j) = k :: unravelIdx rest j
      simp only [unravelIdx]
      rw [Nat.add_comm, Nat.add_mul_div_right _ _ (by omega), Nat.div_eq_of_lt hj, Nat.add_mul_mod_self_right, Nat.mod_eq_of_lt hj,
        Nat.zero_add]

/-- Sum over the updates that go to row `a`. -/
theorem put_sum {r k : ℕ} {rest : List ℕ} (hr : rest.length = r) (at_ : Fin [k, 1].prod → ℤ) (a : ℕ) (v : List ℕ)
    (hv : InB v rest) (f : List ℕ → F) :
    (((allIdx (k :: rest)).filter fun u => (putDims r).hits (r + 1) (toND [k, 1] at_) u (a :: v)).map f).sum =
      ∑ i : Fin k, if at_ ⟨i, by simp⟩ = a then f (i :: v) else 0 := by
  rw [allIdx_cons, List.filter_flatMap, List.map_flatMap, List.flatMap_def, List.sum_flatten, List.map_map]
  rw [← List.sum_ofFn, List.ofFn_eq_map, ← List.map_coe_finRange_eq_range, List.map_map]
  congr 1
  refine List.map_congr_left fun i _ => ?_
  simp only [Function.comp]
  have hvl : v.length = r := hv.length_eq.trans hr
  rw [List.filter_map, List.map_map]
  have : (allIdx rest).filter ((fun u => (putDims r).hits (r + 1) (toND [k, 1] at_) u (a :: v)) ∘ fun v => (i : ℕ) :: v) =
      if at_ ⟨i, by simp⟩ = a then [v] else [] := by
    have e : (allIdx rest).filter ((fun u => (putDims r).hits (r + 1) (toND [k, 1] at_) u (a :: v)) ∘ fun v => (i : ℕ) :: v) =
        (allIdx rest).filter fun v' => decide (at_ ⟨i, by simp⟩ = a ∧ v' = v) := by
      refine List.filter_congr fun v' hv' => ?_
      exact put_hits at_ i v' ((mem_allIdx.mp hv').length_eq.trans hr) a v hvl
    rw [e]
    split
    · rename_i h
      have e2 : (allIdx rest).filter (fun v' => decide (at_ ⟨i, by simp⟩ = a ∧ v' = v)) = (allIdx rest).filter (· == v) := by
        refine List.filter_congr fun v' _ => ?_
        simp only [h, true_and]
        exact (beq_eq_decide v' v).symm
      rw [e2, List.filter_beq, List.count_eq_one_of_mem (nodup_allIdx rest) (mem_allIdx.mpr hv)]
      rfl
    · rename_i h
      rw [List.filter_eq_nil_iff]
      intro v' _
      rw [decide_eq_true_eq]
      exact fun hh => h hh.1
  rw [this]
  split <;> simp

/-- **C50, `x.at[ids].add(y)`** for an array of any rank and shape: the rule is exact; row `a` of the result is row `a` of `x` plus
all rows `y i` with `ids i = a`.  Repeated numbers add up, numbers out of range have no effect. -/
theorem C50_add_at (oneAxis : Bool) (T n : ℕ) (hn : 0 < n) {m k : ℕ} {rest : List ℕ} (hs : 0 < (m :: rest).prod)
    (hk : 0 < [k, 1].prod) (hu : 0 < (k :: rest).prod)
    (o : (i : Fin 3) → Opd F ((scatterCombineOp (m :: rest) [k, 1] (k :: rest) (putDims rest.length) hs hk hu).shapes i).prod)
    (at_ : Fin [k, 1].prod → ℤ) (ho : o (1 : Fin 3) = .plain fun p => (at_ p : F)) :
    ((scatterCombineOp (m :: rest) [k, 1] (k :: rest) (putDims rest.length) hs hk hu).prim List.sum oneAxis).ExactCall T n o ∧
    ∀ (x : Fin (m :: rest).prod → F) (y : Fin (k :: rest).prod → F) (a : Fin m) (v : List ℕ), InB v rest →
      (toND (m :: rest) (((scatterCombineOp (m :: rest) [k, 1] (k :: rest) (putDims rest.length) hs hk hu).prim List.sum
        oneAxis).fwd (scatterArgs hs hk hu x at_ y) (0 : Fin 1))).get (a :: v) =
        (toND (m :: rest) x).get (a :: v) +
          ∑ i : Fin k, if at_ ⟨i, by simp⟩ = a then (toND (k :: rest) y).get (i :: v) else 0 := by
  obtain ⟨h1, h2⟩ := C50_scatter_add (F := F) oneAxis T n hn hs hk hu ⟨by simp, by simp⟩ o at_ ho
  refine ⟨h1, fun x y a v hv => (h2 x y (a :: v) (List.Forall₂.cons a.2 hv)).trans ?_⟩
  unfold scatterTerms hitsAt
  rw [List.sum_cons]
  congr 1
  exact put_sum rfl at_ a v hv fun u => (toND (k :: rest) y).get u

/-- `x[[2, 0]]` for `x` of shape `(3, 2)`, and `x.at[[1, 1]].add(y)`: shapes that meet the hypotheses. -/
example : 0 < (3 :: [2]).prod ∧ 0 < [2, 1].prod ∧ 0 < (2 :: [2]).prod := by decide

/-- Negative and too large numbers: `x[[-1, 7]]` (clip) on three elements reads elements 0 and 2. -/
example : (max 0 (min (-1 : ℤ) (3 - 1))).toNat = 0 ∧ (max 0 (min (7 : ℤ) (3 - 1))).toNat = 2 := by decide

end Folx

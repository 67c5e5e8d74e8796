import Verif.Prog.IndexOps
import Verif.Prog.Lib2
import Verif.Prog.DotGeneralProofs

/-!
# The other registered operations on whole arrays with shapes

`cumsum`, `scatter_add`, `scatter_max`, `scatter_min` (flagged `LINEAR`, `wrapped_functions.py:342-344,407-421`) and the
reductions along axes (`wrapped_functions.py:324-341`).
-/

namespace Folx

open Filter Topology Vmap Dot
open Folx.Interp (Err)

variable {F : Type} [RCLike F]

attribute [local instance] instInhabitedScalar

/-- An operation whose output elements combine elements of the operands: `terms ints w` are the elements combined to
output index `w` (operand and index). -/
structure CombineOp where
  nIn : ℕ
  shapes : Fin nIn → List ℕ
  pos : ∀ i, 0 < (shapes i).prod
  out : List ℕ
  data : Fin nIn → Bool
  terms : ((i : Fin nIn) → ND ℤ) → List ℕ → List (Fin nIn × List ℕ)

namespace CombineOp

variable (op : CombineOp)

/-- The integer operands (zeros in place of the others). -/
noncomputable def ints (x : (i : Fin op.nIn) → Fin (op.shapes i).prod → F) (i : Fin op.nIn) : ND ℤ :=
  toND (op.shapes i) fun p => if op.data i then 0 else asInt (x i p)

/-- The combined elements. -/
noncomputable def vals (x : (i : Fin op.nIn) → Fin (op.shapes i).prod → F) (q : Fin op.out.prod) : List F :=
  (op.terms (op.ints x) (unravelIdx op.out q)).map fun r =>
    x r.1 (finOr _ (op.pos r.1) (ravelIdx (op.shapes r.1) r.2))

/-- The operation wrapped with `flags=LINEAR` and without `in_axes`; `comb` combines the elements (sum, maximum, minimum). -/
noncomputable def std (comb : List F → F) (oneAxis : Bool) : Std F :=
  arrStd op.nIn (fun i => (op.shapes i).prod) op.out.prod op.pos (fun x q => comb (op.vals x q)) Flags.LINEAR
    (fun i => allAxes op.out.prod (op.shapes i).prod (op.pos i) (op.shapes i).isEmpty) (fun _ => none) (fun _ _ => none)
    true oneAxis fun _ _ _ => none

/-- The primitive in the interpreter. -/
noncomputable def prim (comb : List F → F) (oneAxis : Bool) : Prim F := (op.std comb oneAxis).toWPrim.toPrim

/-- The integer operands hold integers; the combined elements exist. -/
structure Valid (x : (i : Fin op.nIn) → Fin (op.shapes i).prod → F) : Prop where
  int : ∀ i, op.data i = false → ∀ p, ∃ k : ℤ, x i p = k
  inb : ∀ w, InB w op.out → ∀ r ∈ op.terms (op.ints x) w, op.data r.1 = true ∧ InB r.2 (op.shapes r.1)

theorem ints_const {x : (i : Fin op.nIn) → Fin (op.shapes i).prod → F} (h : op.Valid x) :
    ∀ᶠ y in 𝓝 x, op.ints y = op.ints x := by
  have key : ∀ i p, ∀ᶠ y in 𝓝 x, (if op.data i then (0 : ℤ) else asInt (y i p)) = if op.data i then 0 else asInt (x i p) := by
    intro i p
    by_cases hd : op.data i = true
    · simp [hd]
    · have hd : op.data i = false := by simpa using hd
      obtain ⟨k, hk⟩ := h.int i hd p
      have hc : ContinuousAt (fun y : (i : Fin op.nIn) → Fin (op.shapes i).prod → F => y i p) x :=
        ((continuous_apply p).comp (continuous_apply i)).continuousAt
      have hev := asInt_const (F := F) k
      rw [← hk] at hev
      filter_upwards [hc.eventually hev] with y hy
      simp only [hd, Bool.false_eq_true, if_false]
      rw [hy, hk, asInt_intCast]
  have h2 : ∀ᶠ y in 𝓝 x, ∀ i p, (if op.data i then (0 : ℤ) else asInt (y i p)) = if op.data i then 0 else asInt (x i p) :=
    eventually_all.mpr fun i => eventually_all.mpr fun p => key i p
  filter_upwards [h2] with y hy
  funext i
  unfold ints
  congr 1
  funext p
  exact hy i p

/-- What the operation computes. -/
theorem meaning (comb : List F → F) (oneAxis : Bool) {x : (i : Fin op.nIn) → Fin (op.shapes i).prod → F} (h : op.Valid x)
    {w : List ℕ} (hw : InB w op.out) :
    (toND op.out ((op.prim comb oneAxis).fwd x (0 : Fin 1))).get w =
      comb ((op.terms (op.ints x) w).map fun r => (toND (op.shapes r.1) (x r.1)).get r.2) := by
  show (toND op.out (fun q => comb (op.vals x q))).get w = _
  rw [toND_get _ _ hw]
  unfold vals
  dsimp only
  rw [unravelIdx_ravelIdx hw]
  congr 1
  refine List.map_congr_left fun r hr => ?_
  have h3 := (h.inb w hw r hr).2
  rw [toND_get _ _ h3, finOr_of_lt (ravelIdx_lt h3)]

/-- One element as linear function of all operands. -/
noncomputable def projL (F : Type) [RCLike F] {nIn : ℕ} (size : Fin nIn → ℕ) (i : Fin nIn) (p : Fin (size i)) :
    ((i : Fin nIn) → Fin (size i) → F) →L[F] F :=
  (ContinuousLinearMap.proj (R := F) (φ := fun _ : Fin (size i) => F) p).comp
    (ContinuousLinearMap.proj (R := F) (φ := fun i : Fin nIn => Fin (size i) → F) i)

theorem affine_of_eventually {x : (i : Fin op.nIn) → Fin (op.shapes i).prod → F} (comb : List F → F)
    (L : Fin op.out.prod → ((i : Fin op.nIn) → Fin (op.shapes i).prod → F) →L[F] F)
    (h : ∀ q, ∀ᶠ y in 𝓝 x, comb (op.vals y q) = L q y) : AffineAt F (fun x q => comb (op.vals x q)) x := by
  refine ⟨ContinuousLinearMap.pi L, 0, ?_⟩
  filter_upwards [eventually_all.mpr h] with y hy
  funext q
  rw [add_zero]
  exact hy q

/-- Sums are linear. -/
theorem sum_affine {x : (i : Fin op.nIn) → Fin (op.shapes i).prod → F} (h : op.Valid x) :
    AffineAt F (fun x q => (op.vals x q).sum) x := by
  refine op.affine_of_eventually List.sum (fun q => ((op.terms (op.ints x) (unravelIdx op.out q)).map fun r =>
    projL F (fun i => (op.shapes i).prod) r.1 (finOr _ (op.pos r.1) (ravelIdx (op.shapes r.1) r.2))).sum) fun q => ?_
  filter_upwards [op.ints_const h] with y hy
  unfold vals
  rw [hy]
  generalize op.terms (op.ints x) (unravelIdx op.out q) = l
  induction l with
  | nil => simp
  | cons r l ih =>
    rw [List.map_cons, List.sum_cons, ih, List.map_cons, List.sum_cons]
    rfl

theorem true_at (comb : List F → F) (oneAxis : Bool) (n : ℕ) {x : (i : Fin op.nIn) → Fin (op.shapes i).prod → F}
    (h : AffineAt F (fun x q => comb (op.vals x q)) x) : (op.std comb oneAxis).TrueAt n x :=
  arr_linear n (fun i => (op.shapes i).isEmpty) (fun i hi => by
    rw [List.isEmpty_iff] at hi
    rw [hi]; rfl) x h

/-- One operand is combined, or none of the combined operands is a scalar. -/
def FewScalars : Prop :=
  (∀ i, op.data i = true → op.shapes i ≠ []) ∨ ∀ i j, op.data i = true → op.data j = true → i = j

theorem noDefect (comb : List F → F) (oneAxis : Bool) (T : ℕ) (hf : op.FewScalars)
    (o : (i : Fin op.nIn) → Opd F ((op.shapes i).prod)) (hp : ∀ i, op.data i = false → (o i).isLapl = false) :
    (((op.std comb oneAxis).inst (WPrim.laplEmb o) fun i => (o i).x).NoDefect T
      fun a => (o (WPrim.laplEmb o a)).trip) := by
  have hdata : ∀ a, op.data (WPrim.laplEmb o a) = true := by
    intro a
    by_contra hc
    have h1 := hp (WPrim.laplEmb o a) (by simpa using hc)
    have h2 := (WPrim.laplEmb_range o _).mp ⟨a, rfl⟩
    rw [h1] at h2
    simp at h2
  refine ⟨fun _ => ?_, fun _ => Or.inr (Or.inr (Or.inl ?_))⟩
  · rcases hf with hf | hf
    · right
      intro a _
      have hne : (op.shapes (WPrim.laplEmb o a)).isEmpty = false := by
        have := hf _ (hdata a)
        cases hs : op.shapes (WPrim.laplEmb o a) with
        | nil => exact absurd hs this
        | cons _ _ => rfl
      refine ⟨⟨Unit, Fin (op.shapes (WPrim.laplEmb o a)).prod, (Equiv.uniqueProd _ Unit).symm, fun _ => ()⟩, ?_⟩
      show allAxes op.out.prod (op.shapes (WPrim.laplEmb o a)).prod _ (op.shapes (WPrim.laplEmb o a)).isEmpty = _
      unfold allAxes
      rw [hne]
      rfl
    · left
      intro a b _ _
      exact (WPrim.laplEmb o).injective (hf _ _ (hdata a) (hdata b))
  · show Flags.LINEAR.has Flags.LINEAR_IN_ONE = true
    decide

/-- Calls of these operations hit no defect. -/
theorem goodCall (comb : List F → F) (oneAxis : Bool) (T n : ℕ) (hf : op.FewScalars)
    (o : (i : Fin op.nIn) → Opd F ((op.shapes i).prod)) (hp : ∀ i, op.data i = false → (o i).isLapl = false)
    (hv : AffineAt F (fun x q => comb (op.vals x q)) fun i => (o i).x) : GoodCall T n (op.prim comb oneAxis) o :=
  .wrapped (op.std comb oneAxis) o (op.true_at comb oneAxis n hv) (op.noDefect comb oneAxis T hf o hp)

end CombineOp

/-! ### Maxima and minima -/

/-- Maximum of a list of numbers. -/
noncomputable def listMax (l : List ℝ) : ℝ := l.foldr max (l.headD 0)

/-- Minimum of a list of numbers. -/
noncomputable def listMin (l : List ℝ) : ℝ := l.foldr min (l.headD 0)

theorem foldr_max_eq (l : List ℝ) (b m : ℝ) (hb : b ≤ m) (h : ∀ a ∈ l, a ≤ m) (hm : m = b ∨ m ∈ l) : l.foldr max b = m := by
  induction l with
  | nil =>
    rcases hm with h | h
    · exact h.symm
    · simp at h
  | cons a l ih =>
    rw [List.foldr_cons]
    by_cases h' : m = b ∨ m ∈ l
    · rw [ih (fun c hc => h c (by simp [hc])) h', max_eq_right (h a (by simp))]
    · have ham : m = a := by
        rcases hm with hm | hm
        · exact absurd (Or.inl hm) h'
        · rcases List.mem_cons.mp hm with hm | hm
          · exact hm
          · exact absurd (Or.inr hm) h'
      have : l.foldr max b ≤ m := by
        clear ih hm h'
        induction l with
        | nil => exact hb
        | cons c l ih => exact max_le (h c (by simp)) (ih fun e he => h e (by
            rcases List.mem_cons.mp he with rfl | he
            · simp
            · simp [he]))
      rw [← ham, max_eq_left this]

theorem listMax_eq (l : List ℝ) (m : ℝ) (hm : m ∈ l) (h : ∀ a ∈ l, a ≤ m) : listMax l = m := by
  cases l with
  | nil => simp at hm
  | cons a l => exact foldr_max_eq (a :: l) a m (h a (by simp)) h (Or.inr hm)

theorem listMin_eq_neg (l : List ℝ) : listMin l = -listMax (l.map Neg.neg) := by
  unfold listMin listMax
  have key : ∀ (l : List ℝ) (b : ℝ), l.foldr min b = -((l.map Neg.neg).foldr max (-b)) := by
    intro l b
    induction l with
    | nil => simp
    | cons a l ih =>
      rw [List.foldr_cons, ih, List.map_cons, List.foldr_cons, ← min_neg_neg, neg_neg]
  rw [key]
  cases l with
  | nil => simp
  | cons a l => rfl

theorem listMin_eq (l : List ℝ) (m : ℝ) (hm : m ∈ l) (h : ∀ a ∈ l, m ≤ a) : listMin l = m := by
  rw [listMin_eq_neg, listMax_eq _ (-m) (List.mem_map_of_mem hm), neg_neg]
  intro a ha
  obtain ⟨b, hb, rfl⟩ := List.mem_map.mp ha
  exact neg_le_neg (h b hb)

namespace CombineOp

variable (op : CombineOp)

/-- No tie: at output `w` one element strictly exceeds (`sgn = 1`) or is exceeded by (`sgn = -1`) all others. -/
def NoTie (sgn : ℝ) (x : (i : Fin op.nIn) → Fin (op.shapes i).prod → ℝ) : Prop :=
  ∀ w, InB w op.out → ∃ r ∈ op.terms (op.ints x) w, ∀ r' ∈ op.terms (op.ints x) w, r' ≠ r →
    sgn * (toND (op.shapes r'.1) (x r'.1)).get r'.2 < sgn * (toND (op.shapes r.1) (x r.1)).get r.2

theorem extremal_affine (sgn : ℝ) (comb : List ℝ → ℝ)
    (hcomb : ∀ (l : List ℝ) (m : ℝ), m ∈ l → (∀ a ∈ l, sgn * a ≤ sgn * m) → comb l = m)
    {x : (i : Fin op.nIn) → Fin (op.shapes i).prod → ℝ} (h : op.Valid x) (ht : op.NoTie sgn x) :
    AffineAt ℝ (fun x q => comb (op.vals x q)) x := by
  have hw : ∀ q : Fin op.out.prod, InB (unravelIdx op.out q) op.out := fun q => inB_unravelIdx q.2
  choose r hr hmax using fun q : Fin op.out.prod => ht _ (hw q)
  have hget : ∀ q : Fin op.out.prod, ∀ r' ∈ op.terms (op.ints x) (unravelIdx op.out q), ∀ y : (i : Fin op.nIn) → Fin (op.shapes i).prod → ℝ,
      (toND (op.shapes r'.1) (y r'.1)).get r'.2 = y r'.1 (finOr _ (op.pos r'.1) (ravelIdx (op.shapes r'.1) r'.2)) := by
    intro q r' hr' y
    have h3 := (h.inb _ (hw q) r' hr').2
    rw [toND_get _ _ h3, finOr_of_lt (ravelIdx_lt h3)]
  refine op.affine_of_eventually comb (fun q => projL ℝ (fun i => (op.shapes i).prod) (r q).1
    (finOr _ (op.pos (r q).1) (ravelIdx (op.shapes (r q).1) (r q).2))) fun q => ?_
  set tm := op.terms (op.ints x) (unravelIdx op.out q) with htm
  have hev : ∀ᶠ y in 𝓝 x, ∀ r' ∈ tm, r' ≠ r q →
      sgn * y r'.1 (finOr _ (op.pos r'.1) (ravelIdx (op.shapes r'.1) r'.2)) <
        sgn * y (r q).1 (finOr _ (op.pos (r q).1) (ravelIdx (op.shapes (r q).1) (r q).2)) := by
    have : ∀ r' : {r' // r' ∈ tm}, ∀ᶠ y in 𝓝 x, r'.1 ≠ r q →
      sgn * y r'.1.1 (finOr _ (op.pos r'.1.1) (ravelIdx (op.shapes r'.1.1) r'.1.2)) <
        sgn * y (r q).1 (finOr _ (op.pos (r q).1) (ravelIdx (op.shapes (r q).1) (r q).2)) := by
      intro r'
      by_cases hne : r'.1 = r q
      · exact .of_forall fun _ hh => absurd hne hh
      · have h0 := hmax q r'.1 r'.2 hne
        rw [hget q r'.1 r'.2 x, hget q (r q) (hr q) x] at h0
        have k1 : Continuous fun y : (i : Fin op.nIn) → Fin (op.shapes i).prod → ℝ =>
            sgn * y r'.1.1 (finOr _ (op.pos r'.1.1) (ravelIdx (op.shapes r'.1.1) r'.1.2)) :=
          continuous_const.mul ((continuous_apply _).comp (continuous_apply _))
        have k2 : Continuous fun y : (i : Fin op.nIn) → Fin (op.shapes i).prod → ℝ =>
            sgn * y (r q).1 (finOr _ (op.pos (r q).1) (ravelIdx (op.shapes (r q).1) (r q).2)) :=
          continuous_const.mul ((continuous_apply _).comp (continuous_apply _))
        filter_upwards [(isOpen_lt k1 k2).mem_nhds h0] with y hy _
        exact hy
    have hfin : Finite {r' // r' ∈ tm} := List.finite_toSet tm
    filter_upwards [eventually_all.mpr this] with y hy r' hr' hne
    exact hy ⟨r', hr'⟩ hne
  filter_upwards [op.ints_const h, hev] with y hy hlt
  unfold vals
  rw [hy, ← htm]
  apply hcomb
  · exact List.mem_map.mpr ⟨r q, hr q, rfl⟩
  · intro a ha
    obtain ⟨r', hr', rfl⟩ := List.mem_map.mp ha
    by_cases hne : r' = r q
    · rw [hne]; exact le_refl _
    · exact (hlt r' hr' hne).le

end CombineOp

/-! ### The operations -/

/-- `cumsum` along an axis (`wrapped_functions.py:342-344`); `reverse` sums from the end. -/
def cumsumOp (s : List ℕ) (axis : ℕ) (reverse : Bool) (hs : 0 < s.prod) : CombineOp where
  nIn := 1
  shapes := fun _ => s
  pos := fun _ => hs
  out := s
  data := fun _ => true
  terms := fun _ w => ((List.range (s.getD axis 0)).filter fun j =>
    decide (if reverse then w.getD axis 0 ≤ j else j ≤ w.getD axis 0)).map fun j => (0, w.set axis j)

theorem cumsum_valid {s : List ℕ} {axis : ℕ} {reverse : Bool} (hs : 0 < s.prod)
    (x : (i : Fin 1) → Fin s.prod → F) : (cumsumOp s axis reverse hs).Valid x where
  int := fun _ hd => by simp [cumsumOp] at hd
  inb := fun w hw r hr => by
    have hw : InB w s := hw
    have hr : r ∈ ((List.range (s.getD axis 0)).filter fun j =>
      decide (if reverse then w.getD axis 0 ≤ j else j ≤ w.getD axis 0)).map fun j => ((0 : Fin 1), w.set axis j) := hr
    obtain ⟨j, hj, rfl⟩ := List.mem_map.mp hr
    have hj : j < s.getD axis 0 := by simpa using (List.mem_filter.mp hj).1
    refine ⟨rfl, ?_⟩
    show InB (w.set axis j) s
    unfold InB
    rw [List.forall₂_iff_get]
    refine ⟨by rw [List.length_set, hw.length_eq], fun d h3 h4 => ?_⟩
    simp only [List.get_eq_getElem, List.getElem_set]
    split
    · rename_i h; subst h; rw [List.getD_eq_getElem _ _ h4] at hj; exact hj
    · have := InB.getD_lt hw h4
      rw [List.getD_eq_getElem _ _ h4, List.getD_eq_getElem _ _ (by rw [hw.length_eq]; exact h4)] at this
      exact this

/-- `ScatterDimensionNumbers`. -/
structure ScatterDims where
  updWindow : List ℕ
  inserted : List ℕ
  map : List ℕ
  opBatch : List ℕ
  idxBatch : List ℕ

/-- The coordinates of an update that number the slices. -/
def ScatterDims.batchOf (g : ScatterDims) (u : List ℕ) : List ℕ :=
  ((List.range u.length).filter fun k => decide (k ∉ g.updWindow)).map fun k => u.getD k 0

/-- Operand dimensions spanned by an update window. -/
def ScatterDims.window (g : ScatterDims) (n : ℕ) : List ℕ :=
  (List.range n).filter fun d => decide (d ∉ g.inserted ∧ d ∉ g.opBatch)

/-- The operand coordinate along `d` where update `u` goes (XLA semantics): start index, batch coordinate, window offset. -/
def ScatterDims.coord (g : ScatterDims) (n : ℕ) (ids : ND ℤ) (u : List ℕ) (d : ℕ) : ℤ :=
  (if d ∈ g.map then ids.get (g.batchOf u ++ [g.map.idxOf d]) else 0) +
    (if d ∈ g.opBatch then (g.batchOf u).getD (g.idxBatch.getD (g.opBatch.idxOf d) 0) 0 else 0 : ℕ) +
    (if d ∈ g.window n then u.getD (g.updWindow.getD ((g.window n).idxOf d) 0) 0 else 0 : ℕ)

/-- Update `u` goes to operand index `w` (updates that fall outside are dropped). -/
def ScatterDims.hits (g : ScatterDims) (n : ℕ) (ids : ND ℤ) (u w : List ℕ) : Bool :=
  decide (∀ d < n, g.coord n ids u d = w.getD d 0)

/-- `scatter_add(operand, indices, updates)`, `scatter_max`, `scatter_min` (`wrapped_functions.py:407-421`): element `w` of
the operand is combined with all updates that go there. -/
def scatterCombineOp (s ids upd : List ℕ) (g : ScatterDims) (hs : 0 < s.prod) (hi : 0 < ids.prod) (hu : 0 < upd.prod) :
    CombineOp where
  nIn := 3
  shapes := ![s, ids, upd]
  pos := Fin.cases hs (Fin.cases hi (Fin.cases hu fun i => i.elim0))
  out := s
  data := ![true, false, true]
  terms := fun ints w => (0, w) :: ((allIdx upd).filter fun u => g.hits s.length (ints 1) u w).map fun u => (2, u)

theorem scatterCombine_valid {s ids upd : List ℕ} {g : ScatterDims} (hs : 0 < s.prod) (hi : 0 < ids.prod)
    (hu : 0 < upd.prod) (x : (i : Fin 3) → Fin ((scatterCombineOp s ids upd g hs hi hu).shapes i).prod → F)
    (hx : ∀ p, ∃ k : ℤ, x 1 p = k) : (scatterCombineOp s ids upd g hs hi hu).Valid x where
  int := fun i hd p => by
    revert hd p
    refine Fin.cases ?_ (Fin.cases ?_ (Fin.cases ?_ fun i => i.elim0)) i
    · intro hd; simp [scatterCombineOp] at hd
    · intro _ p; exact hx p
    · intro hd
      have hd : ![true, false, true] (2 : Fin 3) = false := hd
      simp at hd
  inb := fun w hw r hr => by
    have hr : r ∈ ((0 : Fin 3), w) :: ((allIdx upd).filter fun u =>
      g.hits s.length ((scatterCombineOp s ids upd g hs hi hu).ints x (1 : Fin 3)) u w).map fun u => ((2 : Fin 3), u) := hr
    rcases List.mem_cons.mp hr with rfl | hr
    · exact ⟨rfl, hw⟩
    · obtain ⟨u, h1, rfl⟩ := List.mem_map.mp hr
      exact ⟨rfl, mem_allIdx.mp (List.mem_filter.mp h1).1⟩

/-! ### Reductions along axes -/

/-- A reduction along the axes `dims` of an array of shape `s` with the given flags (`wrapped_functions.py:324-341`); the
axes are the keyword argument `axes` (`jvp.py:130-136`). -/
noncomputable def axesRed (s dims : List ℕ) (hs : 0 < s.prod)
    (hp : (keptDims s.length dims ++ dims).Perm (List.range s.length))
    (φ : (Fin (sizes s dims).prod → F) → F) (flags : Flags) : Std F :=
  arrStd 1 (oneSize s.prod) (sizes s (keptDims s.length dims)).prod (fun _ => hs)
    (reduceFn (axesSplit s _ dims hp) (fun q => q) φ) flags
    (fun _ => sumAxes s dims hp) (fun _ => sumSame s dims hp) (fun _ _ => none) true (decide (dims.length = 1))
    fun _ _ _ => none

theorem axesRed_axesOk {s dims : List ℕ} (hp : (keptDims s.length dims ++ dims).Perm (List.range s.length))
    (φ : (Fin (sizes s dims).prod → F) → F) (i : Fin 1) :
    AxesOk (reduceFn (axesSplit s _ dims hp) (fun q => q) φ) (fun _ => sumAxes s dims hp) (fun _ => sumSame s dims hp) i := by
  obtain rfl : i = 0 := Subsingleton.elim _ _
  cases dims with
  | nil =>
    unfold AxesOk sumAxes sumSame
    refine ⟨fun q y y' _ h2 => ?_, fun ε hε q => ?_⟩
    · unfold reduceFn
      congr 1
      funext c
      have hc : c = ⟨0, Nat.one_pos⟩ := by
        apply Fin.ext
        have : (c : ℕ) < 1 := c.2
        show (c : ℕ) = 0
        omega
      subst hc
      exact h2 _ rfl
    · have hε' := Option.some.inj hε
      subst hε'
      rfl
  | cons d ds =>
    unfold AxesOk sumAxes someAxes
    refine ⟨fun q y y' _ h2 => ?_, fun _ => Function.surjective_id⟩
    unfold reduceFn
    congr 1
    funext c
    refine h2 _ ?_
    simp

theorem axesRed_linear (n : ℕ) {s dims : List ℕ} (hs : 0 < s.prod)
    (hp : (keptDims s.length dims ++ dims).Perm (List.range s.length)) (φ : (Fin (sizes s dims).prod → F) → F)
    (x : (i : Fin 1) → Fin (oneSize s.prod i) → F)
    (h : ∀ q, AffineAt F φ fun c => x 0 ((axesSplit s _ dims hp).symm (q, c))) :
    (axesRed s dims hs hp φ (Flags.REDUCTION ||| Flags.LINEAR)).TrueAt n x :=
  arrStd_trueAt n x (axesRed_axesOk hp φ) ⟨by decide, by decide⟩ (reduce_affine _ _ φ x h).contDiffAt
    (fun _ => ⟨by decide, reduce_affine _ _ φ x h⟩)
    (fun _ => by decide) (fun _ => by decide) (fun h => noFlag' _ _ h (by decide))
    (fun h => noFlag' _ _ h (by decide)) (fun _ _ hc => by simp at hc)

theorem axesRed_general (n : ℕ) {s dims : List ℕ} (hs : 0 < s.prod)
    (hp : (keptDims s.length dims ++ dims).Perm (List.range s.length)) (φ : (Fin (sizes s dims).prod → F) → F)
    (x : (i : Fin 1) → Fin (oneSize s.prod i) → F)
    (h : ∀ q, ContDiffAt F 2 φ fun c => x 0 ((axesSplit s _ dims hp).symm (q, c))) :
    (axesRed s dims hs hp φ Flags.REDUCTION).TrueAt n x :=
  arrStd_trueAt n x (axesRed_axesOk hp φ) ⟨by decide, by decide⟩ (reduce_contDiffAt _ _ φ x h)
    (fun h => noFlag' _ _ h (by decide)) (fun h => noFlag' _ _ h (by decide)) (fun h => noFlag' _ _ h (by decide))
    (fun h => noFlag' _ _ h (by decide)) (fun h => noFlag' _ _ h (by decide)) (fun _ _ hc => by simp at hc)

/-- One operand and no sparse `JHJ` flag: nothing can go wrong. -/
theorem noDefect_single {k : ℕ} {P : Fin k → Type} {Q : Type} [∀ a, Fintype (P a)] (I : HInst k P Q F) (T : ℕ) (hk : k ≤ 1)
    (args : (a : Fin k) → Trip (P a) F) : I.NoDefect T args := by
  by_cases hw : ∀ a, (args a).jac.weak = true
  · by_cases h0 : k = 1
    · exact I.noDefect_weak T args hw (Or.inr (Or.inr h0))
    · have : k = 0 := by omega
      subst this
      exact I.noDefect_dense T args fun a => a.elim0
  · refine I.noDefect_dense T args fun a => ?_
    push_neg at hw
    obtain ⟨b, hb⟩ := hw
    have : a = b := Fin.ext (by omega)
    rw [this]; simpa using hb

theorem laplIdx_card_le {nIn : ℕ} {size : Fin nIn → ℕ} (o : (i : Fin nIn) → Opd F (size i)) :
    (WPrim.laplIdx o).card ≤ nIn := by
  have := Finset.card_le_univ (WPrim.laplIdx o)
  simpa using this

/-- Calls of one-operand wrapped functions with true declarations hit no defect. -/
theorem goodCall_single (s : Std F) (hone : s.nIn = 1) (T n : ℕ) (o : (i : Fin s.nIn) → Opd F (s.size i))
    (h : s.TrueAt n fun i => (o i).x) : GoodCall T n s.toWPrim.toPrim o :=
  .wrapped s o h (noDefect_single _ T ((laplIdx_card_le o).trans (le_of_eq hone)) _)

theorem reduced_pos {s dims : List ℕ} (hs : 0 < s.prod)
    (hp : (keptDims s.length dims ++ dims).Perm (List.range s.length)) : 0 < (sizes s dims).prod :=
  Nat.pos_of_ne_zero fun h0 => by
    have := ((axesSplit s _ dims hp) ⟨0, hs⟩).2.2
    omega

/-- `reduce_max` along axes (`wrapped_functions.py:329-333`). -/
noncomputable def reduceMaxOp (s dims : List ℕ) (hs : 0 < s.prod)
    (hp : (keptDims s.length dims ++ dims).Perm (List.range s.length)) : Std ℝ :=
  haveI : Nonempty (Fin (sizes s dims).prod) := ⟨⟨0, reduced_pos hs hp⟩⟩
  axesRed s dims hs hp maxFn (Flags.REDUCTION ||| Flags.LINEAR)

/-- `reduce_min` along axes (`wrapped_functions.py:334-338`). -/
noncomputable def reduceMinOp (s dims : List ℕ) (hs : 0 < s.prod)
    (hp : (keptDims s.length dims ++ dims).Perm (List.range s.length)) : Std ℝ :=
  haveI : Nonempty (Fin (sizes s dims).prod) := ⟨⟨0, reduced_pos hs hp⟩⟩
  axesRed s dims hs hp minFn (Flags.REDUCTION ||| Flags.LINEAR)

/-- `reduce_prod` along axes (`wrapped_functions.py:339-341`). -/
noncomputable def reduceProdOp (F : Type) [RCLike F] (s dims : List ℕ) (hs : 0 < s.prod)
    (hp : (keptDims s.length dims ++ dims).Perm (List.range s.length)) : Std F :=
  axesRed s dims hs hp (fun v => ∏ c, v c) Flags.REDUCTION

/-- `reduce_sum` along axes (`wrapped_functions.py:324-328`). -/
noncomputable def reduceSumOp (F : Type) [RCLike F] (s dims : List ℕ) (hs : 0 < s.prod)
    (hp : (keptDims s.length dims ++ dims).Perm (List.range s.length)) : Std F :=
  axesRed s dims hs hp (fun v => ∑ c, v c) Flags.SUMMATION

/-- What a reduction along the axes `dims` of an array computes. -/
theorem reduce_meaning (s dims : List ℕ) (hp : (keptDims s.length dims ++ dims).Perm (List.range s.length))
    (φ : (Fin (sizes s dims).prod → F) → F) (x : (i : Fin 1) → Fin s.prod → F) {w : List ℕ}
    (hw : InB w (sizes s (keptDims s.length dims))) :
    (toND (sizes s (keptDims s.length dims)) (reduceFn (axesSplit s _ dims hp) (fun q => q) φ x)).get w =
      φ fun c => (toND s (x 0)).get (place s.length (keptDims s.length dims ++ dims) (w ++ unravelIdx (sizes s dims) c)) := by
  rw [toND_get _ _ hw]
  unfold reduceFn
  congr 1
  funext c
  have hin : InB (w ++ unravelIdx (sizes s dims) c) (sizes s (keptDims s.length dims ++ dims)) := by
    rw [sizes_append]; exact inB_append hw (inB_unravelIdx c.2)
  have hpl := place_inB hp hin
  refine Eq.trans ?_ (toND_get s (x 0) hpl).symm
  congr 1
  apply Fin.ext
  show ravelIdx s (place s.length _ (unravelIdx _ (ravelIdx _ w) ++ _)) = _
  rw [unravelIdx_ravelIdx hw]

end Folx

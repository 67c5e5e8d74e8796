import Verif.Prog.ReturnLib

/-!
# The functions of the registry return with sparse Jacobians
-/

namespace Folx

open Filter Topology Vmap Layout Dot
open Folx.Interp

attribute [local instance] instInhabitedScalar

/-- At most one operand has a sparse Jacobian. -/
def OneSparse {F : Type} {m : ℕ} {size : Fin m → ℕ} (o : (i : Fin m) → Opd F (size i)) : Prop :=
  ∀ i j, (o i).isWeak = true → (o j).isWeak = true → i = j

/-- All Jacobians among the operands are sparse. -/
def AllSparse {F : Type} {m : ℕ} {size : Fin m → ℕ} (o : (i : Fin m) → Opd F (size i)) : Prop :=
  ∀ i, (o i).isLapl = true → (o i).isWeak = true

/-- The functions that add the contributions of their operands one by one when they are sparse. -/
def addingNames : List String := ["scatter_add", "scatter_max", "scatter_min", "dot_general"]

/-- The functions that copy elements. -/
def copyingNames : List String := ["broadcast_in_dim", "reshape", "slice", "dynamic_slice", "concatenate", "select_n", "gather",
  "transpose", "squeeze", "rev"]

/-- Conditions on a call of a registered function for which it returns with sparse Jacobians: it is not `scatter` (C40); the
results have elements; the indices do not depend on the input; functions that add up contributions have at most one sparse operand;
functions that copy elements have at most one sparse operand or only sparse ones, and in the latter case all array operands depend
on the input; the cases selected by `select_n` exist. -/
structure Tame (name : String) {p : Prim ℝ} (dom : ((i : Fin p.nIn) → Fin (p.size i) → ℝ) → Prop) (index : Fin p.nIn → Bool)
    (o : (i : Fin p.nIn) → Opd ℝ (p.size i)) : Prop where
  notScatter : name ≠ "scatter"
  out : ∀ j, 0 < p.outSize j
  plain : ∀ i, index i = true → (o i).isLapl = false
  adds : name ∈ addingNames → OneSparse o
  copies : name ∈ copyingNames → OneSparse o ∨ AllSparse o
  covers : name ∈ copyingNames → AllSparse o → ∀ i, index i = false → (o i).isLapl = true
  which : name = "select_n" → dom fun i => (o i).x

theorem leftShape_pos {dd : DotDims} {ls rs : List ℕ} (hok : dd.Ok ls rs) (hl : 0 < ls.prod) : 0 < (leftShape dd ls rs).prod := by
  have p1 : 0 < (sizes ls dd.lc).prod := sizes_pos hl fun d h => hok.llt d (by simp [h])
  have p2 : 0 < (sizes ls dd.lb).prod := sizes_pos hl fun d h => hok.llt d (by simp [h])
  have p3 : 0 < (sizes ls (freeOf ls.length dd.lc dd.lb)).prod := sizes_pos hl freeOf_lt
  unfold leftShape
  simp [p1, p2, p3]

theorem rightShape_pos {dd : DotDims} {ls rs : List ℕ} (hok : dd.Ok ls rs) (hr : 0 < rs.prod) : 0 < (rightShape dd ls rs).prod := by
  have p1 : 0 < (sizes rs dd.rc).prod := sizes_pos hr fun d h => hok.rlt d (by simp [h])
  have p2 : 0 < (sizes rs dd.rb).prod := sizes_pos hr fun d h => hok.rlt d (by simp [h])
  have p3 : 0 < (sizes rs (freeOf rs.length dd.rc dd.rb)).prod := sizes_pos hr freeOf_lt
  unfold rightShape
  simp [p1, p2, p3]

section
variable {F : Type} [RCLike F]

/-- At most one sparse operand. -/
theorem dotSafe_one {T : ℕ} {dd : DotDims} {ls rs : List ℕ} (hok : dd.Ok ls rs) (x : Opd F ls.prod) (y : Opd F rs.prod)
    (hx : x.Full) (hy : y.Full) (h : ¬ (x.isWeak = true ∧ y.isWeak = true)) : DotSafe dd ls rs T x y := by
  refine ⟨fun h1 h2 => absurd ⟨h1, h2⟩ h, fun _ hl hr zl zr l r e1 e2 f1 g1 O d h1 h2 hd h3 h4 => ?_⟩
  obtain ⟨zl', e1', s1, -⟩ := left_spec (x := iota ls) (rs := rs) dd hok
  obtain ⟨zr', e2', s2, -⟩ := right_spec (y := iota rs) (ls := ls) dd hok
  obtain rfl : zl' = zl := Option.some.inj (e1'.symm.trans e1)
  obtain rfl : zr' = zr := Option.some.inj (e2'.symm.trans e2)
  have hsh1 : zl'.shape = leftShape dd ls rs := s1
  have hsh2 : zr'.shape = rightShape dd ls rs := s2
  obtain ⟨l', f1', -, -, f4, f5⟩ := rearrange_returns T ls hl zl' (by rw [hsh1]; exact leftShape_pos hok hl) x hx.ready
  obtain ⟨r', g1', -, -, g4, g5⟩ := rearrange_returns T rs hr zr' (by rw [hsh2]; exact rightShape_pos hok hr) y hy.ready
  obtain rfl : l' = l := Except.ok.inj (f1'.symm.trans f1)
  obtain rfl : r' = r := Except.ok.inj (g1'.symm.trans g1)
  refine Std.noRaise_oneWeak _ T _ ?_ (pairOpd_all (Q := fun o => o.Live) (f4 hx).live (g4 hy).live)
  suffices hs : ∀ i j : Fin 2, (pairOpd l' r' i).isWeak = true → (pairOpd l' r' j).isWeak = true → i = j from hs
  intro i j hi hj
  match i, j with
  | 0, 0 => rfl
  | 1, 1 => rfl
  | 0, 1 => exact absurd ⟨f5 hi, g5 hj⟩ h
  | 1, 0 => exact absurd ⟨f5 hj, g5 hi⟩ h

/-- Two sparse operands in the fast path. -/
theorem dotSafe_fast {T : ℕ} {dd : DotDims} {ls rs : List ℕ} (x : Opd F ls.prod) (y : Opd F rs.prod)
    (hx : x.isWeak = true) (hy : y.isWeak = true) (h : interEqIn (leftShape dd ls rs) (rightShape dd ls rs) = true)
    (hs : noTranspose dd ls.length rs.length = true → SpecialOk dd ls.length rs.length) : DotSafe dd ls rs T x y :=
  ⟨fun _ _ _ => hs, fun hc => by simp [hx, hy, h] at hc⟩

theorem IndexOp.safe (op : IndexOp) (static oneAxis : Bool) (T : ℕ) (o : (i : Fin op.nIn) → Opd F (op.shapes i).prod)
    (hf : ∀ i, (o i).Full) (ho : 0 < op.out.prod) (h : OneSparse o ∨ AllSparse o)
    (hv : AllSparse o → ∀ w, InB w op.out → ∃ i v, op.index (op.ints fun i => (o i).x) w = some (i, v) ∧ (o i).isLapl = true) :
    SafeCall T true (op.prim F static oneAxis) o := by
  refine .wrapped (op.std F static oneAxis) o (op.sane static oneAxis ho) ?_ fun _ => ?_
  · rcases h with h | h
    · exact (op.std F static oneAxis).noRaise_oneWeak T o h fun i => (hf i).live
    · refine (op.std F static oneAxis).noRaise_index T o (by show Flags.INDEXING.has Flags.INDEXING = true; decide) ?_
      intro i t ht
      have := h i (by rw [show o i = .lapl t from ht]; rfl)
      rw [show o i = .lapl t from ht] at this
      exact this
  · intro hall _ _ q
    obtain ⟨i, v, h1, h2⟩ := hv hall _ (inB_unravelIdx (s := op.out) q.isLt)
    refine ⟨i, finOr _ (op.pos i) (ravelIdx (op.shapes i) v), ?_, h2⟩
    show (op.index (op.ints fun i => (o i).x) (unravelIdx op.out q)).map _ = _
    rw [h1]
    rfl

theorem IndexOp.safe_one (op : IndexOp) (static oneAxis : Bool) (T : ℕ) (o : (i : Fin op.nIn) → Opd F (op.shapes i).prod)
    (hf : ∀ i, (o i).Full) (ho : 0 < op.out.prod) (h1 : op.nIn = 1) (hex : ∃ i, (o i).isLapl = true)
    (hv : ∀ x w, ∃ r, op.index x w = some r) : SafeCall T true (op.prim F static oneAxis) o := by
  have hsub : ∀ i j : Fin op.nIn, i = j := fun i j => Fin.ext (by have := i.2; have := j.2; omega)
  refine op.safe static oneAxis T o hf ho (Or.inl fun i j _ _ => hsub i j) fun _ w _ => ?_
  obtain ⟨r, hr⟩ := hv (op.ints fun i => (o i).x) w
  obtain ⟨i, hi⟩ := hex
  exact ⟨r.1, r.2, hr, by rw [hsub r.1 i]; exact hi⟩

theorem CombineOp.safe (op : CombineOp) (comb : List F → F) (oneAxis : Bool) (T : ℕ)
    (o : (i : Fin op.nIn) → Opd F (op.shapes i).prod) (hf : ∀ i, (o i).Full) (ho : 0 < op.out.prod) (h : OneSparse o) :
    SafeCall T true (op.prim comb oneAxis) o :=
  .wrapped (op.std comb oneAxis) o (op.sane comb oneAxis ho)
    ((op.std comb oneAxis).noRaise_oneWeak T o h fun i => (hf i).live) fun _ =>
    Std.covers_of_noIndexing _ _ (by show Flags.LINEAR.has Flags.INDEXING = false; decide)

end

theorem axesRed_safe {s dims : List ℕ} (hs : 0 < s.prod) (hp : (keptDims s.length dims ++ dims).Perm (List.range s.length))
    (φ : (Fin (sizes s dims).prod → ℝ) → ℝ) {flags : Flags} (h1 : flags.has Flags.SCATTER = false)
    (h2 : flags.has Flags.SUMMATION = true → φ = fun v => ∑ c, v c) (h3 : flags.has Flags.MULTIPLICATION = false)
    (h4 : flags.has Flags.INDEXING = false) (T : ℕ)
    (o : (i : Fin 1) → Opd ℝ s.prod) (hf : ∀ i, (o i).Full) : SafeCall T true (axesRed s dims hs hp φ flags).toWPrim.toPrim o :=
  .wrapped (axesRed s dims hs hp φ flags) o (axesRed_sane hs hp φ h1 h2 h3)
    ((axesRed s dims hs hp φ flags).noRaise_oneWeak T o (fun i j _ _ => Subsingleton.elim (α := Fin 1) i j) fun i => (hf i).live)
    fun _ => Std.covers_of_noIndexing _ _ h4

theorem elemCustom_none (e : ElemEntry) {out : ℕ} {size : Fin e.arity → ℕ} (π : (i : Fin e.arity) → Fin out → Fin (size i))
    (h : e.isDiv = false) : e.custom π = fun _ _ _ => none := by
  obtain ⟨n, a, φ, f, d, dm⟩ := e
  have h : d = false := h
  subst h
  match a with
  | 0 => rfl
  | 1 => rfl
  | 2 => rfl
  | a + 3 => rfl

/-- Calls of registered functions return. -/
theorem BuiltIn.safe {name : String} {p : Prim ℝ} {dom : ((i : Fin p.nIn) → Fin (p.size i) → ℝ) → Prop}
    {index : Fin p.nIn → Bool} {sp : Prop} (h : BuiltIn name p dom index sp) (T : ℕ)
    (o : (i : Fin p.nIn) → Opd ℝ (p.size i)) (ht : Tame name dom index o) (hf : ∀ i, (o i).Full)
    (hex : ∃ i, (o i).isLapl = true) : SafeCall T true p o := by
  cases h with
  | elem k e he size out π same hsame =>
    obtain ⟨e1, e2, e3, e4, e5⟩ := elemTable_sane k e he
    refine .wrapped (e.std size out π same (e.custom π)) o ?_ ?_ fun _ => ?_
    · refine elemStd_sane e2 e3 (fun _ => e1) (fun h => ?_) (fun k emb x c hc => elemCustom_total e π k emb x c hc) (ht.out (0 : Fin 1))
      rcases e4 h with h | ⟨h5, h6⟩
      · exact Or.inl h
      · refine Or.inr (Or.inr ⟨h5, fun k emb x => ?_⟩)
        rw [elemCustom_none e π h6]
    · exact (e.std size out π same (e.custom π)).noRaise_elem T o rfl
        (fun i r h => absurd (show ArgAx.elem _ = .red r from h) (by simp)) e1
    · exact Std.covers_of_noIndexing _ _ e5
  | drop e he size out π => exact .dropped _ _ _ _ _ o
  | reduceSum s dims hs hp => exact axesRed_safe hs hp _ (by decide) (fun _ => rfl) (by decide) (by decide) T o hf
  | reduceMax s dims hs hp =>
    exact axesRed_safe hs hp _ (by decide) (fun h => noFlag' _ _ h (by decide)) (by decide) (by decide) T o hf
  | reduceMin s dims hs hp =>
    exact axesRed_safe hs hp _ (by decide) (fun h => noFlag' _ _ h (by decide)) (by decide) (by decide) T o hf
  | reduceProd s dims hs hp =>
    exact axesRed_safe hs hp _ (by decide) (fun h => noFlag' _ _ h (by decide)) (by decide) (by decide) T o hf
  | cumsum s axis reverse oneAxis hs =>
    exact CombineOp.safe _ _ oneAxis T o hf (ht.out (0 : Fin 1)) fun i j _ _ => Subsingleton.elim (α := Fin 1) i j
  | broadcastInDim s t dims hs h => exact IndexOp.safe_one _ _ _ T o hf (ht.out (0 : Fin 1)) rfl hex fun _ _ => ⟨_, rfl⟩
  | reshape s t hs h => exact IndexOp.safe_one _ _ _ T o hf (ht.out (0 : Fin 1)) rfl hex fun _ _ => ⟨_, rfl⟩
  | slice s start limit stride hs h => exact IndexOp.safe_one _ _ _ T o hf (ht.out (0 : Fin 1)) rfl hex fun _ _ => ⟨_, rfl⟩
  | dynamicSlice s sizes hs hl h =>
    exact IndexOp.safe _ _ _ T o hf (ht.out (0 : Fin 1)) (ht.copies (by decide)) fun hall w _ =>
      ⟨(0 : Fin (s.length + 1)), _, rfl, ht.covers (by decide) hall (0 : Fin (s.length + 1)) rfl⟩
  | concatenate k shapes axis out hs h =>
    exact IndexOp.safe _ _ _ T o hf (ht.out (0 : Fin 1)) (ht.copies (by decide)) fun hall w hw => by
      obtain ⟨i, v, h1, -⟩ := (concatenate_valid hs h fun i => (o i).x).inb w hw
      exact ⟨i, v, h1, ht.covers (by decide) hall i rfl⟩
  | selectN s k scalar hs =>
    exact IndexOp.safe _ _ _ T o hf (ht.out (0 : Fin 1)) (ht.copies (by decide)) fun hall w hw => by
      obtain ⟨i, v, h1, h2, -⟩ := (selectN_valid hs (fun i => (o i).x) (ht.which rfl)).inb w hw
      refine ⟨i, v, h1, ht.covers (by decide) hall i ?_⟩
      have h2 : (Fin.cons false (fun _ => true) : Fin (k + 1) → Bool) i = true := h2
      have h3 : i ≠ (0 : Fin (k + 1)) := by
        rintro rfl
        simp at h2
      exact decide_eq_false fun h => h3 (Fin.ext h)
  | gather s ids out sliceSizes g hs hi h =>
    exact IndexOp.safe _ _ _ T o hf (ht.out (0 : Fin 1)) (ht.copies (by decide)) fun hall w _ =>
      ⟨(0 : Fin 2), _, rfl, ht.covers (by decide) hall (0 : Fin 2) rfl⟩
  | transpose s perm hs h => exact IndexOp.safe_one _ _ _ T o hf (ht.out (0 : Fin 1)) rfl hex fun _ _ => ⟨_, rfl⟩
  | squeeze s dims hs => exact IndexOp.safe_one _ _ _ T o hf (ht.out (0 : Fin 1)) rfl hex fun _ _ => ⟨_, rfl⟩
  | rev s dims hs => exact IndexOp.safe_one _ _ _ T o hf (ht.out (0 : Fin 1)) rfl hex fun _ _ => ⟨_, rfl⟩
  | scatterAdd s ids upd g hs hi hu oneAxis => exact CombineOp.safe _ _ oneAxis T o hf (ht.out (0 : Fin 1)) (ht.adds (by decide))
  | scatterMax s ids upd g hs hi hu oneAxis => exact CombineOp.safe _ _ oneAxis T o hf (ht.out (0 : Fin 1)) (ht.adds (by decide))
  | scatterMin s ids upd g hs hi hu oneAxis => exact CombineOp.safe _ _ oneAxis T o hf (ht.out (0 : Fin 1)) (ht.adds (by decide))
  | scatter size c hc π => exact absurd rfl ht.notScatter
  | dotGeneral dd ls rs h hl hr =>
    refine .dot dd ls rs o h hl hr (dotSafe_one h _ _ (hf (0 : Fin 2)) (hf (1 : Fin 2)) fun hw => ?_)
    exact absurd (show (0 : Fin 2) = 1 from ht.adds (by decide) (0 : Fin 2) (1 : Fin 2) hw.1 hw.2) (by decide)
  | slogdet b m hm => exact .slogdet _ b m hm o (hf (0 : Fin 1)).live
  | convert m => exact .mapped m _ o

end Folx

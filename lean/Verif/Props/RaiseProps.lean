import Verif.Prog.Raise
import Verif.Props.ReturnProps
import Verif.Props.TakeProps

/-!
# C52: the situations in which `forward_laplacian` raises
-/

namespace Folx

open Filter Topology Vmap Layout Dot
open Folx.Interp

attribute [local instance] instInhabitedScalar

/-- A primitive whose rule raises on the operands raises. -/
theorem Prim.call_error {F : Type} [RCLike F] (p : Prim F) (T : ℕ) (o : (i : Fin p.nIn) → Opd F (p.size i)) (e : Err)
    (h : p.rule T o = .error e) : p.call T (List.ofFn fun i => ⟨p.size i, o i⟩) = .error e := by
  unfold Prim.call
  rw [(unpack_eq (β := Opd F) p.size _ o).mpr rfl]
  dsimp only
  rw [h]

theorem Prim.call_ok {F : Type} [RCLike F] (p : Prim F) (T : ℕ) (o : (i : Fin p.nIn) → Opd F (p.size i))
    (r : (j : Fin p.nOut) → Opd F (p.outSize j)) (h : p.rule T o = .ok r) :
    p.call T (List.ofFn fun i => ⟨p.size i, o i⟩) = .ok (List.ofFn fun j => ⟨p.outSize j, r j⟩) := by
  unfold Prim.call
  rw [(unpack_eq (β := Opd F) p.size _ o).mpr rfl]
  dsimp only
  rw [h]

theorem evLapl_prim {F : Type} [RCLike F] (reg : String → Option (Prim F)) (junk : List (PVal F) → PVal F) (T d : ℕ) (p : Prim F)
    (xs : List (PVal F)) (h : ∃ v ∈ xs, v.2.isLapl = true) :
    evLapl reg junk T (d + 1) (OpStep.prim p) xs = p.call T xs := by
  have hc : ¬ (xs.all fun v => !v.2.isLapl) = true := by
    intro hc
    rw [List.all_eq_true] at hc
    obtain ⟨v, hv, hl⟩ := h
    have := hc v hv
    rw [hl] at this
    simp at this
  exact if_neg hc

/-- Three equations in a row, the last of which raises. -/
theorem run_three_error {O V : Type} (ev : O → List V → Except Err (List V)) (op1 op2 op3 : O) (v0 c v1 v2 : V) (e : Err)
    (h1 : ev op1 [v0, c] = .ok [v1]) (h2 : ev op2 [v1] = .ok [v2]) (h3 : ev op3 [v2] = .error e) :
    evalSpec ev ⟨[], [0], [⟨op1, [.var 0, .lit c], [1]⟩, ⟨op2, [.var 1], [2]⟩, ⟨op3, [.var 2], [3]⟩], [.var 3]⟩ [] [v0] =
      .error e := by
  simp [evalSpec, specInit, SEnv.bind, specRun, specStep, SEnv.getMany, SEnv.get, upd, h1, h2, h3]

namespace Demo

/-- `jnp.concatenate([x, c])` for two arrays of two elements. -/
def catOp : IndexOp := concatenateOp (fun _ : Fin 2 => [2]) 0 [4] (by decide)
/-- `y[2:]` for an array of four elements. -/
def dropOp : IndexOp := sliceOp [4] [2] [4] [1] (by decide)
/-- `z.prod()` for an array of two elements. -/
noncomputable def prodStd : Std ℝ := reduceProdOp ℝ [2] [0] (by decide) (by decide)

/-- `lambda x: jnp.concatenate([x, c])[2:].prod()`. -/
noncomputable def deadProg (c : Fin 2 → ℝ) : Jaxpr (Op 1 ℝ) (PArr ℝ) := ⟨[], [0], [
    ⟨OpStep.prim (catOp.prim ℝ true true), [.var 0, .lit ⟨2, c⟩], [1]⟩,
    ⟨OpStep.prim (dropOp.prim ℝ true true), [.var 1], [2]⟩,
    ⟨OpStep.prim prodStd.toWPrim.toPrim, [.var 2], [3]⟩], [.var 3]⟩

/-- All its operations are registered. -/
theorem deadProg_registered (c : Fin 2 → ℝ) : ∀ e ∈ (deadProg c).eqns, ∃ (p : Prim ℝ) (name : String)
    (dom : ((i : Fin p.nIn) → Fin (p.size i) → ℝ) → Prop) (index : Fin p.nIn → Bool),
    e.op = OpStep.prim p ∧ ∃ sp, BuiltIn name p dom index sp ∧ sp := by
  intro e he
  simp only [deadProg, List.mem_cons, List.not_mem_nil, or_false] at he
  rcases he with rfl | rfl | rfl
  · exact ⟨_, _, _, _, rfl, _, .concatenate 2 (fun _ => [2]) 0 [4] (by decide) (by constructor <;> decide) true true, rfl⟩
  · exact ⟨_, _, _, _, rfl, _, .slice [4] [2] [4] [1] (by decide) (by unfold SliceOk; decide) true true, rfl⟩
  · exact ⟨_, _, _, _, rfl, _, .reduceProd [2] [0] (by decide) (by decide), trivial⟩

/-- The function can be evaluated everywhere. -/
theorem deadProg_eval (c x : Fin 2 → ℝ) : ∃ zs, evalPlain 1 (deadProg c) [] (unflat [2] x) = .ok zs :=
  ⟨_, rfl⟩

/-- The call of an operation on sparse operands. -/
theorem index_call (op : IndexOp) (ho : 0 < op.out.prod) (T : ℕ) (o : (i : Fin op.nIn) → Opd ℝ (op.shapes i).prod)
    (hr : ∀ i, (o i).Ready) (hw : ∀ i t, o i = .lapl t → t.jac.weak = true) (hex : ∃ i, (o i).isLapl = true) :
    ∃ r : Opd ℝ op.out.prod, (op.prim ℝ true true).call T (List.ofFn fun i => ⟨(op.shapes i).prod, o i⟩) =
        .ok [⟨op.out.prod, r⟩] ∧ r.isLapl = true ∧ r.Ready ∧ (∀ t, r = .lapl t → t.jac.weak = true) ∧
      ∀ q, (∀ i p, op.src (fun i => (o i).x) q = some ⟨i, p⟩ → (o i).DeadAt p) → r.DeadAt q := by
  obtain ⟨r, h1, -, h3, -⟩ := (op.std ℝ true true).call_returns (op.sane true true ho) T o hr
    ((op.std ℝ true true).noRaise_index T o (by show Flags.INDEXING.has Flags.INDEXING = true; decide) hw)
  obtain ⟨d1, d2, d3⟩ := (op.std ℝ true true).call_dead T o (by show Flags.INDEXING.has Flags.INDEXING = true; decide) rfl hw hex
    r h1
  refine ⟨r, ?_, d1, h3, fun t ht => ?_, d3⟩
  · have hrule : (op.prim ℝ true true).rule T o = .ok fun (_ : Fin 1) => r := by
      show (op.std ℝ true true).toWPrim.toPrim.rule T o = _
      simp only [WPrim.toPrim, h1]
      rfl
    exact (op.prim ℝ true true).call_ok T o _ hrule
  · obtain rfl := ht
    exact d2

theorem dead_run (T : ℕ) (c : Fin 2 → ℝ) (t : Trip (Fin 2) ℝ) (ht : t.jac.weak = true) (hf : t.jac.Filled) :
    ∃ v1 v2 e, v1.2.isLapl = true ∧ v2.2.isLapl = true ∧ (catOp.prim ℝ true true).call T [⟨2, .lapl t⟩, ⟨2, .plain c⟩] = .ok [v1] ∧
      (dropOp.prim ℝ true true).call T [v1] = .ok [v2] ∧ prodStd.toWPrim.toPrim.call T [v2] = .error e := by
  obtain ⟨r1, e1, l1, y1, w1, d1⟩ := index_call catOp (by decide) T (fun i => ![Opd.lapl t, Opd.plain c] i)
    (fun i => match i with
      | (0 : Fin 2) => fun t' h => by
        obtain rfl := Opd.lapl.inj (show Opd.lapl t = Opd.lapl t' from h)
        exact ⟨by decide, hf⟩
      | (1 : Fin 2) => Opd.ready_plain _)
    (fun i => match i with
      | (0 : Fin 2) => fun t' h => by
        obtain rfl := Opd.lapl.inj (show Opd.lapl t = Opd.lapl t' from h)
        exact ht
      | (1 : Fin 2) => fun t' h => by
        have h : Opd.plain c = Opd.lapl t' := h
        simp at h)
    ⟨(0 : Fin 2), rfl⟩
  have dead1 : ∀ q : Fin 4, 2 ≤ q.val → (show Opd ℝ 4 from r1).DeadAt q := by
    intro q hq
    refine d1 q fun (i : Fin 2) p hs => ?_
    have hv : ∀ i : Fin 2, i = 1 ∨ i = 0 := by decide
    rcases hv i with rfl | rfl
    · intro t' h
      have h : Opd.plain c = Opd.lapl t' := h
      simp at h
    · exfalso
      have hi : ∀ q : Fin 4, 2 ≤ q.val → ((catOp.index (fun _ => ⟨[], [0], rfl⟩) (unravelIdx [4] q)).map fun r => r.1.val) ≠ some 0 := by
        decide
      apply hi q hq
      have hs : (catOp.index (catOp.ints fun i => (![Opd.lapl t, Opd.plain c] i : Opd ℝ 2).x) (unravelIdx [4] q)).map (fun r =>
        (⟨r.1, finOr _ (catOp.pos r.1) (ravelIdx (catOp.shapes r.1) r.2)⟩ : Σ i : Fin 2, Fin 2)) = some ⟨0, p⟩ := hs
      have := congrArg (Option.map fun r => r.1.val) hs
      rw [Option.map_map] at this
      exact this
  obtain ⟨r2, e2, l2, y2, w2, d2⟩ := index_call dropOp (by decide) T (fun _ => r1)
    (fun _ => y1) (fun _ => w1) ⟨(0 : Fin 1), l1⟩
  have dead2 : ∀ q : Fin 2, (show Opd ℝ 2 from r2).DeadAt q := by
    intro q
    refine d2 q fun i p hs => ?_
    refine dead1 p ?_
    have hi : ∀ q : Fin 2, 2 ≤ (finOr 4 (by decide) (ravelIdx [4] ((List.range 1).map fun d => [2].getD d 0 + [1].getD d 1 * (unravelIdx [2] q).getD d 0))).val := by
      decide
    have hs : (⟨0, finOr 4 (by decide) (ravelIdx [4] ((List.range 1).map fun d => [2].getD d 0 + [1].getD d 1 * (unravelIdx [2] q).getD d 0))⟩
      : Σ i : Fin 1, Fin 4) = ⟨i, p⟩ := Option.some.inj hs
    have := hi q
    cases hs
    exact this
  have hp : ∃ e, prodStd.toWPrim.call T (fun _ : Fin 1 => r2) = .error e := by
    refine prodStd.call_raises (axesRed_sane (s := [2]) (dims := [0]) (by decide) (by decide) _ (by decide) (fun h => noFlag' _ _ h (by decide)) (by decide)) rfl T
      (fun _ : Fin 1 => r2) (fun _ => y2) (by decide) (by decide) rfl (0 : Fin 1) _ rfl l2 dead2
  obtain ⟨e, he⟩ := hp
  refine ⟨⟨4, r1⟩, ⟨2, r2⟩, e, l1, l2, e1, e2, ?_⟩
  refine prodStd.toWPrim.toPrim.call_error T (fun _ : Fin 1 => r2) e ?_
  simp only [WPrim.toPrim, he]

end Demo

open Demo in
/-- **`forward_laplacian` raises** although the function can be evaluated: for `f(x) = concatenate([x, c])[2:].prod()`, every `c`,
every point and every threshold that enables sparsity. -/
theorem C52_raises (reg : String → Option (Prim ℝ)) (junk : List (PVal ℝ) → PVal ℝ) (t : ℚ) (ht : 0 < threshold t 2)
    (c x : Fin 2 → ℝ) : (∃ zs, evalPlain 1 (deadProg c) [] (unflat [2] x) = .ok zs) ∧
      ∃ e, forwardLaplacian reg junk t 1 (deadProg c) [] .absent (plainArgs [2] x) = .error e := by
  refine ⟨deadProg_eval c x, ?_⟩
  obtain ⟨v1, v2, e, l1, l2, h1, h2, h3⟩ := dead_run (threshold t 2).toNat c (leakX x) rfl (fun _ => Nat.one_ne_zero)
  refine ⟨e, ?_⟩
  unfold forwardLaplacian
  rw [sizes_plainArgs]
  simp only [List.sum_cons, List.sum_nil, add_zero]
  rw [decide_eq_true ht, leakX_init]
  dsimp only
  unfold evalLapl
  rw [evalRC_eq_evalSpec _ _ (fun v _ => le_trans (List.count_le_length ..) (by
    show 4 ≤ 2147483647
    decide))]
  have h1' : evLapl reg junk (threshold t 2).toNat 1 (OpStep.prim (catOp.prim ℝ true true)) [⟨2, .lapl (leakX x)⟩, ⟨2, .plain c⟩] =
    .ok [v1] := h1
  have h2' : evLapl reg junk (threshold t 2).toNat 1 (OpStep.prim (dropOp.prim ℝ true true)) [v1] = .ok [v2] :=
    (evLapl_prim reg junk _ 0 _ _ ⟨v1, by simp, l1⟩).trans h2
  have h3' : evLapl reg junk (threshold t 2).toNat 1 (OpStep.prim prodStd.toWPrim.toPrim) [v2] = .error e :=
    (evLapl_prim reg junk _ 0 _ _ ⟨v2, by simp, l2⟩).trans h3
  exact run_three_error _ _ _ _ _ _ _ _ e h1' h2' h3'

/-- Three equations, the last of which uses the results of the others and raises. -/
theorem run_fork_error {O V : Type} (ev : O → List V → Except Err (List V)) (op1 op2 op3 : O) (v0 c v1 v2 : V) (e : Err)
    (h1 : ev op1 [v0] = .ok [v1]) (h2 : ev op2 [v0] = .ok [v2]) (h3 : ev op3 [v1, c, v2] = .error e) :
    evalSpec ev ⟨[], [0], [⟨op1, [.var 0], [1]⟩, ⟨op2, [.var 0], [2]⟩, ⟨op3, [.var 1, .lit c, .var 2], [3]⟩], [.var 3]⟩ [] [v0] =
      .error e := by
  simp [evalSpec, specInit, SEnv.bind, specRun, specStep, SEnv.getMany, SEnv.get, upd, h1, h2, h3]

namespace Demo

/-- `x[:2]` and `x[2:]` for an array of five elements. -/
def headOp : IndexOp := sliceOp [5] [0] [2] [1] (by decide)
def tailOp : IndexOp := sliceOp [5] [2] [5] [1] (by decide)
/-- `a.at[ids].add(b)` for an array of two elements and three additions. -/
def addAtOp : CombineOp := scatterCombineOp [2] [3, 1] [3] (putDims 0) (by decide) (by decide) (by decide)

/-- `lambda x: x[:2].at[ids].add(x[2:])`. -/
noncomputable def clashProg (ids : Fin 3 → ℤ) : Jaxpr (Op 1 ℝ) (PArr ℝ) := ⟨[], [0], [
    ⟨OpStep.prim (headOp.prim ℝ true true), [.var 0], [1]⟩,
    ⟨OpStep.prim (tailOp.prim ℝ true true), [.var 0], [2]⟩,
    ⟨OpStep.prim (addAtOp.prim List.sum true), [.var 1, .lit ⟨3, fun p => (ids p : ℝ)⟩, .var 2], [3]⟩], [.var 3]⟩

/-- All its operations are registered. -/
theorem clashProg_registered (ids : Fin 3 → ℤ) : ∀ e ∈ (clashProg ids).eqns, ∃ (p : Prim ℝ) (name : String)
    (dom : ((i : Fin p.nIn) → Fin (p.size i) → ℝ) → Prop) (index : Fin p.nIn → Bool),
    e.op = OpStep.prim p ∧ ∃ sp, BuiltIn name p dom index sp ∧ sp := by
  intro e he
  simp only [clashProg, List.mem_cons, List.not_mem_nil, or_false] at he
  rcases he with rfl | rfl | rfl
  · exact ⟨_, _, _, _, rfl, _, .slice [5] [0] [2] [1] (by decide) (by unfold SliceOk; decide) true true, rfl⟩
  · exact ⟨_, _, _, _, rfl, _, .slice [5] [2] [5] [1] (by decide) (by unfold SliceOk; decide) true true, rfl⟩
  · exact ⟨_, _, _, _, rfl, _, .scatterAdd [2] [3, 1] [3] (putDims 0) (by decide) (by decide) (by decide) true, by simp⟩

/-- The function can be evaluated everywhere. -/
theorem clashProg_eval (ids : Fin 3 → ℤ) (x : Fin 5 → ℝ) : ∃ zs, evalPlain 1 (clashProg ids) [] (unflat [5] x) = .ok zs :=
  ⟨_, rfl⟩

/-- The initial state with sparsity. -/
noncomputable def fiveX (x : Fin 5 → ℝ) : Trip (Fin 5) ℝ := ⟨fun p => coord x (0 + p),
  .sparse [⟨fun p => ((0 + p : ℕ) : ℤ), fun p => coord (fun _ : Fin 5 => 1) (0 + p)⟩], fun _ => 0⟩

theorem fiveX_init (x : Fin 5 → ℝ) : initState true .absent (plainArgs [5] x) = .ok [⟨5, .lapl (fiveX x)⟩] :=
  initState_eq (F := ℝ) (n := 5) true .absent [5] (by simp) rfl (fun _ => 1) x (weights_absent [5] rfl)

/-- Taking a part of the input. -/
theorem part_call (op : IndexOp) (h1 : op.nIn = 1) (ho : 0 < op.out.prod) (T : ℕ) (i : Fin op.nIn)
    (t : Trip (Fin (op.shapes i).prod) ℝ) (ht : t.jac.weak = true) (hf : t.jac.Filled) (σ : Fin op.out.prod → Fin (op.shapes i).prod)
    (hσ : ∀ x q, op.src (F := ℝ) x q = some ⟨i, σ q⟩) (o : (i : Fin op.nIn) → Opd ℝ (op.shapes i).prod) (hoi : o i = .lapl t) :
    ∃ t' : Trip (Fin op.out.prod) ℝ, (op.prim ℝ true true).call T (List.ofFn fun i => ⟨(op.shapes i).prod, o i⟩) =
      .ok [⟨op.out.prod, .lapl t'⟩] ∧ t'.jac.weak = true ∧ t'.jac.Filled ∧
      t'.jac.srows.map Row.idx = t.jac.srows.map fun row q => row.idx (σ q) := by
  have hsub : ∀ j : Fin op.nIn, j = i := fun j => Fin.ext (by have := i.2; have := j.2; omega)
  have hall : ∀ j t', o j = .lapl t' → t'.jac.weak = true ∧ 0 < (op.shapes j).prod ∧ t'.jac.Filled := by
    intro j t' hj
    obtain rfl := hsub j
    obtain rfl := Opd.lapl.inj (hoi.symm.trans hj)
    exact ⟨ht, op.pos j, hf⟩
  obtain ⟨r, e1, -, h3, -⟩ := (op.std ℝ true true).call_returns (op.sane true true ho) T o (fun j t' hj => (hall j t' hj).2)
    ((op.std ℝ true true).noRaise_index T o (by show Flags.INDEXING.has Flags.INDEXING = true; decide) fun j t' hj => (hall j t' hj).1)
  obtain ⟨t', rfl, w, hm⟩ := (op.std ℝ true true).call_index_idx T o h1
    (by show Flags.INDEXING.has Flags.INDEXING = true; decide) rfl i t hoi ht σ (hσ _) r e1
  refine ⟨t', ?_, w, (h3 t' rfl).2, hm⟩
  have hrule : (op.prim ℝ true true).rule T o = .ok fun (_ : Fin 1) => .lapl t' := by
    show (op.std ℝ true true).toWPrim.toPrim.rule T o = _
    simp only [WPrim.toPrim, e1]
    rfl
  exact (op.prim ℝ true true).call_ok T o _ hrule

/-- The number of inputs that the elements of a one-dimensional array store. -/
theorem deps_all {m out : ℕ} (rows : List (Row (Fin m) ℝ)) (f : Fin m → ℤ) (h : rows.map Row.idx = [f]) (hf : ∀ p, f p ≠ -1) :
    (⟨Unit, Fin m, (Equiv.uniqueProd (Fin m) Unit).symm, fun _ => ()⟩ : Red (Fin m) (Fin out)).deps rows =
      (Finset.univ.image f).card := by
  obtain ⟨r, rfl⟩ : ∃ r, rows = [r] := List.length_eq_one_iff.mp (by
    have := congrArg List.length h
    simpa using this)
  obtain rfl : r.idx = f := by simpa using h
  unfold Red.deps
  have : ∀ u : Unit, redIdx (⟨Unit, Fin m, (Equiv.uniqueProd (Fin m) Unit).symm, fun _ => ()⟩ : Red (Fin m) (Fin out)) [r] u =
      Finset.univ.image r.idx := by
    intro u
    ext z
    rw [mem_redIdx, Finset.mem_image]
    constructor
    · rintro ⟨-, row, hrow, c, hc⟩
      obtain rfl := List.mem_singleton.mp hrow
      exact ⟨c, Finset.mem_univ _, hc⟩
    · rintro ⟨c, -, rfl⟩
      exact ⟨hf c, r, by simp, c, rfl⟩
  show (Finset.univ.sup fun u : Unit => _) = _
  rw [Finset.univ_unique, Finset.sup_singleton]
  exact congrArg Finset.card (this ())

theorem clash_run (T : ℕ) (hT : 3 ≤ T) (ids : Fin 3 → ℤ) (x : Fin 5 → ℝ) :
    ∃ v1 v2 e, v1.2.isLapl = true ∧ (headOp.prim ℝ true true).call T [⟨5, .lapl (fiveX x)⟩] = .ok [v1] ∧
      (tailOp.prim ℝ true true).call T [⟨5, .lapl (fiveX x)⟩] = .ok [v2] ∧
      (addAtOp.prim List.sum true).call T [v1, ⟨3, .plain fun p => (ids p : ℝ)⟩, v2] = .error e := by
  obtain ⟨t1, e1, w1, f1, m1⟩ := part_call headOp rfl (by decide) T (0 : Fin 1) (fiveX x) rfl (fun _ => Nat.one_ne_zero)
    (fun q => finOr 5 (by decide) (ravelIdx [5] ((List.range 1).map fun d => [0].getD d 0 + [1].getD d 1 * (unravelIdx [2] q).getD d 0)))
    (fun _ _ => rfl) (fun _ => .lapl (fiveX x)) rfl
  obtain ⟨t2, e2, w2, f2, m2⟩ := part_call tailOp rfl (by decide) T (0 : Fin 1) (fiveX x) rfl (fun _ => Nat.one_ne_zero)
    (fun q => finOr 5 (by decide) (ravelIdx [5] ((List.range 1).map fun d => [2].getD d 0 + [1].getD d 1 * (unravelIdx [3] q).getD d 0)))
    (fun _ _ => rfl) (fun _ => .lapl (fiveX x)) rfl
  have d1 := (deps_all (m := 2) (out := 2) t1.jac.srows (fun q => ((0 + (finOr 5 (by decide) (ravelIdx [5] ((List.range 1).map fun d =>
    [0].getD d 0 + [1].getD d 1 * (unravelIdx [2] q).getD d 0))).val : ℕ) : ℤ)) m1 (by decide)).trans (show _ = 2 by decide)
  have d2 := (deps_all (m := 3) (out := 2) t2.jac.srows (fun q => ((0 + (finOr 5 (by decide) (ravelIdx [5] ((List.range 1).map fun d =>
    [2].getD d 0 + [1].getD d 1 * (unravelIdx [3] q).getD d 0))).val : ℕ) : ℤ)) m2 (by decide)).trans (show _ = 3 by decide)
  refine ⟨⟨2, .lapl t1⟩, ⟨3, .lapl t2⟩, ?_⟩
  let o : (i : Fin 3) → Opd ℝ (addAtOp.shapes i).prod := Fin.cons (α := fun i => Opd ℝ (addAtOp.shapes i).prod) (.lapl t1)
    (Fin.cons (α := fun i : Fin 2 => Opd ℝ (addAtOp.shapes i.succ).prod) (.plain fun p => (ids p : ℝ))
      (Fin.cons (α := fun i : Fin 1 => Opd ℝ (addAtOp.shapes i.succ.succ).prod) (.lapl t2) fun i => i.elim0))
  have hc : ∃ e, (addAtOp.std List.sum true).toWPrim.call T o = .error e := by
    refine (addAtOp.std List.sum true).call_clash (addAtOp.sane List.sum true (by decide)) T o ?_ ?_
      (by show Flags.LINEAR.has Flags.INDEXING = false; decide) rfl (0 : Fin 3) (2 : Fin 3) (by
      show (0 : Fin 3) ≠ 2
      decide) t1 t2 rfl rfl w1 w2
      ⟨Unit, Fin 2, (Equiv.uniqueProd (Fin 2) Unit).symm, fun _ => ()⟩ ⟨Unit, Fin 3, (Equiv.uniqueProd (Fin 3) Unit).symm, fun _ => ()⟩
      rfl rfl ?_ ?_ ?_ ?_ ?_
    · have hsub : WPrim.laplIdx o ⊆ {(0 : Fin 3), 2} := by
        intro i hi
        rw [WPrim.mem_laplIdx] at hi
        rcases (by decide : ∀ i : Fin 3, i = 0 ∨ i = 1 ∨ i = 2) i with rfl | rfl | rfl
        · simp
        · exact absurd (show false = true from hi) (by simp)
        · simp
      exact le_trans (Finset.card_le_card hsub) (by decide)
    · intro (i : Fin 3) t hi
      rcases (by decide : ∀ i : Fin 3, i = 0 ∨ i = 1 ∨ i = 2) i with rfl | rfl | rfl
      · obtain rfl := Opd.lapl.inj (show Opd.lapl t1 = Opd.lapl t from hi)
        exact ⟨by decide, f1⟩
      · have hi : Opd.plain (fun p : Fin 3 => (ids p : ℝ)) = Opd.lapl t := hi
        simp at hi
      · obtain rfl := Opd.lapl.inj (show Opd.lapl t2 = Opd.lapl t from hi)
        exact ⟨by decide, f2⟩
    · exact le_trans (le_of_eq d1) (by omega)
    · exact le_trans (le_of_eq d2) hT
    · exact fun h => absurd (d1.symm.trans (h.trans d2)) (by decide)
    · exact fun h => absurd (d1.symm.trans h) (by decide)
    · exact fun h => absurd (d2.symm.trans h) (by decide)
  obtain ⟨e, he⟩ := hc
  refine ⟨e, rfl, e1, e2, ?_⟩
  refine (addAtOp.prim List.sum true).call_error T o e ?_
  show (addAtOp.std List.sum true).toWPrim.toPrim.rule T o = _
  simp only [WPrim.toPrim, he]
  rfl

end Demo

open Demo in
/-- **`forward_laplacian` raises** although the function can be evaluated: for `f(x) = x[:2].at[ids].add(x[2:])`, all indices, every
point and every threshold that enables sparsity and lets three dependencies pass. The Jacobians of the operands are reduced to two
and three rows, and their sum raises (`api.py:208-224`). -/
theorem C52_clash_raises (reg : String → Option (Prim ℝ)) (junk : List (PVal ℝ) → PVal ℝ) (t : ℚ) (ht : 3 ≤ threshold t 5)
    (ids : Fin 3 → ℤ) (x : Fin 5 → ℝ) : (∃ zs, evalPlain 1 (clashProg ids) [] (unflat [5] x) = .ok zs) ∧
      ∃ e, forwardLaplacian reg junk t 1 (clashProg ids) [] .absent (plainArgs [5] x) = .error e := by
  refine ⟨clashProg_eval ids x, ?_⟩
  obtain ⟨v1, v2, e, l1, h1, h2, h3⟩ := clash_run (threshold t 5).toNat (by omega) ids x
  refine ⟨e, ?_⟩
  unfold forwardLaplacian
  rw [sizes_plainArgs]
  simp only [List.sum_cons, List.sum_nil, add_zero]
  rw [decide_eq_true (show 0 < threshold t 5 by omega), fiveX_init]
  dsimp only
  unfold evalLapl
  rw [evalRC_eq_evalSpec _ _ (fun v _ => le_trans (List.count_le_length ..) (by
    show 5 ≤ 2147483647
    decide))]
  have h1' : evLapl reg junk (threshold t 5).toNat 1 (OpStep.prim (headOp.prim ℝ true true)) [⟨5, .lapl (fiveX x)⟩] = .ok [v1] := h1
  have h2' : evLapl reg junk (threshold t 5).toNat 1 (OpStep.prim (tailOp.prim ℝ true true)) [⟨5, .lapl (fiveX x)⟩] = .ok [v2] := h2
  have h3' : evLapl reg junk (threshold t 5).toNat 1 (OpStep.prim (addAtOp.prim List.sum true))
      [v1, ⟨3, .plain fun p => (ids p : ℝ)⟩, v2] = .error e :=
    (evLapl_prim reg junk _ 0 _ _ ⟨v1, by simp, l1⟩).trans h3
  exact run_fork_error _ _ _ _ _ _ _ _ e h1' h2' h3'

/-- A threshold that meets the hypothesis. -/
example : 3 ≤ threshold (3 / 5) 5 := by
  unfold threshold pyInt
  norm_num

end Folx

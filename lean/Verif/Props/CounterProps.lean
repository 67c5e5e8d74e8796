import Verif.Props.ScatterProps
import Verif.Props.InlineProps

/-!
# C02, C03 are false without the restrictions of the partial theorems

`f(x) = x.at[0].set(sum(x))` for two inputs, run with `sparsity_threshold = 0.5`, which is 1 row.  The sum has 2 > 1
input indices, so its Jacobian is dense; `x` itself stays sparse; `scatter` with a sparse operand and dense updates leaves
the derivatives of the overwritten element in place (C40).  The Jacobian returned says `∂f₀/∂x₀ = 2` instead of `1`.
-/

namespace Folx

open Folx.Interp

section
variable {P₀ Q F : Type} [CommRing F] [Fintype P₀] [DecidableEq P₀] [Fintype Q] [DecidableEq Q]

/-- The rule for sums on a sparse operand. -/
theorem wrapped_sum (I : HInst 1 (fun _ => P₀) Q F) (r : Red P₀ Q) (T : ℕ) (arg : Trip P₀ F)
    (hfl : I.flags = Flags.SUMMATION) (he : I.elem = false) (hax : I.ax 0 = .red r) (hw : arg.jac.weak = true)
    (o : JvpOut Q F) (ho : sparseSum r T arg = .ok o) :
    I.wrapped T (fun _ => arg) = .ok ⟨o.y, o.jac, fun q => o.lapl q + 0⟩ := by
  have hi : I.flags.has Flags.INDEXING = false := by rw [hfl]; decide
  have hs : I.flags.has Flags.SUMMATION = true := by rw [hfl]; decide
  have hc : I.flags.has Flags.SCATTER = false := by rw [hfl]; decide
  have hl : I.flags.has Flags.LINEAR = true := by rw [hfl]; decide
  have h1 : jvpRule I.toInst T (fun _ => arg) = sparseSum r T arg := by
    have hall : allWeak (fun _ : Fin 1 => arg) = true := by simp [allWeak, hw]
    unfold jvpRule parallelJvp
    simp only [hall, hi, he, Bool.false_eq_true, or_true, and_self, if_true, if_false, Bool.true_eq_false, dite_true]
    unfold sparseSingle
    have hax' : (I.toInst.single (fun _ => arg.x) ⟨0, by omega⟩).ax 0 = .red r := hax
    have hfl' : (I.toInst.single (fun _ => arg.x) ⟨0, by omega⟩).flags = I.flags := rfl
    rw [hax']
    simp only [hfl', hs, hc, Bool.false_eq_true, if_false, if_true]
  have h2 : I.hessianTransform T (fun _ => arg) = .ok fun _ => 0 := by
    unfold HInst.hessianTransform
    rw [if_pos hl]
  unfold HInst.wrapped
  rw [h1, ho, h2]

end

theorem WPrim.call_of_wrapped {F : Type} [CommRing F] (p : WPrim F) (T : ℕ) (o : (i : Fin p.nIn) → Opd F (p.size i))
    (hne : (WPrim.laplIdx o).card ≠ 0) (t : Trip (Fin p.out) F)
    (h : (p.inst (WPrim.laplEmb o) fun i => (o i).x).wrapped T (fun a => (o (WPrim.laplEmb o a)).trip) = .ok t) :
    p.toPrim.rule T o = .ok fun _ => .lapl t := by
  have : p.call T o = .ok (.lapl t) := by
    unfold WPrim.call
    rw [if_neg hne, h]
  simp only [WPrim.toPrim, this]

theorem scatterPrim_both {F : Type} [RCLike F] {size : Fin 2 → ℕ} (c : Scatter (Fin (size 0)) (Fin (size 1)))
    (π : (a : Fin 2) → Fin (size 0) → Fin (size a)) (T : ℕ) (args : (a : Fin 2) → Trip (Fin (size a)) F)
    (t : Trip (Fin (size 0)) F)
    (h : (scatterInst (P := fun a => Fin (size a)) c π : HInst 2 _ _ F).wrapped T args = .ok t) :
    (scatterPrim (F := F) c π).rule T (fun a => .lapl (args a)) = .ok fun _ => .lapl t := by
  simp only [scatterPrim, Opd.trip, h, Except.map]

/-- The rule of `scatter_p` returns for dense Jacobians. -/
theorem scatterPrim_total {F : Type} [RCLike F] {size : Fin 2 → ℕ} (T n : ℕ) (c : Scatter (Fin (size 0)) (Fin (size 1)))
    (π : (a : Fin 2) → Fin (size 0) → Fin (size a)) (x : (i : Fin 2) → Fin (size i) → F) :
    (scatterPrim (F := F) c π).TotalAt T n x := by
  have key : ∀ {k out : ℕ} {sz : Fin k → ℕ} (I : HInst k (fun a => Fin (sz a)) (Fin out) F) (_ : 0 < k)
      (_ : I.flags.has Flags.LINEAR = true) (args : (a : Fin k) → Trip (Fin (sz a)) F)
      (_ : ∀ a, denseInv n _ (args a).jac), ∃ t, I.wrapped T args = .ok t := by
    intro k out sz I hk hl args hd
    obtain ⟨o, h1, -⟩ := jvpRule_dense I.toInst T n hk args hd
    unfold HInst.wrapped
    rw [h1]
    unfold HInst.hessianTransform
    rw [if_pos hl]
    exact ⟨_, rfl⟩
  have hf : scatterFlags.has Flags.LINEAR = true := by decide
  suffices hs : ∀ o : (i : Fin 2) → Opd F (size i), (∀ i t, o i = .lapl t → denseInv n _ t.jac) →
      ∃ r : Fin 1 → Opd F (size 0), (scatterPrim (F := F) c π).rule T o = .ok r from fun o _ _ hd => hs o hd
  intro o hd
  have hd0 : ∀ t, o (0 : Fin 2) = .lapl t → denseInv n _ t.jac := hd (0 : Fin 2)
  have hd1 : ∀ t, o (1 : Fin 2) = .lapl t → denseInv n _ t.jac := hd (1 : Fin 2)
  simp only [scatterPrim]
  split
  · exact ⟨_, rfl⟩
  · rename_i s b h0 h1
    obtain ⟨t, ht⟩ := key (scatterOperand c b) Nat.one_pos hf (fun _ => s) fun _ => hd0 s h0
    rw [ht]; exact ⟨_, rfl⟩
  · rename_i a s h0 h1
    obtain ⟨t, ht⟩ := key (scatterUpdates c a (π 1)) Nat.one_pos hf (fun _ => s) fun _ => hd1 s h1
    rw [ht]; exact ⟨_, rfl⟩
  · rename_i s0 s1 h0 h1
    obtain ⟨t, ht⟩ := key (scatterInst (F := F) (P := fun a => Fin (size a)) c π) (by decide) hf (fun a => (o a).trip) fun a => by
      fin_cases a
      · show denseInv n _ (o 0).trip.jac; rw [h0]; exact hd0 s0 h0
      · show denseInv n _ (o 1).trip.jac; rw [h1]; exact hd1 s1 h1
    rw [ht]; exact ⟨_, rfl⟩

/-- Two equations, one after the other. -/
theorem run_two {O V : Type} (ev : O → List V → Except Err (List V)) (op1 op2 : O) (v0 v1 v2 : V)
    (h1 : ev op1 [v0] = .ok [v1]) (h2 : ev op2 [v0, v1] = .ok [v2]) :
    evalSpec ev ⟨[], [0], [⟨op1, [.var 0], [1]⟩, ⟨op2, [.var 0, .var 1], [2]⟩], [.var 2]⟩ [] [v0] = .ok [v2] := by
  simp [evalSpec, specInit, SEnv.bind, specRun, specStep, SEnv.getMany, SEnv.get, upd, h1, h2]

namespace Demo

noncomputable abbrev sumStd : Std ℝ := reduceSum 2 1 (by decide) (Equiv.uniqueProd (Fin 2) (Fin 1)).symm (fun q => q) none true

abbrev leakSize : Fin 2 → ℕ := fun a => 2 - a.val

/-- `operand.at[0].set(update)` for an operand with two elements. -/
def leakCall : Scatter (Fin (leakSize 0)) (Fin (leakSize 1)) where
  hit := fun q => if q = (0 : Fin 2) then some (0 : Fin 1) else none
  static := true
  seg := none
  opScalar := none
  updScalar := some (0 : Fin 1)
  updSame := none

def leakPos : (a : Fin 2) → Fin (leakSize 0) → Fin (leakSize a)
  | 0, q => q
  | 1, _ => (0 : Fin 1)

theorem leakCall_ok : leakCall.Ok where
  seg := by intro g hg; simp [leakCall] at hg
  opScalar := by intro p h; simp [leakCall] at h
  updScalar := by
    intro p _ u
    exact Subsingleton.elim (α := Fin 1) _ _

/-- `lambda x: x.at[0].set(x.sum())`. -/
noncomputable def leakProg : Jaxpr (Op 1 ℝ) (PArr ℝ) := ⟨[], [0], [⟨OpStep.prim sumP, [.var 0], [1]⟩,
  ⟨OpStep.prim (scatterPrim leakCall leakPos), [.var 0, .var 1], [2]⟩], [.var 2]⟩

theorem thr_half : threshold (1/2) 2 = 1 := by unfold threshold pyInt; norm_num

/-- The initial state with sparsity and weights `w`. -/
noncomputable def leakW (w x : Fin 2 → ℝ) : Trip (Fin 2) ℝ := ⟨fun p => coord x (0 + p),
  .sparse [⟨fun p => ((0 + p : ℕ) : ℤ), fun p => coord w (0 + p)⟩], fun _ => 0⟩

/-- Without weights. -/
noncomputable abbrev leakX (x : Fin 2 → ℝ) : Trip (Fin 2) ℝ := leakW (fun _ => 1) x

theorem leakW_init (weights : Weights ℝ) (w x : Fin 2 → ℝ) (hw : weightArrs weights [2] = .ok (unflat [2] w)) :
    initState true weights (plainArgs [2] x) = .ok [⟨2, .lapl (leakW w x)⟩] :=
  initState_eq (F := ℝ) (n := 2) true weights [2] (by simp) rfl w x hw

theorem leakX_init (x : Fin 2 → ℝ) : initState true .absent (plainArgs [2] x) = .ok [⟨2, .lapl (leakX x)⟩] :=
  leakW_init .absent (fun _ => 1) x (weights_absent [2] rfl)

/-- The sum comes out dense, with the right derivatives. -/
theorem leak_sum (w x : Fin 2 → ℝ) : ∃ t : Trip (Fin 1) ℝ, sumP.call 1 [⟨2, .lapl (leakW w x)⟩] = .ok [⟨1, .lapl t⟩] ∧
    t.jac.weak = false ∧ t.jac.Wf 2 ∧ t.jac.den 0 0 = w 0 := by
  obtain ⟨o, h1, h2, h3, h4⟩ : ∃ o : JvpOut (Fin 1) ℝ,
      sparseSum ⟨Fin 1, Fin 2, (Equiv.uniqueProd (Fin 2) (Fin 1)).symm, fun q => q⟩ 1
      (leakW w x) = .ok o ∧ o.jac.weak = false ∧ o.jac.Wf 2 ∧ o.jac.den 0 0 = w 0 := by
    refine ⟨_, rfl, rfl, (by decide : 2 ≤ 2), ?_⟩
    show (List.map (fun row : Row (Fin 2) ℝ => ∑ c : Fin 2, if row.idx c = ((0 : ℕ) : ℤ) then row.val c else 0)
      (leakW w x).jac.srows).sum = w 0
    simp [leakW, Jac.srows, coord]
  refine ⟨⟨o.y, o.jac, fun q => o.lapl q + 0⟩, ?_, h2, h3, h4⟩
  unfold Prim.call
  have hu : unpack (β := Opd ℝ) sumP.size [⟨2, .lapl (leakW w x)⟩] = .ok fun _ => .lapl (leakW w x) := by
    rw [unpack_eq]
    rfl
  rw [hu]
  dsimp only
  have hr : sumP.rule 1 (fun _ => .lapl (leakW w x)) =
      .ok fun _ => (.lapl ⟨o.y, o.jac, fun q => o.lapl q + 0⟩ : Opd ℝ 1) := by
    refine WPrim.call_of_wrapped sumStd.toWPrim 1 (fun _ => .lapl (leakW w x)) ?_ ⟨o.y, o.jac, fun q => o.lapl q + 0⟩ ?_
    · show (1 : ℕ) ≠ 0
      decide
    · exact wrapped_sum (P₀ := Fin 2) (Q := Fin 1) (sumStd.inst (k := 1)
        (WPrim.laplEmb (size := fun _ : Fin 1 => 2) (fun _ => .lapl (leakW w x))) fun _ => (leakW w x).x) _ 1 (leakW w x)
        rfl rfl rfl rfl o h1
  rw [hr]
  rfl

def leakArgs (t0 : Trip (Fin 2) ℝ) (t1 : Trip (Fin 1) ℝ) : (a : Fin 2) → Trip (Fin (leakSize a)) ℝ
  | 0 => t0
  | 1 => t1

theorem leak_wf (w x : Fin 2 → ℝ) (s : Trip (Fin 1) ℝ) (h3 : s.jac.Wf 2) (a : Fin 2) :
    (leakArgs (leakW w x) s a).jac.Wf 2 := by
  have h0 : (leakW w x).jac.Wf 2 := by
    intro r hr q
    obtain rfl := List.mem_singleton.mp hr
    have hq : q.val < 2 := q.isLt
    refine ⟨?_, fun hh => ?_⟩
    · show ((0 + q.val : ℕ) : ℤ) < 2
      omega
    · exfalso
      have : ((0 + q.val : ℕ) : ℤ) < 0 := hh
      omega
  match a with
  | 0 => exact h0
  | 1 => exact h3

theorem leak_total (w x : Fin 2 → ℝ) (s : Trip (Fin 1) ℝ) (h2 : s.jac.weak = false) : ∃ t : Trip (Fin 2) ℝ,
      (scatterInst (P := fun a => Fin (leakSize a)) leakCall leakPos : HInst 2 _ _ ℝ).wrapped 1 (leakArgs (leakW w x) s) =
        .ok t := by
  have hne : ∀ a : Fin 2, Nonempty (Fin (leakSize a)) := fun a => match a with
    | 0 => ⟨(0 : Fin 2)⟩
    | 1 => ⟨(0 : Fin 1)⟩
  have hfill : ∀ a, (leakArgs (leakW w x) s a).jac.Filled := fun a => match a with
    | 0 => fun _ => Nat.one_ne_zero
    | 1 => fun h => absurd (h2.symm.trans h) (by simp)
  exact scatter_total (P := fun a => Fin (leakSize a)) (F := ℝ) leakCall leakPos 1 (leakArgs (leakW w x) s) hfill
    (fun h => absurd (show true = false from h) (by simp))

theorem leak_scatter (w x : Fin 2 → ℝ) (s : Trip (Fin 1) ℝ) (h2 : s.jac.weak = false) (h3 : s.jac.Wf 2)
    (h4 : s.jac.den 0 0 = w 0) (t : Trip (Fin 2) ℝ)
    (ht : (scatterInst (P := fun a => Fin (leakSize a)) leakCall leakPos : HInst 2 _ _ ℝ).wrapped 1 (leakArgs (leakW w x) s) =
        .ok t) : t.jac.den 0 0 = 2 * w 0 := by
  have hhit : leakCall.hit (0 : Fin 2) = some (0 : Fin 1) := rfl
  have hl : Leaks (P := fun a => Fin (leakSize a)) leakCall (leakArgs (leakW w x) s 0) (leakArgs (leakW w x) s 1) := ⟨rfl, h2, rfl⟩
  have h2pos : 0 < 2 := by decide
  have hden := C40_leak (P := fun a => Fin (leakSize a)) leakCall leakPos leakCall_ok 2 h2pos 1 (leakArgs (leakW w x) s) (leak_wf w x s h3)
    hl t ht (0 : Fin 2) (0 : Fin 1) hhit
  have hden := hden.2.1 0
  have e1 : (leakW w x).jac.den 0 (0 : Fin 2) = w 0 := by
    simp [leakW, Jac.den, coord]
  have hden : t.jac.den 0 0 = (leakW w x).jac.den 0 (0 : Fin 2) + s.jac.den 0 (0 : Fin 1) := hden
  rw [hden, e1, h4]
  ring

theorem leak_call (w x : Fin 2 → ℝ) (s : Trip (Fin 1) ℝ) (t : Trip (Fin 2) ℝ)
    (ht : (scatterInst (P := fun a => Fin (leakSize a)) leakCall leakPos : HInst 2 _ _ ℝ).wrapped 1
      (leakArgs (leakW w x) s) = .ok t) :
    (scatterPrim (F := ℝ) leakCall leakPos).call 1 [⟨2, .lapl (leakW w x)⟩, ⟨1, .lapl s⟩] = .ok [⟨2, .lapl t⟩] := by
  unfold Prim.call
  have hu : unpack (β := Opd ℝ) (scatterPrim (F := ℝ) leakCall leakPos).size [⟨2, .lapl (leakW w x)⟩, ⟨1, .lapl s⟩] =
      .ok fun a => .lapl (leakArgs (leakW w x) s a) := by
    rw [unpack_eq]
    rfl
  rw [hu]
  dsimp only
  have hr : (scatterPrim (F := ℝ) leakCall leakPos).rule 1 (fun a => .lapl (leakArgs (leakW w x) s a)) =
      .ok fun _ => (.lapl t : Opd ℝ 2) := scatterPrim_both leakCall leakPos 1 _ t ht
  rw [hr]
  rfl

/-- What the run with sparsity returns. -/
theorem leak_runW (reg : String → Option (Prim ℝ)) (junk : List (PVal ℝ) → PVal ℝ) (weights : Weights ℝ)
    (w x : Fin 2 → ℝ) (hw : weightArrs weights [2] = .ok (unflat [2] w)) :
    ∃ t : Trip (Fin 2) ℝ, forwardLaplacian reg junk (1/2) 1 leakProg [] weights (plainArgs [2] x) =
      .ok [⟨2, .lapl t⟩] ∧ t.jac.den 0 0 = 2 * w 0 := by
  obtain ⟨s, h1, h2, h3, h4⟩ := leak_sum w x
  obtain ⟨t, ht⟩ := leak_total w x s h2
  refine ⟨t, ?_, leak_scatter w x s h2 h3 h4 t ht⟩
  have hcall := leak_call w x s t ht
  unfold forwardLaplacian
  rw [sizes_plainArgs]
  simp only [List.sum_cons, List.sum_nil, add_zero, thr_half]
  have hdec : decide ((0 : ℤ) < 1) = true := by decide
  rw [hdec, leakW_init weights w x hw]
  dsimp only
  unfold evalLapl
  rw [evalRC_eq_evalSpec _ _ (fun v _ => le_trans (List.count_le_length ..) (by decide))]
  exact run_two _ _ _ _ _ _ h1 hcall

theorem leak_run (reg : String → Option (Prim ℝ)) (junk : List (PVal ℝ) → PVal ℝ) (x : Fin 2 → ℝ) :
    ∃ t : Trip (Fin 2) ℝ, forwardLaplacian reg junk (1/2) 1 leakProg [] .absent (plainArgs [2] x) =
      .ok [⟨2, .lapl t⟩] ∧ t.jac.den 0 0 = 2 := by
  obtain ⟨t, h1, h2⟩ := leak_runW reg junk .absent (fun _ => 1) x (weights_absent [2] rfl)
  exact ⟨t, h1, h2.trans (mul_one 2)⟩

theorem scatter_bind (a : Fin 2 → ℝ) (b : Fin 1 → ℝ) : (scatterPrim (F := ℝ) leakCall leakPos).bind [⟨2, a⟩, ⟨1, b⟩] =
    .ok [⟨2, scatterSet leakCall.hit a b⟩] := rfl

/-- What the program computes: `(x₀ + x₁, x₁)`. -/
theorem leak_eval (a : Fin 2 → ℝ) : evalPlain 1 leakProg [] (arg a) =
    .ok [⟨2, fun q => if q = 0 then a 0 + a 1 else a 1⟩] := by
  have h : evalPlain 1 leakProg [] (arg a) = .ok [⟨2, scatterSet leakCall.hit a fun _ => ∑ c, a c⟩] := rfl
  rw [h]
  congr 3
  funext (q : Fin 2)
  fin_cases q
  · show ∑ c, a c = a 0 + a 1
    exact Fin.sum_univ_two a
  · rfl

noncomputable def leakFn : FArr (Fin 2 → ℝ) ℝ := ⟨2, fun z q => if q = 0 then z 0 + z 1 else z 1⟩

theorem leak_fn (z : Fin 2 → ℝ) : evalPlain 1 leakProg [] (unflat [2] z) = .ok ([leakFn].map fun g => g.at z) := by
  rw [unflat_arg, leak_eval]
  rfl

theorem leak_partial (x : Fin 2 → ℝ) : partialD 0 (fun z : Fin 2 → ℝ => z 0 + z 1) x = 1 := by
  have h : HasFDerivAt (fun z : Fin 2 → ℝ => z 0 + z 1) (ContinuousLinearMap.proj (R := ℝ) (φ := fun _ : Fin 2 => ℝ) 0 +
      ContinuousLinearMap.proj (R := ℝ) (φ := fun _ : Fin 2 => ℝ) 1) x :=
    (hasFDerivAt_apply 0 x).add (hasFDerivAt_apply 1 x)
  unfold partialD
  rw [h.differentiableAt.lineDeriv_eq_fderiv, h.fderiv]
  simp

theorem leak_dense (reg : String → Option (Prim ℝ)) (junk : List (PVal ℝ) → PVal ℝ) (x : Fin 2 → ℝ) :
    ∃ ys, forwardLaplacian reg junk 0 1 leakProg [] .absent (plainArgs [2] x) = .ok ys ∧
      List.Forall₂ (Correct x) ys [leakFn] := by
  have ht : threshold 0 2 ≤ 0 := by unfold threshold pyInt; norm_num
  have hsum : ∀ v, Good false 2 sumP v := sum_good false 2
  have hsumT : ∀ v, sumP.TotalAt 0 2 v := fun v =>
    Std.total sumStd 0 2 v (reduceSum_true 2 _ _ Function.surjective_id v) fun _ _ _ h => by
      simp [sumStd, reduceSum, redStd, arrStd] at h
  have dom : ∀ good : (p : Prim ℝ) → ((i : Fin p.nIn) → Fin (p.size i) → ℝ) → Prop, (∀ v, good sumP v) →
      (∀ v, good (scatterPrim leakCall leakPos) v) →
      DomProg (evPlain 1) (DomP reg good 1) leakProg [] (unflat [2] x) := by
    intro good g1 g2
    rw [unflat_arg]
    intro s hs
    obtain rfl := Except.ok.inj hs
    refine domRun_step _ _ rfl (fun v _ => g1 v) (sum_bind _) _ rfl ?_
    exact domRun_step _ _ rfl (fun v _ => g2 v) (scatter_bind _ _) _ rfl trivial
  have hsc : ∀ v, Good false 2 (scatterPrim (F := ℝ) leakCall leakPos) v := fun v => .scatter leakCall leakCall_ok leakPos v rfl
  obtain ⟨ys, hys⟩ := C01_dense_total reg junk 0 (n := 2) (by decide) [2] rfl ht 1 leakProg [] x
    (dom _ (fun v => ⟨hsum v, hsumT v⟩) fun v => ⟨hsc v, scatterPrim_total 0 2 leakCall leakPos v⟩)
    (fun e he => by
      simp only [leakProg, List.mem_cons, List.not_mem_nil, or_false] at he
      rcases he with rfl | rfl <;> trivial)
    (fun v _ => le_trans (List.count_le_length ..) (by decide)) _ (leak_fn x)
  refine ⟨ys, hys, ?_⟩
  obtain ⟨f, f1, f2⟩ := C01_dense_exact reg junk 0 (n := 2) (by decide) [2] rfl ht 1 leakProg [] x
    (dom _ hsum hsc) ys hys
  obtain rfl : f = [leakFn] := farr_ext _ _ fun z => Except.ok.inj ((f1 z).symm.trans (leak_fn z))
  exact f2

end Demo

open Demo in
/-- **C02 is false of the code**: for `f(x) = x.at[0].set(x.sum())`, two inputs and `sparsity_threshold = 0.5` the call
returns at every `x`, and what it returns is never value, Jacobian and Laplacian of `f`. -/
theorem C02_counterexample (reg : String → Option (Prim ℝ)) (junk : List (PVal ℝ) → PVal ℝ) (x : Fin 2 → ℝ) :
    ∃ ys, forwardLaplacian reg junk (1/2) 1 leakProg [] .absent (plainArgs [2] x) = .ok ys ∧
      ¬∃ f : List (FArr (Fin 2 → ℝ) ℝ), (∀ z, evalPlain 1 leakProg [] (unflat [2] z) = .ok (f.map fun g => g.at z)) ∧
        List.Forall₂ (Correct x) ys f := by
  obtain ⟨t, h1, h2⟩ := leak_run reg junk x
  refine ⟨_, h1, ?_⟩
  rintro ⟨f, f1, f2⟩
  obtain rfl : f = [leakFn] := farr_ext _ _ fun z => Except.ok.inj ((f1 z).symm.trans (leak_fn z))
  have hc : Correct x ⟨2, .lapl t⟩ leakFn := (List.forall₂_cons.mp f2).1
  have hj := (correct_trip x (.lapl t) _ hc).1.jacobian 0 0
  have hj : t.jac.den 0 0 = partialD 0 (fun z : Fin 2 → ℝ => z 0 + z 1) x := hj
  rw [h2, leak_partial] at hj
  norm_num at hj

open Demo in
/-- **C04 is false of the code**: for the same function, `sparsity_threshold = 0.5` and any weights (one number or an array) that do not ignore the first input, the call returns at every `x`, and
what it returns is never the weighted Jacobian and Laplacian of `f`. -/
theorem C04_counterexample (reg : String → Option (Prim ℝ)) (junk : List (PVal ℝ) → PVal ℝ) (weights : Weights ℝ) (w x : Fin 2 → ℝ)
    (hw : weightArrs weights [2] = .ok (unflat [2] w)) (h0 : w 0 ≠ 0) :
    ∃ ys, forwardLaplacian reg junk (1/2) 1 leakProg [] weights (plainArgs [2] x) = .ok ys ∧
      ¬∃ f : List (FArr (Fin 2 → ℝ) ℝ), (∀ z, evalPlain 1 leakProg [] (unflat [2] z) = .ok (f.map fun g => g.at z)) ∧
        List.Forall₂ (ExactVal w x) ys f := by
  obtain ⟨t, h1, h2⟩ := leak_runW reg junk weights w x hw
  refine ⟨_, h1, ?_⟩
  rintro ⟨f, f1, f2⟩
  obtain rfl : f = [leakFn] := farr_ext _ _ fun z => Except.ok.inj ((f1 z).symm.trans (leak_fn z))
  obtain ⟨u, hu, hc⟩ := (List.forall₂_cons.mp f2).1
  have hu' : (fun (z : Fin 2 → ℝ) (q : Fin 2) => if q = 0 then z 0 + z 1 else z 1) = u := eq_of_heq (Sigma.mk.inj hu).2
  subst hu'
  have hc : Exact w x t fun (z : Fin 2 → ℝ) (q : Fin 2) => if q = 0 then z 0 + z 1 else z 1 := hc
  have hj : t.jac.den 0 0 = w 0 * partialD 0 (fun z : Fin 2 → ℝ => z 0 + z 1) x := hc.jacobian 0 0
  rw [h2, leak_partial, mul_one] at hj
  exact h0 (by linarith)

/-- Any single weight other than zero will do, such as 3. -/
example (reg : String → Option (Prim ℝ)) (junk : List (PVal ℝ) → PVal ℝ) (x : Fin 2 → ℝ) :
    ∃ ys, forwardLaplacian reg junk (1/2) 1 Demo.leakProg [] (.all (.scalar (3 : ℝ))) (plainArgs [2] x) = .ok ys ∧
      ¬∃ f : List (FArr (Fin 2 → ℝ) ℝ), (∀ z, evalPlain 1 Demo.leakProg [] (unflat [2] z) = .ok (f.map fun g => g.at z)) ∧
        List.Forall₂ (ExactVal (fun _ => 3) x) ys f :=
  C04_counterexample reg junk _ (fun _ => 3) x (weights_scalar (F := ℝ) (n := 2) [2] rfl 3) (by norm_num)

open Demo in
/-- **C03 is false of the code**: for the same function the calls with thresholds `0` and `0.5` both return, and their
answers differ at every `x`. -/
theorem C03_counterexample (reg : String → Option (Prim ℝ)) (junk : List (PVal ℝ) → PVal ℝ) (x : Fin 2 → ℝ) :
    ∃ ys ys', forwardLaplacian reg junk 0 1 leakProg [] .absent (plainArgs [2] x) = .ok ys ∧
      forwardLaplacian reg junk (1/2) 1 leakProg [] .absent (plainArgs [2] x) = .ok ys' ∧
      ¬List.Forall₂ SameAnswer ys ys' := by
  obtain ⟨t, h1, h2⟩ := leak_run reg junk x
  obtain ⟨ys, k1, k2⟩ := leak_dense reg junk x
  refine ⟨ys, _, k1, h1, fun hs => ?_⟩
  cases k2 with
  | @cons v _ l _ hc hnil =>
    cases hnil
    obtain ⟨m, o, o', e1, e2, -, hd, -⟩ := (List.forall₂_cons.mp hs).1
    subst e1
    obtain rfl : 2 = m := congrArg Sigma.fst e2
    obtain rfl : Opd.lapl t = o' := eq_of_heq (Sigma.mk.inj e2).2
    have hj := (correct_trip x o _ hc).1.jacobian 0 0
    have hj : o.trip.jac.den 0 0 = partialD 0 (fun z : Fin 2 → ℝ => z 0 + z 1) x := hj
    rw [leak_partial] at hj
    have := hd 0 0
    rw [hj] at this
    have : (1 : ℝ) = t.jac.den 0 0 := this
    rw [h2] at this
    norm_num at this

end Folx

import Verif.Prog.Run
import Verif.Props.CounterProps

/-!
# C02, C03, C04 for runs that hit none of the known defects
-/

namespace Folx

open Filter Topology
open Folx.Interp

variable {F : Type} [RCLike F]

/-- In the forward-Laplacian run of the program on `x` every call hits none of the known defects (`GoodCall`). -/
def RunOk (reg : String → Option (Prim F)) (junk : List (PVal F) → PVal F) (t : ℚ) {n : ℕ} (d : ℕ)
    (j : Jaxpr (Op d F) (PArr F)) (consts : List (PArr F)) (weights : Weights F) (sizes : List ℕ) (x : Fin n → ℝ) : Prop :=
  ∀ args, initState (decide (0 < threshold t n)) weights (plainArgs sizes x) = .ok args →
    DomProg (evLapl reg junk (threshold t n).toNat d)
      (DomR reg junk (threshold t n).toNat (GoodCall (threshold t n).toNat n) d)
      (j.map PVal.ofPlain) (consts.map PVal.ofPlain) args

/-- **C02, C04 (partial).** For every program, every input, every sparsity threshold and every weights: if the call
returns and no equation of the run hits a known defect, what is returned is exact. -/
theorem C04_run_exact_partial (reg : String → Option (Prim F)) (junk : List (PVal F) → PVal F) (t : ℚ) {n : ℕ}
    (hn : 0 < n) (sizes : List ℕ) (hs : sizes.sum = n) (d : ℕ)
    (j : Jaxpr (Op d F) (PArr F)) (consts : List (PArr F)) (weights : Weights F) (w x : Fin n → ℝ)
    (hw : weightArrs weights sizes = .ok (unflat sizes w)) (hd : RunOk reg junk t d j consts weights sizes x)
    (ys : List (PVal F)) (h : forwardLaplacian reg junk t d j consts weights (plainArgs sizes x) = .ok ys) :
    ∃ f : List (FArr (Fin n → ℝ) F),
      (∀ z, evalPlain d j consts (unflat sizes z) = .ok (f.map fun g => g.at z)) ∧
      List.Forall₂ (ExactVal w x) ys f := by
  have hne : sizes ≠ [] := by
    rintro rfl
    simp at hs
    omega
  unfold RunOk plainArgs at hd
  unfold forwardLaplacian at h
  rw [sizes_plainArgs, hs] at h
  dsimp only at h
  unfold plainArgs at h
  rw [initState_eq _ weights sizes hne hs w x hw] at h hd
  dsimp only at h
  have hinit : List.Forall₂ (Represents (inputBase w x) fun _ _ => True)
      (initSpec (decide (0 < threshold t n)) w x 0 sizes : List (PVal F)) (inputFns n 0 sizes) := by
    apply initSpec_represents _ _ w x _ sizes 0 (by omega)
    cases decide (0 < threshold t n) with
    | true => exact fun _ _ => trivial
    | false => exact fun _ rows hr => trivial
  obtain ⟨outs, h1, h2⟩ := evalLapl_run (inputBase w x) (fun _ _ => True) reg junk _ (GoodCall (threshold t n).toNat n)
    (fun p o ho => ho.sound hn p o) d j consts _ _ ys hinit (hd _ rfl) h
  refine ⟨outs, fun z => ?_, h2.imp fun v g hv => exactVal_of_represents _ x _ v g hv⟩
  have := h1 z
  rw [inputFns_at] at this
  exact this

/-- **C02 (partial).** With unit weights: value, Jacobian and Laplacian. -/
theorem C02_run_exact_partial (reg : String → Option (Prim F)) (junk : List (PVal F) → PVal F) (t : ℚ) {n : ℕ}
    (hn : 0 < n) (sizes : List ℕ) (hs : sizes.sum = n) (d : ℕ)
    (j : Jaxpr (Op d F) (PArr F)) (consts : List (PArr F)) (x : Fin n → ℝ)
    (hd : RunOk reg junk t d j consts .absent sizes x)
    (ys : List (PVal F)) (h : forwardLaplacian reg junk t d j consts .absent (plainArgs sizes x) = .ok ys) :
    ∃ f : List (FArr (Fin n → ℝ) F),
      (∀ z, evalPlain d j consts (unflat sizes z) = .ok (f.map fun g => g.at z)) ∧
      List.Forall₂ (Correct x) ys f := by
  obtain ⟨f, h1, h2⟩ := C04_run_exact_partial reg junk t hn sizes hs d j consts .absent (fun _ => 1) x
    (weights_absent sizes hs) hd ys h
  exact ⟨f, h1, h2.imp fun v g hv => correct_of_exact x v g hv⟩

/-- **C03 (partial).** Two runs with different thresholds that hit no defect agree. -/
theorem C03_run_partial (reg : String → Option (Prim F)) (junk : List (PVal F) → PVal F) (t t' : ℚ) {n : ℕ}
    (hn : 0 < n) (sizes : List ℕ) (hs : sizes.sum = n) (d : ℕ)
    (j : Jaxpr (Op d F) (PArr F)) (consts : List (PArr F)) (x : Fin n → ℝ)
    (hd : RunOk reg junk t d j consts .absent sizes x) (hd' : RunOk reg junk t' d j consts .absent sizes x)
    (ys ys' : List (PVal F))
    (h : forwardLaplacian reg junk t d j consts .absent (plainArgs sizes x) = .ok ys)
    (h' : forwardLaplacian reg junk t' d j consts .absent (plainArgs sizes x) = .ok ys') :
    List.Forall₂ SameAnswer ys ys' := by
  obtain ⟨f, f1, f2⟩ := C02_run_exact_partial reg junk t hn sizes hs d j consts x hd ys h
  obtain ⟨g, g1, g2⟩ := C02_run_exact_partial reg junk t' hn sizes hs d j consts x hd' ys' h'
  obtain rfl : f = g := farr_ext f g fun z => Except.ok.inj ((f1 z).symm.trans (g1 z))
  exact sameAnswer_of_correct x ys ys' f f2 g2

namespace Demo

/-- With threshold 6 the sum stays sparse. -/
theorem leak_sum6 (x : Fin 2 → ℝ) : ∃ t : Trip (Fin 1) ℝ, sumP.call 6 [⟨2, .lapl (leakX x)⟩] = .ok [⟨1, .lapl t⟩] ∧
    t.jac.weak = true ∧ t.jac.Filled := by
  obtain ⟨o, h1, h2, h3⟩ : ∃ o : JvpOut (Fin 1) ℝ,
      sparseSum ⟨Fin 1, Fin 2, (Equiv.uniqueProd (Fin 2) (Fin 1)).symm, fun q => q⟩ 6
      (leakX x) = .ok o ∧ o.jac.weak = true ∧ o.jac.Filled := by
    obtain ⟨o, ho, hw⟩ : ∃ o : JvpOut (Fin 1) ℝ,
        sparseSum ⟨Fin 1, Fin 2, (Equiv.uniqueProd (Fin 2) (Fin 1)).symm, fun q => q⟩ 6 (leakX x) = .ok o ∧
          o.jac.weak = true := ⟨_, rfl, rfl⟩
    refine ⟨o, ho, hw, fun _ => ?_⟩
    have ht := sparseSum_tight _ _ _ o ho
    cases hj : o.jac with
    | dense r => rw [hj] at hw; simp [Jac.weak] at hw
    | sparse rows =>
      rw [hj] at ht
      rcases ht with he | ht
      · exact (he.false 0).elim
      · simpa [Jac.nrows] using ht.1
  refine ⟨⟨o.y, o.jac, fun q => o.lapl q + 0⟩, ?_, h2, h3⟩
  unfold Prim.call
  have hu : unpack (β := Opd ℝ) sumP.size [⟨2, .lapl (leakX x)⟩] = .ok fun _ => .lapl (leakX x) := by
    rw [unpack_eq]
    rfl
  rw [hu]
  dsimp only
  have hr : sumP.rule 6 (fun _ => .lapl (leakX x)) =
      .ok fun _ => (.lapl ⟨o.y, o.jac, fun q => o.lapl q + 0⟩ : Opd ℝ 1) := by
    refine WPrim.call_of_wrapped sumStd.toWPrim 6 (fun _ => .lapl (leakX x)) ?_ ⟨o.y, o.jac, fun q => o.lapl q + 0⟩ ?_
    · show (1 : ℕ) ≠ 0
      decide
    · exact wrapped_sum (P₀ := Fin 2) (Q := Fin 1) (sumStd.inst (k := 1)
        (WPrim.laplEmb (size := fun _ : Fin 1 => 2) (fun _ => .lapl (leakX x))) fun _ => (leakX x).x) _ 6 (leakX x)
        rfl rfl rfl rfl o h1
  rw [hr]
  rfl

theorem leak_total6 (x : Fin 2 → ℝ) (s : Trip (Fin 1) ℝ) (h2 : s.jac.Filled) : ∃ t : Trip (Fin 2) ℝ,
      (scatterInst (P := fun a => Fin (leakSize a)) leakCall leakPos : HInst 2 _ _ ℝ).wrapped 6 (leakArgs (leakX x) s) =
        .ok t := by
  have hne : ∀ a : Fin 2, Nonempty (Fin (leakSize a)) := fun a => match a with
    | 0 => ⟨(0 : Fin 2)⟩
    | 1 => ⟨(0 : Fin 1)⟩
  have hfill : ∀ a, (leakArgs (leakX x) s a).jac.Filled := fun a => match a with
    | 0 => fun _ => Nat.one_ne_zero
    | 1 => h2
  exact scatter_total (P := fun a => Fin (leakSize a)) (F := ℝ) leakCall leakPos 6 (leakArgs (leakX x) s) hfill
    (fun h => absurd (show true = false from h) (by simp))

theorem leak_call6 (x : Fin 2 → ℝ) (s : Trip (Fin 1) ℝ) (t : Trip (Fin 2) ℝ)
    (ht : (scatterInst (P := fun a => Fin (leakSize a)) leakCall leakPos : HInst 2 _ _ ℝ).wrapped 6
      (leakArgs (leakX x) s) = .ok t) :
    (scatterPrim (F := ℝ) leakCall leakPos).call 6 [⟨2, .lapl (leakX x)⟩, ⟨1, .lapl s⟩] = .ok [⟨2, .lapl t⟩] := by
  unfold Prim.call
  have hu : unpack (β := Opd ℝ) (scatterPrim (F := ℝ) leakCall leakPos).size [⟨2, .lapl (leakX x)⟩, ⟨1, .lapl s⟩] =
      .ok fun a => .lapl (leakArgs (leakX x) s a) := by
    rw [unpack_eq]
    rfl
  rw [hu]
  dsimp only
  have hr : (scatterPrim (F := ℝ) leakCall leakPos).rule 6 (fun a => .lapl (leakArgs (leakX x) s a)) =
      .ok fun _ => (.lapl t : Opd ℝ 2) := scatterPrim_both leakCall leakPos 6 _ t ht
  rw [hr]
  rfl

theorem thr_six : threshold 6 2 = 6 := by decide

/-- The conditions hold for `x.at[0].set(x.sum())` with threshold 6 (they fail with threshold 0.5, see
`C02_counterexample`). -/
theorem leak_runOk (reg : String → Option (Prim ℝ)) (junk : List (PVal ℝ) → PVal ℝ) (x : Fin 2 → ℝ) :
    RunOk reg junk 6 1 leakProg [] .absent [2] x := by
  intro args ha
  rw [thr_six] at ha ⊢
  have hdec : decide ((0 : ℤ) < 6) = true := by decide
  rw [hdec, leakX_init] at ha
  obtain rfl := Except.ok.inj ha
  obtain ⟨s, h1, h2, h3⟩ := leak_sum6 x
  obtain ⟨t, ht⟩ := leak_total6 x s h3
  intro s0 hs0
  obtain rfl := Except.ok.inj hs0
  refine domRun_step [⟨2, .lapl (leakX x)⟩] [⟨1, .lapl s⟩] rfl ?_ h1 _ rfl ?_
  · intro _ o ho
    have ho : unpack (β := Opd ℝ) sumP.size [⟨2, .lapl (leakX x)⟩] = .ok o := ho
    have hu : unpack (β := Opd ℝ) sumP.size [⟨2, .lapl (leakX x)⟩] = .ok fun _ => .lapl (leakX x) := by
      rw [unpack_eq]
      rfl
    rw [hu] at ho
    obtain rfl := Except.ok.inj ho
    refine .wrapped sumStd (fun _ => .lapl (leakX x)) (reduceSum_true 2 _ _ Function.surjective_id _) ?_
    refine HInst.noDefect_weak _ _ _ (fun _ => rfl) (Or.inr (Or.inr ?_))
    show (1 : ℕ) = 1
    rfl
  · refine domRun_step [⟨2, .lapl (leakX x)⟩, ⟨1, .lapl s⟩] [⟨2, .lapl t⟩] rfl ?_ (leak_call6 x s t ht) _ rfl trivial
    intro _ o ho
    have ho : unpack (β := Opd ℝ) (scatterPrim (F := ℝ) leakCall leakPos).size
      [⟨2, .lapl (leakX x)⟩, ⟨1, .lapl s⟩] = .ok o := ho
    have hu : unpack (β := Opd ℝ) (scatterPrim (F := ℝ) leakCall leakPos).size [⟨2, .lapl (leakX x)⟩, ⟨1, .lapl s⟩] =
        .ok fun a => .lapl (leakArgs (leakX x) s a) := by
      rw [unpack_eq]
      rfl
    rw [hu] at ho
    obtain rfl := Except.ok.inj ho
    refine .scatter leakCall leakCall_ok leakPos _ ?_ ?_
    · intro s0 s1 e0 e1 _ hw
      obtain rfl : s = s1 := Opd.lapl.inj e1
      rw [h2] at hw
      simp at hw
    · intro s0 s1 e0 e1 hw
      obtain rfl : leakX x = s0 := Opd.lapl.inj e0
      exact absurd (show true = false from hw) (by simp)

/-- ... and the call returns, so that by `C02_run_exact_partial` it is exact. -/
theorem leak_run6 (reg : String → Option (Prim ℝ)) (junk : List (PVal ℝ) → PVal ℝ) (x : Fin 2 → ℝ) :
    ∃ ys, forwardLaplacian reg junk 6 1 leakProg [] .absent (plainArgs [2] x) = .ok ys ∧
      List.Forall₂ (Correct x) ys [leakFn] := by
  obtain ⟨s, h1, h2, h3⟩ := leak_sum6 x
  obtain ⟨t, ht⟩ := leak_total6 x s h3
  have hcall := leak_call6 x s t ht
  have hrun : forwardLaplacian reg junk 6 1 leakProg [] .absent (plainArgs [2] x) = .ok [⟨2, .lapl t⟩] := by
    unfold forwardLaplacian
    rw [sizes_plainArgs]
    simp only [List.sum_cons, List.sum_nil, add_zero, thr_six]
    have hdec : decide ((0 : ℤ) < 6) = true := by decide
    rw [hdec, leakX_init]
    dsimp only
    unfold evalLapl
    rw [evalRC_eq_evalSpec _ _ (fun v _ => le_trans (List.count_le_length ..) (by decide))]
    exact run_two _ _ _ _ _ _ h1 hcall
  refine ⟨_, hrun, ?_⟩
  obtain ⟨f, f1, f2⟩ := C02_run_exact_partial reg junk 6 (n := 2) (by decide) [2] rfl 1 leakProg [] x
    (leak_runOk reg junk x) _ hrun
  obtain rfl : f = [leakFn] := farr_ext _ _ fun z => Except.ok.inj ((f1 z).symm.trans (leak_fn z))
  exact f2

end Demo
end Folx

import Verif.ND.ArrRun
import Verif.Props.RunProps
import Verif.Props.DotArrProps

/-!
# C71: array programs with determinants; array programs judged by their run

C59 asks that the Jacobians a run meets have all rows.  `slogdet` (`wrapped_functions.py:238-259`) of an array with a sparse Jacobian, and contractions on the fast path, return
dense Jacobians with fewer rows than there are inputs (the missing rows are zero).  Functions that are linear in each operand, functions of one operand, `dot_general` and
`slogdet` itself deal with them; other functions of several operands do if no sparse Jacobian meets a short one (B33).
-/

namespace Folx
open Filter Topology
open Folx.Interp Folx.Layout Folx.Vmap

variable {F : Type} [RCLike F] [Inhabited F]

/-- Every call of the forward-Laplacian run of the program on `x` is one of those of `ArrGoodCall` (`Verif/ND/ArrRun.lean`). -/
def ArrayRunOk (reg : String → Option (Prim F)) (junk : List (PVal F) → PVal F) (t : ℚ) {n : ℕ} (d : ℕ)
    (j : Jaxpr (Op d F) (PArr F)) (consts : List (PArr F)) (weights : Weights F) (sizes : List ℕ) (x : Fin n → ℝ) : Prop :=
  ∀ args, initState (decide (0 < threshold t n)) weights (plainArgs sizes x) = .ok args →
    DomProg (evLapl reg junk (threshold t n).toNat d)
      (DomR reg junk (threshold t n).toNat (ArrGoodCall (threshold t n).toNat n) d)
      (j.map PVal.ofPlain) (consts.map PVal.ofPlain) args

theorem filled_init {n : ℕ} (sp : Bool) (w x : Fin n → ℝ) (sizes : List ℕ) (hs : sizes.sum = n) :
    List.Forall₂ (Represents (inputBase w x) filledInv) (initSpec sp w x 0 sizes : List (PVal F)) (inputFns n 0 sizes) := by
  apply initSpec_represents' _ sp w x _ sizes 0 (by omega)
  cases sp with
  | true => exact fun _ rows hr _ h0 => hr (List.length_eq_zero_iff.mp h0)
  | false => exact fun _ rows _ => Jac.filled_dense rfl

/-- **C71 (runs).**  For every program over arrays, every input, every sparsity threshold and all weights: if the call returns and every call of the run is one of those of
`ArrGoodCall`, what is returned is exact. -/
theorem C71_run_exact (reg : String → Option (Prim F)) (junk : List (PVal F) → PVal F) (t : ℚ) {n : ℕ}
    (hn : 0 < n) (sizes : List ℕ) (hs : sizes.sum = n) (d : ℕ)
    (j : Jaxpr (Op d F) (PArr F)) (consts : List (PArr F)) (weights : Weights F) (w x : Fin n → ℝ)
    (hw : weightArrs weights sizes = .ok (unflat sizes w)) (hd : ArrayRunOk reg junk t d j consts weights sizes x)
    (ys : List (PVal F)) (h : forwardLaplacian reg junk t d j consts weights (plainArgs sizes x) = .ok ys) :
    ∃ f : List (FArr (Fin n → ℝ) F),
      (∀ z, evalPlain d j consts (unflat sizes z) = .ok (f.map fun g => g.at z)) ∧
      List.Forall₂ (ExactVal w x) ys f := by
  have hne : sizes ≠ [] := by
    rintro rfl
    simp at hs
    omega
  unfold ArrayRunOk plainArgs at hd
  unfold forwardLaplacian at h
  rw [sizes_plainArgs, hs] at h
  dsimp only at h
  unfold plainArgs at h
  rw [initState_eq _ weights sizes hne hs w x hw] at h hd
  dsimp only at h
  obtain ⟨outs, h1, h2⟩ := evalLapl_run (inputBase w x) filledInv reg junk _ (ArrGoodCall (threshold t n).toNat n)
    (fun p o ho => ho.sound hn p o) d j consts _ _ ys (filled_init _ w x sizes hs) (hd _ rfl) h
  refine ⟨outs, fun z => ?_, h2.imp fun v g hv => exactVal_of_represents _ x _ v g hv⟩
  have := h1 z
  rw [inputFns_at] at this
  exact this

/-- **C71 (runs, without weights).** -/
theorem C71_run_correct (reg : String → Option (Prim F)) (junk : List (PVal F) → PVal F) (t : ℚ) {n : ℕ}
    (hn : 0 < n) (sizes : List ℕ) (hs : sizes.sum = n) (d : ℕ)
    (j : Jaxpr (Op d F) (PArr F)) (consts : List (PArr F)) (x : Fin n → ℝ)
    (hd : ArrayRunOk reg junk t d j consts .absent sizes x)
    (ys : List (PVal F)) (h : forwardLaplacian reg junk t d j consts .absent (plainArgs sizes x) = .ok ys) :
    ∃ f : List (FArr (Fin n → ℝ) F),
      (∀ z, evalPlain d j consts (unflat sizes z) = .ok (f.map fun g => g.at z)) ∧
      List.Forall₂ (Correct x) ys f := by
  obtain ⟨f, h1, h2⟩ := C71_run_exact reg junk t hn sizes hs d j consts .absent (fun _ => 1) x (weights_absent sizes hs) hd ys h
  exact ⟨f, h1, h2.imp fun v g hv => correct_of_exact x v g hv⟩

/-- **C71 (runs, thresholds).**  Two such runs with different thresholds agree. -/
theorem C71_run_threshold (reg : String → Option (Prim F)) (junk : List (PVal F) → PVal F) (t t' : ℚ) {n : ℕ}
    (hn : 0 < n) (sizes : List ℕ) (hs : sizes.sum = n) (d : ℕ)
    (j : Jaxpr (Op d F) (PArr F)) (consts : List (PArr F)) (x : Fin n → ℝ)
    (hd : ArrayRunOk reg junk t d j consts .absent sizes x) (hd' : ArrayRunOk reg junk t' d j consts .absent sizes x)
    (ys ys' : List (PVal F))
    (h : forwardLaplacian reg junk t d j consts .absent (plainArgs sizes x) = .ok ys)
    (h' : forwardLaplacian reg junk t' d j consts .absent (plainArgs sizes x) = .ok ys') :
    List.Forall₂ SameAnswer ys ys' := by
  obtain ⟨f, f1, f2⟩ := C71_run_correct reg junk t hn sizes hs d j consts x hd ys h
  obtain ⟨g, g1, g2⟩ := C71_run_correct reg junk t' hn sizes hs d j consts x hd' ys' h'
  obtain rfl : f = g := farr_ext f g fun z => Except.ok.inj ((f1 z).symm.trans (g1 z))
  exact sameAnswer_of_correct x ys ys' f f2 g2

/-- The functions of the program are among those of `AnyGood` (`Verif/ND/ArrRun.lean`) along its plain evaluation at `x`. -/
def AnyProgramOk (reg : String → Option (Prim F)) {n : ℕ} (d : ℕ) (j : Jaxpr (Op d F) (PArr F))
    (consts : List (PArr F)) (sizes : List ℕ) (x : Fin n → ℝ) : Prop :=
  DomProg (evPlain d) (DomP reg AnyGood d) j consts (unflat sizes x)

theorem any_dom (reg : String → Option (Prim F)) (junk : List (PVal F) → PVal F) (t : ℚ) {n : ℕ}
    (hn : 0 < n) (sizes : List ℕ) (hs : sizes.sum = n) (d : ℕ) (j : Jaxpr (Op d F) (PArr F)) (consts : List (PArr F)) (w x : Fin n → ℝ)
    (hd : AnyProgramOk reg d j consts sizes x) :
    DomProg (evLapl reg junk (threshold t n).toNat d) (Dom reg junk (threshold t n).toNat AnyGood d) (j.map PVal.ofPlain) (consts.map PVal.ofPlain)
      (initSpec (decide (0 < threshold t n)) w x 0 sizes) := by
  have hgood : ∀ (p : Prim F) v, AnyGood p v → p.SoundAt filledInv (threshold t n).toNat n v := fun p v hv => hv.sound hn p v
  refine domProg_transfer (at' := fun (g : FArr (Fin n → ℝ) F) x => g.at x)
    (cst := fun a => (⟨a.1, fun _ => a.2⟩ : FArr (Fin n → ℝ) F))
    (fun p => represents_const (inputBase w x) _ p) (fun _ _ => rfl) x (evPlain d) _ (DomP reg AnyGood d) _ j
    (fun e _ => evLapl_rel (inputBase w x) _ reg junk _ AnyGood hgood d e.op)
    (fun e _ => dom_of_plain (inputBase w x) _ reg junk _ AnyGood hgood d e.op) consts _ _ (filled_init _ w x sizes hs) ?_
  rw [inputFns_unflat]
  exact hd

/-- The hypothesis of the theorems about runs holds for such programs, whatever the threshold and the weights are. -/
theorem C71_run_of_program (reg : String → Option (Prim F)) (junk : List (PVal F) → PVal F) (t : ℚ) {n : ℕ}
    (hn : 0 < n) (sizes : List ℕ) (hs : sizes.sum = n) (d : ℕ) (j : Jaxpr (Op d F) (PArr F)) (consts : List (PArr F)) (weights : Weights F) (w x : Fin n → ℝ)
    (hw : weightArrs weights sizes = .ok (unflat sizes w)) (hd : AnyProgramOk reg d j consts sizes x) : ArrayRunOk reg junk t d j consts weights sizes x := by
  have hne : sizes ≠ [] := by
    rintro rfl
    simp at hs
    omega
  intro args ha
  unfold plainArgs at ha
  rw [initState_eq _ weights sizes hne hs w x hw] at ha
  obtain rfl := Except.ok.inj ha
  intro s hs'
  exact domRun_mono _ _ _ (Dom.domR reg junk _ AnyGood _ (fun p o h => h.call) d) _ _ (any_dom reg junk t hn sizes hs d j consts w x hd s hs')

/-- **C71 (programs).**  For every program whose functions are array-level and linear in each operand or have one operand, contractions, determinants, ..., every threshold
and all weights: what `forward_laplacian` returns is exact.  The hypotheses are about the plain evaluation of the program only. -/
theorem C71_exact (reg : String → Option (Prim F)) (junk : List (PVal F) → PVal F) (t : ℚ) {n : ℕ}
    (hn : 0 < n) (sizes : List ℕ) (hs : sizes.sum = n) (d : ℕ)
    (j : Jaxpr (Op d F) (PArr F)) (consts : List (PArr F)) (weights : Weights F) (w x : Fin n → ℝ)
    (hw : weightArrs weights sizes = .ok (unflat sizes w)) (hd : AnyProgramOk reg d j consts sizes x)
    (ys : List (PVal F)) (h : forwardLaplacian reg junk t d j consts weights (plainArgs sizes x) = .ok ys) :
    ∃ f : List (FArr (Fin n → ℝ) F),
      (∀ z, evalPlain d j consts (unflat sizes z) = .ok (f.map fun g => g.at z)) ∧
      List.Forall₂ (ExactVal w x) ys f := by
  have hne : sizes ≠ [] := by
    rintro rfl
    simp at hs
    omega
  unfold forwardLaplacian at h
  rw [sizes_plainArgs, hs] at h
  dsimp only at h
  unfold plainArgs at h
  rw [initState_eq _ weights sizes hne hs w x hw] at h
  dsimp only at h
  obtain ⟨outs, h1, h2⟩ := evalLapl_sound (inputBase w x) _ reg junk _ AnyGood (fun p v hv => hv.sound hn p v) d j consts _ _ ys (filled_init _ w x sizes hs)
    (any_dom reg junk t hn sizes hs d j consts w x hd) h
  refine ⟨outs, fun z => ?_, h2.imp fun v g hv => exactVal_of_represents _ x _ v g hv⟩
  rw [← inputFns_unflat]
  exact h1 z

/-- **C71 (programs, without weights).** -/
theorem C71_correct (reg : String → Option (Prim F)) (junk : List (PVal F) → PVal F) (t : ℚ) {n : ℕ}
    (hn : 0 < n) (sizes : List ℕ) (hs : sizes.sum = n) (d : ℕ)
    (j : Jaxpr (Op d F) (PArr F)) (consts : List (PArr F)) (x : Fin n → ℝ) (hd : AnyProgramOk reg d j consts sizes x)
    (ys : List (PVal F)) (h : forwardLaplacian reg junk t d j consts .absent (plainArgs sizes x) = .ok ys) :
    ∃ f : List (FArr (Fin n → ℝ) F),
      (∀ z, evalPlain d j consts (unflat sizes z) = .ok (f.map fun g => g.at z)) ∧
      List.Forall₂ (Correct x) ys f := by
  obtain ⟨f, h1, h2⟩ := C71_exact reg junk t hn sizes hs d j consts .absent (fun _ => 1) x (weights_absent sizes hs) hd ys h
  exact ⟨f, h1, h2.imp fun v g hv => correct_of_exact x v g hv⟩

/-- **C71 (programs, thresholds).**  The threshold never shows in the answer. -/
theorem C71_threshold (reg : String → Option (Prim F)) (junk : List (PVal F) → PVal F) (t t' : ℚ) {n : ℕ}
    (hn : 0 < n) (sizes : List ℕ) (hs : sizes.sum = n) (d : ℕ)
    (j : Jaxpr (Op d F) (PArr F)) (consts : List (PArr F)) (x : Fin n → ℝ) (hd : AnyProgramOk reg d j consts sizes x)
    (ys ys' : List (PVal F))
    (h : forwardLaplacian reg junk t d j consts .absent (plainArgs sizes x) = .ok ys)
    (h' : forwardLaplacian reg junk t' d j consts .absent (plainArgs sizes x) = .ok ys') :
    List.Forall₂ SameAnswer ys ys' := by
  obtain ⟨f, f1, f2⟩ := C71_correct reg junk t hn sizes hs d j consts x hd ys h
  obtain ⟨g, g1, g2⟩ := C71_correct reg junk t' hn sizes hs d j consts x hd ys' h'
  obtain rfl : f = g := farr_ext f g fun z => Except.ok.inj ((f1 z).symm.trans (g1 z))
  exact sameAnswer_of_correct x ys ys' f f2 g2

/-! ### `exp(log|det(exp(x))|)` for a (2, 2) array -/

namespace ArrRunDemo
open DotArrDemo
open ArrDemo hiding expP expA exp_bind exp_good

/-- `jnp.exp` of a scalar. -/
noncomputable def exp0A : ArrFn ℝ (k := 1) (fun _ => []) [] :=
  ewFn (k := 1) Flags.GENERAL true (fun _ => []) [] (fun z : Fin 1 → ℝ => Real.exp (z 0)) (fun z => Real.exp (z 0) • LinearMap.proj 0)
    fun z => Real.exp (z 0) • (LinearMap.mul ℝ ℝ).compl₁₂ (LinearMap.proj 0) (LinearMap.proj 0)

noncomputable def exp0P : Prim ℝ := exp0A.prim fun _ => none

noncomputable def detP : Prim ℝ := slogdetPrim ℝ DetField.ofReal.cplx 1 2 (by decide)

theorem exp0_good (x : (i : Fin 1) → Fin ([] : List ℕ).prod → ℝ) : AnyGood exp0P x :=
  .array exp0A _ [] (fun _ z _ => Real.exp (onlyMap (fun _ : Fin 1 => []) z 0)) x
    (ew_truthful (m := 0) (fun _ => by decide) (by decide) (broadcastShapes_iff.mp (by decide +kernel)) (by decide) (fun p _ => by
      set z : Fin 1 → ℝ := numsAt (m := 0) _ _ x p
      obtain ⟨H, g1, g2⟩ := exp_exact (ContinuousLinearMap.proj (R := ℝ) (φ := fun _ : Fin 1 => ℝ) 0) z
      exact ⟨_, H, g1, fun t => rfl, fun s t => g2 s t⟩) fun h => absurd h (by decide))
    (ew_safe (m := 0) (by decide) (by decide) (by decide) (by decide)) (Or.inr rfl)

theorem exp0_bind (a : Fin 1 → ℝ) : exp0P.bind [⟨1, a⟩] = .ok [⟨1, fun q => Real.exp (a q)⟩] := by
  have h : exp0A.fwd (fun _ => a) = fun q : Fin 1 => Real.exp (a q) := by
    funext q
    exact congrArg (fun z : Fin 1 → ℝ => Real.exp (z 0)) (pick_same (k := 1) (s := []) (broadcastShapes_iff.mp (by decide +kernel)) (fun _ => a) q)
  have h2 : exp0P.bind [⟨1, a⟩] = .ok [⟨1, exp0A.fwd (fun _ => a)⟩] := bind_of exp0P _ (fun _ => a) rfl
  rw [h2]
  exact congrArg (fun r => Except.ok [(⟨1, r⟩ : PArr ℝ)]) h

theorem exp_any (x : (i : Fin 1) → Fin ([2, 2] : List ℕ).prod → ℝ) : AnyGood expP x :=
  .array expA _ _ _ x (exp_true x) (ew_safe (m := 0) (by decide) (by decide) (by decide) (by decide)) (Or.inr rfl)

noncomputable def det2 (a : Fin 4 → ℝ) : ℝ := a 0 * a 3 - a 1 * a 2

theorem mats_det (a : Fin 4 → ℝ) : (mats (b := 1) (m := 2) a (0 : Fin 1)).det = det2 a := by
  rw [Matrix.det_fin_two, mats_apply _ _ _ _ (by decide), mats_apply _ _ _ _ (by decide), mats_apply _ _ _ _ (by decide), mats_apply _ _ _ _ (by decide)]
  rfl

theorem det_bind (a : Fin 4 → ℝ) : detP.bind [⟨4, a⟩] = .ok [⟨1, fun _ => det2 a / |det2 a|⟩, ⟨1, fun _ => Real.log |det2 a|⟩] := by
  have h2 : detP.bind [⟨4, a⟩] = .ok [⟨1, slogdetFwd (b := 1) (m := 2) a 0⟩, ⟨1, slogdetFwd (b := 1) (m := 2) a 1⟩] := by
    refine bind_of detP _ (fun _ => a) rfl
  rw [h2]
  have e0 : (slogdetFwd (b := 1) (m := 2) a 0 : Fin 1 → ℝ) = fun _ => det2 a / |det2 a| := by
    funext q
    obtain rfl : q = 0 := Subsingleton.elim _ _
    rw [← mats_det]
    rfl
  have e1 : (slogdetFwd (b := 1) (m := 2) a 1 : Fin 1 → ℝ) = fun _ => Real.log |det2 a| := by
    funext q
    obtain rfl : q = 0 := Subsingleton.elim _ _
    rw [← mats_det]
    rfl
  rw [e0, e1]

/-- `sign, l = slogdet(exp(x)); return sign, exp(l)`. -/
noncomputable def prog : Jaxpr (Op 1 ℝ) (PArr ℝ) where
  constvars := []
  invars := [0]
  eqns := [⟨OpStep.prim expP, [.var 0], [1]⟩, ⟨OpStep.prim detP, [.var 1], [2, 3]⟩, ⟨OpStep.prim exp0P, [.var 3], [4]⟩]
  outvars := [.var 2, .var 4]

theorem prog_ok (x : Fin 4 → ℝ) (h : det2 (fun q => Real.exp (x q)) ≠ 0) : AnyProgramOk Demo.reg 1 prog [] [4] x := by
  unfold AnyProgramOk
  rw [unflat_four]
  intro s hs
  obtain rfl := Except.ok.inj hs
  refine Demo.domRun_step _ _ rfl (fun x _ => exp_any x) (exp_bind x) _ rfl ?_
  refine Demo.domRun_step _ _ rfl (fun y hy => ?_) (det_bind fun q => Real.exp (x q)) _ rfl ?_
  · refine .slogdet DetField.ofReal 1 2 (by decide) y fun q => ?_
    obtain rfl : q = 0 := Subsingleton.elim _ _
    have hu : unpack (β := fun m => Fin m → ℝ) detP.size [⟨4, fun q => Real.exp (x q)⟩] = .ok fun _ => fun q => Real.exp (x q) :=
      (unpack_eq (β := fun m => Fin m → ℝ) detP.size _ _).mpr rfl
    obtain rfl := Except.ok.inj (hu.symm.trans hy)
    show (mats (b := 1) (m := 2) (fun q : Fin 4 => Real.exp (x q)) (0 : Fin 1)).det ≠ 0
    rw [mats_det]
    exact h
  · exact Demo.domRun_step _ _ rfl (fun x _ => exp0_good x) (exp0_bind _) _ rfl trivial

theorem prog_eval (x : Fin 4 → ℝ) : evalPlain 1 prog [] (unflat [4] x) =
    .ok [⟨1, fun _ => det2 (fun q => Real.exp (x q)) / |det2 fun q => Real.exp (x q)|⟩, ⟨1, fun _ => Real.exp (Real.log |det2 fun q => Real.exp (x q)|)⟩] := by
  rw [unflat_four]
  have h1 : evPlain 1 (OpStep.prim expP) [⟨4, x⟩] = .ok [⟨4, fun q => Real.exp (x q)⟩] := exp_bind x
  exact eval_of (ev := evPlain 1) (j := prog) rfl (run_step _ _ rfl h1 _ rfl (run_step _ _ rfl (det_bind fun q => Real.exp (x q)) _ rfl
    (run_step _ _ rfl (exp0_bind _) _ rfl rfl))) rfl

end ArrRunDemo

open ArrRunDemo in
/-- Every threshold, every weights: wherever `exp(x)` is invertible, what is returned are the derivatives of the sign and of the absolute value of `det(exp(x))`. -/
example (junk : List (PVal ℝ) → PVal ℝ) (t : ℚ) (x : Fin 4 → ℝ) (h0 : det2 (fun q => Real.exp (x q)) ≠ 0) (ys : List (PVal ℝ))
    (h : forwardLaplacian Demo.reg junk t 1 ArrRunDemo.prog [] .absent (plainArgs [4] x) = .ok ys) :
    List.Forall₂ (Correct x) ys [⟨1, fun z _ => det2 (fun q => Real.exp (z q)) / |det2 fun q => Real.exp (z q)|⟩,
      ⟨1, fun z _ => Real.exp (Real.log |det2 fun q => Real.exp (z q)|)⟩] := by
  obtain ⟨f, f1, f2⟩ := C71_correct Demo.reg junk t (n := 4) (by decide) [4] rfl 1 ArrRunDemo.prog [] x (ArrRunDemo.prog_ok x h0) ys h
  have hf := fun z => (f1 z).symm.trans (ArrRunDemo.prog_eval z)
  rw [farr_ext f [⟨1, fun z _ => det2 (fun q => Real.exp (z q)) / |det2 fun q => Real.exp (z q)|⟩,
      ⟨1, fun z _ => Real.exp (Real.log |det2 fun q => Real.exp (z q)|)⟩] fun z => Except.ok.inj (hf z)] at f2
  exact f2

open ArrRunDemo in
/-- The run of this program meets the hypothesis of the theorems about runs. -/
example (junk : List (PVal ℝ) → PVal ℝ) (t : ℚ) (x : Fin 4 → ℝ) (h0 : det2 (fun q => Real.exp (x q)) ≠ 0) : ArrayRunOk Demo.reg junk t 1 ArrRunDemo.prog [] .absent [4] x :=
  C71_run_of_program Demo.reg junk t (by decide) [4] rfl 1 ArrRunDemo.prog [] .absent (fun _ => 1) x (weights_absent [4] rfl) (ArrRunDemo.prog_ok x h0)

open ArrRunDemo in
/-- The hypothesis can be met. -/
example : ∃ x : Fin 4 → ℝ, det2 (fun q => Real.exp (x q)) ≠ 0 := by
  refine ⟨![1, 0, 0, 1], ?_⟩
  have h : Real.exp 1 * Real.exp 1 ≠ Real.exp 0 * Real.exp 0 := by
    rw [← Real.exp_add, ← Real.exp_add, Ne, Real.exp_eq_exp]
    norm_num
  simpa [det2, sub_eq_zero] using h

end Folx

import Verif.ND.CallLib
import Verif.ND.ArrGood
import Verif.Props.ProgProps

/-!
# C59: `forward_laplacian` of programs over arrays of every shape

The primitives of the program are functions of arrays as they are registered (`ArrFn`: flags, `in_axes`, batch axes, index masks, numpy broadcasting); their rule
(`ArrFn.prim`) is the whole of `wrap_forward_laplacian` on arrays (C54–C58), applied to the operands that carry derivatives.  `ArrGood` (`Verif/ND/ArrGood.lean`): the
declarations of every function are true at the values it meets (`ArrFn.Truthful`, `Verif/ND/CallSpec.lean`).
-/

namespace Folx
open Filter Topology
open Folx.Interp Folx.Layout Folx.Vmap

variable {F : Type} [RCLike F] [Inhabited F]

/-- The functions of the program are declared truthfully along its run at `x` (`sp`: with sparse Jacobians). -/
def ArrayProgramOk (sp : Bool) (reg : String → Option (Prim F)) {n : ℕ} (d : ℕ) (j : Jaxpr (Op d F) (PArr F))
    (consts : List (PArr F)) (sizes : List ℕ) (x : Fin n → ℝ) : Prop :=
  DomProg (evPlain d) (DomP reg (ArrGood sp n) d) j consts (unflat sizes x)

theorem arr_forward_rep (sp : Bool) (reg : String → Option (Prim F)) (junk : List (PVal F) → PVal F) (t : ℚ) {n : ℕ}
    (hn : 0 < n) (sizes : List ℕ) (hs : sizes.sum = n) (ht : decide (0 < threshold t n) = sp) (d : ℕ)
    (j : Jaxpr (Op d F) (PArr F)) (consts : List (PArr F)) (weights : Weights F) (w x : Fin n → ℝ)
    (hw : weightArrs weights sizes = .ok (unflat sizes w)) (hd : ArrayProgramOk sp reg d j consts sizes x)
    (ys : List (PVal F)) (h : forwardLaplacian reg junk t d j consts weights (plainArgs sizes x) = .ok ys) :
    ∃ outs : List (FArr (Fin n → ℝ) F),
      (∀ z, evalPlain d j consts (unflat sizes z) = .ok (outs.map fun g => g.at z)) ∧
      List.Forall₂ (Represents (inputBase w x)
        (if sp then arrInv (threshold t n).toNat n else denseInv n)) ys outs := by
  have hne : sizes ≠ [] := by
    rintro rfl
    simp at hs
    omega
  unfold forwardLaplacian at h
  rw [sizes_plainArgs, hs] at h
  dsimp only at h
  rw [ht] at h
  unfold plainArgs at h
  rw [initState_eq sp weights sizes hne hs w x hw] at h
  dsimp only at h
  have hgood : ∀ (p : Prim F) v, ArrGood sp n p v → p.SoundAt
      (if sp then arrInv (threshold t n).toNat n else denseInv n) (threshold t n).toNat n v := by
    intro p v hv
    cases sp with
    | true => exact arrGood_sparse _ n hn p v hv
    | false => exact arrGood_dense _ n hn p v hv
  have hinit : List.Forall₂ (Represents (inputBase w x)
      (if sp then arrInv (threshold t n).toNat n else denseInv n)) (initSpec sp w x 0 sizes : List (PVal F))
      (inputFns n 0 sizes) := by
    apply initSpec_represents' _ sp w x _ sizes 0 (by omega)
    cases sp with
    | true => exact fun _ rows h => ⟨fun _ => List.length_pos_of_ne_nil h, trivial⟩
    | false => exact fun _ rows hr => ⟨rfl, hr⟩
  have hdom : DomProg (evLapl reg junk (threshold t n).toNat d)
      (Dom reg junk (threshold t n).toNat (ArrGood sp n) d) (j.map PVal.ofPlain) (consts.map PVal.ofPlain)
      (initSpec sp w x 0 sizes) := by
    refine domProg_transfer (at' := fun (g : FArr (Fin n → ℝ) F) x => g.at x)
      (cst := fun a => (⟨a.1, fun _ => a.2⟩ : FArr (Fin n → ℝ) F))
      (fun p => represents_const (inputBase w x) _ p) (fun _ _ => rfl) x (evPlain d) _ (DomP reg (ArrGood sp n) d) _ j
      (fun e _ => evLapl_rel (inputBase w x) _ reg junk _ (ArrGood sp n) hgood d e.op)
      (fun e _ => dom_of_plain (inputBase w x) _ reg junk _ (ArrGood sp n) hgood d e.op) consts _ _ hinit ?_
    rw [inputFns_unflat]
    exact hd
  obtain ⟨outs, h1, h2⟩ := evalLapl_sound (inputBase w x) _ reg junk _ (ArrGood sp n) hgood d j consts _ _ ys hinit hdom h
  refine ⟨outs, fun z => ?_, h2⟩
  rw [← inputFns_unflat]
  exact h1 z

/-- **C59 (exactness).**  For every program over arrays whose functions are declared truthfully (with a positive threshold: and are safe with sparse Jacobians), every
threshold and all weights: whatever `forward_laplacian(f, weights)(x)` returns is the value of `f`, the rows `wᵢ ∂ᵢf` and the Laplacian `∑ wᵢ² ∂ᵢ∂ᵢf` at `x`. -/
theorem C59_exact (reg : String → Option (Prim F)) (junk : List (PVal F) → PVal F) (t : ℚ) {n : ℕ}
    (hn : 0 < n) (sizes : List ℕ) (hs : sizes.sum = n) (d : ℕ)
    (j : Jaxpr (Op d F) (PArr F)) (consts : List (PArr F)) (weights : Weights F) (w x : Fin n → ℝ)
    (hw : weightArrs weights sizes = .ok (unflat sizes w)) (hd : ArrayProgramOk (decide (0 < threshold t n)) reg d j consts sizes x)
    (ys : List (PVal F)) (h : forwardLaplacian reg junk t d j consts weights (plainArgs sizes x) = .ok ys) :
    ∃ f : List (FArr (Fin n → ℝ) F),
      (∀ z, evalPlain d j consts (unflat sizes z) = .ok (f.map fun g => g.at z)) ∧
      List.Forall₂ (ExactVal w x) ys f := by
  obtain ⟨outs, h1, h2⟩ := arr_forward_rep _ reg junk t hn sizes hs rfl d j consts weights w x hw hd ys h
  exact ⟨outs, h1, h2.imp fun v g hv => exactVal_of_represents _ x _ v g hv⟩

/-- **C59 without weights.** -/
theorem C59_correct (reg : String → Option (Prim F)) (junk : List (PVal F) → PVal F) (t : ℚ) {n : ℕ}
    (hn : 0 < n) (sizes : List ℕ) (hs : sizes.sum = n) (d : ℕ)
    (j : Jaxpr (Op d F) (PArr F)) (consts : List (PArr F)) (x : Fin n → ℝ)
    (hd : ArrayProgramOk (decide (0 < threshold t n)) reg d j consts sizes x)
    (ys : List (PVal F)) (h : forwardLaplacian reg junk t d j consts .absent (plainArgs sizes x) = .ok ys) :
    ∃ f : List (FArr (Fin n → ℝ) F),
      (∀ z, evalPlain d j consts (unflat sizes z) = .ok (f.map fun g => g.at z)) ∧
      List.Forall₂ (Correct x) ys f := by
  obtain ⟨f, h1, h2⟩ := C59_exact reg junk t hn sizes hs d j consts .absent (fun _ => 1) x (weights_absent sizes hs) hd ys h
  exact ⟨f, h1, h2.imp fun v g hv => correct_of_exact x v g hv⟩

/-- **C59 (totality).**  With sparsity disabled it returns whenever the function itself does, for programs without `scan` (functions that are not array-level must not raise). -/
theorem C59_total (reg : String → Option (Prim F)) (junk : List (PVal F) → PVal F) (t : ℚ) {n : ℕ}
    (hn : 0 < n) (sizes : List ℕ) (hs : sizes.sum = n) (ht : threshold t n ≤ 0) (d : ℕ)
    (j : Jaxpr (Op d F) (PArr F)) (consts : List (PArr F)) (x : Fin n → ℝ)
    (hd : DomProg (evPlain d) (DomP reg (fun p v => ArrGood false n p v ∧ (Good false n p v → p.TotalAt 0 n v)) d) j consts (unflat sizes x))
    (hns : ∀ e ∈ j.eqns, NoScan reg d e.op)
    (hbound : ∀ v, Atom.var v ∈ j.outvars → (readsOf j.eqns j.outvars).count v ≤ 2147483647)
    (zs : List (PArr F)) (he : evalPlain d j consts (unflat sizes x) = .ok zs) :
    ∃ ys, forwardLaplacian reg junk t d j consts .absent (plainArgs sizes x) = .ok ys := by
  have hne : sizes ≠ [] := by
    rintro rfl
    simp at hs
    omega
  unfold forwardLaplacian
  rw [sizes_plainArgs, hs]
  dsimp only
  rw [show decide (0 < threshold t n) = false by simpa using ht, Int.toNat_of_nonpos ht]
  unfold plainArgs
  rw [initState_eq false .absent sizes hne hs (fun _ => 1) x (weights_absent sizes hs)]
  dsimp only
  refine evalLapl_total (inputBase (fun _ => 1) x) reg junk 0 (fun p v => ArrGood false n p v ∧ (Good false n p v → p.TotalAt 0 n v))
    (fun p v hv => arrGood_dense 0 n hn p v hv.1) (fun p v hv => ?_) d j hns hbound consts _ (inputFns n 0 sizes) zs
    ?_ ?_ ?_
  · obtain ⟨hg, hc⟩ := hv
    cases hg with
    | array A ifwd b φ x h hs => exact prim_total hn h
    | dropped nIn size nOut outSize fwd x h => exact drop_total 0 _ x
    | mapped m f x => exact map_total 0 _ m f x
    | dot dd ls rs h hl hr hs x => exact dotArr_total hn h hl hr x
    | core p x h hs => exact hc h
  · apply initSpec_represents' _ false _ x _ sizes 0 (by omega)
    exact fun _ rows hr => ⟨rfl, hr⟩
  · rw [inputFns_unflat]; exact hd
  · rw [inputFns_unflat]; exact he

/-- **C59 (thresholds).**  Two runs with different thresholds give the same answer whenever both return. -/
theorem C59_threshold (reg : String → Option (Prim F)) (junk : List (PVal F) → PVal F) (t t' : ℚ)
    {n : ℕ} (hn : 0 < n) (sizes : List ℕ) (hs : sizes.sum = n) (d : ℕ)
    (j : Jaxpr (Op d F) (PArr F)) (consts : List (PArr F)) (x : Fin n → ℝ)
    (hd : ArrayProgramOk (decide (0 < threshold t n)) reg d j consts sizes x) (hd' : ArrayProgramOk (decide (0 < threshold t' n)) reg d j consts sizes x)
    (ys ys' : List (PVal F))
    (h : forwardLaplacian reg junk t d j consts .absent (plainArgs sizes x) = .ok ys)
    (h' : forwardLaplacian reg junk t' d j consts .absent (plainArgs sizes x) = .ok ys') :
    List.Forall₂ SameAnswer ys ys' := by
  obtain ⟨f, f1, f2⟩ := C59_correct reg junk t hn sizes hs d j consts x hd ys h
  obtain ⟨g, g1, g2⟩ := C59_correct reg junk t' hn sizes hs d j consts x hd' ys' h'
  obtain rfl : f = g := farr_ext f g fun z => Except.ok.inj ((f1 z).symm.trans (g1 z))
  exact sameAnswer_of_correct x ys ys' f f2 g2

/-! ### A program: `jnp.sum(x * jnp.exp(x), axis=1)` for a (2, 3) array -/

namespace ArrDemo

/-- `jnp.exp`. -/
noncomputable def expA : ArrFn ℝ (k := 1) (fun _ => [2, 3]) [2, 3] :=
  ewFn (k := 1) Flags.GENERAL true (fun _ => [2, 3]) [2, 3] (fun z : Fin 1 → ℝ => Real.exp (z 0)) (fun z => Real.exp (z 0) • LinearMap.proj 0)
    fun z => Real.exp (z 0) • (LinearMap.mul ℝ ℝ).compl₁₂ (LinearMap.proj 0) (LinearMap.proj 0)

noncomputable def expP : Prim ℝ := expA.prim fun _ => none
noncomputable def mulP : Prim ℝ := (mulArr (F := ℝ) true (fun _ => [2, 3]) [2, 3]).prim fun _ => none
noncomputable def sumP : Prim ℝ := (sumArr (F := ℝ) true [2, 3] [1]).prim fun _ => none

theorem exp_true (x : (i : Fin 1) → Fin ([2, 3] : List ℕ).prod → ℝ) : expA.Truthful (m := 0) (fun _ => none) [2, 3] (fun _ z _ => Real.exp (onlyMap (fun _ : Fin 1 => [2, 3]) z 0)) x :=
  ew_truthful (m := 0) (fun _ => by decide) (by decide) (broadcastShapes_iff.mp (by decide +kernel)) (by decide) (fun p _ => by
      set z : Fin 1 → ℝ := numsAt (m := 0) _ _ x p
      obtain ⟨H, g1, g2⟩ := exp_exact (ContinuousLinearMap.proj (R := ℝ) (φ := fun _ : Fin 1 => ℝ) 0) z
      exact ⟨_, H, g1, fun t => rfl, fun s t => g2 s t⟩) fun h => absurd h (by decide)

theorem exp_good (sp : Bool) (n : ℕ) (x : (i : Fin 1) → Fin ([2, 3] : List ℕ).prod → ℝ) : ArrGood sp n expP x :=
  .array expA _ _ _ x (exp_true x) fun _ => ew_safe (m := 0) (by decide) (by decide) (by decide) (by decide)

theorem mul_good (sp : Bool) (n : ℕ) (x : (i : Fin 2) → Fin ([2, 3] : List ℕ).prod → ℝ) : ArrGood sp n mulP x :=
  .array (mulArr (F := ℝ) true (fun _ => [2, 3]) [2, 3]) _ _ _ x (mulArr_truthful (fun _ => by decide) (by decide) (broadcastShapes_iff.mp (by decide +kernel)))
    fun _ => mulArr_safe

theorem sum_good (sp : Bool) (n : ℕ) (x : (i : Fin 1) → Fin ([2, 3] : List ℕ).prod → ℝ) : ArrGood sp n sumP x :=
  .array (sumArr (F := ℝ) true [2, 3] [1]) _ _ _ x (sumArr_truthful (by decide) (by decide) (by decide)) fun _ => sumArr_safe

noncomputable def prog : Jaxpr (Op 1 ℝ) (PArr ℝ) where
  constvars := []
  invars := [0]
  eqns := [⟨OpStep.prim expP, [.var 0], [1]⟩, ⟨OpStep.prim mulP, [.var 0, .var 1], [2]⟩, ⟨OpStep.prim sumP, [.var 2], [3]⟩]
  outvars := [.var 3]

theorem pick_same {k : ℕ} {s : List ℕ} (hb : Broadcasts (List.ofFn fun _ : Fin k => s) s) (y : (a : Fin k) → Fin s.prod → ℝ) (w : Fin s.prod) :
    pickAt (fun _ : Fin k => s) s (unravelIdx s w) y = fun i => y i w := by
  rw [pickAt_get hb (inB_unravelIdx w.2)]
  funext i
  rw [bcoord_self (inB_unravelIdx w.2), toND_get _ _ (inB_unravelIdx w.2)]
  exact congrArg (y i) (Fin.ext (ravelIdx_unravelIdx w.2))

theorem bind_of (p : Prim ℝ) (vals : List (PArr ℝ)) (x : (i : Fin p.nIn) → Fin (p.size i) → ℝ) (h : vals = List.ofFn fun i => (⟨p.size i, x i⟩ : PArr ℝ)) :
    p.bind vals = .ok (List.ofFn fun j => (⟨p.outSize j, p.fwd x j⟩ : PArr ℝ)) := by
  unfold Prim.bind
  rw [(unpack_eq (β := fun m => Fin m → ℝ) p.size vals x).mpr h]

theorem exp_bind (a : Fin 6 → ℝ) : expP.bind [⟨6, a⟩] = .ok [⟨6, fun q => Real.exp (a q)⟩] := by
  have h : expA.fwd (fun _ => a) = fun q : Fin 6 => Real.exp (a q) := by
    funext q
    exact congrArg (fun z : Fin 1 → ℝ => Real.exp (z 0)) (pick_same (k := 1) (s := [2, 3]) (broadcastShapes_iff.mp (by decide +kernel)) (fun _ => a) q)
  have h2 : expP.bind [⟨6, a⟩] = .ok [⟨6, expA.fwd (fun _ => a)⟩] := bind_of expP _ (fun _ => a) rfl
  rw [h2]
  exact congrArg (fun r => Except.ok [(⟨6, r⟩ : PArr ℝ)]) h

theorem mul_bind (a b : Fin 6 → ℝ) : mulP.bind [⟨6, a⟩, ⟨6, b⟩] = .ok [⟨6, fun q => a q * b q⟩] := by
  have h : (mulArr (F := ℝ) true (fun _ => [2, 3]) [2, 3]).fwd (Fin.cons a fun _ => b) = fun q : Fin 6 => a q * b q := by
    funext q
    exact congrArg (fun z : Fin 2 → ℝ => z 0 * z 1) (pick_same (k := 2) (s := [2, 3]) (broadcastShapes_iff.mp (by decide +kernel)) (Fin.cons a fun _ => b) q)
  have h2 : mulP.bind [⟨6, a⟩, ⟨6, b⟩] = .ok [⟨6, (mulArr (F := ℝ) true (fun _ => [2, 3]) [2, 3]).fwd (Fin.cons a fun _ => b)⟩] := bind_of mulP _ (Fin.cons (α := fun i => Fin ([2, 3] : List ℕ).prod → ℝ) a fun _ => b) rfl
  rw [h2]
  exact congrArg (fun r => Except.ok [(⟨6, r⟩ : PArr ℝ)]) h

theorem sum_bind (a : Fin 6 → ℝ) : sumP.bind [⟨6, a⟩] = .ok [⟨2, fun q => ∑ c : Fin 3, a ⟨3 * q + c, by omega⟩⟩] := by
  have h : (sumArr (F := ℝ) true [2, 3] [1]).fwd (fun _ => a) = fun q : Fin 2 => ∑ c : Fin 3, a ⟨3 * q + c, by omega⟩ := by
    funext q
    show sumL [2, 3] [1] a q + 0 = _
    rw [add_zero]
    have e : ∀ q : Fin 2, ((Dot.allIdx [2, 3]).filter fun p => keptOf [1] p = unravelIdx [2] q) = [[q.val, 0], [q.val, 1], [q.val, 2]] := by decide +kernel
    refine (congrArg (fun l => (List.map (byCoord [2, 3] (F := ℝ) (a : Fin ([2, 3] : List ℕ).prod → ℝ)) l).sum) (e q)).trans ?_
    rw [Fin.sum_univ_three]
    show _ + (_ + (_ + 0)) = _
    rw [add_zero, ← add_assoc]
    fin_cases q <;> rfl
  have h2 : sumP.bind [⟨6, a⟩] = .ok [⟨2, (sumArr (F := ℝ) true [2, 3] [1]).fwd (fun _ => a)⟩] := bind_of sumP _ (fun _ => a) rfl
  rw [h2]
  exact congrArg (fun r => Except.ok [(⟨2, r⟩ : PArr ℝ)]) h

theorem unflat_six (x : Fin 6 → ℝ) : unflat [6] x = [(⟨6, x⟩ : PArr ℝ)] := by
  unfold unflat
  simp only [blocks, List.cons.injEq, Sigma.mk.injEq, heq_eq_eq, true_and, and_true]
  funext p
  have : 0 + p.1 < 6 := by omega
  unfold coord
  rw [dif_pos this]
  simp

theorem prog_dom (good : (p : Prim ℝ) → ((i : Fin p.nIn) → Fin (p.size i) → ℝ) → Prop)
    (h1 : ∀ x, good expP x) (h2 : ∀ x, good mulP x) (h3 : ∀ x, good sumP x) (x : Fin 6 → ℝ) :
    DomProg (evPlain 1) (DomP Demo.reg good 1) prog [] (unflat [6] x) := by
  rw [unflat_six]
  intro s hs
  obtain rfl := Except.ok.inj hs
  refine Demo.domRun_step _ _ rfl (fun x _ => h1 x) (exp_bind x) _ rfl ?_
  refine Demo.domRun_step _ _ rfl (fun x _ => h2 x) (mul_bind x _) _ rfl ?_
  exact Demo.domRun_step _ _ rfl (fun x _ => h3 x) (sum_bind _) _ rfl trivial

/-- With and without sparsity, everywhere. -/
theorem prog_ok (sp : Bool) (x : Fin 6 → ℝ) : ArrayProgramOk sp Demo.reg 1 prog [] [6] x :=
  prog_dom _ (exp_good sp 6) (mul_good sp 6) (sum_good sp 6) x

theorem run_step {O V : Type} {ev : O → List V → Except Err (List V)} {s : SEnv V} {e : Eqn O V} {es : List (Eqn O V)} (xs ys : List V)
    (hx : s.getMany e.invars = .ok xs) (hy : ev e.op xs = .ok ys) (s' : SEnv V) (hb : s.bind e.outvars ys = .ok s') {r : Except Err (SEnv V)} (hk : specRun ev s' es = r) :
    specRun ev s (e :: es) = r := by
  unfold specRun specStep
  rw [hx]
  dsimp only
  rw [hy]
  dsimp only
  rw [hb]
  exact hk

theorem eval_of {O V : Type} {ev : O → List V → Except Err (List V)} {j : Jaxpr O V} {consts args : List V} {s s' : SEnv V} {r : Except Err (List V)}
    (h1 : specInit j consts args = .ok s) (h2 : specRun ev s j.eqns = .ok s') (h3 : s'.getMany j.outvars = r) : evalSpec ev j consts args = r := by
  unfold evalSpec
  rw [h1]
  dsimp only
  rw [h2]
  exact h3

theorem prog_eval (x : Fin 6 → ℝ) : evalPlain 1 prog [] (unflat [6] x) = .ok [⟨2, fun q => ∑ c : Fin 3, x ⟨3 * q + c, by omega⟩ * Real.exp (x ⟨3 * q + c, by omega⟩)⟩] := by
  rw [unflat_six]
  have h1 : evPlain 1 (OpStep.prim expP) [⟨6, x⟩] = .ok [⟨6, fun q => Real.exp (x q)⟩] := exp_bind x
  have h2 : evPlain 1 (OpStep.prim mulP) [⟨6, x⟩, ⟨6, fun q => Real.exp (x q)⟩] = .ok [⟨6, fun q => x q * Real.exp (x q)⟩] := mul_bind x _
  have h3 : evPlain 1 (OpStep.prim sumP) [⟨6, fun q => x q * Real.exp (x q)⟩] = .ok [⟨2, fun q => ∑ c : Fin 3, x ⟨3 * q + c, by omega⟩ * Real.exp (x ⟨3 * q + c, by omega⟩)⟩] :=
    sum_bind fun q => x q * Real.exp (x q)
  exact eval_of (ev := evPlain 1) (j := prog) rfl (run_step _ _ rfl h1 _ rfl (run_step _ _ rfl h2 _ rfl (run_step _ _ rfl h3 _ rfl rfl))) rfl

end ArrDemo

open ArrDemo in
/-- The program meets all hypotheses at every point, so the forward Laplacian returns, and returns the derivatives of `x ↦ ∑ x exp x`. -/
example (junk : List (PVal ℝ) → PVal ℝ) (x : Fin 6 → ℝ) :
    ∃ ys, forwardLaplacian Demo.reg junk 0 1 prog [] .absent (plainArgs [6] x) = .ok ys ∧
      List.Forall₂ (Correct x) ys [⟨2, fun z q => ∑ c : Fin 3, z ⟨3 * q + c, by omega⟩ * Real.exp (z ⟨3 * q + c, by omega⟩)⟩] := by
  obtain ⟨ys, h⟩ := C59_total Demo.reg junk 0 (n := 6) (by decide) [6] rfl (by decide) 1 prog [] x
    (prog_dom _ (fun v => ⟨exp_good _ _ v, fun _ => prim_total (by decide) (exp_true v)⟩) (fun v => ⟨mul_good _ _ v, fun _ => prim_total (by decide) (mulArr_truthful (fun _ => by decide) (by decide) (broadcastShapes_iff.mp (by decide +kernel)))⟩)
      (fun v => ⟨sum_good _ _ v, fun _ => prim_total (by decide) (sumArr_truthful (by decide) (by decide) (by decide))⟩) x)
    (by
      intro e he
      simp only [prog, List.mem_cons, List.not_mem_nil, or_false] at he
      rcases he with rfl | rfl | rfl <;> trivial)
    (fun v _ => le_trans (List.count_le_length ..) (by decide)) _ (prog_eval x)
  refine ⟨ys, h, ?_⟩
  obtain ⟨f, f1, f2⟩ := C59_correct Demo.reg junk 0 (n := 6) (by decide) [6] rfl 1 prog [] x (prog_ok _ x) ys h
  have hf := fun z => (f1 z).symm.trans (prog_eval z)
  rw [farr_ext f [⟨2, fun z q => ∑ c : Fin 3, z ⟨3 * q + c, by omega⟩ * Real.exp (z ⟨3 * q + c, by omega⟩)⟩] fun z => Except.ok.inj (hf z)] at f2
  exact f2

end Folx

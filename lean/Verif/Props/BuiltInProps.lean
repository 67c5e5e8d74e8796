import Verif.Prog.BuiltInProofs

/-!
# C51: programs of registered functions

Every program all of whose equations are functions of the default registry (`BuiltIn`), at any shapes and parameters.
-/

namespace Folx

open Filter Topology Vmap Dot
open Folx.Interp

attribute [local instance] instInhabitedScalar

/-- `p` is a registered function and `x` lies in its domain. -/
def Registered (p : Prim ℝ) (x : (i : Fin p.nIn) → Fin (p.size i) → ℝ) : Prop :=
  ∃ name dom index sp, BuiltIn name p dom index sp ∧ dom x

/-- `p` is a registered function whose sparse rule is not known to be defective, the operands `o` lie in its domain, and its
index operands carry no derivatives. -/
def RegisteredCall (p : Prim ℝ) (o : (i : Fin p.nIn) → Opd ℝ (p.size i)) : Prop :=
  ∃ name dom index sp, BuiltIn name p dom index sp ∧ sp ∧ dom (fun i => (o i).x) ∧
    ∀ i, index i = true → (o i).isLapl = false

/-- **C51, without sparsity.** For every program of registered functions, of any size and nesting of jitted functions: if the
function itself can be evaluated at `x`, and the values met lie in the domains of the registered functions, then
`forward_laplacian` returns, and returns value, Jacobian and Laplacian. -/
theorem C51_dense (reg : String → Option (Prim ℝ)) (junk : List (PVal ℝ) → PVal ℝ) (t : ℚ) {n : ℕ}
    (hn : 0 < n) (sizes : List ℕ) (hs : sizes.sum = n) (ht : threshold t n ≤ 0) (d : ℕ)
    (j : Jaxpr (Op d ℝ) (PArr ℝ)) (consts : List (PArr ℝ)) (x : Fin n → ℝ)
    (hd : DomProg (evPlain d) (DomP reg Registered d) j consts (unflat sizes x))
    (hns : ∀ e ∈ j.eqns, NoScan reg d e.op)
    (hbound : ∀ v, Atom.var v ∈ j.outvars → (readsOf j.eqns j.outvars).count v ≤ 2147483647)
    (zs : List (PArr ℝ)) (he : evalPlain d j consts (unflat sizes x) = .ok zs) :
    ∃ ys f, forwardLaplacian reg junk t d j consts .absent (plainArgs sizes x) = .ok ys ∧
      (∀ z : Fin n → ℝ, evalPlain d j consts (unflat sizes z) = .ok (f.map fun g => g.at z)) ∧
      List.Forall₂ (Correct x) ys f := by
  have hmono : ∀ good : (p : Prim ℝ) → ((i : Fin p.nIn) → Fin (p.size i) → ℝ) → Prop,
      (∀ p x, Registered p x → good p x) → DomProg (evPlain d) (DomP reg good d) j consts (unflat sizes x) :=
    fun good hg s hs => domRun_mono _ _ _ (DomP.mono reg _ _ hg d) _ _ (hd s hs)
  obtain ⟨ys, h⟩ := C01_dense_total reg junk t hn sizes hs ht d j consts x
    (hmono _ fun p x ⟨_, _, _, _, hb, hx⟩ => hb.denseOk 0 n x hx) hns hbound zs he
  obtain ⟨f, h1, h2⟩ := C01_dense_exact reg junk t hn sizes hs ht d j consts x
    (hmono _ fun p x ⟨_, _, _, _, hb, hx⟩ => (hb.denseOk 0 n x hx).1) ys h
  exact ⟨ys, f, h, h1, h2⟩

/-- In the forward-Laplacian run of the program on `x` every call is a call of a registered function in its domain. -/
def RegisteredRun (reg : String → Option (Prim ℝ)) (junk : List (PVal ℝ) → PVal ℝ) (t : ℚ) {n : ℕ} (d : ℕ)
    (j : Jaxpr (Op d ℝ) (PArr ℝ)) (consts : List (PArr ℝ)) (weights : Weights ℝ) (sizes : List ℕ) (x : Fin n → ℝ) : Prop :=
  ∀ args, initState (decide (0 < threshold t n)) weights (plainArgs sizes x) = .ok args →
    DomProg (evLapl reg junk (threshold t n).toNat d) (DomR reg junk (threshold t n).toNat RegisteredCall d)
      (j.map PVal.ofPlain) (consts.map PVal.ofPlain) args

/-- **C51, with sparsity.** For every program of registered functions except `scatter` and `slogdet`, every threshold and
every weights: what `forward_laplacian` returns is exact.  The conditions on parameters (`sp` in `BuiltIn`) are that gathers,
slices and the like have indices known at trace time, that `scatter_add`, `scatter_max`, `scatter_min` and `select_n` with three or more
cases are not applied to scalars, and that `dot_general` calls do not take the wrong fast path (C31). -/
theorem C51_sparse (reg : String → Option (Prim ℝ)) (junk : List (PVal ℝ) → PVal ℝ) (t : ℚ) {n : ℕ}
    (hn : 0 < n) (sizes : List ℕ) (hs : sizes.sum = n) (d : ℕ)
    (j : Jaxpr (Op d ℝ) (PArr ℝ)) (consts : List (PArr ℝ)) (weights : Weights ℝ) (w x : Fin n → ℝ)
    (hw : weightArrs weights sizes = .ok (unflat sizes w)) (hd : RegisteredRun reg junk t d j consts weights sizes x)
    (ys : List (PVal ℝ)) (h : forwardLaplacian reg junk t d j consts weights (plainArgs sizes x) = .ok ys) :
    ∃ f : List (FArr (Fin n → ℝ) ℝ),
      (∀ z, evalPlain d j consts (unflat sizes z) = .ok (f.map fun g => g.at z)) ∧
      List.Forall₂ (ExactVal w x) ys f := by
  have hne : sizes ≠ [] := by
    rintro rfl
    simp at hs
    omega
  unfold RegisteredRun plainArgs at hd
  unfold forwardLaplacian at h
  rw [sizes_plainArgs, hs] at h
  dsimp only at h
  unfold plainArgs at h
  rw [initState_eq _ weights sizes hne hs w x hw] at h hd
  dsimp only at h
  have hinit : List.Forall₂ (Represents (inputBase w x) (bigInv (threshold t n).toNat n))
      (initSpec (decide (0 < threshold t n)) w x 0 sizes : List (PVal ℝ)) (inputFns n 0 sizes) := by
    apply initSpec_represents _ _ w x _ sizes 0 (by omega)
    cases decide (0 < threshold t n) with
    | true => exact fun _ _ => trivial
    | false => exact fun _ rows hr => Or.inr hr.ge
  obtain ⟨outs, h1, h2⟩ := evalLapl_run (inputBase w x) (bigInv (threshold t n).toNat n) reg junk _ RegisteredCall
    (fun p o ⟨_, _, _, _, hb, hsp, hx, hi⟩ => hb.sparseOk hsp _ n hn o hx hi) d j consts _ _ ys hinit (hd _ rfl) h
  refine ⟨outs, fun z => ?_, h2.imp fun v g hv => exactVal_of_represents _ x _ v g hv⟩
  have := h1 z
  rw [inputFns_at] at this
  exact this

/-! ### An example -/

namespace Demo

/-- If all equations are primitives that are `good` everywhere, the conditions hold along every run. -/
theorem domRun_all {O V : Type} (ev : O → List V → Except Err (List V)) (dom : O → List V → Prop) :
    ∀ (es : List (Eqn O V)) (s : SEnv V), (∀ e ∈ es, ∀ xs, dom e.op xs) → DomRun ev dom s es
  | [], _, _ => trivial
  | e :: es, _, h => fun xs _ => ⟨h e (by simp) xs, fun s' _ => domRun_all ev dom es s' fun e' he => h e' (by simp [he])⟩

/-- `y = x.reshape(2, 2)`. -/
noncomputable def reshapeP : Prim ℝ := (reshapeOp [4] [2, 2] (by decide)).prim ℝ true true
/-- `y.T`. -/
noncomputable def transposeP : Prim ℝ := (transposeOp [2, 2] [1, 0] (by decide)).prim ℝ true true
/-- Matrix product. -/
noncomputable def matmulP : Prim ℝ := dotPrim ⟨[1], [0], [], []⟩ [2, 2] [2, 2]
/-- The entry `tanh` of the table. -/
noncomputable def tanhE : ElemEntry := ⟨"tanh", 1, fun z => Real.sinh (z 0) / Real.cosh (z 0), Flags.GENERAL, false, fun _ => True⟩
noncomputable def tanhP : Prim ℝ :=
  (tanhE.std (fun _ => 4) 4 (fun _ q => q) (fun _ => none) (tanhE.custom fun _ q => q)).toWPrim.toPrim
/-- Sum of all elements. -/
noncomputable def totalP : Prim ℝ := (reduceSumOp ℝ [2, 2] [0, 1] (by decide) (by decide)).toWPrim.toPrim

/-- `lambda x: jnp.tanh(y @ y.T).sum()` where `y = x.reshape(2, 2)`. -/
noncomputable def gram : Jaxpr (Op 1 ℝ) (PArr ℝ) where
  constvars := []
  invars := [0]
  eqns := [
    ⟨OpStep.prim reshapeP, [.var 0], [1]⟩,
    ⟨OpStep.prim transposeP, [.var 1], [2]⟩,
    ⟨OpStep.prim matmulP, [.var 1, .var 2], [3]⟩,
    ⟨OpStep.prim tanhP, [.var 3], [4]⟩,
    ⟨OpStep.prim totalP, [.var 4], [5]⟩]
  outvars := [.var 5]

theorem gram_calls (good : Prim ℝ → Prop) (h1 : good reshapeP) (h2 : good transposeP) (h3 : good matmulP) (h4 : good tanhP)
    (h5 : good totalP) : ∀ e ∈ gram.eqns, ∃ p, e.op = OpStep.prim p ∧ good p := by
  intro e he
  simp only [gram, List.mem_cons, List.not_mem_nil, or_false] at he
  rcases he with rfl | rfl | rfl | rfl | rfl
  · exact ⟨_, rfl, h1⟩
  · exact ⟨_, rfl, h2⟩
  · exact ⟨_, rfl, h3⟩
  · exact ⟨_, rfl, h4⟩
  · exact ⟨_, rfl, h5⟩

theorem gram_ok : ∀ e ∈ gram.eqns, ∃ p : Prim ℝ, e.op = OpStep.prim p ∧ ∃ name dom index sp,
    BuiltIn name p dom index sp ∧ sp ∧ (∀ x, dom x) ∧ ∀ i, index i = false :=
  gram_calls _ ⟨_, _, _, _, .reshape [4] [2, 2] _ (by decide) true true, rfl, fun _ => trivial, fun _ => rfl⟩
    ⟨_, _, _, _, .transpose [2, 2] [1, 0] _ (by decide) true true, rfl, fun _ => trivial, fun _ => rfl⟩
    ⟨_, _, _, _, .dotGeneral ⟨[1], [0], [], []⟩ [2, 2] [2, 2] (by constructor <;> decide) (by decide) (by decide),
      fun _ h => absurd h (by decide), fun _ => trivial, fun _ => rfl⟩
    ⟨_, _, _, _, .elem 0 tanhE (by simp [elemTable, tanhE]) (fun _ => 4) 4 (fun _ q => q) (fun _ => none) (by simp),
      fun _ _ => Function.surjective_id, fun _ _ => trivial, fun _ => rfl⟩
    ⟨_, _, _, _, .reduceSum [2, 2] [0, 1] _ _, trivial, fun _ => trivial, fun _ => rfl⟩

/-- Without sparsity `forward_laplacian` returns and is exact for this program at every point. -/
example (junk : List (PVal ℝ) → PVal ℝ) (x : Fin 4 → ℝ) :
    ∃ ys f, forwardLaplacian reg junk 0 1 gram [] .absent (plainArgs [4] x) = .ok ys ∧ List.Forall₂ (Correct x) ys f := by
  obtain ⟨ys, f, h1, -, h2⟩ := C51_dense reg junk 0 (n := 4) (by decide) [4] rfl (by decide) 1 gram [] x
    (fun s _ => domRun_all _ _ _ _ fun e he xs => by
      obtain ⟨p, hp, _, _, _, _, hb, -, hx, -⟩ := gram_ok e he
      rw [hp]
      exact fun x _ => ⟨_, _, _, _, hb, hx x⟩)
    (fun e he => by obtain ⟨p, hp, -⟩ := gram_ok e he; rw [hp]; trivial) (by intro v hv; simp [gram] at hv ⊢; subst hv; decide) _ rfl
  exact ⟨ys, f, h1, h2⟩

/-- With sparsity and any weights, whatever it returns for this program is exact. -/
example (junk : List (PVal ℝ) → PVal ℝ) (t : ℚ) (w x : Fin 4 → ℝ) (weights : Weights ℝ)
    (hw : weightArrs weights [4] = .ok (unflat [4] w)) (ys : List (PVal ℝ))
    (h : forwardLaplacian reg junk t 1 gram [] weights (plainArgs [4] x) = .ok ys) :
    ∃ f, List.Forall₂ (ExactVal w x) ys f := by
  obtain ⟨f, -, h2⟩ := C51_sparse reg junk t (n := 4) (by decide) [4] rfl 1 gram [] weights w x hw
    (fun args _ s _ => domRun_all _ _ _ _ fun e he xs => by
      obtain ⟨e0, he0, rfl⟩ := List.mem_map.mp he
      obtain ⟨p, hp, _, _, _, _, hb, hsp, hx, hi⟩ := gram_ok e0 he0
      have hp' : (Eqn.map PVal.ofPlain e0).op = OpStep.prim p := hp
      rw [hp']
      exact fun _ o _ => ⟨_, _, _, _, hb, hsp, hx _, fun i h => absurd ((hi i).symm.trans h) (by simp)⟩) ys h
  exact ⟨f, h2⟩

end Demo

end Folx

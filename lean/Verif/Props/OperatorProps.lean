import Mathlib.Analysis.Calculus.FDeriv.Mul
import Mathlib.Analysis.Calculus.FDeriv.Pow
import Verif.Prog.Operators
import Verif.Props.ProgProps
import Verif.Props.JacProps

/-! # C30: the Laplacian operators -/

namespace Folx

open Folx.Interp Folx.Operators Filter Topology

/-! ### Meaning of the two reference operators -/

theorem jaxGrad_eq {n : ℕ} (φ : (Fin n → ℝ) → ℝ) (x : Fin n → ℝ) (h : TwiceDiff φ x) :
    (∀ i, jaxGrad φ x i = partialD i φ x) ∧
    ∀ i j, fderiv ℝ (jaxGrad φ) x (Pi.single j 1) i = partialD j (partialD i φ) x := by
  obtain ⟨h1, h2⟩ := h
  have hev : ∀ᶠ z in 𝓝 x, ∀ i, jaxGrad φ z i = partialD i φ z := by
    filter_upwards [h1] with z hz i
    exact (hz.lineDeriv_eq_fderiv).symm
  refine ⟨hev.self_of_nhds, fun i j => ?_⟩
  have hd : ∀ i, HasFDerivAt (fun z => jaxGrad φ z i) ((fderiv ℝ (fderiv ℝ φ) x).flip (Pi.single i 1)) x := fun i => by
    have := h2.hasFDerivAt.clm_apply (hasFDerivAt_const (Pi.single i (1 : ℝ)) x)
    rw [ContinuousLinearMap.comp_zero, zero_add] at this
    exact this
  have hp : HasFDerivAt (partialD i φ) ((fderiv ℝ (fderiv ℝ φ) x).flip (Pi.single i 1)) x :=
    (hd i).congr_of_eventuallyEq (hev.mono fun z hz => (hz i).symm)
  rw [show jaxGrad φ = fun z i => jaxGrad φ z i from rfl, (hasFDerivAt_pi.mpr hd).fderiv]
  unfold partialD at hp ⊢
  rw [hp.differentiableAt.lineDeriv_eq_fderiv, hp.fderiv]
  rfl

theorem eyeRow_eq {n : ℕ} (i : Fin n) : Operators.eyeRow i = Pi.single i 1 := by
  funext j
  simp [Operators.eyeRow, Pi.single_apply]

theorem scanIdx_eq {E : Type} (step : ℕ → E) : ∀ (k i : ℕ),
    scanIdx step i k = (i + k, (List.range k).map fun a => step (i + a))
  | 0, i => rfl
  | k + 1, i => by
    rw [scanIdx, scanIdx_eq step k (i + 1)]
    refine Prod.ext (by show i + 1 + k = _; omega) ?_
    show step i :: _ = _
    rw [List.range_succ_eq_map, List.map_cons, List.map_map]
    simp only [add_zero]
    congr 1
    apply List.map_congr_left
    intro a _
    show step (i + 1 + a) = step (i + (a + 1))
    congr 1
    omega

/-- **C30 (what the loop operator returns).** The gradient, and the *diagonal* of the Hessian (not its trace). -/
theorem C30_loop_partial (f : ScalarFn) (s : List ℕ) (x : Fin s.prod → ℝ) (φ : (Fin s.prod → ℝ) → ℝ) (hf : f s = some φ)
    (h : TwiceDiff φ x) :
    loopOp f s x = .ok ⟨⟨[s.prod], List.ofFn fun i => partialD i (partialD i φ) x⟩,
      ⟨[s.prod], List.ofFn fun i => partialD i φ x⟩⟩ := by
  obtain ⟨h1, h2⟩ := jaxGrad_eq φ x h
  unfold loopOp
  rw [hf]
  simp only [jaxLinearize, scanIdx_eq, zero_add, eyeRow_eq]
  congr 3
  · congr 1
    rw [List.ofFn_eq_map, ← List.map_coe_finRange_eq_range, List.map_map]
    apply List.map_congr_left
    intro i _
    simp [h2]
  · congr 2
    funext i
    exact h1 i

theorem parallel_aux {m n : ℕ} (hm : m = n) (φ' : (Fin m → ℝ) → ℝ) (φ : (Fin n → ℝ) → ℝ) (x : Fin n → ℝ)
    (hφ : ∀ z, φ' (fun i => z (i.cast hm)) = φ z) (h : TwiceDiff φ x) :
    (List.ofFn fun i => (jaxLinearize (jaxGrad φ') (fun i => x (i.cast hm))).2 (Operators.eyeRow i) i) =
      (List.ofFn fun i => partialD i (partialD i φ) x) ∧
    List.ofFn (jaxLinearize (jaxGrad φ') (fun i => x (i.cast hm))).1 = List.ofFn fun i => partialD i φ x := by
  subst hm
  have : φ' = φ := funext fun z => hφ z
  subst this
  obtain ⟨h1, h2⟩ := jaxGrad_eq φ' x h
  simp only [jaxLinearize, eyeRow_eq]
  refine ⟨congrArg _ (funext fun i => h2 i i), congrArg _ (funext fun i => h1 i)⟩

/-- **C30 (what the parallel operator returns).** For functions that do not look at the shape of their argument, the
same as the loop operator. -/
theorem C30_parallel_partial (f : ScalarFn) (s : List ℕ) (x : Fin s.prod → ℝ) (φ : (Fin s.prod → ℝ) → ℝ)
    (φ' : (Fin [s.prod].prod → ℝ) → ℝ) (hf' : f [s.prod] = some φ') (hφ : ∀ z, φ' (flattened z) = φ z)
    (h : TwiceDiff φ x) :
    parallelOp f s x = .ok ⟨⟨[s.prod], List.ofFn fun i => partialD i (partialD i φ) x⟩,
      ⟨[s.prod], List.ofFn fun i => partialD i φ x⟩⟩ := by
  unfold parallelOp
  rw [hf']
  obtain ⟨h1, h2⟩ := parallel_aux (by simp) φ' φ x hφ h
  show Except.ok (Result.mk ⟨[[s.prod].prod], _⟩ ⟨[[s.prod].prod], _⟩) = _
  congr 2
  · congr 1
    · simp
  · congr 1
    · simp

theorem plainArgs_one {n : ℕ} (x : Fin n → ℝ) : (plainArgs [n] x : List (PVal ℝ)) = [⟨n, .plain x⟩] := by
  unfold plainArgs unflat
  have : (fun p : Fin n => (coord x (0 + p) : ℝ)) = x := by
    funext p
    simp [coord]
  show [(⟨n, .plain fun p : Fin n => (coord x (0 + p) : ℝ)⟩ : PVal ℝ)] = _
  rw [this]

theorem unflat_one {n : ℕ} (x : Fin n → ℝ) : (unflat [n] x : List (PArr ℝ)) = [⟨n, x⟩] := by
  unfold unflat
  simp only [blocks, List.cons.injEq, Sigma.mk.injEq, heq_eq_eq, true_and, and_true]
  funext p
  simp [coord]

/-- A one-element array per row. -/
theorem flatMap_one {rows : List (Fin 1 → ℝ)} : rows.flatMap List.ofFn = rows.map fun r => r 0 := by
  induction rows with
  | nil => rfl
  | cons r rs ih => rw [List.flatMap_cons, ih]; rfl

/-- **C30 (what the forward operator returns, sparsity disabled).** The gradient and the trace of the Hessian of the
scalar function `φ` the program computes. -/
theorem C30_forward (reg : String → Option (Prim ℝ)) (junk : List (PVal ℝ) → PVal ℝ) (t : ℚ) {n : ℕ}
    (hn : 0 < n) (ht : threshold t n ≤ 0) (d : ℕ) (j : Jaxpr (Op d ℝ) (PArr ℝ)) (consts : List (PArr ℝ))
    (φ : (Fin n → ℝ) → ℝ) (hj : ∀ z, evalPlain d j consts [⟨n, z⟩] = .ok [⟨1, fun _ => φ z⟩])
    (x : Fin n → ℝ) (hd : ProgramOk false reg d j consts [n] x) (r : Result)
    (h : forwardOp reg junk t d j consts [] x = .ok r) :
    TwiceDiff φ x ∧ r = ⟨⟨[], [∑ i, partialD i (partialD i φ) x]⟩, ⟨[n], List.ofFn fun i => partialD i φ x⟩⟩ := by
  unfold forwardOp at h
  split at h
  · simp at h
  · rename_i m tr hfl
    obtain ⟨outs, h1, h2⟩ := forward_rep false reg junk t hn [n] (by simp) (by simpa using ht) d j consts .absent
      (fun _ => 1) x (weights_absent [n] (by simp)) hd _ (by rw [plainArgs_one]; exact hfl)
    obtain ⟨g, outs', hg, ho, rfl⟩ := List.forall₂_cons_left_iff.mp h2
    obtain rfl := List.forall₂_nil_left_iff.mp ho
    have hinv : denseInv n _ tr.jac := by
      obtain ⟨u, rfl, hu⟩ := hg
      exact hu.2
    have hex := exactVal_of_represents _ x _ _ _ hg
    obtain ⟨u, rfl, hu⟩ := hex
    have hu : Exact (fun _ => 1) x tr u := hu
    obtain ⟨hm, hgu⟩ : ∃ hm : m = 1, ∀ z p, u z p = φ z := by
      have hz : ∀ z, (⟨m, u z⟩ : PArr ℝ) = ⟨1, fun _ => φ z⟩ := fun z => by
        have h1z := h1 z
        rw [unflat_one, hj z] at h1z
        have e : (Except.ok [⟨m, u z⟩] : Except Err (List (PArr ℝ))) = .ok [⟨1, fun _ => φ z⟩] := h1z.symm
        exact List.head_eq_of_cons_eq (Except.ok.inj e)
      have hm : m = 1 := congrArg Sigma.fst (hz x)
      subst hm
      refine ⟨rfl, fun z p => ?_⟩
      have := hz z
      simp only [Sigma.mk.injEq, heq_eq_eq, true_and] at this
      exact congrFun this p
    subst hm
    have hφ : (fun z => u z 0) = φ := funext fun z => hgu z 0
    obtain ⟨k0, k1, k2, k3, k4⟩ := hu
    split at h
    · simp at h
    · rename_i rows hrows
      simp only [Except.ok.injEq] at h
      have hrl : rows.length = n ∧ tr.jac = .dense rows := by
        obtain ⟨i1, i2⟩ := hinv
        cases hjac : tr.jac with
        | sparse rs => rw [hjac] at i1; simp [Jac.weak] at i1
        | dense rs =>
          rw [hjac] at hrows i2
          simp only [Jac.denseArray, Except.ok.injEq] at hrows
          subst hrows
          exact ⟨i2, rfl⟩
      refine ⟨by have := k0 0; rwa [hφ] at this, ?_⟩
      rw [← h]
      congr 1
      · congr 1
        rw [show List.ofFn tr.lapl = [tr.lapl 0] from rfl, k4 0, hφ]
        simp
      · rw [hrl.1]
        congr 1
        rw [flatMap_one]
        apply List.ext_getElem
        · simp [hrl.1]
        · intro i hi1 hi2
          have hin : i < n := by simpa using hi2
          have := k2 ⟨i, hin⟩ 0
          rw [hrl.2] at this
          simp only [Jac.den] at this
          rw [List.getD_eq_getElem _ _ (by rw [hrl.1]; exact hin), hφ] at this
          simp only [List.getElem_map, List.getElem_ofFn]
          simpa using this
  · simp at h

/-- **C30 (as far as it holds).** For a scalar function that does not look at the shape of its argument: the three
gradients are equal, and the Laplacian of the forward operator is the *sum* of the entries the other two return. Missing:
the first results themselves differ, see `C30_counterexample_laplacian`; shape-dependent functions, see
`C30_counterexample_parallel`. -/
theorem C30_operators_partial (reg : String → Option (Prim ℝ)) (junk : List (PVal ℝ) → PVal ℝ) (t : ℚ) (s : List ℕ)
    (hn : 0 < s.prod) (ht : threshold t s.prod ≤ 0) (d : ℕ) (j : Jaxpr (Op d ℝ) (PArr ℝ)) (consts : List (PArr ℝ))
    (f : ScalarFn) (φ : (Fin s.prod → ℝ) → ℝ) (φ' : (Fin [s.prod].prod → ℝ) → ℝ) (hf : f s = some φ)
    (hf' : f [s.prod] = some φ') (hφ : ∀ z, φ' (flattened z) = φ z)
    (hj : ∀ z, evalPlain d j consts [⟨s.prod, z⟩] = .ok [⟨1, fun _ => φ z⟩])
    (x : Fin s.prod → ℝ) (hd : ProgramOk false reg d j consts [s.prod] x) (r : Result)
    (h : forwardOp reg junk t d j consts [] x = .ok r) :
    ∃ r', loopOp f s x = .ok r' ∧ parallelOp f s x = .ok r' ∧ r.jacobian = r'.jacobian ∧
      r.laplacian = ⟨[], [r'.laplacian.data.sum]⟩ := by
  obtain ⟨h1, rfl⟩ := C30_forward reg junk t hn ht d j consts φ hj x hd r h
  refine ⟨_, C30_loop_partial f s x φ hf h1, C30_parallel_partial f s x φ φ' hf' hφ h1, rfl, ?_⟩
  simp [List.sum_ofFn]

/-- **C30 fails (first result).** Whatever the function and the point: the forward operator returns an array of shape
`()`, the loop and parallel operators one of shape `(n,)`, so the first results are never equal. -/
theorem C30_counterexample_laplacian (reg : String → Option (Prim ℝ)) (junk : List (PVal ℝ) → PVal ℝ) (t : ℚ) (s : List ℕ)
    (d : ℕ) (j : Jaxpr (Op d ℝ) (PArr ℝ)) (consts : List (PArr ℝ)) (f : ScalarFn) (x : Fin s.prod → ℝ) (r r' r'' : Result)
    (h : forwardOp reg junk t d j consts [] x = .ok r) (h' : loopOp f s x = .ok r') (h'' : parallelOp f s x = .ok r'') :
    r.laplacian ≠ r'.laplacian ∧ r.laplacian ≠ r''.laplacian := by
  have e : r.laplacian.shape = [] := by
    unfold forwardOp at h
    split at h
    · simp at h
    · split at h
      · simp at h
      · simp only [Except.ok.injEq] at h; rw [← h]
    · simp at h
  have e' : r'.laplacian.shape = [s.prod] := by
    unfold loopOp at h'
    split at h'
    · simp at h'
    · simp only [Except.ok.injEq] at h'; rw [← h']
  have e'' : r''.laplacian.shape = [[s.prod].prod] := by
    unfold parallelOp at h''
    split at h''
    · simp at h''
    · simp only [Except.ok.injEq] at h''; rw [← h'']
  refine ⟨fun hh => ?_, fun hh => ?_⟩
  · rw [hh, e'] at e; simp at e
  · rw [hh, e''] at e; simp at e

/-- `f(x) = (x[0] ** 2).sum()`: the squares of the first row. -/
def firstRow : ScalarFn
  | [] => none
  | a :: rest => some fun z => ∑ i : Fin (a * rest.prod), if i.val < rest.prod then z i * z i else 0

theorem firstRow_loop (x : Fin [1, 2].prod → ℝ) : ∃ r, loopOp firstRow [1, 2] x = .ok r ∧
    r.jacobian.data = List.ofFn fun i => 2 * x i := by
  let φ : (Fin 2 → ℝ) → ℝ := fun z => ∑ i : Fin 2, z i * z i
  have hd : ∀ z : Fin 2 → ℝ, HasFDerivAt φ (∑ i : Fin 2, (2 * z i) • ContinuousLinearMap.proj (R := ℝ) (φ := fun _ : Fin 2 => ℝ) i) z := by
    intro z
    refine HasFDerivAt.fun_sum fun i _ => ?_
    have hp := (ContinuousLinearMap.proj (R := ℝ) (φ := fun _ : Fin 2 => ℝ) i).hasFDerivAt (x := z)
    refine (hp.mul hp).congr_fderiv ?_
    ext v
    simp
    ring
  have e : firstRow [1, 2] = some φ := by
    show some _ = some _
    refine congrArg some (funext fun z => ?_)
    show ∑ i : Fin 2, (if i.val < 2 then z i * z i else 0) = ∑ i : Fin 2, z i * z i
    exact Finset.sum_congr rfl fun i _ => if_pos i.2
  unfold loopOp
  rw [e]
  refine ⟨_, rfl, ?_⟩
  show List.ofFn (fun i : Fin 2 => jaxGrad φ x i) = List.ofFn fun i : Fin 2 => 2 * x i
  congr 1
  funext i
  unfold jaxGrad
  rw [show fderiv ℝ φ x = _ from (hd x).fderiv]
  rw [sum_apply, Finset.sum_eq_single i]
  · simp
  · intro b _ hb
    simp [Pi.single_eq_of_ne hb]
  · simp

/-- **C30 fails (shape-dependent functions).** The parallel operator applies the function to the flattened array: for
`f(x) = (x[0] ** 2).sum()` at `[[1, 1]]` the loop operator returns the gradient `[2, 2]`, the parallel one `[2, 0]`. -/
theorem C30_counterexample_parallel : ∃ r r' : Result,
    loopOp firstRow [1, 2] (fun _ => 1) = .ok r ∧ parallelOp firstRow [1, 2] (fun _ => 1) = .ok r' ∧
    r.jacobian.data = [2, 2] ∧ r'.jacobian.data = [2, 0] := by
  obtain ⟨r, h1, h2⟩ := firstRow_loop fun _ => 1
  let φ : (Fin 2 → ℝ) → ℝ := fun z => z 0 * z 0
  have hd : ∀ z : Fin 2 → ℝ, HasFDerivAt φ ((2 * z 0) • ContinuousLinearMap.proj (R := ℝ) (φ := fun _ : Fin 2 => ℝ) 0) z := by
    intro z
    have hp := (ContinuousLinearMap.proj (R := ℝ) (φ := fun _ : Fin 2 => ℝ) 0).hasFDerivAt (x := z)
    refine (hp.mul hp).congr_fderiv ?_
    ext v
    simp
    ring
  have e : firstRow [2] = some φ := by
    show some _ = some _
    refine congrArg some (funext fun z => ?_)
    show ∑ i : Fin 2, (if i.val < 1 then z i * z i else 0) = z (0 : Fin 2) * z (0 : Fin 2)
    simp [Fin.sum_univ_two]
  have hp : ∃ r', parallelOp firstRow [1, 2] (fun _ => 1) = .ok r' ∧ r'.jacobian.data = [2, 0] := by
    unfold parallelOp
    rw [show firstRow [[1, 2].prod] = some φ from e]
    refine ⟨_, rfl, ?_⟩
    show List.ofFn (fun i : Fin 2 => jaxGrad φ (fun _ => 1) i) = [2, 0]
    unfold jaxGrad
    rw [show fderiv ℝ φ (fun _ => 1) = _ from (hd _).fderiv]
    simp
  obtain ⟨r', h3, h4⟩ := hp
  refine ⟨r, r', h1, h3, ?_, h4⟩
  rw [h2]
  show [(2 : ℝ) * 1, 2 * 1] = [2, 2]
  norm_num

/-! ### A function for which all hypotheses are met -/

namespace Demo

/-- `lambda a: (a * a).sum()` for an array of two elements. -/
noncomputable def sqProg : Jaxpr (Op 1 ℝ) (PArr ℝ) where
  constvars := []
  invars := [0]
  eqns := [⟨OpStep.prim mulP, [.var 0, .var 0], [1]⟩, ⟨OpStep.prim sumP, [.var 1], [2]⟩]
  outvars := [.var 2]

/-- The function it computes. -/
noncomputable def sqFn (z : Fin 2 → ℝ) : ℝ := ∑ c, z c * z c

theorem sqProg_eval (z : Fin 2 → ℝ) : evalPlain 1 sqProg [] [⟨2, z⟩] = .ok [⟨1, fun _ => sqFn z⟩] := rfl

theorem sqProg_dom (good : (p : Prim ℝ) → ((i : Fin p.nIn) → Fin (p.size i) → ℝ) → Prop)
    (h1 : ∀ x, good mulP x) (h2 : ∀ x, good sumP x) (a : Fin 2 → ℝ) :
    DomProg (evPlain 1) (DomP reg good 1) sqProg [] (unflat [2] a) := by
  rw [unflat_arg]
  intro s hs
  obtain rfl := Except.ok.inj hs
  refine domRun_step _ _ rfl (fun x _ => h1 x) (mul_bind a a) _ rfl ?_
  exact domRun_step _ _ rfl (fun x _ => h2 x) (sum_bind _) _ rfl trivial

theorem sqFn_deriv (z : Fin 2 → ℝ) (i : Fin 2) : partialD i sqFn z = 2 * z i := by
  have hd : HasFDerivAt sqFn (∑ i : Fin 2, (2 * z i) • ContinuousLinearMap.proj (R := ℝ) (φ := fun _ : Fin 2 => ℝ) i) z := by
    refine HasFDerivAt.fun_sum fun i _ => ?_
    have hp := (ContinuousLinearMap.proj (R := ℝ) (φ := fun _ : Fin 2 => ℝ) i).hasFDerivAt (x := z)
    refine (hp.mul hp).congr_fderiv ?_
    ext v
    simp
    ring
  unfold partialD
  rw [hd.differentiableAt.lineDeriv_eq_fderiv, hd.fderiv, sum_apply, Finset.sum_eq_single i]
  · simp
  · intro b _ hb
    simp [Pi.single_eq_of_ne hb]
  · simp

theorem sqProg_returns (junk : List (PVal ℝ) → PVal ℝ) (x : Fin 2 → ℝ) (hx : x 0 ≠ 0) :
    ∃ r, forwardOp reg junk 0 1 sqProg [] [] x = .ok r := by
  obtain ⟨ys, h⟩ := C01_dense_total reg junk 0 (n := 2) (by decide) [2] rfl (by decide) 1 sqProg [] x
    (sqProg_dom _ (fun x => ⟨mul_good _ _ x, Std.total _ 0 2 x (elem_mul 2 x fun i ε h q => by
        injection h with h; subst h; rfl) fun _ _ _ h => by simp [elemStd] at h⟩)
      (fun x => ⟨sum_good _ _ x, Std.total _ 0 2 x (reduceSum_true 2 _ _ Function.surjective_id x) fun _ _ _ h => by
        simp [reduceSum, redStd, arrStd] at h⟩) x)
    (by
      intro e he
      simp only [sqProg, List.mem_cons, List.not_mem_nil, or_false] at he
      rcases he with rfl | rfl <;> trivial)
    (fun v _ => le_trans (List.count_le_length ..) (by decide)) _ (by rw [unflat_arg]; exact sqProg_eval x)
  have hd := sqProg_dom (Good false 2) (fun x => mul_good _ _ x) (fun x => sum_good _ _ x) x
  obtain ⟨f, f1, f2⟩ := C01_dense_exact reg junk 0 (n := 2) (by decide) [2] rfl (by decide) 1 sqProg [] x hd ys h
  have hf : f = [⟨1, fun z _ => sqFn z⟩] := farr_ext f _ fun z => by
    have h1z := f1 z
    rw [unflat_arg] at h1z
    exact Except.ok.inj (h1z.symm.trans (sqProg_eval z))
  subst hf
  obtain ⟨v, vs, hv, hvs, rfl⟩ := List.forall₂_cons_right_iff.mp f2
  obtain rfl := List.forall₂_nil_right_iff.mp hvs
  obtain ⟨m, o⟩ := v
  obtain ⟨u, hu, hc⟩ := hv
  have hm : 1 = m := congrArg Sigma.fst hu
  subst hm
  simp only [Sigma.mk.injEq, heq_eq_eq, true_and] at hu
  subst hu
  unfold forwardOp
  rw [plainArgs_one] at h
  rw [h]
  cases o with
  | plain a =>
    exfalso
    have hc : ∀ᶠ z in 𝓝 x, (fun _ : Fin 1 => sqFn z) = a := hc
    have := partialD_const 0 sqFn x (a 0) (hc.mono fun z hz => congrFun hz 0)
    rw [sqFn_deriv] at this
    simp only [mul_eq_zero, OfNat.ofNat_ne_zero, false_or] at this
    exact hx this
  | lapl t =>
    dsimp only
    cases hj : t.jac.denseArray with
    | ok rows => exact ⟨_, rfl⟩
    | error e =>
      exfalso
      obtain ⟨rows, hr, hm⟩ := Jac.denseArray_error _ _ hj
      obtain ⟨outs, -, h2⟩ := forward_rep false reg junk 0 (n := 2) (by decide) [2] rfl (by decide) 1 sqProg [] .absent
        (fun _ => 1) x (weights_absent [2] rfl) hd _ (by rw [plainArgs_one]; exact h)
      obtain ⟨g, outs', hg, -, -⟩ := List.forall₂_cons_left_iff.mp h2
      obtain ⟨u, -, hu⟩ := hg
      have : t.jac.weak = false := hu.2.1
      rw [hr] at this
      simp [Jac.weak] at this

/-- The function on arrays of any shape. -/
noncomputable def sqArr : ScalarFn := fun s => some fun z => ∑ c : Fin s.prod, z c * z c

/-- All hypotheses of `C30_operators_partial` hold here: the three gradients agree and the Laplacian is the sum. -/
example (junk : List (PVal ℝ) → PVal ℝ) (x : Fin 2 → ℝ) (hx : x 0 ≠ 0) :
    ∃ r r', forwardOp reg junk 0 1 sqProg [] [] x = .ok r ∧ loopOp sqArr [1, 2] x = .ok r' ∧
      parallelOp sqArr [1, 2] x = .ok r' ∧ r.jacobian = r'.jacobian ∧ r.laplacian = ⟨[], [r'.laplacian.data.sum]⟩ := by
  obtain ⟨r, h⟩ := sqProg_returns junk x hx
  obtain ⟨r', h1, h2, h3, h4⟩ := C30_operators_partial reg junk 0 [1, 2] (by decide) (by decide) 1 sqProg [] sqArr sqFn
    (fun z : Fin 2 → ℝ => ∑ c, z c * z c) rfl rfl (fun z => rfl) sqProg_eval x
    (sqProg_dom (Good false 2) (fun x => mul_good _ _ x) (fun x => sum_good _ _ x) x) r h
  exact ⟨r, r', h, h1, h2, h3, h4⟩

end Demo

end Folx

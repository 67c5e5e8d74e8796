import Verif.Prog.Total
import Verif.Prog.Demo

/-!
# C01–C05, C42, C43: what `forward_laplacian` returns

The specification (`Verif/Prog/Spec.lean`): `partialD i g x` is the derivative of `t ↦ g (x + t eᵢ)` at `0`;
`Exact w x t g` says that the triple `t` holds the value of `g` at `x`, in row `i` of its densified Jacobian the number
`wᵢ ∂ᵢg(x)` and as Laplacian `∑ᵢ wᵢ² ∂ᵢ∂ᵢg(x)`.
-/

namespace Folx

open Filter Topology
open Folx.Interp

variable {F : Type} [RCLike F]

/-! ### Lemmas about the specification -/

/-- Arrays depending on the input are determined by their values. -/
theorem farr_ext {X : Type} [Nonempty X] : ∀ (l m : List (FArr X F)),
    (∀ z, (l.map fun g => g.at z) = m.map fun g => g.at z) → l = m
  | [], [], _ => rfl
  | [], _ :: _, h => by simpa using h (Classical.arbitrary X)
  | _ :: _, [], h => by simpa using h (Classical.arbitrary X)
  | ⟨k, u⟩ :: l, ⟨k', u'⟩ :: m, h => by
    have h1 : ∀ z, (⟨k, u z⟩ : PArr F) = ⟨k', u' z⟩ := fun z => (List.cons.inj (h z)).1
    obtain rfl : k = k' := congrArg Sigma.fst (h1 (Classical.arbitrary X))
    obtain rfl : u = u' := funext fun z => eq_of_heq (Sigma.mk.inj (h1 z)).2
    rw [farr_ext l m fun z => (List.cons.inj (h z)).2]

theorem fullAll_const (n : ℕ) (c : ℝ) : ∀ (sizes : List ℕ) (off : ℕ), off + sizes.sum ≤ n →
    fullAll (sizes.map fun _ => LeafWeight.scalar (c : F)) sizes =
      .ok (blocks (coord (fun _ : Fin n => c) : ℕ → F) off sizes)
  | [], _, _ => rfl
  | k :: ks, off, h => by
    rw [List.sum_cons] at h
    rw [List.map_cons, fullAll, fullAll_const n c ks (off + k) (by omega)]
    simp only [LeafWeight.full, blocks, Except.ok.injEq, List.cons.injEq, and_true, Sigma.mk.injEq, heq_eq_eq, true_and]
    funext p
    have : off + p.1 < n := by omega
    simp [coord, this]

/-- `weights=None` means all weights are `1`. -/
theorem weights_absent {n : ℕ} (sizes : List ℕ) (hn : sizes.sum = n) :
    weightArrs (F := F) .absent sizes = .ok (unflat sizes fun _ : Fin n => 1) := by
  have := fullAll_const (F := F) n 1 sizes 0 (by omega)
  simpa [weightArrs, unflat] using this

/-- A scalar weight applies to all inputs. -/
theorem weights_scalar {n : ℕ} (sizes : List ℕ) (hn : sizes.sum = n) (c : ℝ) :
    weightArrs (F := F) (.all (.scalar (c : F))) sizes = .ok (unflat sizes fun _ : Fin n => c) :=
  fullAll_const (F := F) n c sizes 0 (by omega)

omit [RCLike F] in
theorem fullAll_arrays (f : ℕ → F) : ∀ (sizes : List ℕ) (off : ℕ),
    fullAll ((blocks f off sizes).map LeafWeight.array) sizes = .ok (blocks f off sizes)
  | [], _ => rfl
  | k :: ks, off => by
    simp only [blocks, List.map_cons, fullAll, fullAll_arrays f ks (off + k), LeafWeight.full, castTo, dite_true]

/-- One weight array per argument. -/
theorem weights_arrays {n : ℕ} (sizes : List ℕ) (w : Fin n → ℝ) :
    weightArrs (F := F) (.perArg ((unflat sizes w).map .array)) sizes = .ok (unflat sizes w) :=
  fullAll_arrays _ sizes 0

/-- Every list of real arrays is `unflat` of its flattening. -/
theorem unflat_surjective (args : List (PArr ℝ)) :
    ∃ x : Fin (args.map fun a => a.1).sum → ℝ, unflat (args.map fun a => a.1) x = args := by
  have key : ∀ (args : List (PArr ℝ)) (n off : ℕ), off + (args.map fun a => a.1).sum ≤ n → ∀ f0 : ℕ → ℝ,
      ∃ f : ℕ → ℝ, (∀ i < off, f i = f0 i) ∧ blocks f off (args.map fun a => a.1) = args := by
    intro args
    induction args with
    | nil => intro n off _ f0; exact ⟨f0, fun _ _ => rfl, rfl⟩
    | cons a as ih =>
      intro n off h f0
      rw [List.map_cons, List.sum_cons] at h
      obtain ⟨f, h1, h2⟩ := ih n (off + a.1) (by omega)
        (fun i => if h : off ≤ i ∧ i - off < a.1 then a.2 ⟨i - off, h.2⟩ else f0 i)
      refine ⟨f, fun i hi => ?_, ?_⟩
      · rw [h1 i (by omega), dif_neg (by omega)]
      · rw [List.map_cons, blocks, h2]
        congr 1
        obtain ⟨m, u⟩ := a
        simp only [Sigma.mk.injEq, heq_eq_eq, true_and]
        funext p
        rw [h1 _ (by dsimp only; omega), dif_pos (by dsimp only; omega)]
        simp
  obtain ⟨f, -, h⟩ := key args _ 0 (by rw [Nat.zero_add]) fun _ => 0
  refine ⟨fun i => f i, ?_⟩
  conv_rhs => rw [← h]
  unfold unflat
  have hb : ∀ (sizes : List ℕ) (off n : ℕ), off + sizes.sum ≤ n →
      blocks (coord (fun i : Fin n => f i) : ℕ → ℝ) off sizes = blocks f off sizes := by
    intro sizes
    induction sizes with
    | nil => intros; rfl
    | cons k ks ih =>
      intro off n hle
      rw [List.sum_cons] at hle
      rw [blocks, blocks, ih (off + k) n (by omega)]
      congr 1
      simp only [Sigma.mk.injEq, heq_eq_eq, true_and]
      funext p
      have : off + p.1 < n := by omega
      simp [coord, this]
  exact hb _ 0 _ (by omega)

/-! ### The common core -/

/-- The arguments of the call: plain arrays with flattening `x`. -/
noncomputable def plainArgs {n : ℕ} (sizes : List ℕ) (x : Fin n → ℝ) : List (PVal F) :=
  (unflat sizes x).map PVal.ofPlain

/-- The program satisfies the side conditions at the point `x` (see `DomP`, `Good`). -/
def ProgramOk (sp : Bool) (reg : String → Option (Prim F)) {n : ℕ} (d : ℕ) (j : Jaxpr (Op d F) (PArr F))
    (consts : List (PArr F)) (sizes : List ℕ) (x : Fin n → ℝ) : Prop :=
  DomProg (evPlain d) (DomP reg (Good sp n) d) j consts (unflat sizes x)

theorem sizes_plainArgs {n : ℕ} (sizes : List ℕ) (x : Fin n → ℝ) :
    ((plainArgs sizes x : List (PVal F)).map fun v => v.1) = sizes := by
  unfold plainArgs
  rw [List.map_map]
  exact blocks_sizes (coord x : ℕ → F) sizes 0

theorem inputFns_unflat {n : ℕ} (sizes : List ℕ) (z : Fin n → ℝ) :
    ((inputFns n 0 sizes : List (FArr _ F)).map fun g => g.at z) = unflat sizes z := inputFns_at n sizes 0 z

theorem forward_rep (sp : Bool) (reg : String → Option (Prim F)) (junk : List (PVal F) → PVal F) (t : ℚ) {n : ℕ}
    (hn : 0 < n) (sizes : List ℕ) (hs : sizes.sum = n) (ht : decide (0 < threshold t n) = sp) (d : ℕ)
    (j : Jaxpr (Op d F) (PArr F)) (consts : List (PArr F)) (weights : Weights F) (w x : Fin n → ℝ)
    (hw : weightArrs weights sizes = .ok (unflat sizes w)) (hd : ProgramOk sp reg d j consts sizes x)
    (ys : List (PVal F)) (h : forwardLaplacian reg junk t d j consts weights (plainArgs sizes x) = .ok ys) :
    ∃ outs : List (FArr (Fin n → ℝ) F),
      (∀ z, evalPlain d j consts (unflat sizes z) = .ok (outs.map fun g => g.at z)) ∧
      List.Forall₂ (Represents (inputBase w x)
        (if sp then bigInv (threshold t n).toNat n else denseInv n)) ys outs := by
  have hne : sizes ≠ [] := by
    rintro rfl
    simp at hs
    omega
  unfold forwardLaplacian at h
  rw [sizes_plainArgs, hs] at h
  dsimp only at h
  rw [ht] at h
  unfold plainArgs at h
  rw [initState_eq sp weights sizes hne hs w x hw] at h
  dsimp only at h
  have hgood : ∀ (p : Prim F) v, Good sp n p v → p.SoundAt
      (if sp then bigInv (threshold t n).toNat n else denseInv n) (threshold t n).toNat n v := by
    intro p v hv
    cases sp with
    | true => exact good_sparse _ n hn p v hv
    | false => exact good_dense _ n hn p v hv
  have hinit : List.Forall₂ (Represents (inputBase w x)
      (if sp then bigInv (threshold t n).toNat n else denseInv n)) (initSpec sp w x 0 sizes : List (PVal F))
      (inputFns n 0 sizes) := by
    apply initSpec_represents _ sp w x _ sizes 0 (by omega)
    cases sp with
    | true => exact fun _ _ => trivial
    | false => exact fun _ rows hr => ⟨rfl, hr⟩
  have hdom : DomProg (evLapl reg junk (threshold t n).toNat d)
      (Dom reg junk (threshold t n).toNat (Good sp n) d) (j.map PVal.ofPlain) (consts.map PVal.ofPlain)
      (initSpec sp w x 0 sizes) := by
    refine domProg_transfer (at' := fun (g : FArr (Fin n → ℝ) F) x => g.at x)
      (cst := fun a => (⟨a.1, fun _ => a.2⟩ : FArr (Fin n → ℝ) F))
      (fun p => represents_const (inputBase w x) _ p) (fun _ _ => rfl) x (evPlain d) _ (DomP reg (Good sp n) d) _ j
      (fun e _ => evLapl_rel (inputBase w x) _ reg junk _ (Good sp n) hgood d e.op)
      (fun e _ => dom_of_plain (inputBase w x) _ reg junk _ (Good sp n) hgood d e.op) consts _ _ hinit ?_
    rw [inputFns_unflat]
    exact hd
  obtain ⟨outs, h1, h2⟩ := evalLapl_sound (inputBase w x) _ reg junk _ (Good sp n) hgood d j consts _ _ ys hinit hdom h
  refine ⟨outs, fun z => ?_, h2⟩
  rw [← inputFns_unflat]
  exact h1 z

/-! ### C01 -/

/-- The unweighted case of `Exact`: `g` is twice differentiable at `x` and `t` holds value, partial derivatives and Laplacian of `g` at `x`. -/
structure ForwardLaplacianOf {n m : ℕ} (x : Fin n → ℝ) (t : Trip (Fin m) F) (g : (Fin n → ℝ) → Fin m → F) : Prop where
  smooth : ∀ p, TwiceDiff (fun z => g z p) x
  value : ∀ p, t.x p = g x p
  jacobian : ∀ (i : Fin n) p, t.jac.den i p = partialD i (fun z => g z p) x
  rows : ∀ i, n ≤ i → ∀ p, t.jac.den i p = 0
  laplacian : ∀ p, t.lapl p = ∑ i, partialD i (partialD i fun z => g z p) x

/-- What is returned for the output `g`: value, Jacobian and Laplacian of `g`, or the plain value where `g` is
locally constant. -/
def Correct {n : ℕ} (x : Fin n → ℝ) (v : PVal F) (g : FArr (Fin n → ℝ) F) : Prop :=
  ∃ u : (Fin n → ℝ) → Fin v.1 → F, g = ⟨v.1, u⟩ ∧
    match v.2 with
    | .plain a => ∀ᶠ z in 𝓝 x, u z = a
    | .lapl t => ForwardLaplacianOf x t u

theorem correct_of_exact {n : ℕ} (x : Fin n → ℝ) (v : PVal F) (g : FArr (Fin n → ℝ) F)
    (h : ExactVal (fun _ => 1) x v g) : Correct x v g := by
  obtain ⟨u, rfl, h⟩ := h
  refine ⟨u, rfl, ?_⟩
  obtain ⟨m, o⟩ := v
  cases o with
  | plain a => exact h
  | lapl t =>
    obtain ⟨h0, h1, h2, h3, h4⟩ := h
    exact ⟨h0, h1, fun i p => by rw [h2]; simp, h3, fun p => by rw [h4]; simp⟩

/-- **C01.** With sparsity disabled (`sparsity_threshold=0`, or anything that rounds to a count `≤ 0`),
whatever `forward_laplacian(f)(x)` returns is the value, the Jacobian and the Laplacian of `f` at `x`, for every
program `j` of every nesting depth `d` whose primitives are (by `ProgramOk`) twice continuously differentiable at the
values they meet in the ordinary run at `x`. -/
theorem C01_dense_exact (reg : String → Option (Prim F)) (junk : List (PVal F) → PVal F) (t : ℚ) {n : ℕ}
    (hn : 0 < n) (sizes : List ℕ) (hs : sizes.sum = n) (ht : threshold t n ≤ 0) (d : ℕ)
    (j : Jaxpr (Op d F) (PArr F)) (consts : List (PArr F)) (x : Fin n → ℝ)
    (hd : ProgramOk false reg d j consts sizes x) (ys : List (PVal F))
    (h : forwardLaplacian reg junk t d j consts .absent (plainArgs sizes x) = .ok ys) :
    ∃ f : List (FArr (Fin n → ℝ) F),
      (∀ z, evalPlain d j consts (unflat sizes z) = .ok (f.map fun g => g.at z)) ∧
      List.Forall₂ (Correct x) ys f := by
  obtain ⟨outs, h1, h2⟩ := forward_rep false reg junk t hn sizes hs (by simpa using ht) d j consts .absent
    (fun _ => 1) x (weights_absent sizes hs) hd ys h
  exact ⟨outs, h1, h2.imp fun v g hv => correct_of_exact x v g (exactVal_of_represents _ x _ v g hv)⟩

/-- **C01, totality.** Moreover it does return whenever the function itself does, for programs without `scan`
(with `scan` the call may be rejected, C28) whose custom rules do not raise. -/
theorem C01_dense_total (reg : String → Option (Prim F)) (junk : List (PVal F) → PVal F) (t : ℚ) {n : ℕ}
    (hn : 0 < n) (sizes : List ℕ) (hs : sizes.sum = n) (ht : threshold t n ≤ 0) (d : ℕ)
    (j : Jaxpr (Op d F) (PArr F)) (consts : List (PArr F)) (x : Fin n → ℝ)
    (hd : DomProg (evPlain d) (DomP reg (fun p v => Good false n p v ∧ p.TotalAt 0 n v) d) j consts (unflat sizes x))
    (hns : ∀ e ∈ j.eqns, NoScan reg d e.op)
    (hbound : ∀ v, Atom.var v ∈ j.outvars → (readsOf j.eqns j.outvars).count v ≤ 2147483647)
    (zs : List (PArr F)) (he : evalPlain d j consts (unflat sizes x) = .ok zs) :
    ∃ ys, forwardLaplacian reg junk t d j consts .absent (plainArgs sizes x) = .ok ys := by
  have hne : sizes ≠ [] := by
    rintro rfl
    simp at hs
    omega
  unfold forwardLaplacian
  rw [sizes_plainArgs, hs]
  dsimp only
  rw [show decide (0 < threshold t n) = false by simpa using ht, Int.toNat_of_nonpos ht]
  unfold plainArgs
  rw [initState_eq false .absent sizes hne hs (fun _ => 1) x (weights_absent sizes hs)]
  dsimp only
  refine evalLapl_total (inputBase (fun _ => 1) x) reg junk 0 (fun p v => Good false n p v ∧ p.TotalAt 0 n v)
    (fun p v hv => good_dense 0 n hn p v hv.1) (fun p v hv => hv.2) d j hns hbound consts _ (inputFns n 0 sizes) zs
    ?_ ?_ ?_
  · apply initSpec_represents _ false _ x _ sizes 0 (by omega)
    exact fun _ rows hr => ⟨rfl, hr⟩
  · rw [inputFns_unflat]; exact hd
  · rw [inputFns_unflat]; exact he

open Demo in
/-- The demonstration program meets all hypotheses at every point (sparsity disabled), so the forward Laplacian
returns, and returns the derivatives of `x ↦ x / exp(∑ x²)` and `sin x`. -/
example (junk : List (PVal ℝ) → PVal ℝ) (x : Fin 2 → ℝ) :
    ∃ ys, forwardLaplacian reg junk 0 2 prog [] .absent (plainArgs [2] x) = .ok ys ∧
      List.Forall₂ (Correct x) ys
        [⟨2, fun z q => z q / Real.exp (∑ c, z c * z c)⟩, ⟨2, fun z q => Real.sin (z q)⟩] := by
  obtain ⟨ys, h⟩ := C01_dense_total reg junk 0 (n := 2) (by decide) [2] rfl (by decide) 2 prog [] x (prog_dom_total x)
    prog_noScan prog_bound _ (by rw [unflat_arg, prog_eval])
  refine ⟨ys, h, ?_⟩
  obtain ⟨f, f1, f2⟩ := C01_dense_exact reg junk 0 (n := 2) (by decide) [2] rfl (by decide) 2 prog [] x
    (prog_dom false x) ys h
  have hf := fun z => (f1 z).symm.trans (by rw [unflat_arg, prog_eval])
  rw [farr_ext f [⟨2, fun z q => z q / Real.exp (∑ c, z c * z c)⟩, ⟨2, fun z q => Real.sin (z q)⟩]
    fun z => Except.ok.inj (hf z)] at f2
  exact f2

/-! ### C02, C03 -/

theorem programOk_dense (reg : String → Option (Prim F)) {n : ℕ} (d : ℕ) (j : Jaxpr (Op d F) (PArr F))
    (consts : List (PArr F)) (sizes : List ℕ) (x : Fin n → ℝ) (h : ProgramOk true reg d j consts sizes x) :
    ProgramOk false reg d j consts sizes x :=
  fun s hs => domRun_mono _ _ _ (DomP.mono reg _ _ Good.dense d) _ _ (h s hs)

/-- **C02 (partial).** With any threshold, whatever is returned is exact, for programs whose wrapped functions satisfy the
static conditions `Std.SparseOk` (`Good true`): at most two operands unless all are reduced along axes, statically
indexed, non-empty slices.  What is missing — three or more operands one of which is elementwise, traced indices,
scatter — is where the code returns wrong results (C15, C17, C40). -/
theorem C02_sparse_exact_partial (reg : String → Option (Prim F)) (junk : List (PVal F) → PVal F) (t : ℚ) {n : ℕ}
    (hn : 0 < n) (sizes : List ℕ) (hs : sizes.sum = n) (d : ℕ)
    (j : Jaxpr (Op d F) (PArr F)) (consts : List (PArr F)) (x : Fin n → ℝ)
    (hd : ProgramOk true reg d j consts sizes x) (ys : List (PVal F))
    (h : forwardLaplacian reg junk t d j consts .absent (plainArgs sizes x) = .ok ys) :
    ∃ f : List (FArr (Fin n → ℝ) F),
      (∀ z, evalPlain d j consts (unflat sizes z) = .ok (f.map fun g => g.at z)) ∧
      List.Forall₂ (Correct x) ys f := by
  by_cases ht : 0 < threshold t n
  · obtain ⟨outs, h1, h2⟩ := forward_rep true reg junk t hn sizes hs (by simpa using ht) d j consts .absent
      (fun _ => 1) x (weights_absent sizes hs) hd ys h
    exact ⟨outs, h1, h2.imp fun v g hv => correct_of_exact x v g (exactVal_of_represents _ x _ v g hv)⟩
  · exact C01_dense_exact reg junk t hn sizes hs (by omega) d j consts x
      (programOk_dense reg d j consts sizes x hd) ys h

open Demo in
/-- With a positive threshold the state is really sparse and the call returns, e.g. for the sine of an array and
threshold 6. -/
theorem demo_sparse_returns (junk : List (PVal ℝ) → PVal ℝ) (x : Fin 2 → ℝ) :
    ∃ ys, forwardLaplacian reg junk 6 1 sinProg [] .absent (plainArgs [2] x) = .ok ys := by
  have ht : threshold 6 2 = 6 := by decide
  unfold forwardLaplacian
  rw [sizes_plainArgs]
  simp only [List.sum_cons, List.sum_nil, add_zero, ht]
  unfold plainArgs
  have hdec : decide ((0 : ℤ) < 6) = true := by decide
  rw [hdec]
  have e := initState_eq (F := ℝ) true .absent [2] (by simp) rfl (fun _ => 1) x (weights_absent [2] rfl)
  erw [e]
  dsimp only
  let t : Trip (Fin 2) ℝ := ⟨fun p => coord x (0 + p),
    .sparse [⟨fun p => ((0 + p.1 : ℕ) : ℤ), fun p => coord (fun _ : Fin 2 => (1 : ℝ)) (0 + p)⟩], fun _ => 0⟩
  obtain ⟨r, hr⟩ := Std.elem_sparse_total
    (elemStd 1 (fun _ => 2) 2 (fun z => Real.sin (z 0)) Flags.GENERAL (fun _ q => q) (fun _ => some (Equiv.refl _))
      fun _ _ _ => none) 6 2 (fun _ => t.x)
    (elem_general 2 _ (fun i ε h q => by injection h with h; subst h; rfl) fun q => (cd0 0 _).sin) rfl rfl
    (fun _ _ _ h => by simp [elemStd] at h) (fun _ => .lapl t) (fun _ => rfl) ⟨(0 : Fin 1), rfl⟩ (fun _ => Nat.two_pos)
    (fun i t' h => by
      injection h with h
      subst h
      exact ⟨rfl, Nat.one_ne_zero⟩)
  obtain ⟨r, hr⟩ : ∃ r : Fin 1 → Opd ℝ 2, sinP.rule 6 (fun _ => .lapl t) = .ok r := ⟨r, hr⟩
  have hcall : sinP.call 6 [⟨2, .lapl t⟩] = .ok [⟨2, r 0⟩] := by
    unfold Prim.call
    have hu : unpack (β := Opd ℝ) sinP.size [⟨2, .lapl t⟩] = .ok fun _ => .lapl t := by
      rw [unpack_eq]
      rfl
    rw [hu]
    dsimp only
    rw [hr]
    rfl
  refine ⟨[⟨2, r 0⟩], ?_⟩
  have hev : evLapl reg junk 6 1 (OpStep.prim sinP) [⟨2, .lapl t⟩] = .ok [⟨2, r 0⟩] := hcall
  show evalRC (evLapl reg junk 6 1) ⟨[], [0], [⟨OpStep.prim sinP, [.var 0], [1]⟩], [.var 1]⟩ [] [⟨2, .lapl t⟩] = _
  unfold evalRC
  have hinit : initEnv (⟨[], [0], [⟨OpStep.prim sinP, [.var 0], [1]⟩], [.var 1]⟩ : Jaxpr (Op 1 ℝ) (PVal ℝ)) []
      [⟨2, .lapl t⟩] = .ok ⟨upd (fun _ => none) 0 (some ⟨2, .lapl t⟩),
        initRC (⟨[], [0], [⟨OpStep.prim sinP, [.var 0], [1]⟩], [.var 1]⟩ : Jaxpr (Op 1 ℝ) (PVal ℝ))⟩ := rfl
  rw [hinit]
  simp only [runRC, stepRC, EnvState.readMany, EnvState.read, upd, if_true, initRC, List.foldl, List.filterMap, Atom.var?,
    List.append_nil]
  rw [if_neg (by decide)]
  simp only [hev, EnvState.writeMany, EnvState.write, upd, List.zip, List.zipWith, List.foldl, List.length, if_true]
  rfl

open Demo in
/-- Hence C02 applies to it with threshold 6: what comes back is exact. -/
example (junk : List (PVal ℝ) → PVal ℝ) (x : Fin 2 → ℝ) :
    ∃ ys f, forwardLaplacian reg junk 6 1 sinProg [] .absent (plainArgs [2] x) = .ok ys ∧
      List.Forall₂ (Correct x) ys f := by
  obtain ⟨ys, h⟩ := demo_sparse_returns junk x
  have hd : ProgramOk true reg 1 sinProg [] [2] x := by
    unfold ProgramOk
    rw [unflat_arg]
    intro s hs
    obtain rfl := Except.ok.inj hs
    exact domRun_step _ _ rfl (fun v _ => sin_good true 2 v) (sin_bind x) _ rfl trivial
  obtain ⟨f, -, f2⟩ := C02_sparse_exact_partial reg junk 6 (n := 2) (by decide) [2] rfl 1 sinProg [] x hd ys h
  exact ⟨ys, f, h, f2⟩

/-- Two results agree: same shape, value, densified Jacobian and Laplacian (a plain array has zero derivatives). -/
def SameAnswer (v v' : PVal F) : Prop :=
  ∃ (m : ℕ) (o o' : Opd F m), v = ⟨m, o⟩ ∧ v' = ⟨m, o'⟩ ∧ o.x = o'.x ∧
    (∀ i p, o.trip.jac.den i p = o'.trip.jac.den i p) ∧ o.trip.lapl = o'.trip.lapl

theorem partialD_const {n : ℕ} (i : Fin n) (g : (Fin n → ℝ) → F) (x : Fin n → ℝ) (c : F) (h : ∀ᶠ z in 𝓝 x, g z = c) :
    partialD i g x = 0 := by
  have h1 : g =ᶠ[𝓝 x] fun _ => c := h
  have h2 : HasFDerivAt g (0 : (Fin n → ℝ) →L[ℝ] F) x := (hasFDerivAt_const c x).congr_of_eventuallyEq h1
  unfold partialD
  rw [h2.differentiableAt.lineDeriv_eq_fderiv, h2.fderiv]
  rfl

/-- A plain array is the triple with zero derivatives. -/
theorem correct_trip {n m : ℕ} (x : Fin n → ℝ) (o : Opd F m) (u : (Fin n → ℝ) → Fin m → F)
    (h : Correct x ⟨m, o⟩ ⟨m, u⟩) : ForwardLaplacianOf x o.trip u ∧ o.x = o.trip.x := by
  obtain ⟨u', hu, h⟩ := h
  obtain rfl : u = u' := eq_of_heq (Sigma.mk.inj hu).2
  cases o with
  | lapl t => exact ⟨h, rfl⟩
  | plain a =>
    have h : ∀ᶠ z in 𝓝 x, u z = a := h
    have hden : ∀ i p, (Jac.dense ([] : List (Fin m → F))).den i p = 0 := fun i p => by simp [Jac.den]
    refine ⟨⟨fun p => ?_, fun p => ?_, fun i p => ?_, fun i _ p => hden i p, fun p => ?_⟩, rfl⟩
    · have h1 : ∀ᶠ z in 𝓝 x, ∀ᶠ y in 𝓝 z, u y p = a p :=
        (h.mono fun z hz => by rw [hz]).eventually_nhds
      have h2 : ∀ᶠ z in 𝓝 x, HasFDerivAt (fun z => u z p) (0 : (Fin n → ℝ) →L[ℝ] F) z :=
        h1.mono fun z hz => (hasFDerivAt_const (a p) z).congr_of_eventuallyEq hz
      refine ⟨h2.mono fun z hz => hz.differentiableAt, ?_⟩
      exact ((hasFDerivAt_const (0 : (Fin n → ℝ) →L[ℝ] F) x).congr_of_eventuallyEq
        (h2.mono fun z hz => hz.fderiv)).differentiableAt
    · show a p = u x p
      rw [h.self_of_nhds]
    · show (Jac.dense ([] : List (Fin m → F))).den i p = _
      rw [hden, partialD_const i _ x (a p) (h.mono fun z hz => by rw [hz])]
    · show (0 : F) = _
      symm
      apply Finset.sum_eq_zero
      intro i _
      refine partialD_const i _ x 0 ?_
      filter_upwards [h.eventually_nhds] with z hz
      exact partialD_const i _ z (a p) (hz.mono fun y hy => by rw [hy])

theorem sameAnswer_of_correct {n : ℕ} (x : Fin n → ℝ) : ∀ (l l' : List (PVal F)) (f : List (FArr (Fin n → ℝ) F)),
    List.Forall₂ (Correct x) l f → List.Forall₂ (Correct x) l' f → List.Forall₂ SameAnswer l l'
  | _, _, _, .nil, .nil => .nil
  | ⟨m, o⟩ :: l, ⟨m', o'⟩ :: l', ⟨k, u⟩ :: f, .cons h1 t1, .cons h2 t2 => by
    refine .cons ?_ (sameAnswer_of_correct x l l' f t1 t2)
    have e1 : k = m := by obtain ⟨u', hu, -⟩ := h1; exact congrArg Sigma.fst hu
    have e2 : k = m' := by obtain ⟨u', hu, -⟩ := h2; exact congrArg Sigma.fst hu
    subst e1
    subst e2
    obtain ⟨c1, c2⟩ := correct_trip x o u h1
    obtain ⟨c1', c2'⟩ := correct_trip x o' u h2
    refine ⟨k, o, o', rfl, rfl, ?_, fun i p => ?_, ?_⟩
    · rw [c2, c2']
      funext p
      rw [c1.value, c1'.value]
    · by_cases hi : i < n
      · rw [c1.jacobian ⟨i, hi⟩, c1'.jacobian ⟨i, hi⟩]
      · rw [c1.rows i (by omega), c1'.rows i (by omega)]
    · funext p
      rw [c1.laplacian, c1'.laplacian]

/-- **C03 (partial).** Two runs with different thresholds agree whenever both return, for the programs of C02.  (In
particular agreement of any threshold with threshold `0`.) -/
theorem C03_threshold_invisible_partial (reg : String → Option (Prim F)) (junk : List (PVal F) → PVal F) (t t' : ℚ)
    {n : ℕ} (hn : 0 < n) (sizes : List ℕ) (hs : sizes.sum = n) (d : ℕ)
    (j : Jaxpr (Op d F) (PArr F)) (consts : List (PArr F)) (x : Fin n → ℝ)
    (hd : ProgramOk true reg d j consts sizes x) (ys ys' : List (PVal F))
    (h : forwardLaplacian reg junk t d j consts .absent (plainArgs sizes x) = .ok ys)
    (h' : forwardLaplacian reg junk t' d j consts .absent (plainArgs sizes x) = .ok ys') :
    List.Forall₂ SameAnswer ys ys' := by
  obtain ⟨f, f1, f2⟩ := C02_sparse_exact_partial reg junk t hn sizes hs d j consts x hd ys h
  obtain ⟨g, g1, g2⟩ := C02_sparse_exact_partial reg junk t' hn sizes hs d j consts x hd ys' h'
  obtain rfl : f = g := farr_ext f g fun z => Except.ok.inj ((f1 z).symm.trans (g1 z))
  exact sameAnswer_of_correct x ys ys' f f2 g2

/-! ### C04 -/

/-- **C04.** With weights `w` (one number for all inputs, one per argument, or arrays: `weights_scalar`,
`weights_arrays`) and sparsity disabled (the default), row `i` of the Jacobian is `wᵢ ∂ᵢf` and the Laplacian is
`∑ wᵢ² ∂ᵢ∂ᵢf`. -/
theorem C04_weights (reg : String → Option (Prim F)) (junk : List (PVal F) → PVal F) (t : ℚ) {n : ℕ}
    (hn : 0 < n) (sizes : List ℕ) (hs : sizes.sum = n) (ht : threshold t n ≤ 0) (d : ℕ)
    (j : Jaxpr (Op d F) (PArr F)) (consts : List (PArr F)) (weights : Weights F) (w x : Fin n → ℝ)
    (hw : weightArrs weights sizes = .ok (unflat sizes w)) (hd : ProgramOk false reg d j consts sizes x)
    (ys : List (PVal F)) (h : forwardLaplacian reg junk t d j consts weights (plainArgs sizes x) = .ok ys) :
    ∃ f : List (FArr (Fin n → ℝ) F),
      (∀ z, evalPlain d j consts (unflat sizes z) = .ok (f.map fun g => g.at z)) ∧
      List.Forall₂ (ExactVal w x) ys f := by
  obtain ⟨outs, h1, h2⟩ := forward_rep false reg junk t hn sizes hs (by simpa using ht) d j consts weights
    w x hw hd ys h
  exact ⟨outs, h1, h2.imp fun v g hv => exactVal_of_represents _ x _ v g hv⟩

/-- **C04 with sparsity enabled (partial)**: for the programs of C02. -/
theorem C04_weights_sparse_partial (reg : String → Option (Prim F)) (junk : List (PVal F) → PVal F) (t : ℚ) {n : ℕ}
    (hn : 0 < n) (sizes : List ℕ) (hs : sizes.sum = n) (ht : 0 < threshold t n) (d : ℕ)
    (j : Jaxpr (Op d F) (PArr F)) (consts : List (PArr F)) (weights : Weights F) (w x : Fin n → ℝ)
    (hw : weightArrs weights sizes = .ok (unflat sizes w)) (hd : ProgramOk true reg d j consts sizes x)
    (ys : List (PVal F)) (h : forwardLaplacian reg junk t d j consts weights (plainArgs sizes x) = .ok ys) :
    ∃ f : List (FArr (Fin n → ℝ) F),
      (∀ z, evalPlain d j consts (unflat sizes z) = .ok (f.map fun g => g.at z)) ∧
      List.Forall₂ (ExactVal w x) ys f := by
  obtain ⟨outs, h1, h2⟩ := forward_rep true reg junk t hn sizes hs (by simpa using ht) d j consts weights
    w x hw hd ys h
  exact ⟨outs, h1, h2.imp fun v g hv => exactVal_of_represents _ x _ v g hv⟩

end Folx

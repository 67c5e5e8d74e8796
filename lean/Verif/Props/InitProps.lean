import Verif.Props.ProgProps

/-!
# C05, C42, C43, C46: initial state, thresholds, composition
-/

namespace Folx

open Filter Topology
open Folx.Interp

variable {F : Type} [RCLike F]

/-! ### C05 -/

/-- Leaf number `k` starts after the elements of the leaves before it. -/
def leafStart (sizes : List ℕ) (k : ℕ) : ℕ := (sizes.take k).sum

/-- The triple is the (weighted) identity on the block of `m` inputs starting at `off`: element `p` has value
`x_{off+p}`, depends on input `off + p` only, with derivative `w_{off+p}`, and has no second derivative. -/
structure IdentityBlock {n m : ℕ} (w x : Fin n → ℝ) (off : ℕ) (t : Trip (Fin m) F) : Prop where
  inside : off + m ≤ n
  value : ∀ p : Fin m, ∀ h : off + p < n, t.x p = (x ⟨off + p, h⟩ : F)
  jacobian : ∀ (i : Fin n) (p : Fin m), t.jac.den i p = if i.val = off + p then (w i : F) else 0
  laplacian : ∀ p, t.lapl p = 0

theorem initSpec_get {n : ℕ} (s : Bool) (w x : Fin n → ℝ) : ∀ (sizes : List ℕ) (off : ℕ), off + sizes.sum ≤ n →
    ∀ k : ℕ, ∀ hk : k < sizes.length, ∃ t : Trip (Fin sizes[k]) F,
      (initSpec s w x off sizes : List (PVal F))[k]? = some ⟨sizes[k], .lapl t⟩ ∧ t.jac.weak = s ∧
      IdentityBlock w x (off + leafStart sizes k) t
  | [], _, _, k, hk => by simp at hk
  | m :: ms, off, h, 0, _ => by
    rw [List.sum_cons] at h
    refine ⟨_, rfl, ?_, ?_⟩
    · cases s <;> rfl
    · have e : off + leafStart (m :: ms) 0 = off := by simp [leafStart]
      rw [e]
      refine ⟨by simp only [List.getElem_cons_zero]; omega, fun p hp => ?_, fun i p => ?_, fun p => rfl⟩
      · show coord x (off + p) = _
        simp [coord, hp]
      · have hp : off + p.val < n := by
          have : p.val < m := p.2
          omega
        cases s with
        | true =>
          simp only [if_true, Jac.den, List.map_cons, List.map_nil, List.sum_cons, List.sum_nil, add_zero]
          by_cases hi : i.val = off + p
          · rw [if_pos (by exact_mod_cast hi.symm), if_pos hi]
            simp only [coord, hp, dite_true]
            congr 2
            exact Fin.ext hi.symm
          · rw [if_neg (by intro hc; exact hi (by exact_mod_cast hc.symm)), if_neg hi]
        | false =>
          simp only [Bool.false_eq_true, if_false, Jac.den, List.getD_eq_getElem?_getD, List.getElem?_map,
            List.getElem?_range i.2, Option.map_some, Option.getD_some]
          by_cases hi : i.val = off + p
          · rw [if_pos hi, if_pos hi]
            simp only [coord, hp, dite_true]
            congr 2
            exact Fin.ext hi.symm
          · rw [if_neg hi, if_neg hi]
  | m :: ms, off, h, k + 1, hk => by
    rw [List.sum_cons] at h
    obtain ⟨t, h1, h2, h3⟩ := initSpec_get s w x ms (off + m) (by omega) k (by simpa using hk)
    refine ⟨t, ?_, h2, ?_⟩
    · simpa [initSpec] using h1
    · have e : off + leafStart (m :: ms) (k + 1) = off + m + leafStart ms k := by
        simp [leafStart, Nat.add_assoc]
      rw [e]
      exact h3

/-- **C05.** The state created for plain arguments: one triple per argument, in order; the `k`-th is the (weighted)
identity on the block of inputs after the blocks of the previous arguments.  Sparse and dense initialisation
describe the same matrix `diag(w)`. -/
theorem C05_identity {n : ℕ} (sparsity : Bool) (weights : Weights F) (sizes : List ℕ) (hs : sizes ≠ [])
    (hn : sizes.sum = n) (w x : Fin n → ℝ) (hw : weightArrs weights sizes = .ok (unflat sizes w)) :
    ∃ state : List (PVal F), initState sparsity weights (plainArgs sizes x) = .ok state ∧
      state.length = sizes.length ∧
      ∀ k : ℕ, ∀ hk : k < sizes.length, ∃ t : Trip (Fin sizes[k]) F,
        state[k]? = some ⟨sizes[k], .lapl t⟩ ∧ t.jac.weak = sparsity ∧ IdentityBlock w x (leafStart sizes k) t := by
  refine ⟨initSpec sparsity w x 0 sizes, initState_eq sparsity weights sizes hs hn w x hw, ?_, fun k hk => ?_⟩
  · have this : ∀ (sizes : List ℕ) (off : ℕ), (initSpec sparsity w x off sizes : List (PVal F)).length = sizes.length := by
      intro sizes
      induction sizes with
      | nil => intro _; rfl
      | cons m ms ih => intro off; simp [initSpec, ih]
    exact this _ _
  · have := initSpec_get (F := F) sparsity w x sizes 0 (by omega) k hk
    rw [Nat.zero_add] at this
    exact this

/-- **C05**: if some argument already carries derivatives the arguments are the state. -/
theorem C05_resume (sparsity : Bool) (weights : Weights F) (args : List (PVal F))
    (h : ∃ v ∈ args, v.2.isLapl = true) : initState sparsity weights args = .ok args := by
  unfold initState
  rw [if_pos (List.any_eq_true.mpr h)]

/-- Two arguments with two and one elements and weights `2, 3, 5`. -/
example : ∃ state : List (PVal ℝ), initState true (.perArg ((unflat [2, 1] ![(2 : ℝ), 3, 5]).map .array))
      (plainArgs [2, 1] ![(7 : ℝ), 8, 9]) = .ok state ∧
      ∃ t : Trip (Fin 1) ℝ, state[1]? = some ⟨1, .lapl t⟩ ∧ t.x 0 = 9 ∧ t.jac.den 2 0 = 5 ∧ t.jac.den 1 0 = 0 := by
  obtain ⟨st, h1, -, h3⟩ := C05_identity (F := ℝ) (n := 3) true _ [2, 1] (by simp) rfl ![(2 : ℝ), 3, 5] ![(7 : ℝ), 8, 9]
    (weights_arrays (F := ℝ) [2, 1] ![(2 : ℝ), 3, 5])
  obtain ⟨t, h4, -, h5⟩ := h3 1 (by simp)
  refine ⟨st, h1, t, h4, ?_, ?_, ?_⟩
  · exact h5.value (0 : Fin 1) (by decide)
  · exact h5.jacobian 2 (0 : Fin 1)
  · exact h5.jacobian 1 (0 : Fin 1)

/-! ### C43 -/

/-- **C43**, fractions: rounded down. -/
theorem C43_fraction (t : ℚ) (size : ℕ) (h0 : 0 < t) (h1 : t < 1) : threshold t size = ⌊t * size⌋ := by
  unfold threshold pyInt
  rw [if_pos ⟨h0, h1⟩, if_pos (by positivity)]

/-- **C43**, absolute counts: truncation of every other value, in particular integers mean themselves. -/
theorem C43_absolute (t : ℚ) (size : ℕ) (h : t ≤ 0 ∨ 1 ≤ t) :
    (1 ≤ t → threshold t size = ⌊t⌋) ∧ (t ≤ 0 → threshold t size = ⌈t⌉) ∧
      ∀ c : ℤ, t = c → threshold t size = c := by
  have hn : ¬ (0 < t ∧ t < 1) := by
    rintro ⟨a, b⟩
    rcases h with h | h <;> linarith
  have e : threshold t size = pyInt t := by unfold threshold; rw [if_neg hn]
  refine ⟨fun h1 => ?_, fun h1 => ?_, fun c hc => ?_⟩
  · rw [e, pyInt, if_pos (by linarith)]
  · rw [e, pyInt]
    split
    · have : t = 0 := le_antisymm h1 (by assumption)
      subst this
      simp
    · rfl
  · rw [e, pyInt, hc]
    split <;> simp

/-- **C43**: sparsity is enabled iff the resulting count is positive — seen on the Jacobians of the arguments, which the
identity function returns. -/
theorem C43_enabled (reg : String → Option (Prim F)) (junk : List (PVal F) → PVal F) (t : ℚ) {n : ℕ}
    (x : Fin n → ℝ) :
    ∃ v : Trip (Fin n) F, forwardLaplacian reg junk t 0 ⟨[], [0], [], [.var 0]⟩ [] .absent (plainArgs [n] x) =
      .ok [⟨n, .lapl v⟩] ∧ (v.jac.weak = true ↔ 0 < threshold t n) := by
  obtain ⟨state, h1, h2, h3⟩ := C05_identity (F := F) (n := n) (decide (0 < threshold t n)) .absent [n] (by simp)
    (by simp) (fun _ => 1) x (weights_absent [n] (by simp))
  obtain ⟨v, h4, h5, -⟩ := h3 0 (by simp)
  refine ⟨v, ?_, by rw [h5]; simp⟩
  unfold forwardLaplacian
  rw [sizes_plainArgs]
  have hs : ([n] : List ℕ).sum = n := by simp
  dsimp only
  rw [hs, h1]
  obtain ⟨v', rfl⟩ : ∃ v', state = [v'] := List.length_eq_one_iff.mp (by simpa using h2)
  simp only [List.getElem?_cons_zero, Option.some.injEq] at h4
  subst h4
  rfl

example : threshold (3/5) 10 = 6 ∧ threshold (3/5) 1 = 0 ∧ threshold 6 100 = 6 ∧ threshold (13/2) 100 = 6 ∧
    threshold (-3) 7 = -3 := by
  refine ⟨?_, ?_, ?_, ?_, ?_⟩ <;> norm_num [threshold, pyInt, Int.floor_eq_iff, Int.ceil_eq_iff]

/-! ### C42 -/

/-- Running the transformed function on derivative-carrying arguments. -/
theorem forward_rep_resume {n : ℕ} (w x : Fin n → ℝ) (inv : ∀ m, Jac (Fin m) F → Prop) (sp : Bool)
    (reg : String → Option (Prim F)) (junk : List (PVal F) → PVal F) (t : ℚ) (d : ℕ)
    (j : Jaxpr (Op d F) (PArr F)) (consts : List (PArr F)) (weights : Weights F) (args : List (PVal F))
    (gs : List (FArr (Fin n → ℝ) F)) (hargs : List.Forall₂ (Represents (inputBase w x) inv) args gs)
    (hlapl : ∃ v ∈ args, v.2.isLapl = true)
    (hgood : ∀ (p : Prim F) v, Good sp n p v → p.SoundAt inv (threshold t (args.map fun v => v.1).sum).toNat n v)
    (hd : DomProg (evPlain d) (DomP reg (Good sp n) d) j consts (gs.map fun g => g.at x))
    (ys : List (PVal F)) (h : forwardLaplacian reg junk t d j consts weights args = .ok ys) :
    ∃ outs : List (FArr (Fin n → ℝ) F),
      (∀ z, evalPlain d j consts (gs.map fun g => g.at z) = .ok (outs.map fun g => g.at z)) ∧
      List.Forall₂ (Represents (inputBase w x) inv) ys outs := by
  unfold forwardLaplacian at h
  dsimp only at h
  rw [C05_resume _ _ _ hlapl] at h
  dsimp only at h
  refine evalLapl_sound (inputBase w x) inv reg junk _ (Good sp n) hgood d j consts _ gs ys hargs ?_ h
  exact domProg_transfer (at' := fun (g : FArr (Fin n → ℝ) F) x => g.at x)
      (cst := fun a => (⟨a.1, fun _ => a.2⟩ : FArr (Fin n → ℝ) F))
      (fun p => represents_const (inputBase w x) _ p) (fun _ _ => rfl) x (evPlain d) _ (DomP reg (Good sp n) d) _ j
      (fun e _ => evLapl_rel (inputBase w x) _ reg junk _ (Good sp n) hgood d e.op)
      (fun e _ => dom_of_plain (inputBase w x) _ reg junk _ (Good sp n) hgood d e.op) consts _ _ hargs hd

/-- `denseInv` is stronger than `bigInv`. -/
theorem represents_mono {X : Type} [NormedAddCommGroup X] [NormedSpace ℝ X] (B : Base X)
    (inv inv' : ∀ m, Jac (Fin m) F → Prop) (hi : ∀ m J, inv m J → inv' m J) (v : PVal F) (g : FArr X F)
    (h : Represents B inv v g) : Represents B inv' v g := by
  obtain ⟨u, rfl, h⟩ := h
  refine ⟨u, rfl, ?_⟩
  obtain ⟨m, o⟩ := v
  cases o with
  | plain a => exact h
  | lapl t => exact ⟨h.1, hi m _ h.2⟩

/-- The composition of two programs, as an ordinary function. -/
def evalComp (d d' : ℕ) (f : Jaxpr (Op d F) (PArr F)) (cf : List (PArr F)) (g : Jaxpr (Op d' F) (PArr F))
    (cg : List (PArr F)) (args : List (PArr F)) : Except Err (List (PArr F)) :=
  match evalPlain d f cf args with
  | .error e => .error e
  | .ok mid => evalPlain d' g cg mid

/-- The second program satisfies the side conditions at the intermediate values. -/
def SecondOk (sp : Bool) (reg : String → Option (Prim F)) {n : ℕ} (d d' : ℕ) (f : Jaxpr (Op d F) (PArr F))
    (cf : List (PArr F)) (g : Jaxpr (Op d' F) (PArr F)) (cg : List (PArr F)) (sizes : List ℕ) (x : Fin n → ℝ) : Prop :=
  ∀ mid, evalPlain d f cf (unflat sizes x) = .ok mid →
    DomProg (evPlain d') (DomP reg (Good sp n) d') g cg mid

/-- **C42**, sparsity disabled: applying the transformed `g` to the result of the transformed `f` gives value, Jacobian
and Laplacian of `z ↦ g(f(z))`.  (If the result of `f` carries no derivatives at all, `g` is transformed afresh and the
derivatives are with respect to the intermediate values: the hypothesis `hlapl` excludes this.) -/
theorem C42_compose (reg : String → Option (Prim F)) (junk : List (PVal F) → PVal F) (t t' : ℚ) {n : ℕ}
    (hn : 0 < n) (sizes : List ℕ) (hs : sizes.sum = n) (ht : threshold t n ≤ 0) (d d' : ℕ)
    (f : Jaxpr (Op d F) (PArr F)) (cf : List (PArr F)) (g : Jaxpr (Op d' F) (PArr F)) (cg : List (PArr F))
    (x : Fin n → ℝ) (hf : ProgramOk false reg d f cf sizes x) (hg : SecondOk false reg d d' f cf g cg sizes x)
    (ys zs : List (PVal F)) (weights : Weights F)
    (h : forwardLaplacian reg junk t d f cf .absent (plainArgs sizes x) = .ok ys)
    (hlapl : ∃ v ∈ ys, v.2.isLapl = true)
    (h' : forwardLaplacian reg junk t' d' g cg weights ys = .ok zs) :
    ∃ gf : List (FArr (Fin n → ℝ) F),
      (∀ z, evalComp d d' f cf g cg (unflat sizes z) = .ok (gf.map fun u => u.at z)) ∧
      List.Forall₂ (Correct x) zs gf := by
  obtain ⟨outs, h1, h2⟩ := forward_rep false reg junk t hn sizes hs (by simpa using ht) d f cf .absent
    (fun _ => 1) x (weights_absent sizes hs) hf ys h
  obtain ⟨gf, h3, h4⟩ := forward_rep_resume (fun _ => 1) x (denseInv n) false reg junk t' d' g cg weights ys outs h2
    hlapl (fun p v => good_dense _ n hn p v) (hg _ (h1 x)) zs h'
  refine ⟨gf, fun z => ?_, h4.imp fun v u hv => correct_of_exact x v u (exactVal_of_represents _ x _ v u hv)⟩
  unfold evalComp
  rw [h1 z]
  exact h3 z

open Demo in
theorem inner_good_dom (a : Fin 2 → ℝ) :
    DomProg (evPlain 1) (DomP reg (fun p v => Good false 2 p v ∧ p.TotalAt 0 2 v) 1) sinProg [] [⟨2, a⟩] := by
  intro s hs
  obtain rfl := Except.ok.inj hs
  refine domRun_step _ _ rfl (fun v _ => ⟨sin_good false 2 v, ?_⟩) (sin_bind a) _ rfl trivial
  exact Std.total _ 0 2 v (elem_general 2 v (fun i ε h q => by injection h with h; subst h; rfl) fun q => (cd0 0 _).sin)
    fun _ _ _ h => by simp [elemStd] at h

open Demo in
/-- The transformed sine applied to the result of the transformed sine: the derivatives of `sin (sin x)`. -/
example (junk : List (PVal ℝ) → PVal ℝ) (x : Fin 2 → ℝ) :
    ∃ ys zs, forwardLaplacian reg junk 0 1 sinProg [] .absent (plainArgs [2] x) = .ok ys ∧
      forwardLaplacian reg junk 0 1 sinProg [] .absent ys = .ok zs ∧
      List.Forall₂ (Correct x) zs [⟨2, fun z q => Real.sin (Real.sin (z q))⟩] := by
  have hns : ∀ e ∈ sinProg.eqns, NoScan reg 1 e.op := by
    intro e he
    simp only [sinProg, List.mem_cons, List.not_mem_nil, or_false] at he
    subst he
    trivial
  have hb : ∀ v, Atom.var v ∈ sinProg.outvars → (readsOf sinProg.eqns sinProg.outvars).count v ≤ 2147483647 :=
    fun v _ => le_trans (List.count_le_length ..) (by decide)
  have hmono : ∀ a : Fin 2 → ℝ, DomProg (evPlain 1) (DomP reg (Good false 2) 1) sinProg [] [⟨2, a⟩] := fun a s hs =>
    domRun_mono _ _ _ (DomP.mono reg _ _ (fun p v h => h.1) 1) _ _ (inner_good_dom a s hs)
  obtain ⟨ys, h⟩ := C01_dense_total reg junk 0 (n := 2) (by decide) [2] rfl (by decide) 1 sinProg [] x
    (by rw [unflat_arg]; exact inner_good_dom x) hns hb _ (by rw [unflat_arg]; exact inner_eval x)
  have hok : ProgramOk false reg 1 sinProg [] [2] x := by
    unfold ProgramOk
    rw [unflat_arg]
    exact hmono x
  obtain ⟨outs, o1, o2⟩ := forward_rep false reg junk 0 (n := 2) (by decide) [2] rfl (by decide) 1 sinProg [] .absent
    (fun _ => 1) x (weights_absent [2] rfl) hok ys h
  have ho := fun z => (o1 z).symm.trans (show _ = Except.ok [(⟨2, fun q => Real.sin (z q)⟩ : PArr ℝ)] by rw [unflat_arg]; rfl)
  obtain rfl := farr_ext outs [⟨2, fun z q => Real.sin (z q)⟩] fun z => Except.ok.inj (ho z)
  have o3 := o2.imp fun v g hv => correct_of_exact x v g (exactVal_of_represents _ x _ v g hv)
  have hlapl : ∃ v ∈ ys, v.2.isLapl = true := by
    cases o3 with
    | cons h1 h2 =>
      rename_i v l
      refine ⟨v, by simp, ?_⟩
      obtain ⟨m, o⟩ := v
      cases o with
      | lapl t => rfl
      | plain a =>
        exfalso
        obtain ⟨u, hu, h3⟩ := h1
        obtain rfl : 2 = m := congrArg Sigma.fst hu
        obtain rfl := eq_of_heq (Sigma.mk.inj hu).2
        have h3 : ∀ᶠ z : Fin 2 → ℝ in 𝓝 x, (fun q => Real.sin (z q)) = a := h3
        have hc : Continuous fun r : ℝ => (fun i => if i = 0 then r else x i : Fin 2 → ℝ) := by
          refine continuous_pi fun i => ?_
          by_cases hi : i = 0 <;> simp only [hi, if_true, if_false] <;> fun_prop
        have hc0 : (fun i => if i = 0 then x 0 else x i : Fin 2 → ℝ) = x := by
          funext i
          by_cases hi : i = 0 <;> simp [hi]
        have h4 : ∀ᶠ r : ℝ in 𝓝 (x 0), Real.sin r = a 0 := by
          have := hc.continuousAt (x := x 0)
          unfold ContinuousAt at this
          beta_reduce at this
          rw [hc0] at this
          filter_upwards [this.eventually h3] with r hr
          have := congrFun hr 0
          simpa using this
        have d1 : HasDerivAt Real.sin 0 (x 0) :=
          (hasDerivAt_const (x 0) (a 0)).congr_of_eventuallyEq h4
        have d2 : ∀ᶠ r : ℝ in 𝓝 (x 0), Real.cos r = 0 := by
          filter_upwards [h4.eventually_nhds] with r hr
          exact (Real.hasDerivAt_sin r).unique ((hasDerivAt_const r (a 0)).congr_of_eventuallyEq hr)
        have d3 : Real.sin (x 0) = 0 := by
          have := (Real.hasDerivAt_cos (x 0)).unique ((hasDerivAt_const (x 0) (0 : ℝ)).congr_of_eventuallyEq d2)
          linarith
        have := Real.sin_sq_add_cos_sq (x 0)
        rw [d3, d2.self_of_nhds] at this
        norm_num at this
  obtain ⟨zs, hz⟩ : ∃ zs, forwardLaplacian reg junk 0 1 sinProg [] .absent ys = .ok zs := by
    unfold forwardLaplacian
    dsimp only
    rw [C05_resume _ _ _ hlapl]
    have ht : (threshold 0 (ys.map fun v => v.1).sum).toNat = 0 := by simp [threshold, pyInt]
    dsimp only
    rw [ht]
    exact evalLapl_total (inputBase (fun _ => 1) x) reg junk 0 (fun p v => Good false 2 p v ∧ p.TotalAt 0 2 v)
      (fun p v hv => good_dense 0 2 (by decide) p v hv.1) (fun p v hv => hv.2) 1 sinProg hns hb [] ys _ _ o2
      (inner_good_dom _) (inner_eval _)
  refine ⟨ys, zs, h, hz, ?_⟩
  obtain ⟨gf, g1, g2⟩ := C42_compose reg junk 0 0 (n := 2) (by decide) [2] rfl (by decide) 1 1 sinProg [] sinProg [] x hok
    (fun mid hm => by
      rw [unflat_arg] at hm
      obtain rfl := Except.ok.inj ((inner_eval x).symm.trans hm)
      exact hmono _) ys zs .absent h hlapl hz
  have hf := fun z => (g1 z).symm.trans
    (show _ = Except.ok [(⟨2, fun q => Real.sin (Real.sin (z q))⟩ : PArr ℝ)] by rw [unflat_arg]; rfl)
  rw [farr_ext gf [⟨2, fun z q => Real.sin (Real.sin (z q))⟩] fun z => Except.ok.inj (hf z)] at g2
  exact g2

/-- **C42**, sparsity enabled (partial): for the programs of C02, and a threshold for `g` that is not larger than the one
for `f` (a larger one can produce dense Jacobians shorter than the threshold, C17). -/
theorem C42_compose_sparse_partial (reg : String → Option (Prim F)) (junk : List (PVal F) → PVal F) (t t' : ℚ) {n : ℕ}
    (hn : 0 < n) (sizes : List ℕ) (hs : sizes.sum = n) (ht : 0 < threshold t n) (d d' : ℕ)
    (f : Jaxpr (Op d F) (PArr F)) (cf : List (PArr F)) (g : Jaxpr (Op d' F) (PArr F)) (cg : List (PArr F))
    (x : Fin n → ℝ) (hf : ProgramOk true reg d f cf sizes x) (hg : SecondOk true reg d d' f cf g cg sizes x)
    (ys zs : List (PVal F)) (weights : Weights F)
    (h : forwardLaplacian reg junk t d f cf .absent (plainArgs sizes x) = .ok ys)
    (hlapl : ∃ v ∈ ys, v.2.isLapl = true)
    (ht' : threshold t' (ys.map fun v => v.1).sum ≤ threshold t n)
    (h' : forwardLaplacian reg junk t' d' g cg weights ys = .ok zs) :
    ∃ gf : List (FArr (Fin n → ℝ) F),
      (∀ z, evalComp d d' f cf g cg (unflat sizes z) = .ok (gf.map fun u => u.at z)) ∧
      List.Forall₂ (Correct x) zs gf := by
  obtain ⟨outs, h1, h2⟩ := forward_rep true reg junk t hn sizes hs (by simpa using ht) d f cf .absent
    (fun _ => 1) x (weights_absent sizes hs) hf ys h
  have hmono : ∀ m (J : Jac (Fin m) F), bigInv (threshold t n).toNat n m J →
      bigInv (threshold t' (ys.map fun v => v.1).sum).toNat n m J := by
    intro m J hJ
    unfold bigInv at *
    cases J with
    | sparse rows => exact hJ
    | dense rows =>
      simp only [Jac.Big] at *
      omega
  obtain ⟨gf, h3, h4⟩ := forward_rep_resume (fun _ => 1) x (bigInv _ n) true reg junk t' d' g cg weights ys outs
    (h2.imp fun v g hv => represents_mono _ _ _ hmono v g hv)
    hlapl (fun p v => good_sparse _ n hn p v) (hg _ (h1 x)) zs h'
  refine ⟨gf, fun z => ?_, h4.imp fun v u hv => correct_of_exact x v u (exactVal_of_represents _ x _ v u hv)⟩
  unfold evalComp
  rw [h1 z]
  exact h3 z

/-! ### C46 -/

/-- Sparse storage within bounds: indices between `-1` and `n - 1`, entries at `-1` are zero; dense storage has at most
`n` rows. -/
def InBounds {P : Type} (n : ℕ) : Jac P F → Prop
  | .sparse rows => ∀ r ∈ rows, ∀ p, -1 ≤ r.idx p ∧ r.idx p ≤ n - 1 ∧ (r.idx p = -1 → r.val p = 0)
  | .dense rows => rows.length ≤ n

theorem inBounds_of_wf {P : Type} (n : ℕ) (J : Jac P F) (h : J.Wf n) : InBounds n J := by
  cases J with
  | dense rows => exact h
  | sparse rows =>
    intro r hr p
    obtain ⟨h1, h2⟩ := h r hr p
    refine ⟨?_, by omega, fun hi => (h2 (by omega)).2⟩
    by_cases hneg : r.idx p < 0
    · exact (h2 hneg).1.ge
    · omega

/-- **C46 (partial).** Every Jacobian returned is within bounds, for the programs of C02 (any intermediate value of a
program is the output of a shorter one).  The row bounds are part of C13 and C14.  Missing: scatter, whose rule can
produce other indices. -/
theorem C46_bounds_partial (reg : String → Option (Prim F)) (junk : List (PVal F) → PVal F) (t : ℚ) {n : ℕ}
    (hn : 0 < n) (sizes : List ℕ) (hs : sizes.sum = n) (d : ℕ)
    (j : Jaxpr (Op d F) (PArr F)) (consts : List (PArr F)) (weights : Weights F) (w x : Fin n → ℝ)
    (hw : weightArrs weights sizes = .ok (unflat sizes w)) (hd : ProgramOk true reg d j consts sizes x)
    (ys : List (PVal F)) (h : forwardLaplacian reg junk t d j consts weights (plainArgs sizes x) = .ok ys) :
    ∀ v ∈ ys, ∀ tr, v.2 = .lapl tr → InBounds n tr.jac := by
  have key : ∀ (inv : ∀ m, Jac (Fin m) F → Prop) (outs : List (FArr (Fin n → ℝ) F)),
      List.Forall₂ (Represents (inputBase w x) inv) ys outs → ∀ v ∈ ys, ∀ tr, v.2 = .lapl tr → InBounds n tr.jac := by
    intro inv outs hr v hv tr htr
    obtain ⟨g, hg⟩ : ∃ g, Represents (inputBase w x) inv v g := by
      obtain ⟨i, hi, rfl⟩ := List.getElem_of_mem hv
      have hi' : i < outs.length := by rw [← hr.length_eq]; exact hi
      exact ⟨outs.get ⟨i, hi'⟩, (List.forall₂_iff_get.mp hr).2 i hi hi'⟩
    obtain ⟨u, rfl, hu⟩ := hg
    rw [htr] at hu
    exact inBounds_of_wf n _ hu.1.wf
  by_cases ht : 0 < threshold t n
  · obtain ⟨outs, -, h2⟩ := forward_rep true reg junk t hn sizes hs (by simpa using ht) d j consts weights w x hw hd ys h
    exact key _ outs h2
  · obtain ⟨outs, -, h2⟩ := forward_rep false reg junk t hn sizes hs (by simpa using ht) d j consts weights w x hw
      (programOk_dense reg d j consts sizes x hd) ys h
    exact key _ outs h2

/-- The sine with threshold 6 (`demo_sparse_returns`). -/
example (junk : List (PVal ℝ) → PVal ℝ) (x : Fin 2 → ℝ) :
    ∃ ys, forwardLaplacian Demo.reg junk 6 1 Demo.sinProg [] .absent (plainArgs [2] x) = .ok ys ∧
      ∀ v ∈ ys, ∀ tr, v.2 = .lapl tr → InBounds 2 tr.jac := by
  obtain ⟨ys, h⟩ := demo_sparse_returns junk x
  refine ⟨ys, h, C46_bounds_partial Demo.reg junk 6 (n := 2) (by decide) [2] rfl 1 Demo.sinProg [] .absent (fun _ => 1) x
    (weights_absent [2] rfl) ?_ ys h⟩
  unfold ProgramOk
  rw [Demo.unflat_arg]
  intro s hs
  obtain rfl := Except.ok.inj hs
  exact Demo.domRun_step _ _ rfl (fun v _ => Demo.sin_good true 2 v) (Demo.sin_bind x) _ rfl trivial

end Folx

import Verif.Prog.ReturnBuiltIn
import Verif.Props.ComposeProps

/-!
# C52: `forward_laplacian` returns

With sparse Jacobians some rules raise although the function itself can be evaluated.  Here: the situations in which that can
happen, and that nothing else raises.
-/

namespace Folx

open Filter Topology Vmap Layout Dot
open Folx.Interp

attribute [local instance] instInhabitedScalar

section
variable {F : Type} [RCLike F]

/-- In the forward-Laplacian run of the program on `x` every call is `good`. -/
def RunWith (good : ℕ → (p : Prim F) → ((i : Fin p.nIn) → Opd F (p.size i)) → Prop) (reg : String → Option (Prim F))
    (junk : List (PVal F) → PVal F) (t : ℚ) {n : ℕ} (d : ℕ) (j : Jaxpr (Op d F) (PArr F)) (consts : List (PArr F))
    (weights : Weights F) (sizes : List ℕ) (x : Fin n → ℝ) : Prop :=
  ∀ args, initState (decide (0 < threshold t n)) weights (plainArgs sizes x) = .ok args →
    DomProg (evLapl reg junk (threshold t n).toNat d) (DomR reg junk (threshold t n).toNat (good (threshold t n).toNat) d)
      (j.map PVal.ofPlain) (consts.map PVal.ofPlain) args

/-- The initial state: every element depends on an input. -/
theorem initSpec_full {n : ℕ} (s : Bool) (w x : Fin n → ℝ) : ∀ (sizes : List ℕ) (off : ℕ), (∀ m ∈ sizes, 0 < m) →
    ∀ v ∈ (initSpec s w x off sizes : List (PVal F)), v.2.Full
  | [], _, _, v, hv => by simp [initSpec] at hv
  | m :: ms, off, hm, v, hv => by
    rcases List.mem_cons.mp hv with rfl | hv
    · intro t ht
      refine ⟨hm m (by simp), ?_⟩
      obtain rfl := Opd.lapl.inj ht
      cases s with
      | true =>
        intro p
        refine ⟨_, List.mem_singleton.mpr rfl, ?_⟩
        show ((off + p.val : ℕ) : ℤ) ≠ -1
        omega
      | false => trivial
    · exact initSpec_full s w x ms (off + m) (fun k hk => hm k (by simp [hk])) v hv

theorem initSpec_val {n : ℕ} (s : Bool) (w x : Fin n → ℝ) : ∀ (sizes : List ℕ) (off : ℕ),
    (initSpec s w x off sizes : List (PVal F)).map PVal.val = blocks (coord x) off sizes
  | [], _ => rfl
  | m :: ms, off => by
    rw [initSpec, List.map_cons, initSpec_val s w x ms, blocks]
    rfl

theorem returns_aux (full : Bool) (good : ℕ → (p : Prim F) → ((i : Fin p.nIn) → Opd F (p.size i)) → Prop)
    (hgood : ∀ T p o, good T p o → p.ReturnsFor (fun _ => Opd.Kept full) T o) (reg : String → Option (Prim F))
    (junk : List (PVal F) → PVal F) (t : ℚ) {n : ℕ}
    (hn : 0 < n) (sizes : List ℕ) (hs : sizes.sum = n) (hp : ∀ m ∈ sizes, 0 < m) (d : ℕ)
    (j : Jaxpr (Op d F) (PArr F)) (consts : List (PArr F)) (weights : Weights F) (w x : Fin n → ℝ)
    (hw : weightArrs weights sizes = .ok (unflat sizes w)) (hns : ∀ e ∈ j.eqns, NoScan reg d e.op)
    (hbound : ∀ v, Atom.var v ∈ j.outvars → (readsOf j.eqns j.outvars).count v ≤ 2147483647)
    (hd : RunWith good reg junk t d j consts weights sizes x)
    (zs : List (PArr F)) (he : evalPlain d j consts (unflat sizes x) = .ok zs) :
    ∃ ys, forwardLaplacian reg junk t d j consts weights (plainArgs sizes x) = .ok ys ∧ ys.map PVal.val = zs ∧
      ∀ v ∈ ys, v.2.Kept full := by
  have hne : sizes ≠ [] := by
    rintro rfl
    simp at hs
    omega
  unfold RunWith plainArgs at hd
  unfold forwardLaplacian
  rw [sizes_plainArgs, hs]
  dsimp only
  unfold plainArgs
  rw [initState_eq _ weights sizes hne hs w x hw] at hd ⊢
  dsimp only
  refine evalLapl_returns (fun _ => Opd.Kept full) (fun _ a => Opd.kept_plain a) reg junk _ _ (hgood _) d j hns hbound consts _
    (fun v hv => ?_) (hd _ rfl) zs ?_
  · have := initSpec_full _ w x sizes 0 hp v hv
    exact ⟨this.ready, fun _ => this⟩
  · rw [initSpec_val]
    exact he

/-- **C52.** For every program without `scan`, every input (no empty arrays), every sparsity threshold and weights: if the
function itself can be evaluated and every call in the run avoids the situations in which a rule raises (`SafeCall`), then
`forward_laplacian` returns, and its values are those of the function. -/
theorem C52_returns (reg : String → Option (Prim F)) (junk : List (PVal F) → PVal F) (t : ℚ) {n : ℕ}
    (hn : 0 < n) (sizes : List ℕ) (hs : sizes.sum = n) (hp : ∀ m ∈ sizes, 0 < m) (d : ℕ)
    (j : Jaxpr (Op d F) (PArr F)) (consts : List (PArr F)) (weights : Weights F) (w x : Fin n → ℝ)
    (hw : weightArrs weights sizes = .ok (unflat sizes w)) (hns : ∀ e ∈ j.eqns, NoScan reg d e.op)
    (hbound : ∀ v, Atom.var v ∈ j.outvars → (readsOf j.eqns j.outvars).count v ≤ 2147483647)
    (hd : RunWith (fun T => SafeCall T false) reg junk t d j consts weights sizes x)
    (zs : List (PArr F)) (he : evalPlain d j consts (unflat sizes x) = .ok zs) :
    ∃ ys, forwardLaplacian reg junk t d j consts weights (plainArgs sizes x) = .ok ys ∧ ys.map PVal.val = zs := by
  obtain ⟨ys, h1, h2, -⟩ := returns_aux false _ (fun T p o h => SafeCall.returns h) reg junk t hn sizes hs hp d j consts weights w x hw
    hns hbound hd zs he
  exact ⟨ys, h1, h2⟩

end

/-- A call of a registered function with the conditions `Tame`, or one known not to raise. -/
def TameCall (T : ℕ) (p : Prim ℝ) (o : (i : Fin p.nIn) → Opd ℝ (p.size i)) : Prop :=
  (∃ name dom index sp, BuiltIn name p dom index sp ∧ Tame name dom index o) ∨ SafeCall T true p o

theorem TameCall.returns {T : ℕ} {p : Prim ℝ} {o : (i : Fin p.nIn) → Opd ℝ (p.size i)} (h : TameCall T p o) :
    p.ReturnsFor (fun _ => Opd.Kept true) T o := by
  rcases h with ⟨_, _, _, _, hb, ht⟩ | h
  · intro hQ hex
    exact (hb.safe T o ht (fun i => (hQ i).2 rfl) hex).returns hQ hex
  · exact h.returns

/-- **C52 for registered functions.** As above, for calls of registered functions; the conditions (`Tame`) only speak of which
operands depend on the input and which have sparse Jacobians. -/
theorem C52_registered (reg : String → Option (Prim ℝ)) (junk : List (PVal ℝ) → PVal ℝ) (t : ℚ) {n : ℕ}
    (hn : 0 < n) (sizes : List ℕ) (hs : sizes.sum = n) (hp : ∀ m ∈ sizes, 0 < m) (d : ℕ)
    (j : Jaxpr (Op d ℝ) (PArr ℝ)) (consts : List (PArr ℝ)) (weights : Weights ℝ) (w x : Fin n → ℝ)
    (hw : weightArrs weights sizes = .ok (unflat sizes w)) (hns : ∀ e ∈ j.eqns, NoScan reg d e.op)
    (hbound : ∀ v, Atom.var v ∈ j.outvars → (readsOf j.eqns j.outvars).count v ≤ 2147483647)
    (hd : RunWith TameCall reg junk t d j consts weights sizes x)
    (zs : List (PArr ℝ)) (he : evalPlain d j consts (unflat sizes x) = .ok zs) :
    ∃ ys, forwardLaplacian reg junk t d j consts weights (plainArgs sizes x) = .ok ys ∧ ys.map PVal.val = zs := by
  obtain ⟨ys, h1, h2, -⟩ := returns_aux true _ (fun T p o h => TameCall.returns h) reg junk t hn sizes hs hp d j consts weights w x hw
    hns hbound hd zs he
  exact ⟨ys, h1, h2⟩

/-- **C52 with C51.** Under the conditions of both, `forward_laplacian` returns value, Jacobian and Laplacian. -/
theorem C52_exact (reg : String → Option (Prim ℝ)) (junk : List (PVal ℝ) → PVal ℝ) (t : ℚ) {n : ℕ}
    (hn : 0 < n) (sizes : List ℕ) (hs : sizes.sum = n) (hp : ∀ m ∈ sizes, 0 < m) (d : ℕ)
    (j : Jaxpr (Op d ℝ) (PArr ℝ)) (consts : List (PArr ℝ)) (weights : Weights ℝ) (w x : Fin n → ℝ)
    (hw : weightArrs weights sizes = .ok (unflat sizes w)) (hns : ∀ e ∈ j.eqns, NoScan reg d e.op)
    (hbound : ∀ v, Atom.var v ∈ j.outvars → (readsOf j.eqns j.outvars).count v ≤ 2147483647)
    (hd : RunWith TameCall reg junk t d j consts weights sizes x) (hr : RegisteredRun reg junk t d j consts weights sizes x)
    (zs : List (PArr ℝ)) (he : evalPlain d j consts (unflat sizes x) = .ok zs) :
    ∃ ys f, forwardLaplacian reg junk t d j consts weights (plainArgs sizes x) = .ok ys ∧
      (∀ z : Fin n → ℝ, evalPlain d j consts (unflat sizes z) = .ok (f.map fun g => g.at z)) ∧
      List.Forall₂ (ExactVal w x) ys f := by
  obtain ⟨ys, h1, -⟩ := C52_registered reg junk t hn sizes hs hp d j consts weights w x hw hns hbound hd zs he
  obtain ⟨f, h2, h3⟩ := C51_sparse reg junk t hn sizes hs d j consts weights w x hw hr ys h1
  exact ⟨ys, f, h1, h2, h3⟩

/-! ### An example -/

namespace Demo

/-- If all equations are `good` for whatever is stored in their operands, the conditions hold along every run. -/
theorem domRun_get {O V : Type} (ev : O → List V → Except Err (List V)) (dom : O → List V → Prop) :
    ∀ (es : List (Eqn O V)) (s : SEnv V), (∀ e ∈ es, ∀ (s : SEnv V) xs, s.getMany e.invars = .ok xs → dom e.op xs) → DomRun ev dom s es
  | [], _, _ => trivial
  | e :: es, s, h => fun xs hx => ⟨h e (by simp) s xs hx, fun s' _ => domRun_get ev dom es s' fun e' he => h e' (by simp [he])⟩

/-- The entry `mul` of the table. -/
noncomputable def mulE : ElemEntry := ⟨"mul", 2, fun z => z 0 * z 1, Flags.MULTIPLICATION, false, fun _ => True⟩
/-- Product of two `2 × 2` arrays. -/
noncomputable def mul4P : Prim ℝ :=
  (mulE.std (fun _ => 4) 4 (fun _ q => q) (fun _ => none) (mulE.custom fun _ q => q)).toWPrim.toPrim

/-- `lambda x: (jnp.tanh(y @ W) * y).sum()` where `y = x.reshape(2, 2)`. -/
noncomputable def net (W : Fin 4 → ℝ) : Jaxpr (Op 1 ℝ) (PArr ℝ) where
  constvars := []
  invars := [0]
  eqns := [
    ⟨OpStep.prim reshapeP, [.var 0], [1]⟩,
    ⟨OpStep.prim matmulP, [.var 1, .lit ⟨4, W⟩], [2]⟩,
    ⟨OpStep.prim tanhP, [.var 2], [3]⟩,
    ⟨OpStep.prim mul4P, [.var 3, .var 1], [4]⟩,
    ⟨OpStep.prim totalP, [.var 4], [5]⟩]
  outvars := [.var 5]

theorem net_tame (W : Fin 4 → ℝ) (junk : List (PVal ℝ) → PVal ℝ) (t : ℚ) (weights : Weights ℝ) (x : Fin 4 → ℝ) :
    RunWith TameCall reg junk t 1 (net W) [] weights [4] x := by
  intro args _ s _
  refine domRun_get _ _ _ _ fun e he s xs hxs => ?_
  obtain ⟨e0, he0, rfl⟩ := List.mem_map.mp he
  simp only [net, List.mem_cons, List.not_mem_nil, or_false] at he0
  have one : ∀ {size : Fin 1 → ℕ} (o : (i : Fin 1) → Opd ℝ (size i)), OneSparse o := fun o i j _ _ => Subsingleton.elim i j
  rcases he0 with rfl | rfl | rfl | rfl | rfl
  · rintro ⟨v, hv, hl⟩ o ho
    refine Or.inl ⟨_, _, _, _, .reshape [4] [2, 2] _ (by decide) true true, by decide, fun _ => ?_, fun i h => absurd h (by simp),
      fun h => absurd h (by decide), fun _ => Or.inl (one o), fun _ _ i _ => ?_, fun h => absurd h (by decide)⟩
    · show 0 < 4; decide
    · rw [(unpack_eq _ _ _).mp ho, List.mem_ofFn] at hv
      obtain ⟨k, rfl⟩ := hv
      obtain rfl : i = k := Subsingleton.elim (α := Fin 1) i k
      exact hl
  · rintro - o ho
    refine Or.inl ⟨_, _, _, _, .dotGeneral ⟨[1], [0], [], []⟩ [2, 2] [2, 2] (by constructor <;> decide) (by decide) (by decide),
      by decide, fun _ => ?_, fun i h => absurd h (by simp), fun _ => ?_,
      fun h => absurd h (by decide), fun h => absurd h (by decide), fun h => absurd h (by decide)⟩
    · show 0 < 4; decide
    · have h1 : (o (1 : Fin 2)).isWeak = false := by
        have ho := (unpack_eq _ _ _).mp ho
        have h2 : ∃ a, xs = [a, ⟨4, .plain W⟩] := by
          have hxs : s.getMany [.var 1, .lit ⟨4, .plain W⟩] = .ok xs := hxs
          simp only [SEnv.getMany] at hxs
          cases h3 : s.get (Atom.var 1) with
          | error e => rw [h3] at hxs; simp at hxs
          | ok a =>
            rw [h3] at hxs
            exact ⟨a, (Except.ok.inj hxs).symm⟩
        obtain ⟨a, rfl⟩ := h2
        have h3 : [a, (⟨4, .plain W⟩ : PVal ℝ)] = [⟨_, o (0 : Fin 2)⟩, ⟨_, o (1 : Fin 2)⟩] := ho
        have h4 : (⟨4, .plain W⟩ : PVal ℝ) = ⟨4, o (1 : Fin 2)⟩ := by
          have := (List.cons.inj h3).2
          exact (List.cons.inj this).1
        rw [← eq_of_heq (Sigma.mk.inj h4).2]
        rfl
      have h0 : ∀ i : Fin 2, (o i).isWeak = true → i = 0 := fun i hi => match i with
        | 0 => rfl
        | 1 => absurd (h1.symm.trans hi) (by simp)
      exact fun i j hi hj => (h0 i hi).trans (h0 j hj).symm
  · rintro - o ho
    exact Or.inl ⟨_, _, _, _, .elem 0 tanhE (by simp [elemTable, tanhE]) (fun _ => 4) 4 (fun _ q => q) (fun _ => none) (by simp),
      by decide, fun _ => (by decide : 0 < 4), fun i h => absurd h (by simp), fun h => absurd h (by decide),
      fun h => absurd h (by decide), fun h => absurd h (by decide), fun h => absurd h (by decide)⟩
  · rintro - o ho
    exact Or.inl ⟨_, _, _, _, .elem 0 mulE (by simp [elemTable, mulE]) (fun _ => 4) 4 (fun _ q => q) (fun _ => none) (by simp),
      by decide, fun _ => (by decide : 0 < 4), fun i h => absurd h (by simp), fun h => absurd h (by decide),
      fun h => absurd h (by decide), fun h => absurd h (by decide), fun h => absurd h (by decide)⟩
  · rintro - o ho
    exact Or.inl ⟨_, _, _, _, .reduceSum [2, 2] [0, 1] _ _,
      by decide, fun _ => (by decide : 0 < 1), fun i h => absurd h (by simp), fun h => absurd h (by decide),
      fun h => absurd h (by decide), fun h => absurd h (by decide), fun h => absurd h (by decide)⟩

theorem net_run (W : Fin 4 → ℝ) (junk : List (PVal ℝ) → PVal ℝ) (t : ℚ) (weights : Weights ℝ) (x : Fin 4 → ℝ) :
    RegisteredRun reg junk t 1 (net W) [] weights [4] x := by
  intro args _ s _
  refine domRun_all _ _ _ _ fun e he xs => ?_
  obtain ⟨e0, he0, rfl⟩ := List.mem_map.mp he
  simp only [net, List.mem_cons, List.not_mem_nil, or_false] at he0
  rcases he0 with rfl | rfl | rfl | rfl | rfl
  · exact fun _ o _ => ⟨_, _, _, _, .reshape [4] [2, 2] _ (by decide) true true, rfl, trivial, fun i h => absurd h (by simp)⟩
  · exact fun _ o _ => ⟨_, _, _, _, .dotGeneral ⟨[1], [0], [], []⟩ [2, 2] [2, 2] (by constructor <;> decide) (by decide) (by decide),
      fun _ h => absurd h (by decide), trivial, fun i h => absurd h (by simp)⟩
  · exact fun _ o _ => ⟨_, _, _, _, .elem 0 tanhE (by simp [elemTable, tanhE]) (fun _ => 4) 4 (fun _ q => q) (fun _ => none) (by simp),
      fun _ _ => Function.surjective_id, fun _ => trivial, fun i h => absurd h (by simp)⟩
  · exact fun _ o _ => ⟨_, _, _, _, .elem 0 mulE (by simp [elemTable, mulE]) (fun _ => 4) 4 (fun _ q => q) (fun _ => none) (by simp),
      fun _ _ => Function.surjective_id, fun _ => trivial, fun i h => absurd h (by simp)⟩
  · exact fun _ o _ => ⟨_, _, _, _, .reduceSum [2, 2] [0, 1] _ _, trivial, trivial, fun i h => absurd h (by simp)⟩

/-- Whatever the threshold, the weights and the point, `forward_laplacian` returns and is exact for this program. -/
theorem net_exact (W : Fin 4 → ℝ) (junk : List (PVal ℝ) → PVal ℝ) (t : ℚ) (w x : Fin 4 → ℝ) (weights : Weights ℝ)
    (hw : weightArrs weights [4] = .ok (unflat [4] w)) :
    ∃ ys f, forwardLaplacian reg junk t 1 (net W) [] weights (plainArgs [4] x) = .ok ys ∧
      (∀ z : Fin 4 → ℝ, evalPlain 1 (net W) [] (unflat [4] z) = .ok (f.map fun g => g.at z)) ∧
      List.Forall₂ (ExactVal w x) ys f :=
  C52_exact reg junk t (n := 4) (by decide) [4] rfl (by simp) 1 (net W) [] weights w x hw
    (by
      intro e he
      simp only [net, List.mem_cons, List.not_mem_nil, or_false] at he
      rcases he with rfl | rfl | rfl | rfl | rfl <;> trivial)
    (by intro v hv; simp [net] at hv ⊢; subst hv; exact (by decide : 1 ≤ 2147483647)) (net_tame W junk t weights x) (net_run W junk t weights x) _ rfl

end Demo

end Folx

import Verif.ND.RedArr
import Verif.ND.CallReturns
import Verif.ND.CallRaises
import Verif.Props.ArrProgProps

/-!
# C69: reductions and cumulative sums of arrays

`jnp.max`, `jnp.min`, `jnp.prod` along axes and `jax.lax.cumsum`, as registered, on arrays of every shape.  They are functions of array programs (C59).
-/

namespace Folx
open Filter Topology
open Folx.Interp Folx.Layout Folx.Vmap Folx.Dot

section
variable {F : Type} [RCLike F] [Inhabited F]

/-- **C69 (products).**  Everywhere. -/
theorem C69_prod (sp : Bool) (n : ℕ) (fil : Bool) {s dims : List ℕ} (h0 : 0 ∉ s) (hd : dims.Nodup) (hr : ∀ d ∈ dims, d < s.length) (x : (i : Fin 1) → Fin s.prod → F) :
    ArrGood sp n ((prodArr (F := F) fil s dims).prim fun _ => none) x :=
  .array _ _ _ _ x (prodArr_truthful h0 hd hr) fun _ => redArr_safe (by decide) (by decide) (by decide)

/-- **C69 (products, meaning).**  The element at `q` is the product of the elements that share its coordinates. -/
theorem C69_prod_value (fil : Bool) {s dims : List ℕ} (x : Fin s.prod → F) {q : List ℕ} (hq : InB q (dropDims s dims)) :
    (toND (dropDims s dims) ((prodArr fil s dims).fwd fun _ => x)).get q = (((allIdx s).filter fun p => keptOf dims p = q).map (toND s x).get).prod := by
  rw [toND_get _ _ hq]
  show (List.map (byCoord s x) (groupOf s dims (unravelIdx (dropDims s dims) (ravelIdx (dropDims s dims) q)))).prod = _
  rw [unravelIdx_ravelIdx hq]
  exact congrArg List.prod (List.map_congr_left fun p hp => byCoord_get (mem_groupOf.mp hp).1 x)

/-- **C69 (cumulative sums).**  Everywhere. -/
theorem C69_cumsum (sp : Bool) (n : ℕ) (fil : Bool) {s : List ℕ} (axis : ℕ) (reverse : Bool) (h0 : 0 ∉ s) (x : (i : Fin 1) → Fin s.prod → F) :
    ArrGood sp n ((cumsumArr (F := F) fil s axis reverse).prim fun _ => none) x :=
  .array _ _ _ _ x (cumsumArr_truthful h0) fun _ => cumsumArr_safe

/-- **C69 (cumulative sums, meaning).**  The element at `q` is the sum of the elements at `p` that differ from `q` at most along the axis, where they come before `q` (with `reverse`: after). -/
theorem C69_cumsum_value (fil : Bool) {s : List ℕ} (axis : ℕ) (reverse : Bool) (x : Fin s.prod → F) {q : List ℕ} (hq : InB q s) :
    (toND s ((cumsumArr fil s axis reverse).fwd fun _ => x)).get q =
      (((allIdx s).filter fun p => keptOf [axis] p = keptOf [axis] q ∧ if reverse then q.getD axis 0 ≤ p.getD axis 0 else p.getD axis 0 ≤ q.getD axis 0).map (toND s x).get).sum := by
  rw [toND_get _ _ hq]
  show cumOver s axis reverse (byCoord s x) (unravelIdx s (ravelIdx s q)) + 0 = _
  rw [unravelIdx_ravelIdx hq, add_zero]
  unfold cumOver
  exact congrArg List.sum (List.map_congr_left fun p hp => byCoord_get (mem_allIdx.mp (List.mem_filter.mp hp).1) x)

end

section
variable {s dims : List ℕ}

/-- Every maximum is attained by one element only (`r = (· < ·)`; minimum: `r = (· > ·)`). -/
def AttainedOnce (r : ℝ → ℝ → Prop) (s dims : List ℕ) (x : Fin s.prod → ℝ) : Prop :=
  ∀ q, InB q (dropDims s dims) → ∃ p, InB p s ∧ keptOf dims p = q ∧ ∀ p', InB p' s → keptOf dims p' = q → p' ≠ p → r ((toND s x).get p') ((toND s x).get p)

theorem AttainedOnce.group {r : ℝ → ℝ → Prop} {x : Fin s.prod → ℝ} (h : AttainedOnce r s dims x) (w : Fin (dropDims s dims).prod) :
    ∃ p ∈ groupOf s dims (unravelIdx (dropDims s dims) w), ∀ p' ∈ groupOf s dims (unravelIdx (dropDims s dims) w), p' ≠ p → r (byCoord s x p') (byCoord s x p) := by
  obtain ⟨p, h1, h2, h3⟩ := h _ (inB_unravelIdx w.2)
  refine ⟨p, mem_groupOf.mpr ⟨h1, h2⟩, fun p' hp' hne => ?_⟩
  obtain ⟨h4, h5⟩ := mem_groupOf.mp hp'
  rw [byCoord_get h4, byCoord_get h1]
  exact h3 p' h4 h5 hne

/-- **C69 (maxima).**  Where every maximum is attained once. -/
theorem C69_max (sp : Bool) (n : ℕ) (fil : Bool) (h0 : 0 ∉ s) (hd : dims.Nodup) (hr : ∀ d ∈ dims, d < s.length) (x : (i : Fin 1) → Fin s.prod → ℝ)
    (hx : AttainedOnce (· < ·) s dims (x 0)) : ArrGood sp n ((maxArr fil s dims).prim fun _ => none) x :=
  .array _ _ _ _ x (pick_truthful h0 hd hr fun w => by
    obtain ⟨p, h1, h2⟩ := hx.group w
    exact ⟨p, max_near h1 h2⟩) fun _ => redArr_safe (by decide) (by decide) (by decide)

/-- **C69 (minima).**  Where every minimum is attained once. -/
theorem C69_min (sp : Bool) (n : ℕ) (fil : Bool) (h0 : 0 ∉ s) (hd : dims.Nodup) (hr : ∀ d ∈ dims, d < s.length) (x : (i : Fin 1) → Fin s.prod → ℝ)
    (hx : AttainedOnce (· > ·) s dims (x 0)) : ArrGood sp n ((minArr fil s dims).prim fun _ => none) x :=
  .array _ _ _ _ x (pick_truthful h0 hd hr fun w => by
    obtain ⟨p, h1, h2⟩ := hx.group w
    exact ⟨p, min_near h1 h2⟩) fun _ => redArr_safe (by decide) (by decide) (by decide)

theorem groupFn_get {φ : List ℝ → ℝ} (x : Fin s.prod → ℝ) {q : List ℕ} (hq : InB q (dropDims s dims)) :
    (toND (dropDims s dims) (groupFn s dims φ x)).get q = φ ((groupOf s dims q).map (toND s x).get) := by
  rw [toND_get _ _ hq]
  show φ (List.map (byCoord s x) (groupOf s dims (unravelIdx (dropDims s dims) (ravelIdx (dropDims s dims) q)))) = _
  rw [unravelIdx_ravelIdx hq]
  exact congrArg φ (List.map_congr_left fun p hp => byCoord_get (mem_groupOf.mp hp).1 x)

/-- **C69 (maxima, meaning).**  If there are elements to reduce, the element at `q` is the largest of the elements that share its coordinates, and one of them. -/
theorem C69_max_value (fil : Bool) (x : Fin s.prod → ℝ) {q : List ℕ} (hq : InB q (dropDims s dims)) (hne : ∃ p, InB p s ∧ keptOf dims p = q) :
    (∀ p, InB p s → keptOf dims p = q → (toND s x).get p ≤ (toND (dropDims s dims) ((maxArr fil s dims).fwd fun _ => x)).get q) ∧
    ∃ p, InB p s ∧ keptOf dims p = q ∧ (toND (dropDims s dims) ((maxArr fil s dims).fwd fun _ => x)).get q = (toND s x).get p := by
  have e : (toND (dropDims s dims) ((maxArr fil s dims).fwd fun _ => x)).get q = listMax ((groupOf s dims q).map (toND s x).get) := groupFn_get (φ := listMax) x hq
  obtain ⟨p, hp1, hp2⟩ := hne
  have hl : (groupOf s dims q).map (toND s x).get ≠ [] := List.ne_nil_of_mem (List.mem_map_of_mem (mem_groupOf.mpr ⟨hp1, hp2⟩))
  obtain ⟨a, ha⟩ := WithBot.ne_bot_iff_exists.mp (mt List.maximum_eq_bot.mp hl)
  obtain ⟨h1, h2⟩ := List.maximum_eq_coe_iff.mp ha.symm
  rw [e, listMax_eq h1 h2]
  refine ⟨fun p h3 h4 => h2 _ (List.mem_map_of_mem (mem_groupOf.mpr ⟨h3, h4⟩)), ?_⟩
  obtain ⟨p, hp, he⟩ := List.mem_map.mp h1
  exact ⟨p, (mem_groupOf.mp hp).1, (mem_groupOf.mp hp).2, he.symm⟩

/-- **C69 (minima, meaning).** -/
theorem C69_min_value (fil : Bool) (x : Fin s.prod → ℝ) {q : List ℕ} (hq : InB q (dropDims s dims)) (hne : ∃ p, InB p s ∧ keptOf dims p = q) :
    (∀ p, InB p s → keptOf dims p = q → (toND (dropDims s dims) ((minArr fil s dims).fwd fun _ => x)).get q ≤ (toND s x).get p) ∧
    ∃ p, InB p s ∧ keptOf dims p = q ∧ (toND (dropDims s dims) ((minArr fil s dims).fwd fun _ => x)).get q = (toND s x).get p := by
  have e : (toND (dropDims s dims) ((minArr fil s dims).fwd fun _ => x)).get q = listMin ((groupOf s dims q).map (toND s x).get) := groupFn_get (φ := listMin) x hq
  obtain ⟨p, hp1, hp2⟩ := hne
  have hl : (groupOf s dims q).map (toND s x).get ≠ [] := List.ne_nil_of_mem (List.mem_map_of_mem (mem_groupOf.mpr ⟨hp1, hp2⟩))
  obtain ⟨a, ha⟩ := WithTop.ne_top_iff_exists.mp (mt List.minimum_eq_top.mp hl)
  obtain ⟨h1, h2⟩ := List.minimum_eq_coe_iff.mp ha.symm
  rw [e, listMin_eq h1 h2]
  refine ⟨fun p h3 h4 => h2 _ (List.mem_map_of_mem (mem_groupOf.mpr ⟨h3, h4⟩)), ?_⟩
  obtain ⟨p, hp, he⟩ := List.mem_map.mp h1
  exact ⟨p, (mem_groupOf.mp hp).1, (mem_groupOf.mp hp).2, he.symm⟩

end

/-! ### When the calls raise

`Dead J`: the Jacobian is sparse and all its indices are −1 (the array does not depend on the input).  `arrInv` holds of every Jacobian of a run (`C59`). -/

section
variable {X : Type} [NormedAddCommGroup X] [NormedSpace ℝ X]

/-- **C69 (products raise).**  A call with a sparse or dense Jacobian raises exactly if the array is known not to depend on the input. -/
theorem C69_prod_raises {F : Type} [RCLike F] [Inhabited F] {B : Base X} (hn : 0 < B.n) (T : ℕ) (fil : Bool) {s dims : List ℕ} (h0 : 0 ∉ s) (hd : dims.Nodup) (hr : ∀ d ∈ dims, d < s.length)
    (hne : dims ≠ []) {t : Trip (Fin s.prod) F} {u : X → Fin s.prod → F} (ht : TripRep B t u) (hi : arrInv T B.n _ t.jac) :
    (∃ e : Err, ((prodArr (F := F) fil s dims).prim fun _ => none).rule T (fun _ : Fin 1 => Opd.lapl t) = Except.error e) ↔ Dead t.jac :=
  rule_raises_iff hn (prodArr_truthful h0 hd hr) (redArr_safe (by decide) (by decide) (by decide)) (by show Flags.REDUCTION.has _ = false; decide) (by show Flags.REDUCTION.has _ = false; decide)
    (Or.inr ⟨0, (otherShape_range s).symm⟩) (redArr_reduced (by decide) hne) ht hi

/-- **C69 (cumulative sums raise).**  For arrays with at least one axis. -/
theorem C69_cumsum_raises {F : Type} [RCLike F] [Inhabited F] {B : Base X} (hn : 0 < B.n) (T : ℕ) (fil : Bool) {s : List ℕ} (axis : ℕ) (reverse : Bool) (h0 : 0 ∉ s) (hne : s ≠ [])
    {t : Trip (Fin s.prod) F} {u : X → Fin s.prod → F} (ht : TripRep B t u) (hi : arrInv T B.n _ t.jac) :
    (∃ e : Err, ((cumsumArr (F := F) fil s axis reverse).prim fun _ => none).rule T (fun _ : Fin 1 => Opd.lapl t) = Except.error e) ↔ Dead t.jac :=
  rule_raises_iff (dims := List.range s.length) hn (cumsumArr_truthful h0) cumsumArr_safe (by show Flags.LINEAR.has _ = false; decide) (by show Flags.LINEAR.has _ = false; decide)
    (Or.inl (by show Flags.LINEAR.has _ = true; decide)) (if_neg hne) ht hi

variable {s dims : List ℕ}

/-- **C69 (maxima raise).** -/
theorem C69_max_raises {B : Base X} (hn : 0 < B.n) (T : ℕ) (fil : Bool) (h0 : 0 ∉ s) (hd : dims.Nodup) (hr : ∀ d ∈ dims, d < s.length) (hne : dims ≠ [])
    {t : Trip (Fin s.prod) ℝ} {u : X → Fin s.prod → ℝ} (ht : TripRep B t u) (hi : arrInv T B.n _ t.jac) (hx : AttainedOnce (· < ·) s dims (u B.x0)) :
    (∃ e : Err, ((maxArr fil s dims).prim fun _ => none).rule T (fun _ : Fin 1 => Opd.lapl t) = Except.error e) ↔ Dead t.jac :=
  rule_raises_iff hn (pick_truthful h0 hd hr fun w => by
    obtain ⟨p, h1, h2⟩ := hx.group w
    exact ⟨p, max_near h1 h2⟩) (redArr_safe (by decide) (by decide) (by decide)) (by show (Flags.REDUCTION ||| Flags.LINEAR).has _ = false; decide)
    (by show (Flags.REDUCTION ||| Flags.LINEAR).has _ = false; decide) (Or.inr ⟨0, (otherShape_range s).symm⟩) (redArr_reduced (by decide) hne) ht hi

/-- **C69 (minima raise).** -/
theorem C69_min_raises {B : Base X} (hn : 0 < B.n) (T : ℕ) (fil : Bool) (h0 : 0 ∉ s) (hd : dims.Nodup) (hr : ∀ d ∈ dims, d < s.length) (hne : dims ≠ [])
    {t : Trip (Fin s.prod) ℝ} {u : X → Fin s.prod → ℝ} (ht : TripRep B t u) (hi : arrInv T B.n _ t.jac) (hx : AttainedOnce (· > ·) s dims (u B.x0)) :
    (∃ e : Err, ((minArr fil s dims).prim fun _ => none).rule T (fun _ : Fin 1 => Opd.lapl t) = Except.error e) ↔ Dead t.jac :=
  rule_raises_iff hn (pick_truthful h0 hd hr fun w => by
    obtain ⟨p, h1, h2⟩ := hx.group w
    exact ⟨p, min_near h1 h2⟩) (redArr_safe (by decide) (by decide) (by decide)) (by show (Flags.REDUCTION ||| Flags.LINEAR).has _ = false; decide)
    (by show (Flags.REDUCTION ||| Flags.LINEAR).has _ = false; decide) (Or.inr ⟨0, (otherShape_range s).symm⟩) (redArr_reduced (by decide) hne) ht hi

end

/-! ### A program: `jnp.max(jnp.exp(x), axis=1)` of a (2, 3) array -/

namespace RedDemo
open ArrDemo

noncomputable def prodP : Prim ℝ := (prodArr (F := ℝ) true [2, 3] [1]).prim fun _ => none
noncomputable def maxP : Prim ℝ := (maxArr true [2, 3] [1]).prim fun _ => none

/-- Products and maxima of rows; the positions of a row. -/
theorem rows (q : Fin 2) : groupOf [2, 3] [1] (unravelIdx [2] q) = [[q.val, 0], [q.val, 1], [q.val, 2]] := by
  revert q
  decide +kernel

theorem prod_bind (a : Fin 6 → ℝ) : prodP.bind [⟨6, a⟩] = .ok [⟨2, fun q => a ⟨3 * q, by omega⟩ * (a ⟨3 * q + 1, by omega⟩ * a ⟨3 * q + 2, by omega⟩)⟩] := by
  have h : (prodArr (F := ℝ) true [2, 3] [1]).fwd (fun _ => a) = fun q : Fin 2 => a ⟨3 * q, by omega⟩ * (a ⟨3 * q + 1, by omega⟩ * a ⟨3 * q + 2, by omega⟩) := by
    funext q
    refine (congrArg (fun l => (List.map (byCoord [2, 3] (F := ℝ) (a : Fin ([2, 3] : List ℕ).prod → ℝ)) l).prod) (rows q)).trans ?_
    show _ * (_ * (_ * 1)) = _
    rw [mul_one]
    fin_cases q <;> rfl
  have h2 : prodP.bind [⟨6, a⟩] = .ok [⟨2, (prodArr (F := ℝ) true [2, 3] [1]).fwd (fun _ => a)⟩] := bind_of prodP _ (fun _ => a) rfl
  rw [h2]
  exact congrArg (fun r => Except.ok [(⟨2, r⟩ : PArr ℝ)]) h

noncomputable def prog : Jaxpr (Op 1 ℝ) (PArr ℝ) where
  constvars := []
  invars := [0]
  eqns := [⟨OpStep.prim expP, [.var 0], [1]⟩, ⟨OpStep.prim prodP, [.var 1], [2]⟩]
  outvars := [.var 2]

theorem prog_ok (sp : Bool) (x : Fin 6 → ℝ) : ArrayProgramOk sp Demo.reg 1 prog [] [6] x := by
  unfold ArrayProgramOk
  rw [unflat_six]
  intro s hs
  obtain rfl := Except.ok.inj hs
  refine Demo.domRun_step _ _ rfl (fun x _ => exp_good _ _ x) (exp_bind x) _ rfl ?_
  exact Demo.domRun_step _ _ rfl (fun x _ => C69_prod _ _ true (by decide) (by decide) (by decide) x) (prod_bind _) _ rfl trivial

theorem prog_eval (x : Fin 6 → ℝ) :
    evalPlain 1 prog [] (unflat [6] x) = .ok [⟨2, fun q => Real.exp (x ⟨3 * q, by omega⟩) * (Real.exp (x ⟨3 * q + 1, by omega⟩) * Real.exp (x ⟨3 * q + 2, by omega⟩))⟩] := by
  rw [unflat_six]
  have h1 : evPlain 1 (OpStep.prim expP) [⟨6, x⟩] = .ok [⟨6, fun q => Real.exp (x q)⟩] := exp_bind x
  exact eval_of (ev := evPlain 1) (j := prog) rfl (run_step _ _ rfl h1 _ rfl (run_step _ _ rfl (prod_bind fun q => Real.exp (x q)) _ rfl rfl)) rfl

/-- The second row has its largest element in the middle. -/
def point : Fin 6 → ℝ := ![1, 2, 3, 4, 9, 5]

theorem point_once : AttainedOnce (· < ·) [2, 3] [1] point := by
  intro q hq
  obtain ⟨i, rfl⟩ : ∃ i : Fin 2, q = [i.val] := by
    have : ∀ q ∈ Dot.allIdx (dropDims [2, 3] [1]), q = [0] ∨ q = [1] := by decide +kernel
    rcases this q (mem_allIdx.mpr hq) with rfl | rfl
    exacts [⟨0, rfl⟩, ⟨1, rfl⟩]
  have hm : ∀ p, InB p [2, 3] → p ∈ Dot.allIdx [2, 3] := fun p h => mem_allIdx.mpr h
  have hl : Dot.allIdx [2, 3] = [[0, 0], [0, 1], [0, 2], [1, 0], [1, 1], [1, 2]] := by decide +kernel
  fin_cases i
  · refine ⟨[0, 2], by decide, by decide, fun p' h1 h2 h3 => ?_⟩
    have h := hm p' h1
    rw [hl] at h
    simp only [List.mem_cons, List.not_mem_nil, or_false] at h
    rcases h with rfl | rfl | rfl | rfl | rfl | rfl <;> first | exact absurd rfl h3 | exact absurd h2 (by decide) | skip
    · show (1 : ℝ) < 3; norm_num
    · show (2 : ℝ) < 3; norm_num
  · refine ⟨[1, 1], by decide, by decide, fun p' h1 h2 h3 => ?_⟩
    have h := hm p' h1
    rw [hl] at h
    simp only [List.mem_cons, List.not_mem_nil, or_false] at h
    rcases h with rfl | rfl | rfl | rfl | rfl | rfl <;> first | exact absurd rfl h3 | exact absurd h2 (by decide) | skip
    · show (4 : ℝ) < 9; norm_num
    · show (5 : ℝ) < 9; norm_num

end RedDemo

open ArrDemo RedDemo in
/-- The forward Laplacian of `x ↦ prod(exp x, axis=1)` holds the derivatives of the products whenever it returns, at every point and for every threshold. -/
example (junk : List (PVal ℝ) → PVal ℝ) (t : ℚ) (x : Fin 6 → ℝ) (ys : List (PVal ℝ)) (h : forwardLaplacian Demo.reg junk t 1 RedDemo.prog [] .absent (plainArgs [6] x) = .ok ys) :
    List.Forall₂ (Correct x) ys [⟨2, fun z q => Real.exp (z ⟨3 * q, by omega⟩) * (Real.exp (z ⟨3 * q + 1, by omega⟩) * Real.exp (z ⟨3 * q + 2, by omega⟩))⟩] := by
  obtain ⟨f, f1, f2⟩ := C59_correct Demo.reg junk t (n := 6) (by decide) [6] rfl 1 RedDemo.prog [] x (RedDemo.prog_ok _ x) ys h
  have hf := fun z => (f1 z).symm.trans (RedDemo.prog_eval z)
  rw [farr_ext f [⟨2, fun z q => Real.exp (z ⟨3 * q, by omega⟩) * (Real.exp (z ⟨3 * q + 1, by omega⟩) * Real.exp (z ⟨3 * q + 2, by omega⟩))⟩] fun z => Except.ok.inj (hf z)] at f2
  exact f2

/-- Row maxima at a concrete point; the maximum of the second row is 9. -/
example (sp : Bool) (n : ℕ) : ArrGood sp n RedDemo.maxP (fun _ => RedDemo.point) := C69_max sp n true (by decide) (by decide) (by decide) _ RedDemo.point_once

example : (toND [2] ((maxArr true [2, 3] [1]).fwd fun _ => RedDemo.point)).get [1] = 9 := by
  obtain ⟨h1, p, h2, h3, h4⟩ := C69_max_value (s := [2, 3]) (dims := [1]) true RedDemo.point (q := [1]) (by decide) ⟨[1, 1], by decide, by decide⟩
  refine le_antisymm ?_ (h1 [1, 1] (by decide) (by decide))
  have hl : Dot.allIdx [2, 3] = [[0, 0], [0, 1], [0, 2], [1, 0], [1, 1], [1, 2]] := by decide +kernel
  have h := mem_allIdx.mpr h2
  rw [hl] at h
  refine h4.le.trans ?_
  simp only [List.mem_cons, List.not_mem_nil, or_false] at h
  rcases h with rfl | rfl | rfl | rfl | rfl | rfl <;> first | exact absurd h3 (by decide) | skip
  · show (4 : ℝ) ≤ 9; norm_num
  · show (9 : ℝ) ≤ 9; norm_num
  · show (5 : ℝ) ≤ 9; norm_num

/-- The minimum of negated elements is attained once as well. -/
example (sp : Bool) (n : ℕ) : ArrGood sp n ((minArr true [2, 3] [1]).prim fun _ => none) (fun _ q => - RedDemo.point q) :=
  C69_min sp n true (by decide) (by decide) (by decide) _ fun q hq => by
    obtain ⟨p, h1, h2, h3⟩ := RedDemo.point_once q hq
    refine ⟨p, h1, h2, fun p' h4 h5 h6 => ?_⟩
    have h := h3 p' h4 h5 h6
    have e : ∀ p (hp : InB p [2, 3]), (toND [2, 3] fun q : Fin ([2, 3] : List ℕ).prod => - RedDemo.point q).get p = - (toND [2, 3] RedDemo.point).get p := fun p hp => by
      erw [toND_get _ _ hp, toND_get _ _ hp]
    show (toND [2, 3] fun q : Fin ([2, 3] : List ℕ).prod => - RedDemo.point q).get p < (toND [2, 3] fun q : Fin ([2, 3] : List ℕ).prod => - RedDemo.point q).get p'
    rw [e p h1, e p' h4]
    exact neg_lt_neg h

/-- Cumulative sums along the last axis of a (2, 3) array. -/
example (x : Fin 6 → ℝ) : (toND [2, 3] ((cumsumArr (F := ℝ) true [2, 3] 1 false).fwd fun _ => x)).get [1, 1] = x 3 + x 4 := by
  rw [C69_cumsum_value true 1 false (s := [2, 3]) x (q := [1, 1]) (by decide)]
  have e : ((allIdx [2, 3]).filter fun p => keptOf [1] p = keptOf [1] [1, 1] ∧ if false then ([1, 1] : List ℕ).getD 1 0 ≤ p.getD 1 0 else p.getD 1 0 ≤ ([1, 1] : List ℕ).getD 1 0) = [[1, 0], [1, 1]] := by decide +kernel
  rw [e]
  show _ + (_ + 0) = _
  rw [add_zero]
  rfl

example (x : Fin 6 → ℝ) : (toND [2, 3] ((cumsumArr (F := ℝ) true [2, 3] 1 true).fwd fun _ => x)).get [1, 1] = x 4 + x 5 := by
  rw [C69_cumsum_value true 1 true (s := [2, 3]) x (q := [1, 1]) (by decide)]
  have e : ((allIdx [2, 3]).filter fun p => keptOf [1] p = keptOf [1] [1, 1] ∧ if true then ([1, 1] : List ℕ).getD 1 0 ≤ p.getD 1 0 else p.getD 1 0 ≤ ([1, 1] : List ℕ).getD 1 0) = [[1, 1], [1, 2]] := by decide +kernel
  rw [e]
  show _ + (_ + 0) = _
  rw [add_zero]
  rfl

/-! Calls that raise and calls that return. -/

namespace RedDemo

/-- One input. -/
def line (x : ℝ) : Base ℝ := ⟨1, x, fun _ => 1⟩

/-- A constant pair, known to be constant. -/
def deadT (c : Fin 2 → ℝ) : Trip (Fin ([2] : List ℕ).prod) ℝ := ⟨c, .sparse [⟨fun _ => -1, fun _ => 0⟩], 0⟩

theorem deadT_rep (x : ℝ) (c : Fin 2 → ℝ) : TripRep (line x) (deadT c) fun _ => c := by
  refine ⟨rfl, fun r hr p => ?_, 0, 0, HasFDeriv2At.const _ _, fun i => ?_, (Finset.sum_eq_zero fun _ _ => rfl).symm⟩
  · obtain rfl := List.mem_singleton.mp hr
    exact ⟨by show (-1 : ℤ) < _; omega, fun _ => ⟨rfl, rfl⟩⟩
  · funext p
    show ([if (-1 : ℤ) = ((i.val : ℕ) : ℤ) then (0 : ℝ) else 0].sum) = 0
    simp

/-- The input and a constant: the second element does not depend on the input. -/
def liveT (x : ℝ) (c : ℝ) : Trip (Fin ([2] : List ℕ).prod) ℝ := ⟨![x, c], .sparse [⟨![0, -1], ![1, 0]⟩], 0⟩

theorem liveT_rep (x c : ℝ) : TripRep (line x) (liveT x c) fun y => ![y, c] := by
  have h : HasFDeriv2At (fun y : ℝ => (![y, c] : Fin 2 → ℝ)) (ContinuousLinearMap.pi ![ContinuousLinearMap.id ℝ ℝ, 0]) 0 x := by
    refine ⟨fun _ => ContinuousLinearMap.pi ![ContinuousLinearMap.id ℝ ℝ, 0], Eventually.of_forall fun y => ?_, rfl, hasFDerivAt_const _ _⟩
    refine hasFDerivAt_pi.mpr fun i => ?_
    fin_cases i
    · exact hasFDerivAt_id y
    · exact hasFDerivAt_const c y
  refine ⟨rfl, fun r hr p => ?_, _, _, h, fun i => ?_, (Finset.sum_eq_zero fun _ _ => rfl).symm⟩
  · obtain rfl := List.mem_singleton.mp hr
    have hp : ∀ p : Fin 2, (![0, -1] : Fin 2 → ℤ) p < ((1 : ℕ) : ℤ) ∧ ((![0, -1] : Fin 2 → ℤ) p < 0 → (![0, -1] : Fin 2 → ℤ) p = -1 ∧ (![1, 0] : Fin 2 → ℝ) p = 0) := by
      intro p
      fin_cases p <;> simp
    exact hp p
  · funext p
    obtain rfl : i = (0 : Fin 1) := Subsingleton.elim (α := Fin 1) _ _
    show ([if (![0, -1] : Fin 2 → ℤ) p = ((0 : ℕ) : ℤ) then (![1, 0] : Fin 2 → ℝ) p else 0].sum) = _
    have hp : ∀ p : Fin 2, ([if (![0, -1] : Fin 2 → ℤ) p = ((0 : ℕ) : ℤ) then (![1, 0] : Fin 2 → ℝ) p else 0].sum) =
        (ContinuousLinearMap.pi (R := ℝ) (φ := fun _ : Fin 2 => ℝ) ![ContinuousLinearMap.id ℝ ℝ, 0]) 1 p := by
      intro p
      fin_cases p <;> simp
    exact hp p

theorem sparse_inv {m T n : ℕ} (r : Row (Fin m) ℝ) (l : List (Row (Fin m) ℝ)) : arrInv T n m (.sparse (r :: l)) := ⟨fun _ => Nat.succ_pos _, trivial⟩

theorem live_not_dead (x c : ℝ) : ¬ Dead (liveT x c).jac := by
  rintro ⟨rows, h1, h2⟩
  cases h1
  exact absurd (h2 _ (List.mem_singleton.mpr rfl) (0 : Fin 2)) (by show (0 : ℤ) ≠ -1; decide)

end RedDemo

open RedDemo in
/-- The product of a constant pair raises. -/
example (T : ℕ) (x : ℝ) (c : Fin 2 → ℝ) : ∃ e : Err, ((prodArr (F := ℝ) true [2] [0]).prim fun _ => none).rule T (fun _ : Fin 1 => Opd.lapl (deadT c)) = Except.error e :=
  (C69_prod_raises (s := [2]) (dims := [0]) Nat.one_pos T true (by decide) (by decide) (by decide) (by decide) (deadT_rep x c) (sparse_inv _ _)).mpr
    ⟨_, rfl, fun r hr w => by obtain rfl := List.mem_singleton.mp hr; rfl⟩

open RedDemo in
/-- The product of the input and a constant does not raise, and neither do cumulative sums. -/
example (T : ℕ) (x c : ℝ) : ¬ ∃ e : Err, ((prodArr (F := ℝ) true [2] [0]).prim fun _ => none).rule T (fun _ : Fin 1 => Opd.lapl (liveT x c)) = Except.error e :=
  mt (C69_prod_raises (s := [2]) (dims := [0]) Nat.one_pos T true (by decide) (by decide) (by decide) (by decide) (liveT_rep x c) (sparse_inv _ _)).mp (live_not_dead x c)

open RedDemo in
example (T : ℕ) (x c : ℝ) : ¬ ∃ e : Err, ((cumsumArr (F := ℝ) true [2] 0 true).prim fun _ => none).rule T (fun _ : Fin 1 => Opd.lapl (liveT x c)) = Except.error e :=
  mt (C69_cumsum_raises (s := [2]) Nat.one_pos T true 0 true (by decide) (by decide) (liveT_rep x c) (sparse_inv _ _)).mp (live_not_dead x c)

open RedDemo in
/-- Nor does the maximum of the input and a smaller constant. -/
example (T : ℕ) (x c : ℝ) (h : c < x) : ¬ ∃ e : Err, ((maxArr true [2] [0]).prim fun _ => none).rule T (fun _ : Fin 1 => Opd.lapl (liveT x c)) = Except.error e := by
  refine mt (C69_max_raises (s := [2]) (dims := [0]) Nat.one_pos T true (by decide) (by decide) (by decide) (by decide) (liveT_rep x c) (sparse_inv _ _) fun q hq => ?_).mp (live_not_dead x c)
  have hq' : q = [] := InB.nil_right.1 hq
  refine ⟨[0], by decide, by rw [hq']; decide, fun p' h1 _ h3 => ?_⟩
  have hl : Dot.allIdx [2] = [[0], [1]] := by decide +kernel
  have h4 := mem_allIdx.mpr h1
  rw [hl] at h4
  simp only [List.mem_cons, List.not_mem_nil, or_false] at h4
  rcases h4 with rfl | rfl
  · exact absurd rfl h3
  · exact h

end Folx

import Verif.Prog.Lib2
import Verif.Prog.Total

/-!
# A concrete program

`f(a) = (a / exp(sum(a * a)), sin(a))` for an array `a` of two elements, with the sine in a jitted sub-function.
Used to show that the hypotheses of the program-level theorems can be met.
-/

namespace Folx.Demo

open Folx Folx.Interp Filter Topology

/-- Two operands of the same size. -/
noncomputable def mulP : Prim ℝ :=
  (elemStd 2 (fun _ => 2) 2 (fun z => z 0 * z 1) Flags.MULTIPLICATION (fun _ q => q) (fun _ => some (Equiv.refl _))
    fun _ _ _ => none).toWPrim.toPrim

noncomputable def sumP : Prim ℝ :=
  (reduceSum 2 1 (by decide) (Equiv.uniqueProd (Fin 2) (Fin 1)).symm (fun q => q) none true).toWPrim.toPrim

noncomputable def expP : Prim ℝ :=
  (elemStd 1 (fun _ => 1) 1 (fun z => Real.exp (z 0)) Flags.GENERAL (fun _ q => q) (fun _ => some (Equiv.refl _))
    fun _ _ _ => none).toWPrim.toPrim

/-- Sizes of the operands of the division: the divisor is broadcast. -/
abbrev divSize : Fin 2 → ℕ := fun i => 2 - i.val

def divPos : (i : Fin 2) → Fin 2 → Fin (divSize i)
  | 0, q => q
  | 1, _ => (0 : Fin 1)

noncomputable def divP : Prim ℝ := (divStd (F := ℝ) (size := divSize) (out := 2) divPos (fun _ => none)).toWPrim.toPrim

noncomputable def sinP : Prim ℝ :=
  (elemStd 1 (fun _ => 2) 2 (fun z => Real.sin (z 0)) Flags.GENERAL (fun _ q => q) (fun _ => some (Equiv.refl _))
    fun _ _ _ => none).toWPrim.toPrim

/-- The jitted sub-function. -/
noncomputable def sinProg : Jaxpr (Op 1 ℝ) (PArr ℝ) := ⟨[], [0], [⟨OpStep.prim sinP, [.var 0], [1]⟩], [.var 1]⟩

/-- `lambda a: (a / exp((a * a).sum()), jit(sin)(a))`. -/
noncomputable def prog : Jaxpr (Op 2 ℝ) (PArr ℝ) where
  constvars := []
  invars := [0]
  eqns := [
    ⟨OpStep.prim mulP, [.var 0, .var 0], [1]⟩,
    ⟨OpStep.prim sumP, [.var 1], [2]⟩,
    ⟨OpStep.prim expP, [.var 2], [3]⟩,
    ⟨OpStep.prim divP, [.var 0, .var 3], [4]⟩,
    ⟨OpStep.pjit "wave" sinProg [], [.var 0], [5]⟩]
  outvars := [.var 4, .var 5]

/-- Nothing is registered under the name of the sub-function. -/
def reg : String → Option (Prim ℝ) := fun _ => none

theorem mul_good (sp : Bool) (n : ℕ) (x : (i : Fin 2) → Fin 2 → ℝ) : Good sp n mulP x :=
  .wrapped _ _ (elem_mul n x fun i ε h q => by injection h with h; subst h; rfl)
    fun _ => elemStd_sparseOk (le_refl 2) (fun _ _ => Function.surjective_id) (by decide)

theorem sum_good (sp : Bool) (n : ℕ) (x : (i : Fin 1) → Fin 2 → ℝ) : Good sp n sumP x :=
  .wrapped _ _ (reduceSum_true n _ _ Function.surjective_id x) fun _ => redStd_sparseOk _ _ _ _ (by decide)

theorem exp_good (sp : Bool) (n : ℕ) (x : (i : Fin 1) → Fin 1 → ℝ) : Good sp n expP x :=
  .wrapped _ _ (elem_general n x (fun i ε h q => by injection h with h; subst h; rfl) fun q => (cd0 0 _).exp)
    fun _ => elemStd_sparseOk (by decide) (fun _ _ => Function.surjective_id) (by decide)

theorem sin_good (sp : Bool) (n : ℕ) (x : (i : Fin 1) → Fin 2 → ℝ) : Good sp n sinP x :=
  .wrapped _ _ (elem_general n x (fun i ε h q => by injection h with h; subst h; rfl) fun q => (cd0 0 _).sin)
    fun _ => elemStd_sparseOk (by decide) (fun _ _ => Function.surjective_id) (by decide)

theorem divPos_surj : ∀ i, Function.Surjective (divPos i) := by
  intro i
  rcases (show i = 0 ∨ i = 1 by omega) with rfl | rfl
  · exact fun q => ⟨q, rfl⟩
  · exact fun (q : Fin 1) => ⟨0, Subsingleton.elim (α := Fin 1) _ _⟩

theorem div_good (sp : Bool) (n : ℕ) (x : (i : Fin 2) → Fin (divSize i) → ℝ) (h : x 1 (0 : Fin 1) ≠ 0) :
    Good sp n divP x :=
  .wrapped _ _ (elem_div n x (fun i ε h q => by simp at h) fun q => h)
    fun _ => elemStd_sparseOk (le_refl 2) (fun i _ => divPos_surj i) (by decide)

/-- The argument. -/
def arg (a : Fin 2 → ℝ) : List (PArr ℝ) := [⟨2, a⟩]

theorem mul_bind (a b : Fin 2 → ℝ) : mulP.bind [⟨2, a⟩, ⟨2, b⟩] = .ok [⟨2, fun q => a q * b q⟩] := rfl
theorem sum_bind (a : Fin 2 → ℝ) : sumP.bind [⟨2, a⟩] = .ok [⟨1, fun _ => ∑ c, a c⟩] := rfl
theorem exp_bind (a : Fin 1 → ℝ) : expP.bind [⟨1, a⟩] = .ok [⟨1, fun q => Real.exp (a q)⟩] := rfl
theorem div_bind (a : Fin 2 → ℝ) (b : Fin 1 → ℝ) :
    divP.bind [⟨2, a⟩, ⟨1, b⟩] = .ok [⟨2, fun q => a q / b 0⟩] := rfl
theorem sin_bind (a : Fin 2 → ℝ) : sinP.bind [⟨2, a⟩] = .ok [⟨2, fun q => Real.sin (a q)⟩] := rfl

/-- One step of a run whose results are known. -/
theorem domRun_step {O V : Type} {ev : O → List V → Except Err (List V)} {dom : O → List V → Prop} {s : SEnv V}
    {e : Eqn O V} {es : List (Eqn O V)} (xs ys : List V) (hx : s.getMany e.invars = .ok xs) (hd : dom e.op xs)
    (hy : ev e.op xs = .ok ys) (s' : SEnv V) (hb : s.bind e.outvars ys = .ok s')
    (hk : DomRun ev dom s' es) : DomRun ev dom s (e :: es) := by
  intro xs' hx'
  rw [hx] at hx'
  obtain rfl := Except.ok.inj hx'
  refine ⟨hd, fun s'' hs => ?_⟩
  unfold specStep at hs
  rw [hx] at hs
  dsimp only at hs
  rw [hy] at hs
  dsimp only at hs
  rw [hb] at hs
  obtain rfl := Except.ok.inj hs
  exact hk

theorem inner_eval (a : Fin 2 → ℝ) :
    evalSpec (evPlain 1) sinProg [] [⟨2, a⟩] = .ok [⟨2, fun q => Real.sin (a q)⟩] := rfl

/-- The conditions hold along the ordinary run at every argument. -/
theorem dom (good : (p : Prim ℝ) → ((i : Fin p.nIn) → Fin (p.size i) → ℝ) → Prop)
    (h1 : ∀ x, good mulP x) (h2 : ∀ x, good sumP x) (h3 : ∀ x, good expP x)
    (h4 : ∀ x : (i : Fin 2) → Fin (divSize i) → ℝ, x 1 (0 : Fin 1) ≠ 0 → good divP x) (h5 : ∀ x, good sinP x)
    (a : Fin 2 → ℝ) : DomProg (evPlain 2) (DomP reg good 2) prog [] (arg a) := by
  intro s hs
  obtain rfl := Except.ok.inj hs
  refine domRun_step _ _ rfl (fun x _ => h1 x) (mul_bind a a) _ rfl ?_
  refine domRun_step _ _ rfl (fun x _ => h2 x) (sum_bind _) _ rfl ?_
  refine domRun_step _ _ rfl (fun x _ => h3 x) (exp_bind _) _ rfl ?_
  refine domRun_step _ _ rfl (fun x hx => h4 x ?_) (div_bind a _) _ rfl ?_
  · obtain rfl := Except.ok.inj hx
    exact (Real.exp_pos _).ne'
  refine domRun_step _ _ rfl ?_ (inner_eval a) _ rfl trivial
  intro s hs
  obtain rfl := Except.ok.inj hs
  exact domRun_step _ _ rfl (fun x _ => h5 x) (sin_bind a) _ rfl trivial

/-- What the program computes. -/
theorem prog_eval (a : Fin 2 → ℝ) : evalPlain 2 prog [] (arg a) =
    .ok [⟨2, fun q => a q / Real.exp (∑ c, a c * a c)⟩, ⟨2, fun q => Real.sin (a q)⟩] := rfl

theorem unflat_arg (x : Fin 2 → ℝ) : unflat [2] x = arg x := by
  unfold unflat arg
  simp only [blocks, List.cons.injEq, Sigma.mk.injEq, heq_eq_eq, true_and, and_true]
  funext p
  have : 0 + p.1 < 2 := by omega
  unfold coord
  rw [dif_pos this]
  simp

/-- The program satisfies the conditions of the program-level theorems, with and without sparsity, everywhere. -/
theorem prog_dom (sp : Bool) (x : Fin 2 → ℝ) :
    DomProg (evPlain 2) (DomP reg (Good sp 2) 2) prog [] (unflat [2] x) := by
  rw [unflat_arg]
  exact dom _ (mul_good sp 2) (sum_good sp 2) (exp_good sp 2) (div_good sp 2) (sin_good sp 2) x

theorem prog_dom_total (x : Fin 2 → ℝ) :
    DomProg (evPlain 2) (DomP reg (fun p v => Good false 2 p v ∧ p.TotalAt 0 2 v) 2) prog [] (unflat [2] x) := by
  rw [unflat_arg]
  refine dom _ (fun x => ⟨mul_good _ _ x, ?_⟩) (fun x => ⟨sum_good _ _ x, ?_⟩) (fun x => ⟨exp_good _ _ x, ?_⟩)
    (fun x hx => ⟨div_good _ _ x hx, ?_⟩) (fun x => ⟨sin_good _ _ x, ?_⟩) x
  · exact Std.total _ 0 2 x (elem_mul 2 x fun i ε h q => by injection h with h; subst h; rfl) fun _ _ _ h => by simp [elemStd] at h
  · exact Std.total _ 0 2 x (reduceSum_true 2 _ _ Function.surjective_id x) fun _ _ _ h => by
      simp [reduceSum, redStd, arrStd] at h
  · exact Std.total _ 0 2 x (elem_general 2 x (fun i ε h q => by injection h with h; subst h; rfl) fun q => (cd0 0 _).exp)
      fun _ _ _ h => by simp [elemStd] at h
  · refine Std.total (divStd (F := ℝ) (size := divSize) (out := 2) divPos (fun _ => none)) 0 2 x
      (elem_div 2 x (fun i ε h q => by simp at h) fun q => hx) fun k e c h => ?_
    exact divCustom_total (F := ℝ) divPos k e x c h
  · exact Std.total _ 0 2 x (elem_general 2 x (fun i ε h q => by injection h with h; subst h; rfl) fun q => (cd0 0 _).sin)
      fun _ _ _ h => by simp [elemStd] at h

theorem prog_noScan : ∀ e ∈ prog.eqns, NoScan reg 2 e.op := by
  intro e he
  simp only [prog, List.mem_cons, List.not_mem_nil, or_false] at he
  rcases he with rfl | rfl | rfl | rfl | rfl
  · trivial
  · trivial
  · trivial
  · trivial
  · refine ⟨fun e he => ?_, fun v hv => ?_⟩
    · simp only [sinProg, List.mem_cons, List.not_mem_nil, or_false] at he
      subst he
      trivial
    · refine le_trans (List.count_le_length ..) ?_
      decide

theorem prog_bound (v : Var) : Atom.var v ∈ prog.outvars → (readsOf prog.eqns prog.outvars).count v ≤ 2147483647 :=
  fun _ => le_trans (List.count_le_length ..) (by decide)

end Folx.Demo

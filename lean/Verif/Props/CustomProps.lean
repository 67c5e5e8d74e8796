import Verif.Core.CustomProofs
import Verif.Core.Custom
import Verif.Core.HessTotal
import Mathlib.Tactic.FieldSimp
import Mathlib.Tactic.NormNum

/-!
# Properties C41, C18, C47: custom rules, division, bilinear functions
-/

namespace Folx

open Folx.Interp (Err)

variable {k : ℕ} {P : Fin k → Type} {Q F : Type}

/-! ## C41 -/

section C41
variable [CommRing F] [∀ a, Fintype (P a)] [∀ a, DecidableEq (P a)] [Fintype Q] [DecidableEq Q]

/-- **C41.** A function wrapped with a custom rule `c` returns the function's value and Jacobian, and a Laplacian
that is the first-order term plus what `c` returns on the slice the element belongs to.  The rule is called on
slices of arguments with the same content, with index lists that lose nothing (`IdxOk`).  Slices on which the
function does not depend on any input may get `0` without a call. -/
theorem C41_custom (n : ℕ) (hn : 0 < n) (hk : 0 < k) (I : HInst k P Q F) (c : CustomRule k I.dim I.V I.O F)
    (hc : I.custom = some c) (T : ℕ) (args : (a : Fin k) → Trip (P a) F)
    (hI : I.toInst.Lawful fun a => (args a).x) (hwf : ∀ a, (args a).jac.Wf n)
    (hok : takesOneByOne I.toInst args → OneByOneOk I.toInst args) (hmix : I.MixOk T args)
    (h1 : I.flags.has Flags.LINEAR = false) (h2 : ¬ (I.flags.has Flags.LINEAR_IN_ONE = true ∧ k = 1))
    (h3 : ¬ (I.flags.has Flags.LINEAR_IN_FIRST = true ∧ I.firstIsLapl = true ∧ k = 1))
    (t : Trip Q F) (ht : I.wrapped T args = .ok t) :
    t.x = I.fwd (fun a => (args a).x) ∧
    (∀ i q, t.jac.den i q = I.jvp (fun a => (args a).x) (fun a => (args a).jac.den i) q) ∧
    ∃ (args' : (a : Fin k) → Trip (P a) F) (idx : I.V → Option (List ℤ)),
      (∀ a, (args' a).x = (args a).x ∧ (args' a).jac.Wf n ∧ ∀ i p, (args' a).jac.den i p = (args a).jac.den i p) ∧
      (I.flags.has Flags.LINEAR_IN_ONE = false → ∀ v,
        I.NothingAt args v ∨ IdxOk (fun a => (I.sliceArgs args' v a).jac) (idx v)) ∧
      ∀ q, (I.NothingAt args (I.out q).1 ∧ t.lapl q = I.jvp (fun a => (args a).x) (fun a => (args a).lapl) q) ∨
        ∃ r, c (I.out q).1 (I.sliceArgs args' (I.out q).1) (idx (I.out q).1) = .ok r ∧
          t.lapl q = I.jvp (fun a => (args a).x) (fun a => (args a).lapl) q + r (I.out q).2 := by
  unfold HInst.wrapped at ht
  split at ht
  · simp at ht
  rename_i o ho
  split at ht
  · simp at ht
  rename_i h hh
  simp only [Except.ok.injEq] at ht
  subst ht
  have sp := jvpRule_spec' n hn I.toInst T args hI hok hwf o ho
  unfold HInst.hessianTransform at hh
  rw [if_neg (by rw [h1]; simp), if_neg h2, if_neg h3] at hh
  obtain ⟨args', idx, hA, hv⟩ := I.vmapped_calls n hn T args hk hwf hmix h3 h hh
  refine ⟨sp.y, sp.jac, args', idx, hA, ?_, ?_⟩
  · intro hf v
    rcases hv v with h | h
    · exact Or.inl h.1
    · exact Or.inr (h.1 hf)
  · intro q
    rcases hv (I.out q).1 with ⟨hz, h0⟩ | ⟨_, r, hr, hq⟩
    · left
      refine ⟨hz, ?_⟩
      show o.lapl q + h q = _
      rw [h0 q rfl, add_zero, sp.lapl]
    · right
      refine ⟨r, ?_, ?_⟩
      · unfold HInst.hessTransform at hr
        rw [hc] at hr
        exact hr
      · show o.lapl q + h q = _
        rw [hq q rfl, sp.lapl]

omit [∀ a, DecidableEq (P a)] [Fintype Q] [DecidableEq Q] in
/-- **C41 (not called).** If the flags make the term vanish, the custom rule has no influence. -/
theorem C41_not_called (I : HInst k P Q F) (c : Option (CustomRule k I.dim I.V I.O F)) (T : ℕ)
    (args : (a : Fin k) → Trip (P a) F)
    (h : I.flags.has Flags.LINEAR = true ∨ (I.flags.has Flags.LINEAR_IN_ONE = true ∧ k = 1) ∨
      (I.flags.has Flags.LINEAR_IN_FIRST = true ∧ I.firstIsLapl = true ∧ k = 1)) :
    HInst.hessianTransform { I with custom := c } T args = .ok fun _ => 0 := by
  unfold HInst.hessianTransform
  split
  · rfl
  split
  · rfl
  split
  · rfl
  rename_i h1 h2 h3
  rcases h with h | h | h
  · exact absurd h h1
  · exact absurd h h2
  · exact absurd h h3

end C41

/-! ## C18 -/

section C18
variable [Field F]

/-- `jax.lax.div` with both operands carrying derivatives (`wrapped_functions.py:315-320`). -/
def divBoth {P : Fin 2 → Type} (π : (a : Fin 2) → Q → P a) (same : (a : Fin 2) → Option (Q ≃ P a)) [Fintype Q] :
    HInst 2 P Q F :=
  elemHInst (fun _ v => v 0 / v 1) (fun _ v a => if a = 0 then (v 1)⁻¹ else - v 0 / (v 1 * v 1))
    (fun _ v a b => if a = 0 then (if b = 0 then 0 else - (v 1 * v 1)⁻¹)
      else (if b = 0 then - (v 1 * v 1)⁻¹ else 2 * v 0 / (v 1 * v 1 * v 1)))
    π same Flags.LINEAR_IN_FIRST true false (some divRule2)

/-- `jax.lax.div` with a plain numerator (`num`, broadcast to the output). -/
def divDen {P : Fin 1 → Type} (num : Q → F) (π : (a : Fin 1) → Q → P a) (same : (a : Fin 1) → Option (Q ≃ P a))
    [Fintype Q] : HInst 1 P Q F :=
  elemHInst (fun q v => num q / v 0) (fun q v _ => - num q / (v 0 * v 0))
    (fun q v _ _ => 2 * num q / (v 0 * v 0 * v 0)) π same Flags.LINEAR_IN_FIRST false false (some (divRule1 num))

/-- `jax.lax.div` with a plain denominator. -/
def divNum {P : Fin 1 → Type} (den : Q → F) (rule : CustomRule 1 (fun _ => 1) Q Unit F) (π : (a : Fin 1) → Q → P a)
    (same : (a : Fin 1) → Option (Q ≃ P a)) [Fintype Q] : HInst 1 P Q F :=
  elemHInst (fun q v => v 0 / den q) (fun q _ _ => (den q)⁻¹)
    (fun _ _ _ _ => 0) π same Flags.LINEAR_IN_FIRST true false (some rule)

theorem noFlag {α : Prop} (f g : Flags) (h : Flags.has f g = true) (h' : Flags.has f g = false) : α := by
  rw [h'] at h; simp at h

/-- The value of the rule with two operands. -/
theorem divRule2_value {V : Type} (n : ℕ) (v : V) (sargs : (a : Fin 2) → Trip (Fin ((fun _ => 1 : Fin 2 → ℕ) a)) F)
    (idx : Option (List ℤ)) (res : Unit → F) (hwf : ∀ a, (sargs a).jac.Wf n)
    (hidx : IdxOk (fun a => (sargs a).jac) idx) (hres : divRule2 v sargs idx = .ok res) (o : Unit) :
    res o = ∑ i ∈ Finset.range n,
      (-2 * ((sargs 1).x 0 * (sargs 1).x 0)⁻¹ * ((sargs 0).jac.den i 0 * (sargs 1).jac.den i 0) +
      2 * (sargs 0).x 0 * (((sargs 1).x 0 * (sargs 1).x 0)⁻¹ / (sargs 1).x 0) *
        ((sargs 1).jac.den i 0 * (sargs 1).jac.den i 0)) := by
  unfold divRule2 at hres
  split at hres
  · simp at hres
  rename_i rows hrows
  have hrr := reduced_sum n _ hwf idx hidx rows hrows (fun g => g 1 0 * g 1 0) (by simp)
  have hlr := reduced_sum n _ hwf idx hidx rows hrows (fun g => g 0 0 * g 1 0) (by simp)
  have hres := Except.ok.inj hres
  rw [← hres]
  dsimp only at hrr hlr ⊢
  rw [hrr, hlr, Finset.mul_sum, Finset.mul_sum, ← Finset.sum_add_distrib]
  rfl

/-- The value of the rule with a plain numerator. -/
theorem divRule1_value {V : Type} (num : V → F) (n : ℕ) (v : V)
    (sargs : (a : Fin 1) → Trip (Fin ((fun _ => 1 : Fin 1 → ℕ) a)) F)
    (idx : Option (List ℤ)) (res : Unit → F) (hwf : ∀ a, (sargs a).jac.Wf n)
    (hidx : IdxOk (fun a => (sargs a).jac) idx) (hres : divRule1 num v sargs idx = .ok res) (o : Unit) :
    res o = ∑ i ∈ Finset.range n, (sargs 0).jac.den i 0 * (sargs 0).jac.den i 0 *
      (2 * num v * ((sargs 0).x 0 * (sargs 0).x 0 * (sargs 0).x 0)⁻¹) := by
  unfold divRule1 at hres
  split at hres
  · simp at hres
  rename_i rows hrows
  have hrr := reduced_sum n _ hwf idx hidx rows hrows (fun g => g 0 0 * g 0 0) (by simp)
  have hres := Except.ok.inj hres
  rw [← hres]
  dsimp only at hrr ⊢
  rw [hrr, Finset.sum_mul]
  rfl

/-- **C18 (rule).** The custom rule with two derivative-carrying operands is exact, with the second partial
derivatives `0`, `-1/y²`, `2x/y³` of the quotient. -/
theorem divRule2_exact {P : Fin 2 → Type} (π : (a : Fin 2) → Q → P a) (same : (a : Fin 2) → Option (Q ≃ P a))
    [Fintype Q] (n : ℕ) (x : (a : Fin 2) → P a → F) :
    (divBoth (F := F) π same).CustomExact n divRule2 x := by
  intro v sargs idx res hx hwf hidx hres o
  refine (divRule2_value n v sargs idx res hwf hidx hres o).trans ?_
  refine Finset.sum_congr rfl fun i _ => ?_
  refine Eq.symm ((coeffForm_apply _ _ _ _).trans ?_)
  have h0 : (sargs 0).x (0 : Fin 1) = x 0 (π 0 v) := congrFun (hx 0) (0 : Fin 1)
  have h1 : (sargs 1).x (0 : Fin 1) = x 1 (π 1 v) := congrFun (hx 1) (0 : Fin 1)
  simp only [Fin.sum_univ_two, if_true, if_neg (show ¬ (1 : Fin 2) = 0 by decide)]
  erw [h0, h1]
  set l := (sargs 0).jac.den i (0 : Fin 1)
  set r := (sargs 1).jac.den i (0 : Fin 1)
  show 0 * l * l + -(x 1 (π 1 v) * x 1 (π 1 v))⁻¹ * l * r + (-(x 1 (π 1 v) * x 1 (π 1 v))⁻¹ * r * l +
    2 * x 0 (π 0 v) / (x 1 (π 1 v) * x 1 (π 1 v) * x 1 (π 1 v)) * r * r) =
    -2 * (x 1 (π 1 v) * x 1 (π 1 v))⁻¹ * (l * r) +
      2 * x 0 (π 0 v) * ((x 1 (π 1 v) * x 1 (π 1 v))⁻¹ / x 1 (π 1 v)) * (r * r)
  generalize x 1 (π 1 v) = y
  generalize x 0 (π 0 v) = z
  simp only [div_eq_mul_inv, mul_inv]
  ring

/-- **C18 (rule, plain numerator).** -/
theorem divRule1_exact {P : Fin 1 → Type} (num : Q → F) (π : (a : Fin 1) → Q → P a)
    (same : (a : Fin 1) → Option (Q ≃ P a)) [Fintype Q] (n : ℕ) (x : (a : Fin 1) → P a → F) :
    (divDen (F := F) num π same).CustomExact n (divRule1 num) x := by
  intro v sargs idx res hx hwf hidx hres o
  refine (divRule1_value num n v sargs idx res hwf hidx hres o).trans ?_
  refine Finset.sum_congr rfl fun i _ => ?_
  refine Eq.symm ((coeffForm_apply _ _ _ _).trans ?_)
  have h0 : (sargs 0).x (0 : Fin 1) = x 0 (π 0 v) := congrFun (hx 0) (0 : Fin 1)
  simp only [Fin.sum_univ_one]
  erw [h0]
  set l := (sargs 0).jac.den i (0 : Fin 1)
  show 2 * num v / (x 0 (π 0 v) * x 0 (π 0 v) * x 0 (π 0 v)) * l * l =
    l * l * (2 * num v * (x 0 (π 0 v) * x 0 (π 0 v) * x 0 (π 0 v))⁻¹)
  rw [div_eq_mul_inv]
  ring

/-- The outcome of a wrapped elementwise function, spelled out. -/
theorem elemH_wrapped [∀ a, Fintype (P a)] [∀ a, DecidableEq (P a)] [Fintype Q] [DecidableEq Q]
    (φ : Q → (Fin k → F) → F) (D : Q → (Fin k → F) → Fin k → F)
    (D2 : Q → (Fin k → F) → Fin k → Fin k → F) (π : (a : Fin k) → Q → P a)
    (same : (a : Fin k) → Option (Q ≃ P a)) (flags : Flags) (firstIsLapl c2r : Bool)
    (custom : Option (CustomRule k (fun _ => 1) Q Unit F))
    (hflags : flags.has Flags.INDEXING = false) (hsc : flags.has Flags.SCATTER = false)
    (hsp : flags.has Flags.SPARSE_JHJ = false)
    (hsame : ∀ a e, same a = some e → ∀ q, e q = π a q) (hπ : Nonempty Q → ∀ a, Function.Surjective (π a))
    (n : ℕ) (hn : 0 < n) (hk : 0 < k) (hk2 : k ≤ 2) (T : ℕ) (args : (a : Fin k) → Trip (P a) F)
    (hH : (elemHInst φ D D2 π same flags firstIsLapl c2r custom).HLawful n fun a => (args a).x)
    (hb : (elemHInst φ D D2 π same flags firstIsLapl c2r custom).BilinearOk)
    (hwf : ∀ a, (args a).jac.Wf n) (hbig : ∀ a, (args a).jac.Big T n) (t : Trip Q F)
    (ht : (elemHInst φ D D2 π same flags firstIsLapl c2r custom).wrapped T args = .ok t) :
    ∀ q, t.x q = φ q (fun a => (args a).x (π a q)) ∧
      (∀ i, t.jac.den i q = ∑ a, D q (fun b => (args b).x (π b q)) a * (args a).jac.den i (π a q)) ∧
      t.lapl q = (∑ a, D q (fun b => (args b).x (π b q)) a * (args a).lapl (π a q)) +
        ∑ i ∈ Finset.range n, ∑ a, ∑ b, D2 q (fun b => (args b).x (π b q)) a b *
          (args a).jac.den i (π a q) * (args b).jac.den i (π b q) := by
  have sp := wrapped_spec n hn hk (elemHInst φ D D2 π same flags firstIsLapl c2r custom) T args
    (elemH_lawful φ D D2 π same flags firstIsLapl c2r custom hflags hsc hsame _) hH
    (oneByOneOk_of_static _ args (Or.inl hk2) fun _ _ _ => rfl) hb
    (fun hQ => HInst.mixOk_of_big _ T n args hQ (fun _ => Nat.one_pos) (hπ hQ) hwf hbig fun h => by
      have h : flags.has Flags.SPARSE_JHJ = true := h
      rw [hsp] at h; simp at h) hwf t ht
  intro q
  exact ⟨congrFun sp.x q, fun i => sp.jac i q, sp.lapl q⟩

/-- **C18 (both operands).** For every nonzero denominator, sparse or dense operands with broadcasting: value,
Jacobian and Laplacian of `x / y`. -/
theorem C18_both {P : Fin 2 → Type} [∀ a, Fintype (P a)] [∀ a, DecidableEq (P a)] [Fintype Q] [DecidableEq Q]
    (π : (a : Fin 2) → Q → P a) (same : (a : Fin 2) → Option (Q ≃ P a))
    (hsame : ∀ a e, same a = some e → ∀ q, e q = π a q) (hπ : Nonempty Q → ∀ a, Function.Surjective (π a))
    (n : ℕ) (hn : 0 < n) (T : ℕ) (args : (a : Fin 2) → Trip (P a) F) (hwf : ∀ a, (args a).jac.Wf n)
    (hbig : ∀ a, (args a).jac.Big T n) (t : Trip Q F) (ht : (divBoth π same).wrapped T args = .ok t) (q : Q)
    (hy : (args 1).x (π 1 q) ≠ 0) :
    let x := (args 0).x (π 0 q)
    let y := (args 1).x (π 1 q)
    let dx := fun i => (args 0).jac.den i (π 0 q)
    let dy := fun i => (args 1).jac.den i (π 1 q)
    t.x q = x / y ∧ (∀ i, t.jac.den i q = (dx i * y - x * dy i) / y ^ 2) ∧
    t.lapl q = ((args 0).lapl (π 0 q) * y - x * (args 1).lapl (π 1 q)) / y ^ 2 +
      ∑ i ∈ Finset.range n, (-2 * dx i * dy i / y ^ 2 + 2 * x * dy i ^ 2 / y ^ 3) := by
  have hH : (divBoth (F := F) π same).HLawful n fun a => (args a).x :=
    { linear := fun h => noFlag Flags.LINEAR_IN_FIRST Flags.LINEAR h (by decide)
      linOne := fun h => noFlag Flags.LINEAR_IN_FIRST Flags.LINEAR_IN_ONE h (by decide)
      linFirst := by
        intro _ _ v a ha s t
        obtain rfl : a = 0 := Fin.ext ha
        funext o
        exact (coeffForm_single _ 0 0 s t o).trans (by simp)
      mult_arity := fun h => noFlag Flags.LINEAR_IN_FIRST Flags.MULTIPLICATION h (by decide)
      mult := fun h => noFlag Flags.LINEAR_IN_FIRST Flags.MULTIPLICATION h (by decide)
      custom := fun c h => by
        have h : some divRule2 = some c := h
        cases h
        exact divRule2_exact π same n _ }
  obtain ⟨h1, h2, h3⟩ := elemH_wrapped _ _ _ π same _ _ _ _ (by decide) (by decide) (by decide) hsame hπ n hn
    (by omega) (by omega) T args hH (fun h => noFlag Flags.LINEAR_IN_FIRST Flags.LINEAR_IN_ONE h (by decide)) hwf hbig t ht q
  refine ⟨h1, ?_, ?_⟩
  · intro i
    rw [h2 i]
    simp only [Fin.sum_univ_two, if_true, if_neg (show ¬ (1 : Fin 2) = 0 by decide)]
    field_simp
    ring
  · rw [h3]
    simp only [Fin.sum_univ_two, if_true, if_neg (show ¬ (1 : Fin 2) = 0 by decide)]
    congr 1
    · field_simp
      ring
    · refine Finset.sum_congr rfl fun i _ => ?_
      field_simp
      ring

/-- **C18 (plain numerator).** -/
theorem C18_denominator {P : Fin 1 → Type} [∀ a, Fintype (P a)] [∀ a, DecidableEq (P a)] [Fintype Q]
    [DecidableEq Q] (num : Q → F) (π : (a : Fin 1) → Q → P a) (same : (a : Fin 1) → Option (Q ≃ P a))
    (hsame : ∀ a e, same a = some e → ∀ q, e q = π a q) (hπ : Nonempty Q → ∀ a, Function.Surjective (π a))
    (n : ℕ) (hn : 0 < n) (T : ℕ) (args : (a : Fin 1) → Trip (P a) F) (hwf : ∀ a, (args a).jac.Wf n)
    (hbig : ∀ a, (args a).jac.Big T n) (t : Trip Q F) (ht : (divDen num π same).wrapped T args = .ok t) (q : Q)
    (hy : (args 0).x (π 0 q) ≠ 0) :
    let y := (args 0).x (π 0 q)
    let dy := fun i => (args 0).jac.den i (π 0 q)
    t.x q = num q / y ∧ (∀ i, t.jac.den i q = - num q * dy i / y ^ 2) ∧
    t.lapl q = - num q * (args 0).lapl (π 0 q) / y ^ 2 +
      ∑ i ∈ Finset.range n, 2 * num q * dy i ^ 2 / y ^ 3 := by
  have hH : (divDen (F := F) num π same).HLawful n fun a => (args a).x :=
    { linear := fun h => noFlag Flags.LINEAR_IN_FIRST Flags.LINEAR h (by decide)
      linOne := fun h => noFlag Flags.LINEAR_IN_FIRST Flags.LINEAR_IN_ONE h (by decide)
      linFirst := fun _ h => (Bool.false_ne_true h).elim
      mult_arity := fun h => noFlag Flags.LINEAR_IN_FIRST Flags.MULTIPLICATION h (by decide)
      mult := fun h => noFlag Flags.LINEAR_IN_FIRST Flags.MULTIPLICATION h (by decide)
      custom := fun c h => by
        have h : some (divRule1 num) = some c := h
        cases h
        exact divRule1_exact num π same n _ }
  obtain ⟨h1, h2, h3⟩ := elemH_wrapped _ _ _ π same _ _ _ _ (by decide) (by decide) (by decide) hsame hπ n hn
    (by omega) (by omega) T args hH (fun h => noFlag Flags.LINEAR_IN_FIRST Flags.LINEAR_IN_ONE h (by decide)) hwf hbig t ht q
  refine ⟨h1, ?_, ?_⟩
  · intro i
    rw [h2 i]
    simp only [Fin.sum_univ_one]
    field_simp
  · rw [h3]
    simp only [Fin.sum_univ_one]
    congr 1
    · field_simp
    · refine Finset.sum_congr rfl fun i _ => ?_
      field_simp

/-- **C18 (plain denominator).** The term is skipped because the numerator is the first argument. -/
theorem C18_numerator {P : Fin 1 → Type} [∀ a, Fintype (P a)] [∀ a, DecidableEq (P a)] [Fintype Q]
    [DecidableEq Q] (den : Q → F) (rule : CustomRule 1 (fun _ => 1) Q Unit F)
    (π : (a : Fin 1) → Q → P a) (same : (a : Fin 1) → Option (Q ≃ P a))
    (hsame : ∀ a e, same a = some e → ∀ q, e q = π a q)
    (n : ℕ) (hn : 0 < n) (T : ℕ) (args : (a : Fin 1) → Trip (P a) F) (hwf : ∀ a, (args a).jac.Wf n)
    (t : Trip Q F) (ht : (divNum den rule π same).wrapped T args = .ok t) (q : Q) :
    t.x q = (args 0).x (π 0 q) / den q ∧ (∀ i, t.jac.den i q = (args 0).jac.den i (π 0 q) / den q) ∧
    t.lapl q = (args 0).lapl (π 0 q) / den q := by
  have hc : ∃ o, jvpRule (divNum den rule π same).toInst T args = .ok o ∧ t = ⟨o.y, o.jac, fun q => o.lapl q + 0⟩ := by
    unfold HInst.wrapped at ht
    split at ht
    · simp at ht
    rename_i o ho
    have : (divNum den rule π same).hessianTransform T args = .ok fun _ => 0 :=
      C41_not_called (divNum den rule π same) (some rule) T args (Or.inr (Or.inr ⟨(by decide : Flags.has Flags.LINEAR_IN_FIRST Flags.LINEAR_IN_FIRST = true), rfl, rfl⟩))
    rw [this] at ht
    simp only [Except.ok.injEq] at ht
    exact ⟨o, ho, ht.symm⟩
  obtain ⟨o, ho, rfl⟩ := hc
  have sp := jvpRule_spec' n hn (divNum den rule π same).toInst T args
    (elemH_lawful _ _ _ π same _ _ _ _ (by decide) (by decide) hsame _)
    (oneByOneOk_of_static _ args (Or.inl (by omega)) fun _ _ _ => rfl) hwf o ho
  have hs : ∀ f : (a : Fin 1) → P a → F, (divNum den rule π same).jvp (fun a => (args a).x) f q =
      f 0 (π 0 q) / den q := by
    intro f
    show (∑ a : Fin 1, (den q)⁻¹ * f a (π a q)) = _
    rw [Fin.sum_univ_one, div_eq_mul_inv, mul_comm]
  refine ⟨congrFun sp.y q, fun i => (sp.jac i q).trans (hs _), ?_⟩
  show o.lapl q + 0 = _
  rw [add_zero, sp.lapl]
  exact hs _

/-- Two dense operands with two inputs: `x = 6` with `∂x = (1, 2)`, `y = 3` with `∂y = (1, -1)`. -/
def divArgs : (a : Fin 2) → Trip Unit ℚ := fun a =>
  if a = 0 then ⟨fun _ => 6, .dense [fun _ => 1, fun _ => 2], fun _ => 9⟩
  else ⟨fun _ => 3, .dense [fun _ => 1, fun _ => -1], fun _ => 0⟩

/-- Non-vacuity of C18 and C41: the hypotheses hold and the call returns. -/
example : (∀ a, (divArgs a).jac.Wf 2) ∧ (∀ a, (divArgs a).jac.Big 0 2) ∧ (divArgs 1).x () ≠ 0 ∧
    ∃ t, (divBoth (F := ℚ) (Q := Unit) (P := fun _ => Unit) (fun _ q => q) (fun _ => some (Equiv.refl _))).wrapped 0
      divArgs = .ok t ∧ t.lapl () = 9 / 3 + (-2 / 9 + 12 / 27) + (4 / 9 + 12 / 27) := by
  refine ⟨?_, ?_, by decide, ?_⟩
  · intro a; fin_cases a <;> exact le_refl 2
  · intro a; fin_cases a <;> exact Or.inr (le_refl 2)
  · obtain ⟨t, ht⟩ : ∃ t, (divBoth (F := ℚ) (Q := Unit) (P := fun _ => Unit) (fun _ q => q)
      (fun _ => some (Equiv.refl _))).wrapped 0 divArgs = .ok t := ⟨_, rfl⟩
    refine ⟨t, ht, ?_⟩
    have := (C18_both (F := ℚ) (Q := Unit) (P := fun _ => Unit) (fun _ q => q) (fun _ => some (Equiv.refl _))
      (by rintro a e h q; rfl) (fun _ _ x => ⟨x, rfl⟩) 2 (by omega) 0 divArgs
      (by intro a; fin_cases a <;> exact le_refl 2) (by intro a; fin_cases a <;> exact Or.inr (le_refl 2))
      t ht () (by decide)).2.2
    rw [this]
    norm_num [divArgs, Finset.sum_range_succ, Jac.den]

end C18

/-! ## C47 -/

section C47
variable [CommRing F]

/-- **C47 (when it raises).** A two-argument function flagged `LINEAR_IN_ONE` raises when the two slice sizes differ, and also when
they agree but differ from the number of Jacobian rows, neither being one. -/
theorem C47_shape_error (I : HInst k P Q F) (v : I.V) (sargs : (a : Fin k) → Trip (Fin (I.dim a)) F)
    (idx : Option (List ℤ)) (hk : k = 2) (rows : (a : Fin k) → List (Fin (I.dim a) → F))
    (hrows : reducedJacobians (fun a => (sargs a).jac) idx = .ok rows)
    (hne : I.dim ⟨0, by omega⟩ ≠ I.dim ⟨1, by omega⟩ ∨
      I.dim ⟨0, by omega⟩ ≠ maxLen rows ∧ I.dim ⟨0, by omega⟩ ≠ 1 ∧ maxLen rows ≠ 1) : I.offDiagJHJ v sargs idx = .error .shape := by
  unfold HInst.offDiagJHJ
  rw [dif_pos hk, hrows]
  simp only
  rw [dif_neg]
  rintro ⟨h1, h2⟩
  rcases hne with h | ⟨h3, h4, h5⟩
  · exact h h1
  · rcases h2 with h | h | h
    · exact h3 h
    · exact h4 h
    · exact h5 h

/-- The bilinear function `f(x, y) = x₀ y₁` of two vectors of length two. -/
def crossForm : ((a : Fin 2) → Fin ((fun _ => 2 : Fin 2 → ℕ) a) → ℤ) →ₗ[ℤ]
    ((a : Fin 2) → Fin ((fun _ => 2 : Fin 2 → ℕ) a) → ℤ) →ₗ[ℤ] (Unit → ℤ) :=
  LinearMap.mk₂ ℤ (fun s t _ => s 0 0 * t 1 1 + t 0 0 * s 1 1)
    (fun s s' t => by funext _; simp only [Pi.add_apply]; ring)
    (fun c s t => by funext _; simp only [Pi.smul_apply, smul_eq_mul]; ring)
    (fun s t t' => by funext _; simp only [Pi.add_apply]; ring)
    (fun c s t => by funext _; simp only [Pi.smul_apply, smul_eq_mul]; ring)

theorem crossForm_single (a : Fin 2) (s t : Fin 2 → ℤ) (o : Unit) :
    crossForm (Pi.single (M := fun a => Fin ((fun _ => 2 : Fin 2 → ℕ) a) → ℤ) a s)
      (Pi.single (M := fun a => Fin ((fun _ => 2 : Fin 2 → ℕ) a) → ℤ) a t) o = 0 := by
  rw [crossForm, LinearMap.mk₂_apply]
  rcases (show a = 0 ∨ a = 1 by omega) with rfl | rfl
  · rw [Pi.single_eq_of_ne (i := (0 : Fin 2)) (by decide : (1 : Fin 2) ≠ 0),
      Pi.single_eq_of_ne (i := (0 : Fin 2)) (by decide : (1 : Fin 2) ≠ 0)]
    simp
  · rw [Pi.single_eq_of_ne (i := (1 : Fin 2)) (by decide : (0 : Fin 2) ≠ 1),
      Pi.single_eq_of_ne (i := (1 : Fin 2)) (by decide : (0 : Fin 2) ≠ 1)]
    simp

/-- It wrapped with `flags=LINEAR_IN_ONE` (a truthful flag). -/
def crossHInst : HInst 2 (fun _ => Unit × Fin 2) Unit ℤ :=
  { dotHInst (F := ℤ) (fun _ => Unit × Fin 2) (fun _ => Unit) 2 Unit (fun _ => Equiv.refl _) (fun _ u => u)
      Flags.LINEAR_IN_ONE true (fun _ u => (u, 0)) with
    fwd := fun x _ => x 0 ((), 0) * x 1 ((), 1)
    jvp := fun x =>
      { toFun := fun t _ => t 0 ((), 0) * x 1 ((), 1) + x 0 ((), 0) * t 1 ((), 1)
        map_add' := fun s t => by funext _; simp only [Pi.add_apply]; ring
        map_smul' := fun c t => by
          funext _; simp only [Pi.smul_apply, smul_eq_mul, RingHom.id_apply]; ring }
    hess := fun _ _ => crossForm }

/-- Both arguments depend on input `0` only: `∂₀x = (1, 0)`, `∂₀y = (0, 1)`. -/
def crossArgs : (a : Fin 2) → Trip (Unit × Fin 2) ℤ := fun a =>
  if a = 0 then ⟨fun _ => 1, .dense [fun p => if p.2 = 0 then 1 else 0, fun _ => 0], fun _ => 0⟩
  else ⟨fun _ => 1, .dense [fun p => if p.2 = 1 then 1 else 0, fun _ => 0], fun _ => 0⟩

/-- **C47 (the property is false).** For `f(x, y) = x₀ y₁` with `∂₀x = (1, 0)`, `∂₀y = (0, 1)` and two inputs the
true contribution is `2 B(∂₀x, ∂₀y) = 2`, but `0` is returned. -/
theorem C47_counterexample :
    (∀ v x a s t, crossHInst.hess v x (Pi.single a s) (Pi.single a t) = 0) ∧
    (∃ h, crossHInst.hessianTransform 0 crossArgs = .ok h ∧ h () = 0) ∧
    2 * ∑ i ∈ Finset.range 2, crossHInst.fwd (fun a => (crossArgs a).jac.den i) () = 2 := by
  refine ⟨?_, ⟨_, rfl, by decide⟩, by decide⟩
  intro v x a s t
  funext o
  exact crossForm_single a s t o

/-- The product `x, y ↦ B x y` of two arrays, flagged `LINEAR_IN_ONE`, broadcast to the positions `Q`. -/
abbrev scalarForm [Fintype Q] (B : F) {P : Fin 2 → Type} (π : (a : Fin 2) → Q → P a) (same : (a : Fin 2) → Option (Q ≃ P a)) : HInst 2 P Q F :=
  elemHInst (P := P) (fun _ v => B * v 0 * v 1) (fun _ v a => if a = 0 then B * v 1 else B * v 0)
    (fun _ _ a b => if a = b then 0 else B) π same Flags.LINEAR_IN_ONE true false none

/-- **C47 (scalar slices: what is computed).** For `B x y` on scalars, the product of the two sums of derivatives comes out,
`2 B (∑ᵢ ∂ᵢx) (∑ⱼ ∂ⱼy)`, instead of `2 B ∑ᵢ ∂ᵢx ∂ᵢy`. -/
theorem C47_scalar_value [Fintype Q] (B : F) (n : ℕ) {P : Fin 2 → Type} (π : (a : Fin 2) → Q → P a)
    (same : (a : Fin 2) → Option (Q ≃ P a)) (v : Q)
    (sargs : (a : Fin 2) → Trip (Fin ((fun _ => 1 : Fin 2 → ℕ) a)) F) (hwf : ∀ a, (sargs a).jac.Wf n)
    (idx : Option (List ℤ)) (hidx : IdxOk (fun a => (sargs a).jac) idx) (r : Unit → F)
    (hr : (scalarForm B π same).offDiagJHJ v sargs idx = .ok r) :
    r () = 2 * B * (∑ i ∈ Finset.range n, (sargs 0).jac.den i 0) * ∑ j ∈ Finset.range n, (sargs 1).jac.den j 0 := by
  unfold HInst.offDiagJHJ at hr
  rw [dif_pos rfl] at hr
  split at hr
  · simp at hr
  rename_i rows hrows
  simp only at hr
  split at hr
  · rename_i hd
    have k0 := reduced_sum n _ hwf idx hidx rows hrows (fun g => g 0 0) (by simp)
    have k1 := reduced_sum n _ hwf idx hidx rows hrows (fun g => g 1 0) (by simp)
    have hr := Except.ok.inj hr
    have h2 : r () = 2 * ∑ i : Fin 1, ∑ j : Fin 1, (coeffForm (k := 2) (fun a b => if a = b then (0 : F) else B))
        (unit ⟨0, i⟩) (unit ⟨1, j⟩) () * HInst.einsumFactor 1 (maxLen rows) (fun r s => ∑ c : Fin 1, col rows r 0 c * col rows s 1 c) i j := by
      rw [← hr]; rfl
    rw [h2]
    simp only [Fin.sum_univ_one]
    have h3 : (coeffForm (k := 2) (fun a b => if a = b then (0 : F) else B)) (unit ⟨0, 0⟩) (unit ⟨1, 0⟩) () = B := by
      refine (coeffForm_single _ 0 1 _ _ ()).trans ?_
      simp
    erw [h3]
    have h4 : HInst.einsumFactor 1 (maxLen rows) (fun r s => col rows r 0 (0 : Fin 1) * col rows s 1 (0 : Fin 1)) 0 0 =
        (∑ r ∈ Finset.range (maxLen rows), col rows r 0 (0 : Fin 1)) * ∑ s ∈ Finset.range (maxLen rows), col rows s 1 (0 : Fin 1) := by
      rw [HInst.einsumFactor, if_pos rfl, Finset.sum_mul_sum]
    refine (congrArg (fun z => 2 * (B * z)) (h4.trans (congrArg₂ (· * ·) k0 k1))).trans ?_
    show 2 * (B * ((∑ i ∈ Finset.range n, (sargs 0).jac.den i 0) * ∑ j ∈ Finset.range n, (sargs 1).jac.den j 0)) = _
    ring
  · simp at hr

/-- **C47 (partial).** What does hold: for scalar slices, whenever at most one input reaches both arguments' rows (the
reduced Jacobians have at most one row), the right contribution `∑ᵢ D²f(∂ᵢ, ∂ᵢ)` is returned. -/
theorem C47_scalar_partial [Fintype Q] (B : F) (n : ℕ) {P : Fin 2 → Type} (π : (a : Fin 2) → Q → P a)
    (same : (a : Fin 2) → Option (Q ≃ P a)) (v : Q)
    (sargs : (a : Fin 2) → Trip (Fin ((fun _ => 1 : Fin 2 → ℕ) a)) F) (hwf : ∀ a, (sargs a).jac.Wf n)
    (idx : Option (List ℤ)) (hidx : IdxOk (fun a => (sargs a).jac) idx)
    (rows : (a : Fin 2) → List (Fin ((fun _ => 1 : Fin 2 → ℕ) a) → F))
    (hrows : reducedJacobians (fun a => (sargs a).jac) idx = .ok rows) (hone : maxLen rows ≤ 1) (r : Unit → F)
    (hr : (scalarForm B π same).offDiagJHJ v sargs idx = .ok r) :
    r () = 2 * ∑ i ∈ Finset.range n, B * (sargs 0).jac.den i 0 * (sargs 1).jac.den i 0 := by
  rw [C47_scalar_value B n π same v sargs hwf idx hidx r hr]
  have k0 := reduced_sum n _ hwf idx hidx rows hrows (fun g => g 0 0) (by simp)
  have k1 := reduced_sum n _ hwf idx hidx rows hrows (fun g => g 1 0) (by simp)
  have k2 := reduced_sum n _ hwf idx hidx rows hrows (fun g => B * g 0 0 * g 1 0) (by simp)
  have e0 : ∑ i ∈ Finset.range n, (sargs 0).jac.den i 0 = ∑ s ∈ Finset.range (maxLen rows), col rows s 0 (0 : Fin 1) := k0.symm
  have e1 : ∑ i ∈ Finset.range n, (sargs 1).jac.den i 0 = ∑ s ∈ Finset.range (maxLen rows), col rows s 1 (0 : Fin 1) := k1.symm
  have e2 : ∑ i ∈ Finset.range n, B * (sargs 0).jac.den i 0 * (sargs 1).jac.den i 0 =
      ∑ s ∈ Finset.range (maxLen rows), B * col rows s 0 (0 : Fin 1) * col rows s 1 (0 : Fin 1) := k2.symm
  rw [e0, e1, e2]
  rcases (show maxLen rows = 0 ∨ maxLen rows = 1 by omega) with h | h
  · rw [h]; simp
  · rw [h, Finset.sum_range_one, Finset.sum_range_one, Finset.sum_range_one]
    ring

/-- Arguments of `x * y`, one element each: `∂x = (1, 0)` and `∂y = (0, 1)`. -/
def scalarArgs : (a : Fin 2) → Trip Unit ℤ := fun a =>
  if a = 0 then ⟨fun _ => 1, .dense [fun _ => 1, fun _ => 0], fun _ => 0⟩ else ⟨fun _ => 1, .dense [fun _ => 0, fun _ => 1], fun _ => 0⟩

/-- **C47 (false already for scalars).** `x * y` wrapped with `flags=LINEAR_IN_ONE`, `x` depending on input `0` only and `y` on
input `1` only: the true contribution is `0`, and `2` is returned. -/
theorem C47_scalar_counterexample :
    (∃ h, (scalarForm (1 : ℤ) (P := fun _ => Unit) (Q := Unit) (fun _ u => u) fun _ => none).hessianTransform 0 scalarArgs = .ok h ∧ h () = 2) ∧
    2 * ∑ i ∈ Finset.range 2, ((scalarArgs 0).jac.den i () : ℤ) * (scalarArgs 1).jac.den i () = 0 := by
  refine ⟨⟨_, rfl, by decide⟩, by decide⟩

/-- **C47 (one Jacobian row).** For slices of any size and one Jacobian row, the contraction is with `1 × 1` matrix `x · y`, which is stretched: the
sum of all entries of the mixed block times the inner product of the two rows comes out. -/
theorem C47_one_row {P : Fin 2 → Type} {Q : Type} (I : HInst 2 P Q F) (v : I.V) (sargs : (a : Fin 2) → Trip (Fin (I.dim a)) F)
    (idx : Option (List ℤ)) (rows : (a : Fin 2) → List (Fin (I.dim a) → F))
    (hrows : reducedJacobians (fun a => (sargs a).jac) idx = .ok rows) (hone : maxLen rows = 1) (hd : I.dim 0 = I.dim 1) :
    ∃ r, I.offDiagJHJ v sargs idx = .ok r ∧ ∀ o, r o = 2 * I.hess v (fun a => (sargs a).x) (Pi.single 0 fun _ => 1) (Pi.single 1 fun _ => 1) o *
      ∑ c : Fin (I.dim 0), col rows 0 0 c * col rows 0 1 (c.cast hd) := by
  unfold HInst.offDiagJHJ
  rw [dif_pos rfl, hrows]
  dsimp only
  rw [dif_pos ⟨hd, Or.inr (Or.inr hone)⟩]
  refine ⟨_, rfl, fun o => ?_⟩
  have h1 : ∀ (a : Fin 2), (Pi.single a fun _ => 1 : (a : Fin 2) → Fin (I.dim a) → F) = ∑ i : Fin (I.dim a), unit ⟨a, i⟩ := by
    intro a
    funext b c
    rw [Finset.sum_apply, Finset.sum_apply]
    by_cases hb : b = a
    · subst hb
      rw [Pi.single_eq_same, Finset.sum_eq_single c]
      · unfold unit; rw [Pi.single_eq_same, Pi.single_eq_same]
      · intro d _ hdc; unfold unit; rw [Pi.single_eq_same, Pi.single_eq_of_ne (Ne.symm hdc)]
      · simp
    · rw [Pi.single_eq_of_ne hb]
      symm
      refine Finset.sum_eq_zero fun d _ => ?_
      unfold unit; rw [Pi.single_eq_of_ne hb]; rfl
  have h2 : ∀ i j, HInst.einsumFactor (I.dim 0) (maxLen rows) (fun r s => ∑ c : Fin (I.dim 0), col rows r 0 c * col rows s 1 (c.cast hd)) i j =
      ∑ c : Fin (I.dim 0), col rows 0 0 c * col rows 0 1 (c.cast hd) := by
    intro i j
    unfold HInst.einsumFactor
    rw [hone]
    split
    · simp
    · rfl
  rw [h1 0, h1 1]
  simp only [map_sum, LinearMap.sum_apply, Finset.sum_apply]
  rw [mul_assoc, Finset.sum_mul, Finset.sum_comm]
  refine congrArg (2 * ·) (Finset.sum_congr rfl fun j _ => ?_)
  rw [Finset.sum_mul]
  exact Finset.sum_congr rfl fun i _ => congrArg₂ (· * ·) rfl (h2 _ _)

/-- **C47 (multiplication of a one-element slice with a longer one).** The rule for multiplications stretches the shorter slice; it is exact for
`f(x, y) = x₀ ∑_c y_c`. -/
theorem C47_product_stretched (n : ℕ) {P : Fin 2 → Type} {Q : Type} (I : HInst 2 P Q F) (sargs : (a : Fin 2) → Trip (Fin (I.dim a)) F)
    (hwf : ∀ a, (sargs a).jac.Wf n) (idx : Option (List ℤ)) (hidx : IdxOk (fun a => (sargs a).jac) idx)
    (h0 : I.dim 0 = 1) (h1 : I.dim 1 ≠ 1) (r : I.O → F) (hr : I.dotJHJ sargs idx = .ok r) (o : I.O) :
    r o = 2 * ∑ i ∈ Finset.range n, (sargs 0).jac.den i ⟨0, by omega⟩ * ∑ c, (sargs 1).jac.den i c := by
  unfold HInst.dotJHJ at hr
  rw [dif_pos rfl] at hr
  split at hr
  · simp at hr
  rename_i rows hrows
  dsimp only at hr
  rw [dif_neg (fun h => h1 (h.symm.trans h0)), dif_pos (show I.dim ⟨0, by omega⟩ = 1 from h0)] at hr
  rw [← Except.ok.inj hr]
  have key := reduced_sum n _ hwf idx hidx rows hrows (fun g => g 0 ⟨0, by omega⟩ * ∑ c, g 1 c) (by simp)
  refine congrArg (2 * ·) (Eq.trans (Finset.sum_congr rfl fun s _ => ?_) key)
  exact (Finset.mul_sum ..).symm

/-- The same with the longer slice first: `f(x, y) = (∑_c x_c) y₀`. -/
theorem C47_product_stretched' (n : ℕ) {P : Fin 2 → Type} {Q : Type} (I : HInst 2 P Q F) (sargs : (a : Fin 2) → Trip (Fin (I.dim a)) F)
    (hwf : ∀ a, (sargs a).jac.Wf n) (idx : Option (List ℤ)) (hidx : IdxOk (fun a => (sargs a).jac) idx)
    (h0 : I.dim 0 ≠ 1) (h1 : I.dim 1 = 1) (r : I.O → F) (hr : I.dotJHJ sargs idx = .ok r) (o : I.O) :
    r o = 2 * ∑ i ∈ Finset.range n, (∑ c, (sargs 0).jac.den i c) * (sargs 1).jac.den i ⟨0, by omega⟩ := by
  unfold HInst.dotJHJ at hr
  rw [dif_pos rfl] at hr
  split at hr
  · simp at hr
  rename_i rows hrows
  dsimp only at hr
  rw [dif_neg (fun h => h0 (h.trans h1)), dif_neg (show ¬ I.dim ⟨0, by omega⟩ = 1 from h0), dif_pos (show I.dim ⟨1, by omega⟩ = 1 from h1)] at hr
  rw [← Except.ok.inj hr]
  have key := reduced_sum n _ hwf idx hidx rows hrows (fun g => (∑ c, g 0 c) * g 1 ⟨0, by omega⟩) (by simp)
  refine congrArg (2 * ·) (Eq.trans (Finset.sum_congr rfl fun s _ => ?_) key)
  exact (Finset.sum_mul ..).symm

/-- Slices of one and of two elements. -/
def stretchHInst : HInst 2 (fun a => Fin (if a = 0 then 1 else 2)) Unit ℤ :=
  { elemHInst (P := fun a : Fin 2 => Fin (if a = 0 then 1 else 2)) (fun _ v => v 0 * v 1) (fun _ v a => if a = 0 then v 1 else v 0) (fun _ _ _ _ => 0)
      (fun a _ => ⟨0, by split <;> omega⟩) (fun _ => none) Flags.MULTIPLICATION true false none with
    K := fun _ => Unit, dim := fun a => if a = 0 then 1 else 2, hsplit := fun _ => (Equiv.punitProd _).symm, hκ := fun _ _ => (), hess := fun _ _ => 0
    custom := none }

/-- `2 · (3 · (5 + 7)) = 72`. -/
example : ∃ r, stretchHInst.dotJHJ (fun a => ⟨fun _ => 1, .dense [fun c => if a = 0 then 3 else 5 + 2 * c.val], fun _ => 0⟩) none = .ok r ∧ r () = 72 := by
  refine ⟨_, rfl, by decide⟩

/-- Non-vacuity of `C47_scalar_value` and `C47_scalar_partial`: two one-element arguments with one Jacobian row each. -/
example : ∃ r, (scalarForm (3 : ℤ) (P := fun _ => Unit) (Q := Unit) (fun _ u => u) fun _ => none).offDiagJHJ ()
    (fun a => ⟨fun _ => 1, .dense [fun _ => if a = 0 then 5 else 7], fun _ => 0⟩) none = .ok r ∧ r () = 2 * 3 * 5 * 7 := by
  refine ⟨_, rfl, by decide⟩

end C47

end Folx

import Verif.Prog.ScatterPrim
import Verif.Core.ScatterTotal
import Mathlib.Data.Real.Basic
import Mathlib.Tactic.NormNum

/-!
# C40: `operand.at[idx].set(updates)`

Specification: `scatterSet hit op upd q` is `upd u` if element `q` is overwritten with update `u` (`hit q = some u`)
and `op q` otherwise.  The property says that value, every row of the Jacobian, and the Laplacian of the result are
obtained in this way from those of operand and updates.
-/

namespace Folx

open Folx.Interp (Err)

/-- The result `t` has the derivatives of the surviving elements. -/
structure ScatterExact {P₀ P₁ F : Type} [AddCommMonoid F] (hit : P₀ → Option P₁) (op : Trip P₀ F) (upd : Trip P₁ F)
    (t : Trip P₀ F) : Prop where
  x : ∀ q, t.x q = scatterSet hit op.x upd.x q
  jac : ∀ i q, t.jac.den i q = scatterSet hit (op.jac.den i) (upd.jac.den i) q
  lapl : ∀ q, t.lapl q = scatterSet hit op.lapl upd.lapl q

section
variable {F : Type} [CommRing F] {P : Fin 2 → Type} [∀ a, Fintype (P a)] [∀ a, DecidableEq (P a)]
  (c : Scatter (P 0) (P 1)) (π : (a : Fin 2) → P 0 → P a)

/-- The operand is sparse and has at least one axis, and the updates are dense. -/
def Leaks (op : Trip (P 0) F) (upd : Trip (P 1) F) : Prop :=
  op.jac.weak = true ∧ upd.jac.weak = false ∧ c.opScalar = none

/-- The operand is dense, the updates are sparse and have an axis, and the dimension numbers are those of a segment
operation (`x.at[idx].set(u)` for one-dimensional `x`, `idx`, `u`). -/
def TakesSegment (op : Trip (P 0) F) (upd : Trip (P 1) F) (g : Seg (P 1) (P 0)) : Prop :=
  op.jac.weak = false ∧ upd.jac.weak = true ∧ c.updScalar = none ∧ c.seg = some g

/-- **C40, partial.** Operand and updates both carry derivatives.  Whenever the rule returns, the result has the
derivatives of the surviving elements, in all combinations of sparse and dense representations, except that
* if the operand is sparse and the updates are dense, the operand's derivatives must vanish where it is overwritten, and
* if the operand is dense and the updates are sparse and written by the segment rule, no input index may be stored twice
  among the updates of one element.
Both exceptions are real: `C40_counterexample_leak`, `C40_counterexample_count`. -/
theorem C40_partial (hc : c.Ok) (n : ℕ) (hn : 0 < n) (T : ℕ) (args : (a : Fin 2) → Trip (P a) F)
    (hwf : ∀ a, (args a).jac.Wf n)
    (h1 : Leaks c (args 0) (args 1) → ∀ q u, c.hit q = some u →
      (∀ i, (args 0).jac.den i q = 0) ∧ (args 0).lapl q = 0)
    (h2 : ∀ g, TakesSegment c (args 0) (args 1) g → g.NoRepeat (args 1).jac.srows)
    (t : Trip (P 0) F) (h : (scatterInst c π : HInst 2 P (P 0) F).wrapped T args = .ok t) :
    ScatterExact c.hit (args 0) (args 1) t ∧ t.jac.Wf n := by
  obtain ⟨a1, a2, a3⟩ := scatter_rule c π hc n hn T args hwf (fun w0 w1 hs g hg => h2 g ⟨w0, w1, hs, hg⟩) t h
  split at a3
  · rename_i hl
    refine ⟨⟨fun q => by rw [a1], fun i q => ?_, fun q => ?_⟩, a2⟩
    · rw [a3.1]
      unfold scatterSet
      cases hq : c.hit q with
      | none => simp
      | some u => simp [(h1 hl q u hq).1 i]
    · rw [a3.2]
      unfold scatterSet
      cases hq : c.hit q with
      | none => simp
      | some u => simp [(h1 hl q u hq).2]
  · exact ⟨⟨fun q => by rw [a1], a3.1, a3.2⟩, a2⟩

/-- **C40 (what a sparse operand with dense updates gives).** At overwritten elements the derivatives of operand and update
are added. -/
theorem C40_leak (hc : c.Ok) (n : ℕ) (hn : 0 < n) (T : ℕ) (args : (a : Fin 2) → Trip (P a) F)
    (hwf : ∀ a, (args a).jac.Wf n) (h1 : Leaks c (args 0) (args 1))
    (t : Trip (P 0) F) (h : (scatterInst c π : HInst 2 P (P 0) F).wrapped T args = .ok t) (q : P 0) (u : P 1)
    (hq : c.hit q = some u) :
    t.x q = (args 1).x u ∧ (∀ i, t.jac.den i q = (args 0).jac.den i q + (args 1).jac.den i u) ∧
      t.lapl q = (args 0).lapl q + (args 1).lapl u := by
  obtain ⟨a1, a2, a3⟩ := scatter_rule c π hc n hn T args hwf
    (fun w0 w1 => absurd w0 (by rw [h1.1]; simp)) t h
  rw [if_pos (show (args 0).jac.weak = true ∧ (args 1).jac.weak = false ∧ c.opScalar = none from h1)] at a3
  refine ⟨by rw [a1]; simp [scatterSet, hq], fun i => by rw [a3.1]; simp [scatterSet, hq], by rw [a3.2]; simp [scatterSet, hq]⟩

/-- **C40 (exactly when).** With a sparse operand and dense updates the result is right if and only if the operand's
derivatives vanish at every overwritten element. -/
theorem C40_leak_iff (hc : c.Ok) (n : ℕ) (hn : 0 < n) (T : ℕ) (args : (a : Fin 2) → Trip (P a) F)
    (hwf : ∀ a, (args a).jac.Wf n) (h1 : Leaks c (args 0) (args 1))
    (t : Trip (P 0) F) (h : (scatterInst c π : HInst 2 P (P 0) F).wrapped T args = .ok t) :
    ScatterExact c.hit (args 0) (args 1) t ↔ ∀ q u, c.hit q = some u →
      (∀ i, (args 0).jac.den i q = 0) ∧ (args 0).lapl q = 0 := by
  constructor
  · intro hx q u hq
    obtain ⟨_, b1, b2⟩ := C40_leak c π hc n hn T args hwf h1 t h q u hq
    refine ⟨fun i => ?_, ?_⟩
    · have := hx.jac i q
      rw [b1 i] at this
      simpa [scatterSet, hq] using this
    · have := hx.lapl q
      rw [b2] at this
      simpa [scatterSet, hq] using this
  · intro hz
    exact (C40_partial c π hc n hn T args hwf (fun _ => hz)
      (fun g hg => absurd hg.1 (by rw [h1.1]; simp)) t h).1

/-- **C40 (only the operand carries derivatives)**, in any representation: exact; overwritten elements have derivative
zero. -/
theorem C40_operand {P₀ P₁ : Type} [Fintype P₀] [DecidableEq P₀] (c : Scatter P₀ P₁) (u : P₁ → F) (n : ℕ) (hn : 0 < n)
    (T : ℕ) (op : Trip P₀ F) (hwf : op.jac.Wf n) (t : Trip P₀ F)
    (h : (scatterOperand c u).wrapped T (fun _ => op) = .ok t) :
    ScatterExact c.hit op ⟨u, .dense [], fun _ => 0⟩ t ∧ t.jac.Wf n := by
  obtain ⟨w1, w2, w3, w4⟩ := wrapped_nonstatic (scatterOperand c u) (show scatterFlags.has Flags.INDEXING = true by decide)
    rfl rfl n hn T (fun _ => op) (fun _ => hwf) t h
  refine ⟨⟨fun q => by rw [w1]; rfl, fun i q => ?_, fun q => by rw [w4]; rfl⟩, w2⟩
  rw [w3]
  show scatterSet c.hit (op.jac.den i) (fun _ => 0) q = _
  simp only [scatterSet, Jac.den]
  cases c.hit q <;> simp

/-- **C40 (only the updates carry derivatives)**, in any representation: exact. -/
theorem C40_updates {P₀ P₁ : Type} [Fintype P₀] [DecidableEq P₀] [Fintype P₁] [DecidableEq P₁] (c : Scatter P₀ P₁)
    (x₀ : P₀ → F) (π : P₀ → P₁) (n : ℕ) (hn : 0 < n) (T : ℕ) (upd : Trip P₁ F) (hwf : upd.jac.Wf n) (t : Trip P₀ F)
    (h : (scatterUpdates c x₀ π).wrapped T (fun _ => upd) = .ok t) :
    ScatterExact c.hit ⟨x₀, .dense [], fun _ => 0⟩ upd t ∧ t.jac.Wf n := by
  obtain ⟨w1, w2, w3, w4⟩ := wrapped_nonstatic (scatterUpdates c x₀ π)
    (show scatterFlags.has Flags.INDEXING = true by decide) rfl rfl n hn T (fun _ => upd) (fun _ => hwf) t h
  refine ⟨⟨fun q => by rw [w1]; rfl, fun i q => ?_, fun q => by rw [w4]; rfl⟩, w2⟩
  rw [w3]
  show scatterSet c.hit (fun _ => 0) (upd.jac.den i) q = _
  simp only [scatterSet, Jac.den]
  cases c.hit q <;> simp

end

/-! ### Concrete calls -/

namespace ScatterDemo

/-- `x.at[jnp.array([i0, i1])].set(u)` for `x` with three and `u` with two elements. -/
def call (i0 i1 : Fin 3) : Scatter (Fin 3) (Fin 2) where
  hit := fun q => if q = i1 then some 1 else if q = i0 then some 0 else none
  static := true
  seg := some ⟨3, Equiv.refl _, ![i0, i1], true⟩
  opScalar := none
  updScalar := none
  updSame := none

theorem call_ok (i0 i1 : Fin 3) : (call i0 i1).Ok where
  seg := by
    intro g hg q u hq
    obtain rfl : _ = g := Option.some.inj hg
    simp only [call] at hq
    show ![i0, i1] u = q
    split at hq
    · rename_i h; obtain rfl : (1 : Fin 2) = u := Option.some.inj hq; exact h.symm
    · split at hq
      · rename_i h; obtain rfl : (0 : Fin 2) = u := Option.some.inj hq; exact h.symm
      · simp at hq
  opScalar := by intro p hp; simp [call] at hp
  updScalar := by intro p hp; simp [call] at hp

abbrev Pos : Fin 2 → Type := fun a => Fin (![3, 2] a)

def pos : (a : Fin 2) → Pos 0 → Pos a := fun a _ => match a with
  | 0 => (0 : Fin 3)
  | 1 => (0 : Fin 2)

/-- `x` itself (three inputs), sparse. -/
def xSparse : Trip (Fin 3) ℤ := ⟨![5, 6, 7], .sparse [⟨fun q => (q : ℤ), fun _ => 1⟩], fun _ => 0⟩
/-- `x` itself, dense. -/
def xDense : Trip (Fin 3) ℤ := ⟨![5, 6, 7], .dense [![1, 0, 0], ![0, 1, 0], ![0, 0, 1]], fun _ => 0⟩
/-- Two elements depending on all three inputs, e.g. `(x.sum(), 2 * x.sum())`, dense. -/
def uDense : Trip (Fin 2) ℤ := ⟨![18, 36], .dense [![1, 2], ![1, 2], ![1, 2]], fun _ => 0⟩
/-- `(x[2], x[1])`, sparse. -/
def uSparse : Trip (Fin 2) ℤ := ⟨![7, 6], .sparse [⟨![2, 1], fun _ => 1⟩], fun _ => 0⟩
/-- `(x[1], x[1])`, sparse. -/
def uTwice : Trip (Fin 2) ℤ := ⟨![6, 6], .sparse [⟨![1, 1], fun _ => 1⟩], fun _ => 0⟩

def args (op : Trip (Fin 3) ℤ) (upd : Trip (Fin 2) ℤ) : (a : Fin 2) → Trip (Pos a) ℤ := fun a => match a with
  | 0 => op
  | 1 => upd

def run (i0 i1 : Fin 3) (op : Trip (Fin 3) ℤ) (upd : Trip (Fin 2) ℤ) : Except Err (Trip (Fin 3) ℤ) :=
  (scatterInst (F := ℤ) (P := Pos) (call i0 i1) pos).wrapped 6 (args op upd)

/-- The segment operation of `call 2 2`. -/
def seg22 : Seg (Fin 2) (Fin 3) := ⟨3, Equiv.refl _, ![2, 2], true⟩

theorem mask22 : segMask seg22 uTwice.jac.srows 2 0 2 = 2 ∧ segMask seg22 uTwice.jac.srows 2 0 1 = -1 ∧
    segMask seg22 uTwice.jac.srows 2 0 0 = -1 := by
  have h2 : segCol seg22 uTwice.jac.srows 2 2 = {2} := by decide
  have h1 : segCol seg22 uTwice.jac.srows 2 1 = ∅ := by decide
  have h0 : segCol seg22 uTwice.jac.srows 2 0 = ∅ := by decide
  unfold segMask
  rw [h0, h1, h2]
  simp

/-- The segment operation of `call 0 1`. -/
def seg01 : Seg (Fin 2) (Fin 3) := ⟨3, Equiv.refl _, ![0, 1], true⟩

/-- The updates' part of `call 2 2`. -/
theorem part22 : ∃ o r, singleJvp ((scatterInst (F := ℤ) (P := Pos) (call 2 2) pos).toInst.single
    (fun a => (args xDense uTwice a).x) 1) 6 uTwice = .ok o ∧
      o.jac = .sparse [r] ∧ (r.idx = fun q : Fin 3 => segMask seg22 uTwice.jac.srows 2 0 q) ∧
      r.val (0 : Fin 3) = 0 ∧ r.val (1 : Fin 3) = 0 ∧
      r.val (2 : Fin 3) = (if matchIdx [segMask seg22 uTwice.jac.srows 2 0 2] 1 = 0 then 1 else 0) + 0 :=
  ⟨_, _, rfl, rfl, rfl, rfl, rfl, rfl⟩

/-- The operand's part. -/
theorem part22' : ∃ o, singleJvp ((scatterInst (F := ℤ) (P := Pos) (call 2 2) pos).toInst.single
    (fun a => (args xDense uTwice a).x) 0) 6 xDense = .ok o ∧
      o.y (2 : Fin 3) = 6 ∧ o.jac = .dense [![1, 0, 0], ![0, 1, 0], ![0, 0, 0]] := by
  refine ⟨_, rfl, rfl, ?_⟩
  have : ∀ a b c a' b' c' : Fin 3 → ℤ, a = a' → b = b' → c = c' →
    (Jac.dense [a, b, c] : Jac (Fin 3) ℤ) = .dense [a', b', c'] := by rintro _ _ _ _ _ _ rfl rfl rfl; rfl
  apply this <;> · funext q; fin_cases q <;> rfl

theorem den22 (J₀ J₁ : Jac (Fin 3) ℤ) (r : Row (Fin 3) ℤ) (h0 : J₀ = .dense [![1, 0, 0], ![0, 1, 0], ![0, 0, 0]])
    (h1 : J₁ = .sparse [r]) (hv : r.val 2 = 0) (i : ℕ) : J₀.den i 2 + J₁.den i 2 = 0 := by
  have e1 : (Jac.dense [![1, 0, 0], ![0, 1, 0], ![0, 0, 0]] : Jac (Fin 3) ℤ).den i 2 = 0 := by
    match i with
    | 0 => rfl
    | 1 => rfl
    | 2 => rfl
    | _ + 3 => rfl
  have e2 : (Jac.sparse [r] : Jac (Fin 3) ℤ).den i 2 = 0 := by
    simp [Jac.den, hv]
  rw [h0, h1, e1, e2]; rfl

/-- A sparse operand with dense updates: `y = x.at[[0, 2]].set((s, 2 s))` with `s = x.sum()`.  The result has
`∂y[0]/∂x[0] = 2` instead of `1`. -/
theorem leak_value : ∃ t, run 0 2 xSparse uDense = .ok t ∧ t.x 0 = uDense.x 0 ∧ t.jac.den 0 0 = 2 ∧
    uDense.jac.den 0 0 = 1 := ⟨_, rfl, rfl, rfl, rfl⟩

theorem run_total (i0 i1 : Fin 3) (op : Trip (Fin 3) ℤ) (upd : Trip (Fin 2) ℤ) (h0 : op.jac.Filled) (h1 : upd.jac.Filled)
    (hs : op.jac.weak = false → upd.jac.weak = true → (i0 = 2 ∨ i1 = 2) ∧ ∃ r ∈ upd.jac.srows, ∃ u, 0 ≤ r.idx u) :
    ∃ t, run i0 i1 op upd = .ok t := by
  have : ∀ a, Nonempty (Pos a) := fun a => by fin_cases a <;> exact ⟨(0 : Fin (_ + 1))⟩
  refine scatter_total (P := Pos) (F := ℤ) (call i0 i1) pos 6 (args op upd) (fun a => by fin_cases a <;> assumption) ?_
  intro w0 w1 _ g hg
  obtain rfl : _ = g := Option.some.inj hg
  obtain ⟨a, b⟩ := hs w0 w1
  refine ⟨rfl, ?_, b⟩
  have : ∀ i0 i1 : Fin 3, i0 = 2 ∨ i1 = 2 → (⟨3, Equiv.refl _, ![i0, i1], true⟩ : Seg (Fin 2) (Fin 3)).numSegments = 3 := by
    decide
  exact this i0 i1 a

end ScatterDemo

open ScatterDemo in
/-- **C40 is false as stated (sparse operand, dense updates).** The derivative of the overwritten operand element is
still in the result. -/
theorem C40_counterexample_leak : ∃ t, run 0 2 xSparse uDense = .ok t ∧
    ¬ ScatterExact (call 0 2).hit xSparse uDense t := by
  obtain ⟨t, h, _, h2, _⟩ := leak_value
  refine ⟨t, h, fun hx => ?_⟩
  have := hx.jac 0 0
  rw [h2] at this
  exact absurd this (by decide)

open ScatterDemo in
/-- **C40 is false as stated (dense operand, sparse updates).** `y = x.at[[2, 2]].set((x[1], x[1]))`: `y[2]` is `x[1]`, but
its derivative is zero in the result. -/
theorem C40_counterexample_count : ∃ t, run 2 2 xDense uTwice = .ok t ∧ t.x 2 = 6 ∧ (∀ i, t.jac.den i 2 = 0) ∧
    uTwice.jac.den 1 1 = 1 ∧ ¬ ScatterExact (call 2 2).hit xDense uTwice t := by
  obtain ⟨t, h⟩ := run_total 2 2 xDense uTwice (fun h => absurd h (by decide)) (fun _ => by decide)
    (fun _ _ => ⟨Or.inl rfl, _, List.mem_singleton.mpr rfl, 0, by decide⟩)
  obtain ⟨o, r, h1, hj1, hidx, v0, v1, v2⟩ := part22
  obtain ⟨o', h0, hy, hj0⟩ := part22'
  obtain ⟨m2, m1, m0⟩ := mask22
  rw [m2] at v2
  have v2 : r.val (2 : Fin 3) = 0 := by rw [v2]; decide
  have hwf1 : o.jac.Wf 3 := by
    rw [hj1]
    intro r' hr' q
    obtain rfl : r' = r := List.mem_singleton.mp hr'
    have e := congrFun hidx q
    fin_cases q
    · have e : r'.idx (0 : Fin 3) = -1 := e.trans m0
      exact ⟨lt_of_eq_of_lt e (by decide), fun _ => ⟨e, v0⟩⟩
    · have e : r'.idx (1 : Fin 3) = -1 := e.trans m1
      exact ⟨lt_of_eq_of_lt e (by decide), fun _ => ⟨e, v1⟩⟩
    · have e : r'.idx (2 : Fin 3) = 2 := e.trans m2
      exact ⟨lt_of_eq_of_lt e (by decide), fun hh => absurd (lt_of_eq_of_lt e.symm hh) (by decide)⟩
  have hwf0 : o'.jac.Wf 3 := by rw [hj0]; exact (by decide : 3 ≤ 3)
  have key : t.x 2 = 6 ∧ ∀ i, t.jac.den i 2 = o'.jac.den i (2 : Fin 3) + o.jac.den i (2 : Fin 3) := by
    unfold run HInst.wrapped at h
    split at h
    · simp at h
    rename_i oo hoo
    have e : jvpRule (scatterInst (F := ℤ) (P := Pos) (call 2 2) pos).toInst 6 (args xDense uTwice) =
      oneByOne (scatterInst (F := ℤ) (P := Pos) (call 2 2) pos).toInst 6 (args xDense uTwice) := rfl
    rw [e] at hoo
    obtain ⟨p0, p1, j, e0, e1, ea, rfl⟩ := oneByOne_two _ 6 _ oo hoo
    obtain rfl : o' = p0 := Except.ok.inj (h0.symm.trans e0)
    obtain rfl : o = p1 := Except.ok.inj (h1.symm.trans e1)
    have ea := Jac.add_compat 3 (by decide) _ _ _ hwf0 hwf1 (Or.inl (by rw [hj0]; rfl)) ea
    obtain rfl := Except.ok.inj h
    exact ⟨hy, fun i => ea.1 i (2 : Fin 3)⟩
  have hz : ∀ i, t.jac.den i 2 = 0 := fun i => (key.2 i).trans (den22 o'.jac o.jac r hj0 hj1 v2 i)
  refine ⟨t, h, key.1, hz, rfl, fun hx => ?_⟩
  have := hx.jac 1 2
  rw [hz] at this
  exact absurd this (by decide)

open ScatterDemo in
/-- **C40 (the rule may raise).** `y = x.at[[0, 1]].set((x[2], x[1]))` for a dense `x` with three elements: the last
element is not written to, so the mask of the updates has fewer columns than the data. -/
theorem C40_counterexample_raises : run 0 1 xDense uSparse = .error .shape := by
  have hp : singleJvp ((scatterInst (F := ℤ) (P := Pos) (call 0 1) pos).toInst.single
      (fun a => (args xDense uSparse a).x) 1) 6 uSparse = .error .shape := by
    have hm0 : segMask seg01 uSparse.jac.srows 3 0 0 = 2 := by
      have h : segCol seg01 uSparse.jac.srows 3 0 = {2} := by decide
      unfold segMask; rw [h]; simp
    have hm1 : segMask seg01 uSparse.jac.srows 3 0 1 = 1 := by
      have h : segCol seg01 uSparse.jac.srows 3 1 = {1} := by decide
      unfold segMask; rw [h]; simp
    have : ∀ (o2 : JvpOut (Fin 3) ℤ) (_ : Decidable (∀ s < seg01.numSegments, ∀ j < 1,
        segMask seg01 uSparse.jac.srows 3 j s = segMask seg01 uSparse.jac.srows 3 j 0)),
      (if ∀ s < seg01.numSegments, ∀ j < 1,
        segMask seg01 uSparse.jac.srows 3 j s = segMask seg01 uSparse.jac.srows 3 j 0 then .ok o2 else .error .shape) =
      (.error .shape : Except Err (JvpOut (Fin 3) ℤ)) := by
      intro o2 _
      rw [if_neg]
      intro hh
      have := hh 1 (by decide) 0 (by decide)
      rw [hm0, hm1] at this
      exact absurd this (by decide)
    exact this _ _
  have e : jvpRule (scatterInst (F := ℤ) (P := Pos) (call 0 1) pos).toInst 6 (args xDense uSparse) = .error .shape := by
    show oneByOne (scatterInst (F := ℤ) (P := Pos) (call 0 1) pos).toInst 6 (args xDense uSparse) = .error .shape
    unfold oneByOne
    rw [List.ofFn_succ, List.ofFn_succ, List.ofFn_zero]
    have e : (0 : Fin 1).succ = (1 : Fin 2) := rfl
    have hp' : singleJvp ((scatterInst (F := ℤ) (P := Pos) (call 0 1) pos).toInst.single
      (fun a => (args xDense uSparse a).x) 1) 6 (args xDense uSparse 1) = .error .shape := hp
    rw [e, hp']
    rfl
  unfold run HInst.wrapped
  rw [e]
  rfl

/-- **C40 (when the rule returns).** With non-empty arrays and sparse Jacobians with at least one storage row, the rule
returns, except possibly for a dense operand with sparse updates written by the segment rule, which needs indices known
at trace time, the last element among those written to (`C40_counterexample_raises`) and one stored input index. -/
theorem C40_returns {F : Type} [CommRing F] {P : Fin 2 → Type} [∀ a, Fintype (P a)] [∀ a, DecidableEq (P a)]
    [∀ a, Nonempty (P a)] (c : Scatter (P 0) (P 1)) (π : (a : Fin 2) → P 0 → P a) (T : ℕ)
    (args : (a : Fin 2) → Trip (P a) F) (hf : ∀ a, (args a).jac.weak = true → (args a).jac.nrows ≠ 0)
    (hs : ∀ g, TakesSegment c (args 0) (args 1) g → g.concrete = true ∧ (∃ u, (g.ids u : ℕ) + 1 = g.N) ∧
      ∃ r ∈ (args 1).jac.srows, ∃ u, 0 ≤ r.idx u) :
    ∃ t, (scatterInst c π : HInst 2 P (P 0) F).wrapped T args = .ok t := by
  refine scatter_total c π T args hf fun w0 w1 hu g hg => ?_
  obtain ⟨h1, ⟨u, h2⟩, h3⟩ := hs g ⟨w0, w1, hu, hg⟩
  refine ⟨h1, le_antisymm (Finset.sup_le fun u _ => (g.ids u).isLt) ?_, h3⟩
  rw [← h2]
  exact Finset.le_sup (f := fun u => (g.ids u : ℕ) + 1) (Finset.mem_univ u)

namespace ScatterDemo

/-! The calls below meet the hypotheses of the theorems. -/

theorem wf_args {op : Trip (Fin 3) ℤ} {upd : Trip (Fin 2) ℤ} (h0 : op.jac.Wf 3) (h1 : upd.jac.Wf 3) :
    ∀ a, (args op upd a).jac.Wf 3 := fun a => by
  fin_cases a
  · exact h0
  · exact h1

theorem xSparse_wf : xSparse.jac.Wf 3 := by
  intro r hr q
  obtain rfl := List.mem_singleton.mp hr
  revert q
  decide

theorem xDense_wf : xDense.jac.Wf 3 := (by decide : 3 ≤ 3)
theorem uDense_wf : uDense.jac.Wf 3 := (by decide : 3 ≤ 3)

theorem uSparse_wf : uSparse.jac.Wf 3 := by
  intro r hr q
  obtain rfl := List.mem_singleton.mp hr
  revert q
  decide

/-- The operand is constant at the two elements that are overwritten. -/
def xPart : Trip (Fin 3) ℤ := ⟨![5, 6, 7], .sparse [⟨![-1, 1, -1], ![0, 1, 0]⟩], fun _ => 0⟩

theorem xPart_wf : xPart.jac.Wf 3 := by
  intro r hr q
  obtain rfl := List.mem_singleton.mp hr
  revert q
  decide

/-- The segment operation of `call 0 2` stores no index twice. -/
theorem noRepeat02 : Seg.NoRepeat (⟨3, Equiv.refl _, ![0, 2], true⟩ : Seg (Fin 2) (Fin 3)) uSparse.jac.srows := by
  intro s i
  unfold segCount
  rw [Fin.sum_univ_two]
  have l : ∀ u : Fin 2, (uSparse.jac.srows.filter fun r => decide (r.idx u = (i : ℤ))).length ≤ 1 :=
    fun u => List.length_filter_le _ _
  have h0 := l 0
  have h1 := l 1
  generalize (uSparse.jac.srows.filter fun r => decide (r.idx 0 = (i : ℤ))).length = a at h0 ⊢
  generalize (uSparse.jac.srows.filter fun r => decide (r.idx 1 = (i : ℤ))).length = b at h1 ⊢
  show (if 0 = s then a else 0) + (if 2 = s then b else 0) ≤ 1
  rcases Nat.eq_zero_or_pos s with h | h
  · rw [if_neg (by omega : ¬ 2 = s)]
    split <;> omega
  · rw [if_neg (by omega : ¬ 0 = s)]
    split <;> omega

/-- All four combinations of representations return the exact derivatives under the hypotheses of `C40_partial`. -/
example : ∃ t, run 0 2 xSparse uSparse = .ok t ∧ t.jac.weak = true ∧ ScatterExact (call 0 2).hit xSparse uSparse t :=
  ⟨_, rfl, rfl, (C40_partial (call 0 2) pos (call_ok 0 2) 3 (by decide) 6 (args xSparse uSparse)
    (wf_args xSparse_wf uSparse_wf) (fun h => absurd h.2.1 (by decide)) (fun g h => absurd h.1 (by decide)) _ rfl).1⟩

example : ∃ t, run 0 2 xDense uDense = .ok t ∧ ScatterExact (call 0 2).hit xDense uDense t :=
  ⟨_, rfl, (C40_partial (call 0 2) pos (call_ok 0 2) 3 (by decide) 6 (args xDense uDense)
    (wf_args xDense_wf uDense_wf) (fun h => absurd h.1 (by decide)) (fun g h => absurd h.2.1 (by decide)) _ rfl).1⟩

example : ∃ t, run 0 2 xDense uSparse = .ok t ∧ ScatterExact (call 0 2).hit xDense uSparse t := by
  obtain ⟨t, h⟩ := run_total 0 2 xDense uSparse (fun h => absurd h (by decide)) (fun _ => by decide)
    (fun _ _ => ⟨Or.inr rfl, _, List.mem_singleton.mpr rfl, 0, by decide⟩)
  refine ⟨t, h, (C40_partial (call 0 2) pos (call_ok 0 2) 3 (by decide) 6 (args xDense uSparse)
    (wf_args xDense_wf uSparse_wf) (fun h => absurd h.1 (by simp [args, xDense, Jac.weak])) (fun g hg => ?_) t (by unfold run at h; exact h)).1⟩
  obtain rfl := Option.some.inj hg.2.2.2
  exact noRepeat02

example : ∃ t, run 0 2 xPart uDense = .ok t ∧ ScatterExact (call 0 2).hit xPart uDense t := by
  refine ⟨_, rfl, (C40_leak_iff (call 0 2) pos (call_ok 0 2) 3 (by decide) 6 (args xPart uDense)
    (wf_args xPart_wf uDense_wf) ⟨rfl, rfl, rfl⟩ _ rfl).mpr ?_⟩
  suffices hs : ∀ (q : Fin 3) u, (call 0 2).hit q = some u → (∀ i, xPart.jac.den i q = 0) ∧ xPart.lapl q = 0 from hs
  intro q u hq
  refine ⟨fun i => ?_, rfl⟩
  fin_cases q
  · simp [xPart, Jac.den]
  · simp [call] at hq
  · simp [xPart, Jac.den]

/-- Only one of the two carries derivatives. -/
example : ∃ t, (scatterOperand (call 0 2) (F := ℤ) ![1, 2]).wrapped 6 (fun _ => xSparse) = .ok t ∧
    t.jac.den 0 0 = 0 ∧ t.jac.den 1 1 = 1 := ⟨_, rfl, rfl, rfl⟩

example : ∃ t, (scatterUpdates (call 0 2) (F := ℤ) ![5, 6, 7] (fun _ => 0)).wrapped 6 (fun _ => uSparse) = .ok t ∧
    t.jac.den 2 0 = 1 ∧ t.jac.den 1 2 = 1 := ⟨_, rfl, rfl, rfl⟩

end ScatterDemo

end Folx

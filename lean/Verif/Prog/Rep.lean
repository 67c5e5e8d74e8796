import Mathlib.Analysis.RCLike.Basic
import Verif.Calc.Deriv2
import Verif.Prog.Values
import Verif.Core.WrappedProofs

/-!
# What the interpreter's values mean

Specification: a `FwdLaplArray` represents a function `u` of the inputs at a base point if it holds its value,
its derivatives in the given directions (one per input), and the sum of its second derivatives in these
directions.
-/

namespace Folx

open Filter Topology

/-- Where derivatives are taken: a point and one direction per (flattened) input. -/
structure Base (X : Type) where
  n : ℕ
  x0 : X
  dir : Fin n → X

variable {X : Type} [NormedAddCommGroup X] [NormedSpace ℝ X] {F : Type} [RCLike F]

/-- The triple `t` holds value, Jacobian and Laplacian of `u`. -/
structure TripRep (B : Base X) {m : ℕ} (t : Trip (Fin m) F) (u : X → Fin m → F) : Prop where
  x : t.x = u B.x0
  wf : t.jac.Wf B.n
  deriv : ∃ D H, HasFDeriv2At u D H B.x0 ∧ (∀ i : Fin B.n, t.jac.den i = D (B.dir i)) ∧
    t.lapl = ∑ i, H (B.dir i) (B.dir i)

/-- A plain array represents a function that is constant near the base point; a `FwdLaplArray` holds value and
derivatives.  `inv` is an additional property of the stored Jacobians (e.g. being dense). -/
def OpdRep (B : Base X) (inv : ∀ m, Jac (Fin m) F → Prop) {m : ℕ} (o : Opd F m) (u : X → Fin m → F) : Prop :=
  match o with
  | .plain a => a = u B.x0 ∧ u =ᶠ[𝓝 B.x0] fun _ => a
  | .lapl t => TripRep B t u ∧ inv m t.jac

/-- A plain array depending on the inputs. -/
abbrev FArr (X F : Type) := Σ m : ℕ, X → Fin m → F

/-- Its value at a point. -/
def FArr.at {X F : Type} (g : FArr X F) (x : X) : PArr F := ⟨g.1, g.2 x⟩

/-- A value of the interpreter represents a function of the inputs. -/
def Represents (B : Base X) (inv : ∀ m, Jac (Fin m) F → Prop) (v : PVal F) (g : FArr X F) : Prop :=
  ∃ u : X → Fin v.1 → F, g = ⟨v.1, u⟩ ∧ OpdRep B inv v.2 u

/-- `p`'s rule turns representations of its operands into representations of its results, at operand
values `x`. -/
def Prim.SoundAt (p : Prim F) (inv : ∀ m, Jac (Fin m) F → Prop) (T n : ℕ)
    (x : (i : Fin p.nIn) → Fin (p.size i) → F) : Prop :=
  ∀ (X : Type) [NormedAddCommGroup X] [NormedSpace ℝ X] (B : Base X)
    (o : (i : Fin p.nIn) → Opd F (p.size i)) (u : (i : Fin p.nIn) → X → Fin (p.size i) → F)
    (r : (j : Fin p.nOut) → Opd F (p.outSize j)),
    B.n = n → (∀ i, u i B.x0 = x i) → (∀ i, OpdRep B inv (o i) (u i)) → (∃ i, (o i).isLapl = true) →
    p.rule T o = .ok r → ∀ j, OpdRep B inv (r j) fun y => p.fwd (fun i => u i y) j

/-! ### Unpacking -/

section Unpack
open Folx.Interp (Err)

theorem castTo_eq {β : ℕ → Type} (m : ℕ) (v : Σ m, β m) (b : β m) :
    castTo m v = .ok b ↔ v = ⟨m, b⟩ := by
  unfold castTo
  obtain ⟨k, c⟩ := v
  by_cases h : k = m
  · subst h
    simp
  · simp only [h, dite_false, reduceCtorEq, false_iff]
    intro hc
    exact h (congrArg Sigma.fst hc)

theorem unpack_eq {β : ℕ → Type} {k : ℕ} (size : Fin k → ℕ) (l : List (Σ m, β m))
    (o : (i : Fin k) → β (size i)) : unpack size l = .ok o ↔ l = List.ofFn fun i => ⟨size i, o i⟩ := by
  unfold unpack
  constructor
  · intro h
    split at h
    · rename_i hl
      have := seqFin_ok _ _ h
      apply List.ext_get (by simp [hl])
      intro i h1 h2
      have h3 := (castTo_eq _ _ _).mp (this ⟨i, by omega⟩)
      rw [List.get_ofFn]
      exact h3
    · simp at h
  · intro h
    have hl : l.length = k := by rw [h, List.length_ofFn]
    rw [dif_pos hl]
    apply seqFin_of_ok
    intro i
    rw [castTo_eq]
    subst h
    rw [List.get_ofFn]
    rfl

end Unpack

theorem repr_unpack (B : Base X) (inv : ∀ m, Jac (Fin m) F → Prop) {k : ℕ} (size : Fin k → ℕ)
    (vals : List (PVal F)) (gs : List (FArr X F)) (hr : List.Forall₂ (Represents B inv) vals gs)
    (o : (i : Fin k) → Opd F (size i)) (ho : unpack (β := Opd F) size vals = .ok o) :
    ∃ u : (i : Fin k) → X → Fin (size i) → F, gs = (List.ofFn fun i => (⟨size i, u i⟩ : FArr X F)) ∧
      ∀ i, OpdRep B inv (o i) (u i) := by
  rw [unpack_eq] at ho
  subst ho
  have hlen : gs.length = k := by rw [← hr.length_eq, List.length_ofFn]
  have : ∀ i : Fin k, ∃ u : X → Fin (size i) → F, gs.get (i.cast hlen.symm) = ⟨size i, u⟩ ∧
      OpdRep B inv (o i) u := by
    intro i
    have := hr.get (i := i) (by simp) (by omega)
    rw [List.get_ofFn] at this
    exact this
  choose u h1 h2 using this
  refine ⟨u, ?_, h2⟩
  apply List.ext_get (by simp [hlen])
  intro i hi _
  rw [List.get_ofFn]
  exact h1 ⟨i, by omega⟩

/-- A sound rule relates the rule on values with the primitive on plain arrays. -/
theorem Prim.call_rel (p : Prim F) (inv : ∀ m, Jac (Fin m) F → Prop) (T : ℕ) (B : Base X)
    (vals : List (PVal F)) (gs : List (FArr X F)) (ys : List (PVal F))
    (hr : List.Forall₂ (Represents B inv) vals gs) (hl : ∃ v ∈ vals, v.2.isLapl = true)
    (hs : ∀ x, unpack (β := fun m => Fin m → F) p.size (gs.map fun g => g.at B.x0) = .ok x →
      p.SoundAt inv T B.n x)
    (h : p.call T vals = .ok ys) :
    ∃ outs : List (FArr X F), (∀ x, p.bind (gs.map fun g => g.at x) = .ok (outs.map fun g => g.at x)) ∧
      List.Forall₂ (Represents B inv) ys outs := by
  unfold Prim.call at h
  cases h1 : unpack (β := Opd F) p.size vals with
  | error e => simp [h1] at h
  | ok o =>
    simp only [h1] at h
    cases h2 : p.rule T o with
    | error e => simp [h2] at h
    | ok r =>
      simp only [h2, Except.ok.injEq] at h
      subst h
      obtain ⟨u, hu, hrep⟩ := repr_unpack B inv p.size vals gs hr o h1
      have hat : ∀ x, unpack (β := fun m => Fin m → F) p.size (gs.map fun g => g.at x) =
          .ok fun i => u i x := by
        intro x
        rw [unpack_eq, hu, List.map_ofFn]
        rfl
      have hsound := hs _ (hat B.x0)
      have hex : ∃ i, (o i).isLapl = true := by
        obtain ⟨v, hv, hvl⟩ := hl
        rw [(unpack_eq _ _ _).mp h1, List.mem_ofFn] at hv
        obtain ⟨i, rfl⟩ := hv
        exact ⟨i, hvl⟩
      have hres := hsound X B o u r rfl (fun _ => rfl) hrep hex h2
      refine ⟨List.ofFn fun j => ⟨p.outSize j, fun y => p.fwd (fun i => u i y) j⟩, fun x => ?_, ?_⟩
      · unfold Prim.bind
        rw [hat x]
        simp only [List.map_ofFn]
        rfl
      · rw [List.forall₂_iff_get]
        refine ⟨by simp, fun i h3 h4 => ?_⟩
        rw [List.get_ofFn, List.get_ofFn]
        exact ⟨_, rfl, hres _⟩

/-- Operands that are all plain represent locally constant functions; so does the ordinary result. -/
theorem Prim.bind_rel (p : Prim F) (inv : ∀ m, Jac (Fin m) F → Prop) (B : Base X)
    (vals : List (PVal F)) (gs : List (FArr X F)) (ys : List (PArr F))
    (hr : List.Forall₂ (Represents B inv) vals gs) (hl : ∀ v ∈ vals, v.2.isLapl = false)
    (h : p.bind (vals.map fun v => ⟨v.1, v.2.x⟩) = .ok ys) :
    ∃ outs : List (FArr X F), (∀ x, p.bind (gs.map fun g => g.at x) = .ok (outs.map fun g => g.at x)) ∧
      List.Forall₂ (Represents B inv) (ys.map fun a => ⟨a.1, .plain a.2⟩) outs := by
  unfold Prim.bind at h
  cases h1 : unpack (β := fun m => Fin m → F) p.size (vals.map fun v => ⟨v.1, v.2.x⟩) with
  | error e => simp [h1] at h
  | ok o =>
    simp only [h1, Except.ok.injEq] at h
    subst h
    have hvals : vals = List.ofFn fun i => (⟨p.size i, .plain (o i)⟩ : PVal F) := by
      rw [unpack_eq] at h1
      have : vals = (vals.map fun v => (⟨v.1, v.2.x⟩ : PArr F)).map
          fun a => (⟨a.1, .plain a.2⟩ : PVal F) := by
        rw [List.map_map]
        conv_lhs => rw [← List.map_id vals]
        apply List.map_congr_left
        intro v hv
        have := hl v hv
        obtain ⟨m, w⟩ := v
        cases w with
        | plain a => rfl
        | lapl t => simp [Opd.isLapl] at this
      rw [this, h1, List.map_ofFn]
      rfl
    have h1' : unpack (β := Opd F) p.size vals = .ok fun i => .plain (o i) := by
      rw [unpack_eq, hvals]
    obtain ⟨u, hu, hrep⟩ := repr_unpack B inv p.size vals gs hr _ h1'
    have hat : ∀ x, unpack (β := fun m => Fin m → F) p.size (gs.map fun g => g.at x) =
        .ok fun i => u i x := by
      intro x
      rw [unpack_eq, hu, List.map_ofFn]
      rfl
    refine ⟨List.ofFn fun j => ⟨p.outSize j, fun y => p.fwd (fun i => u i y) j⟩, fun x => ?_, ?_⟩
    · unfold Prim.bind
      rw [hat x]
      simp only [List.map_ofFn]
      rfl
    · rw [List.forall₂_map_left_iff, List.forall₂_iff_get]
      refine ⟨by simp, fun i h3 h4 => ?_⟩
      rw [List.get_ofFn, List.get_ofFn]
      refine ⟨_, rfl, ?_⟩
      have hx : (fun i => u i B.x0) = o := funext fun i => (hrep i).1.symm
      refine ⟨?_, ?_⟩
      · dsimp only
        rw [hx]
        rfl
      · have hev : ∀ᶠ y in 𝓝 B.x0, ∀ i, u i y = o i := eventually_all.mpr fun i => (hrep i).2
        filter_upwards [hev] with y hy
        have : (fun i => u i y) = o := funext hy
        rw [this]
        rfl

theorem represents_const (B : Base X) (inv : ∀ m, Jac (Fin m) F → Prop) (p : PArr F) :
    Represents B inv ⟨p.1, .plain p.2⟩ (⟨p.1, fun _ => p.2⟩ : FArr X F) :=
  ⟨fun _ => p.2, rfl, rfl, Eventually.of_forall fun _ => rfl⟩

end Folx

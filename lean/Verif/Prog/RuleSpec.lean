import Verif.Prog.Spec
import Verif.Prog.Wrapped

/-!
# Specification of a single rule

`Holds w x o g` says that the operand `o` describes the function `g` near the input point `x`: a plain array describes a
function that is constant near `x`, a `FwdLaplArray` holds value, Jacobian and Laplacian of `g` (`Exact`).  A rule is
exact if it takes operands that describe functions to results that describe the composed function.
-/

namespace Folx

open Filter Topology

variable {F : Type} [RCLike F]

/-- Which Jacobians occur: with sparsity disabled dense ones with one row per input, with sparsity enabled sparse ones and
dense ones with at least `min T n` rows (C46). -/
def jacInv (sp : Bool) (T n : ℕ) : ∀ m, Jac (Fin m) F → Prop := if sp then bigInv T n else denseInv n

/-- The operand describes `g` near `x`. -/
def Holds {n m : ℕ} (inv : ∀ m, Jac (Fin m) F → Prop) (w x : Fin n → ℝ) (o : Opd F m)
    (g : (Fin n → ℝ) → Fin m → F) : Prop :=
  match o with
  | .plain a => ∀ᶠ z in 𝓝 x, g z = a
  | .lapl t => Exact w x t g ∧ t.jac.Wf n ∧ inv m t.jac

/-- The rule of `p` is exact at operand values `v`: for every weights, input point and operands describing functions `u`
that take the values `v`, if the rule returns then the results describe `p ∘ u`. -/
def Prim.ExactRule (p : Prim F) (sp : Bool) (T n : ℕ) (v : (i : Fin p.nIn) → Fin (p.size i) → F) : Prop :=
  ∀ (w x : Fin n → ℝ) (o : (i : Fin p.nIn) → Opd F (p.size i))
    (u : (i : Fin p.nIn) → (Fin n → ℝ) → Fin (p.size i) → F) (r : (j : Fin p.nOut) → Opd F (p.outSize j)),
    (∀ i, u i x = v i) → (∀ i, Holds (jacInv sp T n) w x (o i) (u i)) → (∃ i, (o i).isLapl = true) →
    p.rule T o = .ok r → ∀ j, Holds (jacInv sp T n) w x (r j) fun z => p.fwd (fun i => u i z) j

theorem partialD_eq {n : ℕ} {g : (Fin n → ℝ) → F} {D H} {x : Fin n → ℝ} (h : HasFDeriv2At g D H x) (i : Fin n) :
    partialD i g x = D (Pi.single i 1) ∧ partialD i (partialD i g) x = H (Pi.single i 1) (Pi.single i 1) := by
  refine ⟨?_, ?_⟩
  · unfold partialD
    rw [h.hasFDerivAt.differentiableAt.lineDeriv_eq_fderiv, h.hasFDerivAt.fderiv]
  · obtain ⟨f', k1, k2, k3⟩ := h
    unfold partialD
    have he : (fun z => lineDeriv ℝ g z (Pi.single i 1)) =ᶠ[𝓝 x] fun z => f' z (Pi.single i 1) := by
      filter_upwards [k1] with z hz
      rw [hz.differentiableAt.lineDeriv_eq_fderiv, hz.fderiv]
    have hd : HasFDerivAt (fun z => f' z (Pi.single i 1)) (H.flip (Pi.single i 1)) x := by
      have := k3.clm_apply (hasFDerivAt_const (Pi.single i (1 : ℝ)) x)
      rw [ContinuousLinearMap.comp_zero, zero_add] at this
      exact this
    have hd' := hd.congr_of_eventuallyEq he
    rw [hd'.differentiableAt.lineDeriv_eq_fderiv, hd'.fderiv]
    rfl

theorem TwiceDiff.hasFDeriv2At {n : ℕ} {g : (Fin n → ℝ) → F} {x : Fin n → ℝ} (h : TwiceDiff g x) :
    HasFDeriv2At g (fderiv ℝ g x) (fderiv ℝ (fderiv ℝ g) x) x :=
  ⟨fderiv ℝ g, h.1.mono fun _ hz => hz.hasFDerivAt, rfl, h.2.hasFDerivAt⟩

/-- Exactness is representation at the input base. -/
theorem tripRep_of_exact {n m : ℕ} (w x : Fin n → ℝ) (t : Trip (Fin m) F) (g : (Fin n → ℝ) → Fin m → F)
    (h : Exact w x t g) (hw : t.jac.Wf n) : TripRep (inputBase w x) t g := by
  obtain ⟨h1, h2, h3, -, h5⟩ := h
  obtain ⟨HH, p1, p2⟩ := HasFDeriv2At.pi fun p => (h1 p).hasFDeriv2At
  have hsingle : ∀ i : Fin n, (Pi.single i (w i) : Fin n → ℝ) = w i • Pi.single i (1 : ℝ) := by
    intro i
    rw [← Pi.single_smul]
    simp
  have key1 : ∀ (i : Fin n) p, t.jac.den i p = fderiv ℝ (fun z => g z p) x (Pi.single i (w i)) := by
    intro i p
    rw [h3 i p, (partialD_eq (h1 p).hasFDeriv2At i).1, hsingle, map_smul, RCLike.real_smul_eq_coe_mul]
  have key2 : ∀ p, t.lapl p = ∑ i, fderiv ℝ (fderiv ℝ fun z => g z p) x (Pi.single i (w i)) (Pi.single i (w i)) := by
    intro p
    rw [h5 p]
    refine Finset.sum_congr rfl fun i _ => ?_
    rw [(partialD_eq (h1 p).hasFDeriv2At i).2, hsingle]
    simp only [map_smul, _root_.smul_apply, RCLike.real_smul_eq_coe_mul]
    push_cast
    ring
  refine ⟨funext h2, hw, _, HH, p1, fun i => funext fun p => key1 i p, ?_⟩
  funext p
  rw [key2 p, Finset.sum_apply]
  exact Finset.sum_congr rfl fun i _ => (p2 _ _ p).symm

theorem holds_iff {n m : ℕ} (inv : ∀ m, Jac (Fin m) F → Prop) (w x : Fin n → ℝ) (o : Opd F m)
    (g : (Fin n → ℝ) → Fin m → F) : Holds inv w x o g ↔ OpdRep (inputBase w x) inv o g := by
  cases o with
  | plain a =>
    refine ⟨fun h => ⟨?_, h⟩, fun h => h.2⟩
    exact (Eventually.self_of_nhds (p := fun z => g z = a) h).symm
  | lapl t =>
    exact ⟨fun h => ⟨tripRep_of_exact w x t g h.1 h.2.1, h.2.2⟩,
      fun h => ⟨exact_of_tripRep w x t g h.1, h.1.wf, h.2⟩⟩

theorem exactRule_of_sound (p : Prim F) (sp : Bool) (T n : ℕ) (v : (i : Fin p.nIn) → Fin (p.size i) → F)
    (h : p.SoundAt (jacInv sp T n) T n v) : p.ExactRule sp T n v := by
  intro w x o u r hv ho hl hr j
  rw [holds_iff]
  exact h (Fin n → ℝ) (inputBase w x) o u r rfl hv (fun i => (holds_iff _ w x _ _).mp (ho i)) hl hr j

end Folx

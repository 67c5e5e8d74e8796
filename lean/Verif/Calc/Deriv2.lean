import Mathlib.Analysis.Calculus.FDeriv.Comp
import Mathlib.Analysis.Calculus.FDeriv.CompCLM
import Mathlib.Analysis.Calculus.FDeriv.Prod
import Mathlib.Analysis.Calculus.FDeriv.Add
import Mathlib.Analysis.Calculus.FDeriv.Linear
import Mathlib.Analysis.Calculus.FDeriv.Congr
import Mathlib.Analysis.Calculus.FDeriv.Const

/-!
# Twice differentiable functions and the chain rule for second derivatives

Specification vocabulary only: nothing here refers to the model.
-/

namespace Folx

open Filter Topology

variable {X E G : Type} [NormedAddCommGroup X] [NormedSpace ℝ X] [NormedAddCommGroup E] [NormedSpace ℝ E]
  [NormedAddCommGroup G] [NormedSpace ℝ G]

/-- `f` is twice (Fréchet) differentiable at `x` with first derivative `D` and second derivative `H`. -/
def HasFDeriv2At (f : X → E) (D : X →L[ℝ] E) (H : X →L[ℝ] X →L[ℝ] E) (x : X) : Prop :=
  ∃ f' : X → X →L[ℝ] E, (∀ᶠ y in 𝓝 x, HasFDerivAt f (f' y) y) ∧ f' x = D ∧ HasFDerivAt f' H x

namespace HasFDeriv2At

theorem hasFDerivAt {f : X → E} {D H} {x : X} (h : HasFDeriv2At f D H x) : HasFDerivAt f D x := by
  obtain ⟨f', h1, rfl, _⟩ := h
  exact h1.self_of_nhds

theorem continuousAt {f : X → E} {D H} {x : X} (h : HasFDeriv2At f D H x) : ContinuousAt f x :=
  h.hasFDerivAt.continuousAt

/-- The derivatives are unique; they are Mathlib's `fderiv` and its derivative. -/
theorem eq_fderiv {f : X → E} {D H} {x : X} (h : HasFDeriv2At f D H x) :
    D = fderiv ℝ f x ∧ H = fderiv ℝ (fderiv ℝ f) x := by
  refine ⟨h.hasFDerivAt.fderiv.symm, ?_⟩
  obtain ⟨f', h1, rfl, h2⟩ := h
  have : fderiv ℝ f =ᶠ[𝓝 x] f' := h1.mono fun y hy => hy.fderiv
  rw [this.fderiv_eq, h2.fderiv]

theorem of_eventuallyEq {f g : X → E} {D H} {x : X} (h : HasFDeriv2At f D H x) (hfg : g =ᶠ[𝓝 x] f) :
    HasFDeriv2At g D H x := by
  obtain ⟨f', h1, h2, h3⟩ := h
  refine ⟨f', ?_, h2, h3⟩
  filter_upwards [h1, hfg.eventuallyEq_nhds] with y hy hg
  exact hy.congr_of_eventuallyEq hg

theorem const (c : E) (x : X) : HasFDeriv2At (fun _ => c) 0 0 x :=
  ⟨fun _ => 0, Eventually.of_forall fun _ => hasFDerivAt_const _ _, rfl, hasFDerivAt_const _ _⟩

theorem linear (L : X →L[ℝ] E) (x : X) : HasFDeriv2At L L 0 x :=
  ⟨fun _ => L, Eventually.of_forall fun _ => L.hasFDerivAt, rfl, hasFDerivAt_const _ _⟩

/-- Chain rule: `(f ∘ g)'' (s, t) = f''(g' s, g' t) + f'(g''(s, t))`. -/
theorem comp {f : E → G} {g : X → E} {Df Hf Dg Hg} {x : X} (hf : HasFDeriv2At f Df Hf (g x))
    (hg : HasFDeriv2At g Dg Hg x) : ∃ H, HasFDeriv2At (fun y => f (g y)) (Df.comp Dg) H x ∧
      ∀ s t, H s t = Hf (Dg s) (Dg t) + Df (Hg s t) := by
  have hc := hg.continuousAt
  have hgd := hg.hasFDerivAt
  obtain ⟨f', f1, f2, f3⟩ := hf
  obtain ⟨g', g1, g2, g3⟩ := hg
  have key := HasFDerivAt.clm_comp (f3.comp x hgd) g3
  refine ⟨_, ⟨fun y => (f' (g y)).comp (g' y), ?_, by simp only [f2, g2], key⟩, ?_⟩
  · filter_upwards [hc.eventually f1, g1] with y h1 h2
    exact h1.comp y h2
  · intro s t
    simp [f2, g2, add_comm]

/-- A continuous linear map after a twice differentiable function. -/
theorem clm_comp {g : X → E} {Dg Hg} {x : X} (L : E →L[ℝ] G) (hg : HasFDeriv2At g Dg Hg x) :
    ∃ H, HasFDeriv2At (fun y => L (g y)) (L.comp Dg) H x ∧ ∀ s t, H s t = L (Hg s t) := by
  obtain ⟨H, h1, h2⟩ := comp (linear L (g x)) hg
  exact ⟨H, h1, fun s t => by simp [h2]⟩

theorem sum {ι : Type} [Fintype ι] {g : ι → X → E} {D : ι → X →L[ℝ] E} {H : ι → X →L[ℝ] X →L[ℝ] E} {x : X}
    (hg : ∀ a, HasFDeriv2At (g a) (D a) (H a) x) :
    HasFDeriv2At (fun y => ∑ a, g a y) (∑ a, D a) (∑ a, H a) x := by
  choose g' h1 h2 h3 using hg
  refine ⟨fun y => ∑ a, g' a y, ?_, by simp [h2], HasFDerivAt.fun_sum fun a _ => h3 a⟩
  have := eventually_all.mpr h1
  filter_upwards [this] with y hy
  exact HasFDerivAt.fun_sum fun a _ => hy a

/-- Families of twice differentiable functions. -/
theorem pi {ι : Type} [Fintype ι] {W : ι → Type} [∀ a, NormedAddCommGroup (W a)] [∀ a, NormedSpace ℝ (W a)]
    {g : (a : ι) → X → W a} {D : (a : ι) → X →L[ℝ] W a} {H : (a : ι) → X →L[ℝ] X →L[ℝ] W a} {x : X}
    (hg : ∀ a, HasFDeriv2At (g a) (D a) (H a) x) :
    ∃ HH, HasFDeriv2At (fun y a => g a y) (ContinuousLinearMap.pi D) HH x ∧
      ∀ s t a, HH s t a = H a s t := by
  classical
  have h := fun a => clm_comp (ContinuousLinearMap.single ℝ W a) (hg a)
  choose HH h1 h2 using h
  have hs := HasFDeriv2At.sum h1
  have e1 : (fun y => ∑ a, (ContinuousLinearMap.single ℝ W a) (g a y)) = fun y a => g a y := by
    funext y a
    simp [ContinuousLinearMap.single_apply, Finset.sum_apply, Finset.sum_pi_single]
  have e2 : (∑ a, (ContinuousLinearMap.single ℝ W a).comp (D a)) = ContinuousLinearMap.pi D := by
    ext y a
    simp [ContinuousLinearMap.sum_apply, ContinuousLinearMap.single_apply, Finset.sum_apply,
      Finset.sum_pi_single]
  rw [e1, e2] at hs
  refine ⟨_, hs, fun s t a => ?_⟩
  simp [ContinuousLinearMap.sum_apply, h2, ContinuousLinearMap.single_apply, Finset.sum_apply,
      Finset.sum_pi_single]

/-- Component of a family. -/
theorem proj {ι : Type} [Fintype ι] {W : ι → Type} [∀ a, NormedAddCommGroup (W a)] [∀ a, NormedSpace ℝ (W a)]
    {g : X → (a : ι) → W a} {D H} {x : X} (hg : HasFDeriv2At g D H x) (a : ι) :
    ∃ HH, HasFDeriv2At (fun y => g y a) ((ContinuousLinearMap.proj a).comp D) HH x ∧
      ∀ s t, HH s t = H s t a := by
  obtain ⟨H', h1, h2⟩ := clm_comp (ContinuousLinearMap.proj (R := ℝ) (φ := W) a) hg
  exact ⟨H', h1, fun s t => by simp [h2]⟩

end HasFDeriv2At

end Folx

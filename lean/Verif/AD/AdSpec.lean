import Mathlib.Analysis.Calculus.LineDeriv.Basic
import Mathlib.Analysis.Calculus.ContDiff.Basic
import Mathlib.Analysis.RCLike.Basic

/-!
# Specification vocabulary for derivatives of functions of several arrays

Textbook directional and partial derivatives; nothing here refers to the model.
-/

namespace Folx.AD

open Filter Topology

variable {V H : Type} [NormedAddCommGroup V] [NormedSpace ℝ V] [NormedAddCommGroup H] [NormedSpace ℝ H]

/-- Derivative of `t ↦ f (x + t v)` at `0`. -/
noncomputable def dirD (v : V) (f : V → H) (x : V) : H := lineDeriv ℝ f x v

/-- The function is differentiable near `x` and its derivative is differentiable at `x`. -/
def Twice {W : Type} [NormedAddCommGroup W] [NormedSpace ℝ W] (f : V → W) (x : V) : Prop :=
  (∀ᶠ z in 𝓝 x, DifferentiableAt ℝ f z) ∧ DifferentiableAt ℝ (fderiv ℝ f) x

/-- The tuple of arrays with entry `s` at position `q` of array `j` and zeros elsewhere. -/
def unitAt {k : ℕ} {size : Fin k → ℕ} {F : Type} [Zero F] (j : Fin k) (q : Fin (size j)) (s : F) :
    (j : Fin k) → Fin (size j) → F :=
  Pi.single j (Pi.single q s)

end Folx.AD

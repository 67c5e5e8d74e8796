import Verif.ND.CallLib
import Verif.Props.WrapProps

/-! # C58 for `jnp.sum` and for indexing operations -/

namespace Folx.Layout
open Vmap Dot

section
variable {X : Type} [NormedAddCommGroup X] [NormedSpace ℝ X] {F : Type} [RCLike F] [Inhabited F] {B : Base X}

/-- **C58 (sums).**  `jnp.sum(x, axes)`, as registered, never raises - not even if no element of a sparse argument depends on an input - and holds value, derivatives and
Laplacian of the sum, for dense and sparse Jacobians and every threshold. -/
theorem C58_sum (T : ℕ) (hn : 0 < B.n) {s dims : List ℕ} (h0 : 0 ∉ s) (hd : dims.Nodup) (hr : ∀ d ∈ dims, d < s.length) (fil : Bool) {arg : ArrTrip F} {u : X → Fin s.prod → F}
    (hrep : ArrRep B s arg u) :
    ∃ t, (sumArr fil s dims).wrapped (k := 0) T (fun _ => arg) [] = some t ∧
      ∃ v, ArrRep B (dropDims s dims) t v ∧ ∀ y q, InB q (dropDims s dims) → (toND (dropDims s dims) (v y)).get q = sumOver s dims (toND s (u y)).get q := by
  have hT := sumArr_truthful (F := F) (fil := fil) (x := fun _ => u B.x0) h0 hd hr
  obtain ⟨h1, h2⟩ := C58_linear (A := sumArr fil s dims) (k := 0) (args := fun _ => arg) (u := fun _ => u) (extras := []) T hn hT.outSize
    (Or.inl (by show Flags.SUMMATION.has _ = true; decide)) (fun _ => hrep) ⟨0, Filter.Eventually.of_forall fun y => rfl⟩ hT.axes
    (fun h => absurd h (by show ¬ Flags.SUMMATION.has _ = true; decide))
    (by
      by_cases h : arg.jac.idx = none
      · exact Or.inl fun _ => h
      · exact Or.inr (Or.inl ⟨fun _ => h, Or.inr (Or.inr rfl)⟩))
  cases hw : (sumArr fil s dims).wrapped (k := 0) T (fun _ => arg) [] with
  | none =>
    obtain ⟨⟨a, d, m, h3, -⟩, -⟩ := h1.mp hw
    have h4 : (sumArr (F := F) fil s dims).flags.has Flags.SUMMATION = true := by show Flags.SUMMATION.has _ = true; decide
    rw [h4] at h3
    exact absurd h3 (by show ¬ (none : Option (List ℕ)) = _; simp)
  | some t =>
    refine ⟨t, rfl, _, h2 t hw, fun y q hq => ?_⟩
    have : (sumArr fil s dims).fwd (fun _ => u y) = sumL s dims (u y) := by
      show sumL s dims (u y) + 0 = _
      rw [add_zero]
    rw [this]
    exact sumL_get (u y) hq

/-- The sum over the last axis of a (2, 2) array of inputs. -/
example (x : Fin 5 → ℝ) (sp : Bool) (T : ℕ) : ∃ t, (sumArr (F := ℝ) true [2, 2] [1]).wrapped (k := 0) T (fun _ => exIn x sp 1 [2, 2] (by decide)) [] = some t ∧
    ∃ v, ArrRep (inputBase x fun _ => 1) [2] t v ∧ ∀ y : Fin 5 → ℝ, (toND [2] (v y)).get [1] = y 3 + y 4 := by
  obtain ⟨t, h1, v, h2, h3⟩ := C58_sum (F := ℝ) (B := inputBase x fun _ => 1) (s := [2, 2]) (dims := [1]) (arg := exIn x sp 1 [2, 2] (by decide))
    (u := fun y => inputPart (off := 1) (s := [2, 2]) (by decide) y) T (by show 0 < 5; decide) (by decide) (by decide) (by decide) true
    (C58_input sp (by decide) (by decide) x _)
  refine ⟨t, h1, v, h2, fun y => (h3 y [1] (by decide)).trans ?_⟩
  have e : ((Dot.allIdx [2, 2]).filter fun p => keptOf [1] p = [1]) = [[1, 0], [1, 1]] := by decide +kernel
  unfold sumOver
  rw [e]
  show _ + (_ + 0) = _
  rw [add_zero]
  rfl

end

end Folx.Layout

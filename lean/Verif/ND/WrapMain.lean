import Verif.ND.WrapProofs
import Verif.Props.FirstProps
import Verif.Props.HessArrProps

/-! # A wrapped function on arrays: the second-order term by flags -/

namespace Folx.Layout
open Vmap Dot

theorem has_of_has {f a b : Flags} (hab : a &&& b = b) (h : f.has a = true) : f.has b = true := by
  unfold Flags.has at h ⊢
  rw [beq_iff_eq] at h ⊢
  rw [← hab, ← Nat.land_assoc, h]

section
variable {X : Type} [NormedAddCommGroup X] [NormedSpace ℝ X] {F : Type} [RCLike F] [Inhabited F] {k : ℕ} {ss : Fin (k + 1) → List ℕ} {out : List ℕ}
variable {B : Base X} {T : ℕ} {A : ArrFn F ss out} {extras : List (ND F × List ℕ)} {b Bt : List ℕ}
  {args : Fin (k + 1) → ArrTrip F} {u : (a : Fin (k + 1)) → X → Fin (ss a).prod → F}

/-- The second-order term is right (`wrapped_parts`). -/
def SecondOk (B : Base X) (T : ℕ) (A : ArrFn F ss out) (extras : List (ND F × List ℕ)) (Bt : List ℕ) (args : Fin (k + 1) → ArrTrip F)
    (u : (a : Fin (k + 1)) → X → Fin (ss a).prod → F) : Prop :=
  ∃ R, A.second T args extras = some R ∧ Broadcasts [R.shape, out] out ∧
    ∀ v q, InB v Bt → InB q A.sliceOut → R.get (bcoord R.shape out (v ++ q)) =
      ∑ i ∈ Finset.range B.n, A.hess (extras.map fun e => bslice e.1 e.2 Bt v) (fun a => sliceVec (ss a) (A.inAxes.second (ss a).length) Bt v (u a B.x0))
        (fun a => sliceVec (ss a) (A.inAxes.second (ss a).length) Bt v (derivsOf ss args i a))
        (fun a => sliceVec (ss a) (A.inAxes.second (ss a).length) Bt v (derivsOf ss args i a)) q

theorem slice_point (hrep : ∀ a, ArrRep B (ss a) (args a) (u a)) (hfit : ∀ a, Fits (ss a) (A.inAxes.second (ss a).length) Bt) {v : List ℕ} (hv : InB v Bt)
    (a : Fin (k + 1)) (c : Fin (A.inAxes.slice (ss a)).prod) :
    sliceVec (ss a) (A.inAxes.second (ss a).length) Bt v (u a B.x0) c =
      (args a).x.get (bindex (ss a) (A.inAxes.second (ss a).length) Bt v (unravelIdx (A.inAxes.slice (ss a)) c)) := by
  rw [(hrep a).x _ (bindex_inB (hfit a).valid (hfit a).len (hfit a).al hv (inB_unravelIdx c.2))]
  rfl

omit [NormedAddCommGroup X] [NormedSpace ℝ X] in
theorem slice_deriv (hfit : ∀ a, Fits (ss a) (A.inAxes.second (ss a).length) Bt) {v : List ℕ} (hv : InB v Bt)
    (i : ℕ) (a : Fin (k + 1)) (c : Fin (A.inAxes.slice (ss a)).prod) :
    sliceVec (ss a) (A.inAxes.second (ss a).length) Bt v (derivsOf ss args i a) c =
      (args a).jac.entry i (bindex (ss a) (A.inAxes.second (ss a).length) Bt v (unravelIdx (A.inAxes.slice (ss a)) c)) := by
  have hin := bindex_inB (hfit a).valid (hfit a).len (hfit a).al hv (inB_unravelIdx c.2)
  show (toND (ss a) _).get _ = _
  rw [toND_get _ _ hin]
  unfold derivsOf
  rw [unravelIdx_ravelIdx hin]

theorem fits_of (hx : ∀ a, (args a).x.shape = ss a) (hC : HessCall B.n (A.trips args) extras b Bt) (a : Fin (k + 1)) :
    Fits (ss a) (A.inAxes.second (ss a).length) Bt := by
  have := hC.fitsB a
  rw [← hx a]
  exact this

theorem second_zero_ok (h : A.second T args extras = some (ND.ofFn [] fun _ => 0))
    (hz : ∀ v q, InB v Bt → InB q A.sliceOut → ∀ s : (a : Fin (k + 1)) → Fin (A.inAxes.slice (ss a)).prod → F,
      A.hess (extras.map fun e => bslice e.1 e.2 Bt v) (fun a => sliceVec (ss a) (A.inAxes.second (ss a).length) Bt v (u a B.x0)) s s q = 0) :
    SecondOk B T A extras Bt args u := by
  refine ⟨_, h, bcast_nil _, fun v q hv hq => ?_⟩
  rw [Finset.sum_eq_zero fun i _ => hz v q hv hq _]
  exact ND.get_ofFn _ List.Forall₂.nil

theorem second_linear (h : A.flags.has Flags.LINEAR = true ∨ (A.flags.has Flags.LINEAR_IN_ONE = true ∧ k = 0) ∨
    (A.flags.has Flags.LINEAR_IN_FIRST = true ∧ A.firstIsLapl = true ∧ k = 0)) : A.second T args extras = some (ND.ofFn [] fun _ => 0) := by
  unfold ArrFn.second
  dsimp only
  by_cases h1 : A.flags.has Flags.LINEAR = true
  · rw [if_pos h1]
  · rw [if_neg h1]
    by_cases h2 : A.flags.has Flags.LINEAR_IN_ONE = true ∧ k = 0
    · rw [if_pos h2]
    · rw [if_neg h2, if_pos ((h.resolve_left h1).resolve_left h2)]

theorem flags_dot {f : Flags} (h : f.has Flags.LINEAR_IN_ONE = false) : f.has Flags.DOT_PRODUCT = false ∧ f.has Flags.LINEAR = false ∧ f.has Flags.MULTIPLICATION = false := by
  refine ⟨?_, ?_, ?_⟩ <;>
  · by_contra hc
    rw [Bool.not_eq_false] at hc
    have := has_of_has (b := Flags.LINEAR_IN_ONE) (by decide) hc
    rw [h] at this
    exact absurd this (by decide)

theorem second_general_def (h1 : A.flags.has Flags.LINEAR_IN_ONE = false) (h2 : ¬ (A.flags.has Flags.LINEAR_IN_FIRST = true ∧ A.firstIsLapl = true ∧ k = 0)) :
    A.second T args extras = hessArr ((A.customFor (List.range (k + 1))).getD (generalSlice (fun a => A.inAxes.slice (ss a)) A.sliceOut A.c2r A.hess A.junk)) false
      (A.flags.has Flags.SPARSE_JHJ) false T (List.ofFn (A.trips args)) extras out := by
  obtain ⟨h3, h4, h5⟩ := flags_dot h1
  unfold ArrFn.second
  dsimp only
  rw [if_neg (by rw [h4]; decide), if_neg (by rw [h1]; simp), if_neg h2]
  cases hc : A.customFor (List.range (k + 1)) with
  | none =>
    dsimp only
    rw [if_neg (by rw [h5]; decide), if_neg (by rw [h1]; decide), h3]
    rfl
  | some g =>
    dsimp only
    rw [h1, h3]
    rfl

/-- The rule that is used computes the trace. -/
theorem second_trace (hc : ∀ g, A.customFor (List.range (k + 1)) = some g →
    A.flags.has Flags.LINEAR_IN_ONE = false ∧ TraceRule (fun a => A.inAxes.slice (ss a)) A.sliceOut A.hess g) :
    TraceRule (fun a => A.inAxes.slice (ss a)) A.sliceOut A.hess
      ((A.customFor (List.range (k + 1))).getD (generalSlice (fun a => A.inAxes.slice (ss a)) A.sliceOut A.c2r A.hess A.junk)) := by
  cases h : A.customFor (List.range (k + 1)) with
  | none => exact general_trace _ _ _ _ _
  | some g => exact (hc g h).2

/-- Functions with a general second derivative. -/
theorem second_general_ok (hrep : ∀ a, ArrRep B (ss a) (args a) (u a)) (hC : HessCall B.n (A.trips args) extras b Bt) (hout : out = Bt ++ A.sliceOut)
    (hc : ∀ g, A.customFor (List.range (k + 1)) = some g →
      A.flags.has Flags.LINEAR_IN_ONE = false ∧ TraceRule (fun a => A.inAxes.slice (ss a)) A.sliceOut A.hess g)
    (h1 : A.flags.has Flags.LINEAR_IN_ONE = false) (h2 : ¬ (A.flags.has Flags.LINEAR_IN_FIRST = true ∧ A.firstIsLapl = true ∧ k = 0))
    (hmix : (∀ a, (args a).jac.idx = none) ∨
      (A.flags.has Flags.SPARSE_JHJ = false ∧ ∃ a, (args a).jac.idx = none ∧ (args a).jac.data.shape.getD 0 0 = B.n) ∨
      (A.flags.has Flags.SPARSE_JHJ = false ∧ denseCall false T (List.ofFn (A.trips args)) b) ∨
      ((∀ a, (args a).jac.idx ≠ none) ∧ ∃ j, Bt = List.replicate j 1 ++ b)) : SecondOk B T A extras Bt args u := by
  have hx : ∀ a, (args a).x.shape = ss a := fun a => (hrep a).arg.x
  have hfit := fits_of hx hC
  unfold SecondOk
  rw [second_general_def h1 h2]
  obtain rfl : ss = fun a => (args a).x.shape := funext fun a => (hx a).symm
  obtain ⟨R, h3, h4⟩ := C56_custom hC (second_trace hc) (A.flags.has Flags.SPARSE_JHJ) T hmix
  refine ⟨R, (congrArg (hessArr _ false (A.flags.has Flags.SPARSE_JHJ) false T _ extras) hout).trans h3,
    (congrArg (fun o => Broadcasts [R.shape, o] o) hout).mpr h4.shape, fun v q hv hq => ?_⟩
  refine (congrArg (fun o => R.get (bcoord R.shape o (v ++ q))) hout).trans ?_
  dsimp only
  rw [h4.value v q hv hq]
  refine Finset.sum_congr rfl fun i _ => ?_
  have e1 : pointAt (A.trips args) Bt v = fun a => sliceVec (args a).x.shape (A.inAxes.second (args a).x.shape.length) Bt v (u a B.x0) := by
    funext a c
    exact (slice_point hrep hfit hv a c).symm
  have e2 : derivAt (A.trips args) Bt v i = fun a => sliceVec (args a).x.shape (A.inAxes.second (args a).x.shape.length) Bt v (derivsOf (fun a => (args a).x.shape) args i a) := by
    funext a c
    exact (slice_deriv hfit hv i a c).symm
  rw [e1, e2]
  rfl

/-- Returning and being right. -/
theorem wrapped_iff {φ : List (ND F) → ((a : Fin (k + 1)) → Fin (A.inAxes.slice (ss a)).prod → F) → List ℕ → F}
    (hrep : ∀ a, ArrRep B (ss a) (args a) (u a)) (hA : A.Computes extras Bt φ fun a => u a B.x0) (h0 : 0 ∉ out)
    (hfit : ∀ a, Fits (ss a) (A.inAxes.second (ss a).length) Bt) (hS : SecondOk B T A extras Bt args u)
    (hp : ∀ r, jvpArr T (A.flags.has Flags.INDEXING) (A.flags.has Flags.JOIN_JVP) (A.inAxes.first (A.flags.has Flags.SUMMATION))
      (A.deriv fun a => u a B.x0) A.ifwd args = some r → IsPush B.n (A.deriv fun a => u a B.x0) args r) :
    (A.wrapped T args extras = none ↔ jvpArr T (A.flags.has Flags.INDEXING) (A.flags.has Flags.JOIN_JVP) (A.inAxes.first (A.flags.has Flags.SUMMATION))
      (A.deriv fun a => u a B.x0) A.ifwd args = none) ∧
    ∀ t, A.wrapped T args extras = some t → ArrRep B out t fun x => A.fwd fun a => u a x := by
  obtain ⟨R, hR, hsh, hval⟩ := hS
  cases hr : jvpArr T (A.flags.has Flags.INDEXING) (A.flags.has Flags.JOIN_JVP) (A.inAxes.first (A.flags.has Flags.SUMMATION))
      (A.deriv fun a => u a B.x0) A.ifwd args with
  | none =>
    have : A.wrapped T args extras = none := by
      unfold ArrFn.wrapped
      rw [valuesOf_eq hrep, hr]
      rfl
    rw [this]
    exact ⟨iff_of_true rfl rfl, fun t h => by simp at h⟩
  | some r =>
    obtain ⟨t, h1, -, h2⟩ := wrapped_parts hrep hA h0 hfit hr (hp r hr) hR hsh hval
    rw [h1]
    refine ⟨iff_of_false (by simp) (by simp), fun t' h => ?_⟩
    cases h
    exact h2

end

end Folx.Layout

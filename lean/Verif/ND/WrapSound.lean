import Verif.ND.BigRows
import Verif.ND.WrapProduct
import Verif.ND.SplitProofs

/-! # A wrapped function on arrays: whatever is returned is right -/

namespace Folx.Layout
open Vmap Dot

section
variable {X : Type} [NormedAddCommGroup X] [NormedSpace ℝ X] {F : Type} [RCLike F] [Inhabited F] {k : ℕ} {ss : Fin (k + 1) → List ℕ} {out : List ℕ}
variable {B : Base X} {T : ℕ} {A : ArrFn F ss out} {extras : List (ND F × List ℕ)} {b Bt : List ℕ}
  {args : Fin (k + 1) → ArrTrip F} {u : (a : Fin (k + 1)) → X → Fin (ss a).prod → F}
  {φ : List (ND F) → ((a : Fin (k + 1)) → Fin (A.inAxes.slice (ss a)).prod → F) → List ℕ → F}

/-- The second-order term is right if there is one. -/
def SecondSound (B : Base X) (T : ℕ) (A : ArrFn F ss out) (extras : List (ND F × List ℕ)) (Bt : List ℕ) (args : Fin (k + 1) → ArrTrip F)
    (u : (a : Fin (k + 1)) → X → Fin (ss a).prod → F) : Prop :=
  ∀ R, A.second T args extras = some R → Broadcasts [R.shape, out] out ∧
    ∀ v q, InB v Bt → InB q A.sliceOut → R.get (bcoord R.shape out (v ++ q)) =
      ∑ i ∈ Finset.range B.n, A.hess (extras.map fun e => bslice e.1 e.2 Bt v) (fun a => sliceVec (ss a) (A.inAxes.second (ss a).length) Bt v (u a B.x0))
        (fun a => sliceVec (ss a) (A.inAxes.second (ss a).length) Bt v (derivsOf ss args i a))
        (fun a => sliceVec (ss a) (A.inAxes.second (ss a).length) Bt v (derivsOf ss args i a)) q

theorem SecondOk.sound (h : SecondOk B T A extras Bt args u) : SecondSound B T A extras Bt args u := by
  obtain ⟨R, h1, h2⟩ := h
  intro R' h3
  rw [h1] at h3
  cases h3
  exact h2

/-- Functions with a general second derivative, any mixture of arguments. -/
theorem second_general_sound' (hrep : ∀ a, ArrRep B (ss a) (args a) (u a)) (hC : HessCall B.n (A.trips args) extras b Bt) (hout : out = Bt ++ A.sliceOut)
    (hc : ∀ g, A.customFor (List.range (k + 1)) = some g →
      A.flags.has Flags.LINEAR_IN_ONE = false ∧ TraceRule (fun a => A.inAxes.slice (ss a)) A.sliceOut A.hess g)
    (h1 : A.flags.has Flags.LINEAR_IN_ONE = false) (h2 : ¬ (A.flags.has Flags.LINEAR_IN_FIRST = true ∧ A.firstIsLapl = true ∧ k = 0))
    (hj : A.flags.has Flags.SPARSE_JHJ = false) (hbig : ∀ a, (args a).jac.Big T B.n) : SecondSound B T A extras Bt args u := by
  have hx : ∀ a, (args a).x.shape = ss a := fun a => (hrep a).arg.x
  have hfit := fits_of hx hC
  intro R hR
  rw [second_general_def h1 h2, hj] at hR
  obtain rfl : ss = fun a => (args a).x.shape := funext fun a => (hx a).symm
  have h4 := second_general_sound hC (second_trace hc) T (fun a ha => hbig a ha)
    ((congrArg (hessArr _ false false false T _ extras) hout).symm.trans hR)
  refine ⟨(congrArg (fun o => Broadcasts [R.shape, o] o) hout).mpr h4.shape, fun v q hv hq => ?_⟩
  refine (congrArg (fun o => R.get (bcoord R.shape o (v ++ q))) hout).trans ?_
  dsimp only
  rw [h4.value v q hv hq]
  refine Finset.sum_congr rfl fun i _ => ?_
  have e1 : pointAt (A.trips args) Bt v = fun a => sliceVec (args a).x.shape (A.inAxes.second (args a).x.shape.length) Bt v (u a B.x0) := by
    funext a c
    exact (slice_point hrep hfit hv a c).symm
  have e2 : derivAt (A.trips args) Bt v i = fun a => sliceVec (args a).x.shape (A.inAxes.second (args a).x.shape.length) Bt v (derivsOf (fun a => (args a).x.shape) args i a) := by
    funext a c
    exact (slice_deriv hfit hv i a c).symm
  rw [e1, e2]
  rfl

/-- Whatever is returned is right. -/
theorem wrapped_sound (hrep : ∀ a, ArrRep B (ss a) (args a) (u a)) (hA : A.Computes extras Bt φ fun a => u a B.x0) (h0 : 0 ∉ out)
    (hfit : ∀ a, Fits (ss a) (A.inAxes.second (ss a).length) Bt) (hS : SecondSound B T A extras Bt args u)
    (hp : ∀ r, jvpArr T (A.flags.has Flags.INDEXING) (A.flags.has Flags.JOIN_JVP) (A.inAxes.first (A.flags.has Flags.SUMMATION))
      (A.deriv fun a => u a B.x0) A.ifwd args = some r → IsPush B.n (A.deriv fun a => u a B.x0) args r)
    {t : ArrTrip F} (h : A.wrapped T args extras = some t) :
    ArrRep B out t (fun x => A.fwd fun a => u a x) ∧ ∃ r, jvpArr T (A.flags.has Flags.INDEXING) (A.flags.has Flags.JOIN_JVP)
      (A.inAxes.first (A.flags.has Flags.SUMMATION)) (A.deriv fun a => u a B.x0) A.ifwd args = some r ∧ t.jac = r.1 := by
  have h' := h
  unfold ArrFn.wrapped at h'
  rw [valuesOf_eq hrep] at h'
  simp only [Option.bind_eq_bind, Option.bind_eq_some_iff] at h'
  obtain ⟨r, hr, R, hR, -⟩ := h'
  obtain ⟨hsh, hval⟩ := hS R hR
  obtain ⟨t', h1, h2, h3⟩ := wrapped_parts hrep hA h0 hfit hr (hp r hr) hR hsh hval
  rw [h] at h1
  cases h1
  exact ⟨h3, r, hr, h2⟩

end

/-! ### The axes of the function of the operands with derivatives -/

section
variable {F : Type} [CommRing F] [Inhabited F] {m k : ℕ} {shape : Fin (m + 1) → List ℕ} {out : List ℕ} {act : Fin (k + 1) → Fin (m + 1)}

theorem extendBy_single (hi : Function.Injective act) (a : Fin (k + 1)) (t : Fin (shape (act a)).prod → F) :
    extendBy (P := fun i => Fin (shape i).prod) act (Pi.single a t) = Pi.single (act a) t := by
  funext i
  by_cases h : ∃ a', act a' = i
  · obtain ⟨a', rfl⟩ := h
    rw [extendBy_act hi]
    by_cases e : a' = a
    · subst e
      rw [Pi.single_eq_same, Pi.single_eq_same]
    · rw [Pi.single_eq_of_ne e, Pi.single_eq_of_ne (fun h => e (hi h))]
  · rw [extendBy_other _ h, Pi.single_eq_of_ne (fun e => h ⟨a, e.symm⟩)]

theorem axesOk_extend (hi : Function.Injective act) {ax : AxesKind} {D : Deriv F shape out} (h : AxesOk ax D) :
    AxesOk (ss := fun a => shape (act a)) ax (D ∘ₗ extendBy (P := fun i => Fin (shape i).prod) act) := by
  have key : ∀ a (t : Fin (shape (act a)).prod → F), (D ∘ₗ extendBy (P := fun i => Fin (shape i).prod) act) (Pi.single a t) = D (Pi.single (act a) t) := by
    intro a t
    rw [LinearMap.comp_apply, extendBy_single hi]
  cases ax with
  | elementwise =>
    refine ⟨fun a => h.bcast (act a), fun t q hq hz => ?_⟩
    refine h.dep _ q hq fun i c hc => ?_
    by_cases hj : ∃ a', act a' = i
    · obtain ⟨a', rfl⟩ := hj
      rw [extendBy_act hi]
      exact hz a' c hc
    · rw [extendBy_other _ hj]
      rfl
  | summation dims =>
    refine ⟨h.1, fun a => ⟨(h.2 (act a)).1, (h.2 (act a)).2.1, fun t q hq => ?_⟩⟩
    rw [key]
    exact (h.2 (act a)).2.2 t q hq
  | reduction axes =>
    cases axes with
    | nested _ => exact h.elim
    | flat axes =>
      intro a
      obtain ⟨h1, h2, h3, h4⟩ := h (act a)
      refine ⟨h1, h2, h3, fun t q hq hz => ?_⟩
      rw [key]
      exact h4 t q hq hz
  | all => trivial

end

end Folx.Layout

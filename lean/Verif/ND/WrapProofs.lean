import Verif.ND.WrapSpec
import Verif.ND.FirstRed
import Verif.ND.HessExact

/-! # A wrapped function on arrays: putting the parts together -/

namespace Folx.Layout
open Vmap Dot

section Calculus
variable {X E F : Type} [NormedAddCommGroup X] [NormedSpace ℝ X] [NormedAddCommGroup E] [NormedSpace ℝ E] [NormedAddCommGroup F] [NormedSpace ℝ F]

/-- The chain rule for a function whose components are functions of linear images of the argument. -/
theorem comp_exact {m : ℕ} {E' : Fin m → Type} [∀ w, NormedAddCommGroup (E' w)] [∀ w, NormedSpace ℝ (E' w)] {U : X → E} {DU HU} {x0 : X}
    (hU : HasFDeriv2At U DU HU x0) {f : E → Fin m → F} {D : E →L[ℝ] (Fin m → F)} (hf : HasFDerivAt f D (U x0)) (S : (w : Fin m) → E →L[ℝ] E' w)
    {ψ : (w : Fin m) → E' w → F} (hψ : ∀ y w, f y w = ψ w (S w y)) {Dψ : (w : Fin m) → E' w →L[ℝ] F} {Hψ : (w : Fin m) → E' w →L[ℝ] E' w →L[ℝ] F}
    (h2 : ∀ w, HasFDeriv2At (ψ w) (Dψ w) (Hψ w) (S w (U x0))) :
    ∃ H, HasFDeriv2At (fun x => f (U x)) (D.comp DU) H x0 ∧ ∀ s t w, H s t w = Hψ w (S w (DU s)) (S w (DU t)) + D (HU s t) w := by
  have hD : ∀ w t, D t w = Dψ w (S w t) := by
    intro w t
    have h3 : HasFDerivAt (fun y => f y w) ((ContinuousLinearMap.proj w).comp D) (U x0) := (hasFDerivAt_pi'.mp hf) w
    have h4 : HasFDerivAt (fun y => f y w) ((Dψ w).comp (S w)) (U x0) := by
      have : (fun y => f y w) = fun y => ψ w (S w y) := funext fun y => hψ y w
      rw [this]
      exact (h2 w).hasFDerivAt.comp (U x0) (S w).hasFDerivAt
    exact congrArg (fun L : E →L[ℝ] F => L t) (h3.unique h4)
  have h5 : ∀ w, ∃ H, HasFDeriv2At (fun x => f (U x) w) ((ContinuousLinearMap.proj w).comp (D.comp DU)) H x0 ∧
      ∀ s t, H s t = Hψ w (S w (DU s)) (S w (DU t)) + D (HU s t) w := by
    intro w
    obtain ⟨H1, g1, g2⟩ := HasFDeriv2At.clm_comp (S w) hU
    obtain ⟨H, g3, g4⟩ := HasFDeriv2At.comp (g := fun x => S w (U x)) (h2 w) g1
    have e1 : (fun x => f (U x) w) = fun x => ψ w (S w (U x)) := funext fun x => hψ _ w
    have e2 : (ContinuousLinearMap.proj w).comp (D.comp DU) = (Dψ w).comp ((S w).comp DU) := by
      ext t
      exact hD w (DU t)
    rw [e1, e2]
    refine ⟨H, g3, fun s t => ?_⟩
    rw [g4, g2, hD]
    rfl
  choose H g1 g2 using h5
  obtain ⟨HH, h6, h7⟩ := HasFDeriv2At.pi g1
  have e3 : ContinuousLinearMap.pi (fun w => (ContinuousLinearMap.proj w).comp (D.comp DU)) = D.comp DU := by
    ext t w
    rfl
  rw [e3] at h6
  exact ⟨HH, h6, fun s t w => by rw [h7, g2]⟩

end Calculus

section
variable {F : Type} [RCLike F] [Inhabited F]

/-- The position of an element of a slice. -/
def slicePos {s skip b v : List ℕ} (hf : Fits s skip b) (hv : InB v b) (c : Fin (skipShape s skip).prod) : Fin s.prod :=
  ⟨ravelIdx s (bindex s skip b v (unravelIdx (skipShape s skip) c)), ravelIdx_lt (bindex_inB hf.valid hf.len hf.al hv (inB_unravelIdx c.2))⟩

omit [RCLike F] in
theorem sliceVec_eq {s skip b v : List ℕ} (hf : Fits s skip b) (hv : InB v b) (x : Fin s.prod → F) (c : Fin (skipShape s skip).prod) :
    sliceVec s skip b v x c = x (slicePos hf hv c) :=
  toND_get _ _ (bindex_inB hf.valid hf.len hf.al hv (inB_unravelIdx c.2))

variable {k : ℕ} {ss sk : Fin k → List ℕ}

/-- All slices, as a linear map. -/
noncomputable def sliceMap {b v : List ℕ} (hf : ∀ a, Fits (ss a) (sk a) b) (hv : InB v b) :
    ((a : Fin k) → Fin (ss a).prod → F) →L[ℝ] ((a : Fin k) → Fin (skipShape (ss a) (sk a)).prod → F) :=
  ContinuousLinearMap.pi fun a => ContinuousLinearMap.pi fun c =>
    (ContinuousLinearMap.proj (R := ℝ) (φ := fun _ : Fin (ss a).prod => F) (slicePos (hf a) hv c)).comp
      (ContinuousLinearMap.proj (R := ℝ) (φ := fun a => Fin (ss a).prod → F) a)

theorem sliceMap_apply {b v : List ℕ} (hf : ∀ a, Fits (ss a) (sk a) b) (hv : InB v b) (y : (a : Fin k) → Fin (ss a).prod → F) :
    sliceMap hf hv y = fun a => sliceVec (ss a) (sk a) b v (y a) := by
  funext a c
  rw [sliceVec_eq (hf a) hv]
  rfl

end

section
variable {X : Type} [NormedAddCommGroup X] [NormedSpace ℝ X] {F : Type} [RCLike F] [Inhabited F] {k : ℕ} {ss : Fin (k + 1) → List ℕ} {out : List ℕ}

theorem addB_spec {x y : ND F} {s : List ℕ} (hx : x.shape = s) (hy : Broadcasts [y.shape, s] s) :
    ∃ z, addB x y = some z ∧ z.shape = s ∧ ∀ p, InB p s → z.get p = x.get p + y.get (bcoord y.shape s p) := by
  have hb : broadcastShapes [x.shape, y.shape] = some s := by
    rw [broadcastShapes_iff, hx]
    obtain ⟨h1, h2, h3, h4⟩ := hy
    exact ⟨fun t ht => h1 t (by simp at ht ⊢; tauto), h2.imp id fun ⟨t, ht, e⟩ => ⟨t, by simp at ht ⊢; tauto, e⟩,
      fun t ht => h3 t (by simp at ht ⊢; tauto), fun j => (h4 j).imp id fun ⟨t, ht, e⟩ => ⟨t, by simp at ht ⊢; tauto, e⟩⟩
  unfold addB
  rw [hb]
  refine ⟨_, rfl, ND.shape_ofFn _ _, fun p hp => ?_⟩
  rw [ND.get_ofFn _ hp, hx, bcoord_self hp]

theorem valuesOf_eq {B : Base X} {args : Fin (k + 1) → ArrTrip F} {u : (a : Fin (k + 1)) → X → Fin (ss a).prod → F}
    (hrep : ∀ a, ArrRep B (ss a) (args a) (u a)) : valuesOf ss args = fun a => u a B.x0 := by
  funext a c
  unfold valuesOf
  rw [vecOf_eq (hrep a).arg.x]
  dsimp only
  rw [(hrep a).x _ (inB_unravelIdx c.2), toND_get _ _ (inB_unravelIdx c.2)]
  exact congrArg _ (Fin.ext (ravelIdx_unravelIdx c.2))

/-- The arguments with their axes. -/
def ArrFn.trips (A : ArrFn F ss out) (args : Fin (k + 1) → ArrTrip F) : Fin (k + 1) → ArrTrip F × List ℕ :=
  fun a => (args a, A.inAxes.second (args a).x.ndim)

/-- If the parts are right, the result represents the composed function. -/
theorem wrapped_parts {B : Base X} {T : ℕ} {A : ArrFn F ss out} {extras : List (ND F × List ℕ)} {Bt : List ℕ}
    {φ : List (ND F) → ((a : Fin (k + 1)) → Fin (A.inAxes.slice (ss a)).prod → F) → List ℕ → F}
    {args : Fin (k + 1) → ArrTrip F} {u : (a : Fin (k + 1)) → X → Fin (ss a).prod → F}
    (hrep : ∀ a, ArrRep B (ss a) (args a) (u a)) (hA : A.Computes extras Bt φ fun a => u a B.x0) (h0 : 0 ∉ out)
    (hfit : ∀ a, Fits (ss a) (A.inAxes.second (ss a).length) Bt)
    {r : FirstOut F} (hr : jvpArr T (A.flags.has Flags.INDEXING) (A.flags.has Flags.JOIN_JVP) (A.inAxes.first (A.flags.has Flags.SUMMATION))
      (A.deriv fun a => u a B.x0) A.ifwd args = some r) (hp : IsPush B.n (A.deriv fun a => u a B.x0) args r)
    {R : ND F} (hR : A.second T args extras = some R)
    (hsh : Broadcasts [R.shape, out] out)
    (hS : ∀ v q, InB v Bt → InB q A.sliceOut → R.get (bcoord R.shape out (v ++ q)) =
      ∑ i ∈ Finset.range B.n, A.hess (extras.map fun e => bslice e.1 e.2 Bt v) (fun a => sliceVec (ss a) (A.inAxes.second (ss a).length) Bt v (u a B.x0))
        (fun a => sliceVec (ss a) (A.inAxes.second (ss a).length) Bt v (derivsOf ss args i a))
        (fun a => sliceVec (ss a) (A.inAxes.second (ss a).length) Bt v (derivsOf ss args i a)) q) :
    ∃ t, A.wrapped T args extras = some t ∧ t.jac = r.1 ∧ ArrRep B out t fun x => A.fwd fun a => u a x := by
  obtain ⟨l, hl1, hl2, hl3⟩ := addB_spec hp.shape hsh
  have hval := valuesOf_eq hrep
  refine ⟨⟨toND out (A.fwd fun a => u a B.x0), r.1, l⟩, ?_, rfl, ⟨⟨rfl, hp.ok, hl2, hp.rows, h0⟩, fun p _ => rfl, ?_⟩⟩
  · unfold ArrFn.wrapped
    rw [hval, hr]
    show (A.second T args extras).bind _ = _
    rw [hR]
    show (addB r.2 R).bind _ = _
    rw [hl1]
    rfl
  · choose D H h1 h2 h3 using fun a => (hrep a).deriv
    obtain ⟨HU, hU, hHU⟩ := HasFDeriv2At.pi h1
    -- the derivatives of the arguments
    have hd : ∀ i : Fin B.n, derivsOf ss args i = fun a => D a (B.dir i) := by
      intro i
      funext a c
      unfold derivsOf
      rw [h2 a i _ (inB_unravelIdx c.2), toND_get _ _ (inB_unravelIdx c.2)]
      exact congrArg _ (Fin.ext (ravelIdx_unravelIdx c.2))
    have hlap : laplsOf ss args = ∑ i, HU (B.dir i) (B.dir i) := by
      funext a c
      unfold laplsOf
      rw [h3 a _ (inB_unravelIdx c.2), toND_get _ _ (inB_unravelIdx c.2), Finset.sum_apply, Finset.sum_apply, Finset.sum_apply]
      refine Finset.sum_congr rfl fun i _ => ?_
      rw [hHU]
      exact congrArg _ (Fin.ext (ravelIdx_unravelIdx c.2))
    obtain ⟨DF, hDF, hDF'⟩ := hA.fst
    -- the elements of the result
    have hw : ∀ w : Fin out.prod, ∃ v q, InB v Bt ∧ InB q A.sliceOut ∧ unravelIdx out w = v ++ q := by
      intro w
      have hin : InB (unravelIdx out w) (Bt ++ A.sliceOut) := by rw [← hA.shape]; exact inB_unravelIdx w.2
      refine ⟨(unravelIdx out w).take Bt.length, (unravelIdx out w).drop Bt.length, ?_, ?_, (List.take_append_drop _ _).symm⟩
      · have := List.forall₂_take Bt.length hin
        rwa [List.take_left] at this
      · have := List.forall₂_drop Bt.length hin
        rwa [List.drop_left] at this
    choose v q hv hq hvq using hw
    have hget : ∀ (y : Fin out.prod → F) w, (toND out y).get (v w ++ q w) = y w := by
      intro y w
      rw [← hvq w, toND_get _ _ (inB_unravelIdx w.2)]
      exact congrArg _ (Fin.ext (ravelIdx_unravelIdx w.2))
    choose Dφ Hφ g1 g2 using fun w => hA.snd (v w) (q w) (hv w) (hq w)
    obtain ⟨HH, k1, k2⟩ := comp_exact hU (f := A.fwd) hDF (fun w => sliceMap hfit (hv w))
      (ψ := fun w z => φ (extras.map fun e => bslice e.1 e.2 Bt (v w)) z (q w)) (fun y w => by
        rw [sliceMap_apply, ← hA.value y (v w) (q w) (hv w) (hq w), hget]) (Dψ := Dφ) (Hψ := Hφ) (fun w => by
        rw [sliceMap_apply]
        exact g1 w)
    refine ⟨_, HH, k1, fun i p hp' => ?_, fun p hp' => ?_⟩
    · show r.1.entry i p = _
      rw [hp.entry i p hp', hd i, ← hDF']
      rfl
    · show l.get p = _
      rw [hl3 p hp', hp.lapl p hp', toND_get _ _ hp', toND_get _ _ hp']
      set w : Fin out.prod := ⟨ravelIdx out p, ravelIdx_lt hp'⟩ with hwdef
      have hpw : p = v w ++ q w := by rw [← hvq w, hwdef]; exact (unravelIdx_ravelIdx hp').symm
      have hRw := hS (v w) (q w) (hv w) (hq w)
      rw [← hpw] at hRw
      rw [hRw, hlap, ← hDF', map_sum, Finset.sum_apply, Finset.sum_apply, ← Fin.sum_univ_eq_sum_range (fun i => A.hess
        (extras.map fun e => bslice e.1 e.2 Bt (v w)) (fun a => sliceVec (ss a) (A.inAxes.second (ss a).length) Bt (v w) (u a B.x0))
        (fun a => sliceVec (ss a) (A.inAxes.second (ss a).length) Bt (v w) (derivsOf ss args i a))
        (fun a => sliceVec (ss a) (A.inAxes.second (ss a).length) Bt (v w) (derivsOf ss args i a)) (q w)) B.n, ← Finset.sum_add_distrib]
      refine Finset.sum_congr rfl fun i _ => ?_
      rw [k2, g2 w, sliceMap_apply, hd i, add_comm]
      rfl

end

end Folx.Layout

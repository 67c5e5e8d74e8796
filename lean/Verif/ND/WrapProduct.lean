import Verif.ND.WrapCase

/-! # A wrapped function on arrays: products -/

namespace Folx.Layout
open Vmap Dot

section
variable {E F : Type} [NormedAddCommGroup E] [NormedSpace ℝ E] [RCLike F]

/-- The derivatives of a product of linear functions. -/
theorem mul_exact' (L M : E →L[ℝ] F) (x : E) :
    ∃ D H, HasFDeriv2At (fun z => L z * M z) D H x ∧ (∀ t, D t = L x * M t + L t * M x) ∧ ∀ s t, H s t = L s * M t + L t * M s := by
  set W := ContinuousLinearMap.mul ℝ F with hW
  set H : E →L[ℝ] E →L[ℝ] F := ((W.precompR E).flip M).comp L + (W.precompL E L).comp M with hH
  have h1 : ∀ y, HasFDerivAt (fun z => L z * M z) (H y) y := by
    intro y
    exact W.hasFDerivAt_of_bilinear L.hasFDerivAt M.hasFDerivAt
  refine ⟨H x, H, ⟨fun y => H y, Filter.Eventually.of_forall h1, rfl, H.hasFDerivAt⟩, fun t => rfl, fun s t => ?_⟩
  rfl

theorem mul_exact (L M : E →L[ℝ] F) (x : E) :
    ∃ D H, HasFDeriv2At (fun z => L z * M z) D H x ∧ ∀ s t, H s t = L s * M t + L t * M s := by
  obtain ⟨D, H, h1, -, h2⟩ := mul_exact' L M x
  exact ⟨D, H, h1, h2⟩

/-- … of sums of them. -/
theorem dot_exact' {m : ℕ} (L M : Fin m → E →L[ℝ] F) (x : E) :
    ∃ D H, HasFDeriv2At (fun z => ∑ c, L c z * M c z) D H x ∧ (∀ t, D t = ∑ c, (L c x * M c t + L c t * M c x)) ∧
      ∀ s t, H s t = ∑ c, (L c s * M c t + L c t * M c s) := by
  choose D H h1 h3 h2 using fun c => mul_exact' (L c) (M c) x
  refine ⟨_, _, HasFDeriv2At.sum h1, fun t => ?_, fun s t => ?_⟩
  · rw [ContinuousLinearMap.sum_apply]
    exact Finset.sum_congr rfl fun c _ => h3 c t
  · rw [ContinuousLinearMap.sum_apply, ContinuousLinearMap.sum_apply]
    exact Finset.sum_congr rfl fun c _ => h2 c s t

theorem dot_exact {m : ℕ} (L M : Fin m → E →L[ℝ] F) (x : E) :
    ∃ D H, HasFDeriv2At (fun z => ∑ c, L c z * M c z) D H x ∧ ∀ s t, H s t = ∑ c, (L c s * M c t + L c t * M c s) := by
  obtain ⟨D, H, h1, -, h2⟩ := dot_exact' L M x
  exact ⟨D, H, h1, h2⟩

end

section
variable {X : Type} [NormedAddCommGroup X] [NormedSpace ℝ X] {F : Type} [RCLike F] [Inhabited F] {ss : Fin 2 → List ℕ} {out : List ℕ}
variable {B : Base X} {T : ℕ} {A : ArrFn F ss out} {extras : List (ND F × List ℕ)} {b Bt : List ℕ}
  {args : Fin 2 → ArrTrip F} {u : (a : Fin 2) → X → Fin (ss a).prod → F}
  {φ : List (ND F) → ((a : Fin 2) → Fin (A.inAxes.slice (ss a)).prod → F) → List ℕ → F}

theorem hess_product {x : (a : Fin 2) → Fin (ss a).prod → F} (hA : A.Computes extras Bt φ x) {s : List ℕ} (hs : ∀ a, A.inAxes.slice (ss a) = s)
    (hφ : ∀ es z q, φ es z q = sliceDot hs z) {v q : List ℕ} (hv : InB v Bt) (hq : InB q A.sliceOut)
    (d : (a : Fin 2) → Fin (A.inAxes.slice (ss a)).prod → F) :
    A.hess (extras.map fun e => bslice e.1 e.2 Bt v) (fun a => sliceVec (ss a) (A.inAxes.second (ss a).length) Bt v (x a)) d d q = 2 * sliceDot hs d := by
  obtain ⟨D, H, h1, h2⟩ := hA.snd v q hv hq
  rw [← h2]
  obtain ⟨D', H', h3, h4⟩ := dot_exact (E := (a : Fin 2) → Fin (A.inAxes.slice (ss a)).prod → F)
    (fun c : Fin s.prod => (ContinuousLinearMap.proj (R := ℝ) (φ := fun _ => F) (Fin.cast (congrArg List.prod (hs 0).symm) c)).comp
      (ContinuousLinearMap.proj (R := ℝ) (φ := fun a => Fin (A.inAxes.slice (ss a)).prod → F) 0))
    (fun c : Fin s.prod => (ContinuousLinearMap.proj (R := ℝ) (φ := fun _ => F) (Fin.cast (congrArg List.prod (hs 1).symm) c)).comp
      (ContinuousLinearMap.proj (R := ℝ) (φ := fun a => Fin (A.inAxes.slice (ss a)).prod → F) 1))
    (fun a => sliceVec (ss a) (A.inAxes.second (ss a).length) Bt v (x a))
  have e : (fun z => φ (extras.map fun e => bslice e.1 e.2 Bt v) z q) = fun z => sliceDot hs z := funext fun z => hφ _ z q
  rw [e] at h1
  have h5 : H = H' := h1.eq_fderiv.2.trans h3.eq_fderiv.2.symm
  rw [h5, h4]
  unfold sliceDot
  rw [Finset.mul_sum]
  refine Finset.sum_congr rfl fun c _ => ?_
  rw [two_mul]
  rfl

theorem second_product_def (hA : A.Computes extras Bt φ x) (h : A.flags.has Flags.MULTIPLICATION = true) (hl : A.flags.has Flags.LINEAR = false) :
    A.second T args extras = hessArr (productSlice (A.inAxes.slice (ss 0)) A.sliceOut A.junk) true (A.flags.has Flags.SPARSE_JHJ) (A.flags.has Flags.DOT_PRODUCT) T
      (List.ofFn (A.trips args)) extras out := by
  unfold ArrFn.second
  dsimp only
  have hc : A.customFor (List.range (1 + 1)) = none := by
    cases hc : A.customFor (List.range (1 + 1)) with
    | none => rfl
    | some g =>
      have h1 := (hA.custom (fun h => absurd h.2.2 (by decide)) g hc).1
      rw [has_of_has (by decide) h] at h1
      cases h1
  rw [if_neg (by rw [hl]; decide), if_neg (by simp), if_neg (by simp), hc]
  dsimp only
  rw [if_pos h, if_pos rfl]
  rfl

theorem second_of_hess (hrep : ∀ a, ArrRep B (ss a) (args a) (u a)) (hA : A.Computes extras Bt φ fun a => u a B.x0) (hb : A.Batch extras b Bt)
    {s : List ℕ} (hs : ∀ a, A.inAxes.slice (ss a) = s) (hφ : ∀ es z q, φ es z q = sliceDot hs z)
    (hs' : ∀ a, skipShape (A.trips args a).1.x.shape (A.trips args a).2 = s)
    {R : ND F} (h3 : A.second T args extras = some R)
    (h4 : IsSecondOrder B.n (A.trips args) (fun _ d _ => dotForm hs' d) Bt A.sliceOut R) : SecondOk B T A extras Bt args u := by
  have hx : ∀ a, (args a).x.shape = ss a := fun a => (hrep a).arg.x
  have hfit := fits_batch hb
  refine ⟨R, h3, (congrArg (fun o => Broadcasts [R.shape, o] o) hA.shape).mpr h4.shape, fun v q hv hq => ?_⟩
  refine (congrArg (fun o => R.get (bcoord R.shape o (v ++ q))) hA.shape).trans ?_
  dsimp only
  rw [h4.value v q hv hq]
  refine Finset.sum_congr rfl fun i _ => ?_
  refine Eq.trans ?_ (hess_product hA hs hφ hv hq _).symm
  obtain rfl : ss = fun a => (args a).x.shape := funext fun a => (hx a).symm
  have e2 : derivAt (A.trips args) Bt v i = fun a => sliceVec (args a).x.shape (A.inAxes.second (args a).x.shape.length) Bt v (derivsOf (fun a => (args a).x.shape) args i a) := by
    funext a c
    exact (slice_deriv hfit hv i a c).symm
  rw [e2]
  rfl

/-- Products. -/
theorem second_product_ok (hrep : ∀ a, ArrRep B (ss a) (args a) (u a)) (hA : A.Computes extras Bt φ fun a => u a B.x0) (hb : A.Batch extras b Bt)
    (hm : A.flags.has Flags.MULTIPLICATION = true) (hl : A.flags.has Flags.LINEAR = false)
    {s : List ℕ} (hs : ∀ a, A.inAxes.slice (ss a) = s) (hφ : ∀ es z q, φ es z q = sliceDot hs z)
    (hnd : A.flags.has Flags.DOT_PRODUCT = false ∨ ∃ a, (A.inAxes.second (ss a).length).length ≠ 1)
    (hmix : (∀ a, (args a).jac.idx = none) ∨ (A.flags.has Flags.SPARSE_JHJ = false ∧ denseCall true T (List.ofFn (A.trips args)) b) ∨
      ∃ j, Bt = List.replicate j 1 ++ b) : SecondOk B T A extras Bt args u := by
  have hx : ∀ a, (args a).x.shape = ss a := fun a => (hrep a).arg.x
  have hs' : ∀ a, skipShape (A.trips args a).1.x.shape (A.trips args a).2 = s := by
    intro a
    show A.inAxes.slice (args a).x.shape = s
    rw [hx a]
    exact hs a
  obtain ⟨R, h3, h4⟩ := C56_product (hessCall_of hrep hb) hs' (o := A.sliceOut) A.junk (A.flags.has Flags.SPARSE_JHJ) (A.flags.has Flags.DOT_PRODUCT) T (by
    refine hnd.imp id fun ⟨a, ha⟩ => ⟨a, ?_⟩
    show (A.inAxes.second (args a).x.shape.length).length ≠ 1
    rw [hx a]
    exact ha) hmix
  refine second_of_hess hrep hA hb hs hφ hs' ?_ h4
  rw [second_product_def hA hm hl, hs 0]
  exact (congrArg (hessArr (productSlice s A.sliceOut A.junk) true (A.flags.has Flags.SPARSE_JHJ) (A.flags.has Flags.DOT_PRODUCT) T _ extras) hA.shape).trans h3

/-- Dot products along the last axis. -/
theorem second_dot_ok (hrep : ∀ a, ArrRep B (ss a) (args a) (u a)) (hA : A.Computes [] b φ fun a => u a B.x0) (hb : A.Batch [] b b)
    (hm : A.flags.has Flags.DOT_PRODUCT = true) (hl : A.flags.has Flags.LINEAR = false) (hax : A.inAxes = .axes [-1])
    (hrank : ∀ a, (ss a).length = b.length + 1)
    {s : List ℕ} (hs : ∀ a, A.inAxes.slice (ss a) = s) (hφ : ∀ es z q, φ es z q = sliceDot hs z)
    (hmix : (∀ a, (args a).jac.idx = none) ∨ denseCall true T (List.ofFn (A.trips args)) b ∨ mergedWidth true (List.ofFn (A.trips args)) b = 0 ∨
      2 * (activeAt true (List.ofFn (A.trips args)) b).length > b.prod ∨ (1 ∉ b ∧ 2 ≤ (activeAt true (List.ofFn (A.trips args)) b).length)) :
    SecondOk B T A [] b args u := by
  have hx : ∀ a, (args a).x.shape = ss a := fun a => (hrep a).arg.x
  have hC := hessCall_of hrep hb
  have hs' : ∀ a, skipShape (A.trips args a).1.x.shape (A.trips args a).2 = s := by
    intro a
    show A.inAxes.slice (args a).x.shape = s
    rw [hx a]
    exact hs a
  obtain ⟨R, h3, h4⟩ := C56_dot hC hs' (fun a => ⟨hC.ok a, by
      show A.inAxes.second (args a).x.shape.length = [b.length]
      rw [hx a, hax, hrank a]
      show [axisOf (b.length + 1) (-1)] = _
      unfold axisOf
      rw [if_pos (by decide)]
      congr 1
      omega, by
      show (args a).x.shape.length = _
      rw [hx a]
      exact hrank a⟩) (o := A.sliceOut) A.junk (A.flags.has Flags.SPARSE_JHJ) T hmix
  refine second_of_hess hrep hA hb hs hφ hs' ?_ h4
  rw [second_product_def hA (has_of_has (by decide) hm) hl, hs 0, hm]
  exact (congrArg (hessArr (productSlice s A.sliceOut A.junk) true (A.flags.has Flags.SPARSE_JHJ) true T _ []) hA.shape).trans h3

end

end Folx.Layout

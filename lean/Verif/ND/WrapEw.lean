import Verif.ND.WrapProduct
import Mathlib.Analysis.SpecialFunctions.ExpDeriv

/-! # Elementwise functions with numpy broadcasting, as wrapped functions -/

namespace Folx.Layout
open Vmap Dot

section
variable {E E' F : Type} [NormedAddCommGroup E] [NormedSpace ℝ E] [NormedAddCommGroup E'] [NormedSpace ℝ E'] [NormedAddCommGroup F] [NormedSpace ℝ F]

theorem after_linear {g : E' → F} (S : E →L[ℝ] E') {D H} {x : E} (h : HasFDeriv2At g D H (S x)) :
    ∃ H', HasFDeriv2At (fun y => g (S y)) (D.comp S) H' x ∧ ∀ s t, H' s t = H (S s) (S t) := by
  obtain ⟨H', h1, h2⟩ := HasFDeriv2At.comp h (HasFDeriv2At.linear S x)
  refine ⟨H', h1, fun s t => ?_⟩
  rw [h2]
  show H (S s) (S t) + D 0 = _
  rw [map_zero, add_zero]

/-- The derivatives of `exp` of a linear function. -/
theorem exp_exact (L : E →L[ℝ] ℝ) (x : E) : ∃ H, HasFDeriv2At (fun z => Real.exp (L z)) (Real.exp (L x) • L) H x ∧ ∀ s t, H s t = Real.exp (L x) * (L s * L t) := by
  have h1 : ∀ y, HasFDerivAt (fun z => Real.exp (L z)) (Real.exp (L y) • L) y := fun y => L.hasFDerivAt.exp
  have h2 : HasFDerivAt (fun y => Real.exp (L y) • L) ((Real.exp (L x) • L).smulRight L) x := (h1 x).smul_const L
  refine ⟨_, ⟨_, Filter.Eventually.of_forall h1, rfl, h2⟩, fun s t => ?_⟩
  show (Real.exp (L x) * L s) * L t = _
  ring

end

section
variable {F : Type} [RCLike F] [Inhabited F] {k : ℕ}

/-- The elements of the arguments that broadcasting puts at element `p` of the result. -/
noncomputable def pickAt (ss : Fin k → List ℕ) (out p : List ℕ) : ((a : Fin k) → Fin (ss a).prod → F) →L[F] (Fin k → F) :=
  ContinuousLinearMap.pi fun a => if h : ravelIdx (ss a) (bcoord (ss a) out p) < (ss a).prod then
    (ContinuousLinearMap.proj (R := F) (φ := fun _ => F) ⟨_, h⟩).comp (ContinuousLinearMap.proj (R := F) (φ := fun a => Fin (ss a).prod → F) a) else 0

theorem slice_nil_pos (s : List ℕ) : 0 < ((InAxes.axes []).slice s).prod := by
  have : (InAxes.axes []).slice s = [] := by
    show skipShape s [] = []
    unfold skipShape
    simp
  rw [this]
  decide

/-- The element of a slice with one element. -/
def only (s : List ℕ) : Fin ((InAxes.axes []).slice s).prod := ⟨0, slice_nil_pos s⟩

/-- The elements of slices with one element. -/
noncomputable def onlyMap (ss : Fin k → List ℕ) : ((a : Fin k) → Fin ((InAxes.axes []).slice (ss a)).prod → F) →L[F] (Fin k → F) :=
  ContinuousLinearMap.pi fun a => (ContinuousLinearMap.proj (R := F) (φ := fun _ => F) (only (ss a))).comp
    (ContinuousLinearMap.proj (R := F) (φ := fun a => Fin ((InAxes.axes []).slice (ss a)).prod → F) a)

/-- `g` of `k` numbers with first derivative `g'` and second derivative `g''`, applied elementwise to arrays of shapes `ss` that broadcast to `out`
(registered with `in_axes = ()`). -/
noncomputable def ewFn (flags : Flags) (firstIsLapl : Bool) (ss : Fin k → List ℕ) (out : List ℕ) (g : (Fin k → F) → F) (g' : (Fin k → F) → (Fin k → F) →ₗ[F] F)
    (g'' : (Fin k → F) → (Fin k → F) →ₗ[F] (Fin k → F) →ₗ[F] F) : ArrFn F ss out where
  flags := flags
  inAxes := .axes []
  firstIsLapl := firstIsLapl
  c2r := false
  fwd y w := g (pickAt ss out (unravelIdx out w) y)
  deriv x := LinearMap.pi fun w => (g' (pickAt ss out (unravelIdx out w) x)).comp (pickAt ss out (unravelIdx out w)).toLinearMap
  ifwd := none
  sliceOut := []
  hess _ z := (LinearMap.compl₁₂ (g'' (onlyMap ss z)) (onlyMap ss).toLinearMap (onlyMap ss).toLinearMap).compr₂ (LinearMap.pi fun _ => LinearMap.id)
  junk := 0

theorem slice_nil (s b v : List ℕ) {α : Type} [Inhabited α] (x : Fin s.prod → α) :
    sliceVec s ((InAxes.axes []).second s.length) b v x (only s) = (toND s x).get (bcoord s b v) := by
  have e : ∀ c, bindex s [] b v c = bcoord s b v := by
    intro c
    unfold bindex bcoord
    refine List.map_congr_left fun i _ => ?_
    rw [if_neg (by simp)]
    have : skipsBefore [] i = 0 := by simp [skipsBefore]
    rw [this]
    rfl
  unfold sliceVec
  exact congrArg _ (e _)

theorem pickAt_get {ss : Fin k → List ℕ} {out : List ℕ} (hb : Broadcasts (List.ofFn ss) out) {p : List ℕ} (hp : InB p out) (y : (a : Fin k) → Fin (ss a).prod → F) :
    pickAt ss out p y = fun a => (toND (ss a) (y a)).get (bcoord (ss a) out p) := by
  funext a
  have hmem : ss a ∈ List.ofFn ss := List.mem_ofFn.mpr ⟨a, rfl⟩
  have hin := inB_bcoord (hb.rank_le _ hmem) (aligned_of_broadcasts hb hmem).2 hp
  rw [toND_get _ _ hin]
  show (if h : ravelIdx (ss a) (bcoord (ss a) out p) < (ss a).prod then
    (ContinuousLinearMap.proj (R := F) (φ := fun _ => F) ⟨_, h⟩).comp (ContinuousLinearMap.proj (R := F) (φ := fun a => Fin (ss a).prod → F) a) else 0) y = _
  rw [dif_pos (ravelIdx_lt hin)]
  rfl

theorem onlyMap_slice {ss : Fin k → List ℕ} {out : List ℕ} (hb : Broadcasts (List.ofFn ss) out) {p : List ℕ} (hp : InB p out) (y : (a : Fin k) → Fin (ss a).prod → F) :
    (onlyMap ss fun a => sliceVec (ss a) ((InAxes.axes []).second (ss a).length) out p (y a)) = pickAt ss out p y := by
  rw [pickAt_get hb hp]
  funext a
  exact slice_nil _ _ _ _

variable {flags : Flags} {fil : Bool} {ss : Fin k → List ℕ} {out : List ℕ} {g : (Fin k → F) → F} {g' : (Fin k → F) → (Fin k → F) →ₗ[F] F}
  {g'' : (Fin k → F) → (Fin k → F) →ₗ[F] (Fin k → F) →ₗ[F] F}

/-- `ewFn` computes `g` elementwise. -/
theorem ewFn_computes (hb : Broadcasts (List.ofFn ss) out) {x : (a : Fin k) → Fin (ss a).prod → F}
    (hg : ∀ p, InB p out → ∃ D H, HasFDeriv2At g D H (fun a => (toND (ss a) (x a)).get (bcoord (ss a) out p)) ∧
      (∀ t, D t = g' (fun a => (toND (ss a) (x a)).get (bcoord (ss a) out p)) t) ∧
      ∀ s t, H s t = g'' (fun a => (toND (ss a) (x a)).get (bcoord (ss a) out p)) s t) :
    (ewFn flags fil ss out g g' g'').Computes [] out (fun _ z _ => g (onlyMap ss z)) x := by
  refine ⟨(List.append_nil _).symm, fun y v q hv hq => ?_, ?_, fun v q hv hq => ?_, fun _ g hg => by cases hg⟩
  · cases hq
    rw [List.append_nil, toND_get _ _ hv]
    show g (pickAt ss out (unravelIdx out (ravelIdx out v)) y) = g (onlyMap ss _)
    rw [unravelIdx_ravelIdx hv]
    exact congrArg g (onlyMap_slice hb hv y).symm
  · have h1 : ∀ w : Fin out.prod, ∃ D : ((a : Fin k) → Fin (ss a).prod → F) →L[ℝ] F,
        HasFDerivAt (fun y => g (pickAt ss out (unravelIdx out w) y)) D x ∧ ∀ t, D t = g' (pickAt ss out (unravelIdx out w) x) (pickAt ss out (unravelIdx out w) t) := by
      intro w
      obtain ⟨D, H, h1, h2, -⟩ := hg _ (inB_unravelIdx w.2)
      rw [← pickAt_get hb (inB_unravelIdx w.2)] at h1 h2
      refine ⟨D.comp ((pickAt ss out (unravelIdx out w)).restrictScalars ℝ), ?_, fun t => h2 _⟩
      obtain ⟨H', h4, -⟩ := after_linear ((pickAt (F := F) ss out (unravelIdx out w)).restrictScalars ℝ) h1
      exact h4.hasFDerivAt
    choose D h2 h3 using h1
    refine ⟨ContinuousLinearMap.pi D, hasFDerivAt_pi.mpr h2, fun t => ?_⟩
    funext w
    exact h3 w t
  · obtain ⟨D, H, h1, -, h2⟩ := hg v hv
    rw [← pickAt_get hb hv, ← onlyMap_slice hb hv] at h1 h2
    obtain ⟨H1, h3, h4⟩ := after_linear ((onlyMap (F := F) ss).restrictScalars ℝ) h1
    refine ⟨_, H1, h3, fun s t => ?_⟩
    exact (h4 s t).trans (h2 _ _)

end

section
variable {F : Type} [RCLike F] [Inhabited F] {k : ℕ} {flags : Flags} {fil : Bool} {ss : Fin (k + 1) → List ℕ} {out : List ℕ} {g : (Fin (k + 1) → F) → F}
  {g' : (Fin (k + 1) → F) → (Fin (k + 1) → F) →ₗ[F] F} {g'' : (Fin (k + 1) → F) → (Fin (k + 1) → F) →ₗ[F] (Fin (k + 1) → F) →ₗ[F] F}

theorem otherShape_nil (s : List ℕ) : otherShape s [] = s := by rw [other_eq_drop, dropDims_nil]

theorem ewFn_batch (hb : Broadcasts (List.ofFn ss) out) : (ewFn flags fil ss out g g' g'').Batch [] out out := by
  have e : (List.ofFn fun a => otherShape (ss a) ((ewFn flags fil ss out g g' g'').inAxes.second (ss a).length)) = List.ofFn ss := by
    congr 1
    funext a
    exact otherShape_nil _
  refine ⟨fun l hl a i hi => ?_, fun a => List.nodup_nil, by simp, by simp, ?_, ?_⟩
  · cases hl
    simp at hi
  · rw [e]
    exact hb
  · rw [e, List.map_nil, List.append_nil]
    exact hb

end

end Folx.Layout

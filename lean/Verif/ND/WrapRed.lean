import Verif.ND.WrapEw

/-! # Functions of slices along axes, as wrapped functions -/

namespace Folx.Layout
open Vmap Dot

section
variable {F : Type} [RCLike F] [Inhabited F] {k : ℕ}

/-- The slices of the arguments along the axes `sk` that broadcasting puts at element `p` of the result. -/
noncomputable def slicesAt (ss sk : Fin k → List ℕ) (out p : List ℕ) : ((a : Fin k) → Fin (ss a).prod → F) →L[F] ((a : Fin k) → Fin (skipShape (ss a) (sk a)).prod → F) :=
  ContinuousLinearMap.pi fun a => ContinuousLinearMap.pi fun c => if h : ravelIdx (ss a) (bindex (ss a) (sk a) out p (unravelIdx (skipShape (ss a) (sk a)) c)) < (ss a).prod then
    (ContinuousLinearMap.proj (R := F) (φ := fun _ => F) ⟨_, h⟩).comp (ContinuousLinearMap.proj (R := F) (φ := fun a => Fin (ss a).prod → F) a) else 0

theorem slicesAt_get {ss sk : Fin k → List ℕ} {out : List ℕ} (hf : ∀ a, Fits (ss a) (sk a) out) {p : List ℕ} (hp : InB p out) (y : (a : Fin k) → Fin (ss a).prod → F) :
    slicesAt ss sk out p y = fun a => sliceVec (ss a) (sk a) out p (y a) := by
  funext a c
  have hin := bindex_inB (hf a).valid (hf a).len (hf a).al hp (inB_unravelIdx c.2)
  unfold sliceVec
  rw [toND_get _ _ hin]
  show (if h : ravelIdx (ss a) (bindex (ss a) (sk a) out p (unravelIdx (skipShape (ss a) (sk a)) c)) < (ss a).prod then
    (ContinuousLinearMap.proj (R := F) (φ := fun _ => F) ⟨_, h⟩).comp (ContinuousLinearMap.proj (R := F) (φ := fun a => Fin (ss a).prod → F) a) else 0) y = _
  rw [dif_pos (ravelIdx_lt hin)]
  rfl

/-- The slices of an argument of shape `s`, for `in_axes = l`. -/
abbrev slicesOf (l : List ℤ) (s : List ℕ) : List ℕ := (InAxes.axes l).slice s

/-- `g` of slices along the axes `l` (registered with `in_axes = l`), with first derivative `g'` and second derivative `g''`; the result for a slice is a number. -/
noncomputable def redFn (flags : Flags) (firstIsLapl : Bool) (l : List ℤ) (ss : Fin k → List ℕ) (out : List ℕ) (g : ((a : Fin k) → Fin (slicesOf l (ss a)).prod → F) → F)
    (g' : ((a : Fin k) → Fin (slicesOf l (ss a)).prod → F) → ((a : Fin k) → Fin (slicesOf l (ss a)).prod → F) →ₗ[F] F)
    (g'' : ((a : Fin k) → Fin (slicesOf l (ss a)).prod → F) → ((a : Fin k) → Fin (slicesOf l (ss a)).prod → F) →ₗ[F] ((a : Fin k) → Fin (slicesOf l (ss a)).prod → F) →ₗ[F] F) :
    ArrFn F ss out where
  flags := flags
  inAxes := .axes l
  firstIsLapl := firstIsLapl
  c2r := false
  fwd y w := g (slicesAt ss (fun a => (InAxes.axes l).second (ss a).length) out (unravelIdx out w) y)
  deriv x := LinearMap.pi fun w => (g' (slicesAt ss (fun a => (InAxes.axes l).second (ss a).length) out (unravelIdx out w) x)).comp
    (slicesAt ss (fun a => (InAxes.axes l).second (ss a).length) out (unravelIdx out w)).toLinearMap
  ifwd := none
  sliceOut := []
  hess _ z := (g'' z).compr₂ (LinearMap.pi fun _ => LinearMap.id)
  junk := 0

variable {flags : Flags} {fil : Bool} {l : List ℤ} {ss : Fin k → List ℕ} {out : List ℕ} {g : ((a : Fin k) → Fin (slicesOf l (ss a)).prod → F) → F}
    {g' : ((a : Fin k) → Fin (slicesOf l (ss a)).prod → F) → ((a : Fin k) → Fin (slicesOf l (ss a)).prod → F) →ₗ[F] F}
    {g'' : ((a : Fin k) → Fin (slicesOf l (ss a)).prod → F) → ((a : Fin k) → Fin (slicesOf l (ss a)).prod → F) →ₗ[F] ((a : Fin k) → Fin (slicesOf l (ss a)).prod → F) →ₗ[F] F}

/-- `redFn` computes `g` of slices. -/
theorem redFn_computes (hf : ∀ a, Fits (ss a) ((InAxes.axes l).second (ss a).length) out) {x : (a : Fin k) → Fin (ss a).prod → F}
    (hg : ∀ p, InB p out → ∃ D H, HasFDeriv2At g D H (fun a => sliceVec (ss a) ((InAxes.axes l).second (ss a).length) out p (x a)) ∧
      (∀ t, D t = g' (fun a => sliceVec (ss a) ((InAxes.axes l).second (ss a).length) out p (x a)) t) ∧
      ∀ s t, H s t = g'' (fun a => sliceVec (ss a) ((InAxes.axes l).second (ss a).length) out p (x a)) s t) :
    (redFn flags fil l ss out g g' g'').Computes [] out (fun _ z _ => g z) x := by
  refine ⟨(List.append_nil _).symm, fun y v q hv hq => ?_, ?_, fun v q hv hq => ?_, fun _ g hg => by cases hg⟩
  · cases hq
    rw [List.append_nil, toND_get _ _ hv]
    show g (slicesAt ss (fun a => (InAxes.axes l).second (ss a).length) out (unravelIdx out (ravelIdx out v)) y) = g _
    rw [unravelIdx_ravelIdx hv]
    exact congrArg g (slicesAt_get hf hv y)
  · have h1 : ∀ w : Fin out.prod, ∃ D : ((a : Fin k) → Fin (ss a).prod → F) →L[ℝ] F,
        HasFDerivAt (fun y => g (slicesAt ss (fun a => (InAxes.axes l).second (ss a).length) out (unravelIdx out w) y)) D x ∧
          ∀ t, D t = g' (slicesAt ss (fun a => (InAxes.axes l).second (ss a).length) out (unravelIdx out w) x)
            (slicesAt ss (fun a => (InAxes.axes l).second (ss a).length) out (unravelIdx out w) t) := by
      intro w
      obtain ⟨D, H, h1, h2, -⟩ := hg _ (inB_unravelIdx w.2)
      rw [← slicesAt_get hf (inB_unravelIdx w.2)] at h1 h2
      obtain ⟨H', h4, -⟩ := after_linear ((slicesAt (F := F) ss (fun a => (InAxes.axes l).second (ss a).length) out (unravelIdx out w)).restrictScalars ℝ) h1
      exact ⟨_, h4.hasFDerivAt, fun t => h2 _⟩
    choose D h2 h3 using h1
    refine ⟨ContinuousLinearMap.pi D, hasFDerivAt_pi.mpr h2, fun t => ?_⟩
    funext w
    exact h3 w t
  · obtain ⟨D, H, h1, -, h2⟩ := hg v hv
    exact ⟨D, H, h1, fun s t => h2 s t⟩

end

section
variable {F : Type} [RCLike F] [Inhabited F] {k : ℕ} {flags : Flags} {fil : Bool} {l : List ℤ} {ss : Fin (k + 1) → List ℕ} {out : List ℕ} {g : ((a : Fin (k + 1)) → Fin (slicesOf l (ss a)).prod → F) → F}
    {g' : ((a : Fin (k + 1)) → Fin (slicesOf l (ss a)).prod → F) → ((a : Fin (k + 1)) → Fin (slicesOf l (ss a)).prod → F) →ₗ[F] F}
    {g'' : ((a : Fin (k + 1)) → Fin (slicesOf l (ss a)).prod → F) → ((a : Fin (k + 1)) → Fin (slicesOf l (ss a)).prod → F) →ₗ[F] ((a : Fin (k + 1)) → Fin (slicesOf l (ss a)).prod → F) →ₗ[F] F}

/-- The axes `l` fit arrays of shapes `ss`, and the other axes broadcast to `out`. -/
structure AxesFit (l : List ℤ) (ss : Fin k → List ℕ) (out : List ℕ) : Prop where
  range : ∀ a, ∀ i ∈ l, -((ss a).length : ℤ) ≤ i ∧ i < (ss a).length
  nodup : ∀ a, (l.map (axisOf (ss a).length)).Nodup
  shape : Broadcasts (List.ofFn fun a => dropDims (ss a) (l.map (axisOf (ss a).length))) out

omit [Inhabited F] in
theorem redFn_batch (h : AxesFit l ss out) : (redFn flags fil l ss out g g' g'').Batch [] out out := by
  have e : (List.ofFn fun a => otherShape (ss a) ((redFn flags fil l ss out g g' g'').inAxes.second (ss a).length)) =
      List.ofFn fun a => dropDims (ss a) (l.map (axisOf (ss a).length)) := by
    congr 1
    funext a
    exact other_eq_drop _ _
  refine ⟨fun l' hl a i hi => ?_, h.nodup, by simp, by simp, ?_, ?_⟩
  · cases hl
    exact h.range a i hi
  · rw [e]
    exact h.shape
  · rw [e, List.map_nil, List.append_nil]
    exact h.shape

theorem AxesFit.fits (h : AxesFit l ss out) (a : Fin (k + 1)) : Fits (ss a) ((InAxes.axes l).second (ss a).length) out :=
  fits_batch (A := redFn (F := ℝ) 0 false l ss out (fun _ => 0) (fun _ => 0) (fun _ => 0)) (redFn_batch h) a

end

end Folx.Layout

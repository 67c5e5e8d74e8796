import Verif.ND.CallPrim
import Verif.ND.WrapWhole
import Verif.Props.WrapProps

/-! # Functions whose declarations are true -/

namespace Folx.Layout
open Vmap Dot

theorem has_no_index {f : Flags} (h : f.has Flags.LINEAR_IN_ONE = false) : f.has Flags.INDEXING = false := by
  by_contra hc
  rw [Bool.not_eq_false] at hc
  have := has_of_has (b := Flags.LINEAR_IN_ONE) (by decide) hc
  rw [h] at this
  exact absurd this (by decide)

theorem has_no_dot {f : Flags} (h : f.has Flags.LINEAR_IN_ONE = false) : f.has Flags.DOT_PRODUCT = false := by
  by_contra hc
  rw [Bool.not_eq_false] at hc
  have := has_of_has (b := Flags.LINEAR_IN_ONE) (by decide) hc
  rw [h] at this
  exact absurd this (by decide)

/-! ### Elementwise functions -/

section
variable {F : Type} [RCLike F] [Inhabited F] {m : ℕ} {shape : Fin (m + 1) → List ℕ} {out : List ℕ} {flags : Flags} {fil : Bool}

/-- The numbers that broadcasting brings together at `p`. -/
def numsAt (shape : Fin (m + 1) → List ℕ) (out : List ℕ) (x : (i : Fin (m + 1)) → Fin (shape i).prod → F) (p : List ℕ) : Fin (m + 1) → F :=
  fun a => (toND (shape a) (x a)).get (bcoord (shape a) out p)

theorem ew_truthful {g : (Fin (m + 1) → F) → F} {g' : (Fin (m + 1) → F) → (Fin (m + 1) → F) →ₗ[F] F} {g'' : (Fin (m + 1) → F) → (Fin (m + 1) → F) →ₗ[F] (Fin (m + 1) → F) →ₗ[F] F}
    {x : (i : Fin (m + 1)) → Fin (shape i).prod → F} (hs : ∀ i, 0 ∉ shape i) (h0 : 0 ∉ out) (hb : Broadcasts (List.ofFn shape) out)
    (h1 : flags.has Flags.LINEAR_IN_ONE = false)
    (hg : ∀ p, InB p out → ∃ D H, HasFDeriv2At g D H (numsAt shape out x p) ∧ (∀ t, D t = g' (numsAt shape out x p) t) ∧ ∀ s t, H s t = g'' (numsAt shape out x p) s t)
    (hfst : flags.has Flags.LINEAR_IN_FIRST = true → ∀ p, InB p out → ∀ s t : F, g'' (numsAt shape out x p) (Pi.single 0 s) (Pi.single 0 t) = 0) :
    (ewFn flags fil shape out g g' g'').Truthful (fun _ => none) out (fun _ z _ => g (onlyMap shape z)) x := by
  have hA := ewFn_computes (flags := flags) (fil := fil) hb hg
  refine ⟨hs, h0, hA, ewFn_batch hb, C58_axes hA (ewFn_batch hb) (Or.inr ⟨⟨_, rfl⟩, Or.inl rfl⟩) _, fun _ _ _ _ _ h => by simp at h, fun _ _ _ _ _ hg => (by cases hg), Or.inr (Or.inr ⟨h1, fun hf v q hv hq s t => ?_⟩)⟩
  have e : ∀ s : Fin ((InAxes.axes []).slice (shape 0)).prod → F, onlyMap shape (Pi.single (M := fun i => Fin ((InAxes.axes []).slice (shape i)).prod → F) 0 s) = Pi.single 0 (s (only (shape 0))) := by
    intro s
    funext a
    show (Pi.single (M := fun i => Fin ((InAxes.axes []).slice (shape i)).prod → F) 0 s) a (only (shape a)) = _
    by_cases ha : a = 0
    · subst ha
      rw [Pi.single_eq_same, Pi.single_eq_same]
    · rw [Pi.single_eq_of_ne ha, Pi.single_eq_of_ne ha]
      rfl
  have e2 : onlyMap shape ((ewFn flags fil shape out g g' g'').slices out v x) = numsAt shape out x v := (onlyMap_slice hb hv x).trans (pickAt_get hb hv x)
  show g'' (onlyMap shape ((ewFn flags fil shape out g g' g'').slices out v x)) (onlyMap shape (Pi.single (M := fun i => Fin ((InAxes.axes []).slice (shape i)).prod → F) 0 s))
    (onlyMap shape (Pi.single (M := fun i => Fin ((InAxes.axes []).slice (shape i)).prod → F) 0 t)) = 0
  rw [e2]
  exact (congrArg₂ (fun a b => g'' (numsAt shape out x v) a b) (e s) (e t)).trans (hfst hf v hv _ _)

omit [Inhabited F] in
theorem ew_safe {g : (Fin (m + 1) → F) → F} {g' : (Fin (m + 1) → F) → (Fin (m + 1) → F) →ₗ[F] F} {g'' : (Fin (m + 1) → F) → (Fin (m + 1) → F) →ₗ[F] (Fin (m + 1) → F) →ₗ[F] F}
    (hj : flags.has Flags.SPARSE_JHJ = false) (hi : flags.has Flags.INDEXING = false) (hdot : flags.has Flags.DOT_PRODUCT = false) (hm : m ≤ 1) :
    (ewFn flags fil shape out g g' g'').SparseSafe (fun _ => none) out :=
  ⟨Or.inl hj, Or.inr (Or.inr ⟨hm, Or.inr rfl⟩), fun h => absurd (hdot.symm.trans h) (by decide), fun h => absurd (hi.symm.trans h) (by decide)⟩

/-- Linear elementwise functions. -/
theorem ew_linear {g' : (Fin (m + 1) → F) →ₗ[F] F} {c : F}
    {x : (i : Fin (m + 1)) → Fin (shape i).prod → F} (hs : ∀ i, 0 ∉ shape i) (h0 : 0 ∉ out) (hb : Broadcasts (List.ofFn shape) out)
    (h1 : flags.has Flags.LINEAR = true) :
    (ewFn flags fil shape out (fun z => g' z + c) (fun _ => g') fun _ => 0).Truthful (fun _ => none) out (fun _ z _ => g' (onlyMap shape z) + c) x := by
  have hg : ∀ p, InB p out → ∃ D H, HasFDeriv2At (fun z => g' z + c) D H (fun a => (toND (shape a) (x a)).get (bcoord (shape a) out p)) ∧ (∀ t, D t = g' t) ∧
      ∀ s t, H s t = (0 : (Fin (m + 1) → F) →ₗ[F] (Fin (m + 1) → F) →ₗ[F] F) s t := by
    intro p _
    have h1 := HasFDeriv2At.linear (((LinearMap.toContinuousLinearMap g').restrictScalars ℝ) : (Fin (m + 1) → F) →L[ℝ] F) (fun a => (toND (shape a) (x a)).get (bcoord (shape a) out p))
    exact ⟨_, _, add_exact h1 (HasFDeriv2At.const c _), fun t => add_zero _, fun s t => add_zero _⟩
  have hA := ewFn_computes (flags := flags) (fil := fil) (g' := fun _ => g') (g'' := fun _ => 0) hb hg
  exact ⟨hs, h0, hA, ewFn_batch hb, C58_axes hA (ewFn_batch hb) (Or.inr ⟨⟨_, rfl⟩, Or.inl rfl⟩) _, fun _ _ _ _ _ h => by simp at h, fun _ _ _ _ _ hg => (by cases hg), Or.inl ⟨h1, fun v q hv hq s t => rfl⟩⟩

end

section
variable {F : Type} [RCLike F] [Inhabited F] {shape : Fin 2 → List ℕ} {out : List ℕ} {fil : Bool}

/-- `x * y`, as registered. -/
noncomputable def mulArr (fil : Bool) (shape : Fin 2 → List ℕ) (out : List ℕ) : ArrFn F (k := 2) shape out :=
  ewFn (k := 2) Flags.MULTIPLICATION fil shape out (fun z => z 0 * z 1) mulD mulH

theorem mulArr_truthful {x : (i : Fin 2) → Fin (shape i).prod → F} (hs : ∀ i, 0 ∉ shape i) (h0 : 0 ∉ out) (hb : Broadcasts (List.ofFn shape) out) :
    (mulArr fil shape out).Truthful (m := 1) (fun _ => none) out (fun _ z _ => onlyMap shape z 0 * onlyMap shape z 1) x := by
  have hsl : ∀ a, (InAxes.axes []).slice (shape a) = [] := by
    intro a
    show skipShape (shape a) [] = []
    unfold skipShape
    simp
  have hg : ∀ p, InB p out → ∃ D H, HasFDeriv2At (fun z : Fin 2 → F => z 0 * z 1) D H (fun a => (toND (shape a) (x a)).get (bcoord (shape a) out p)) ∧
      (∀ t, D t = mulD (fun a => (toND (shape a) (x a)).get (bcoord (shape a) out p)) t) ∧
      ∀ s t, H s t = mulH (fun a => (toND (shape a) (x a)).get (bcoord (shape a) out p)) s t := by
    intro p _
    obtain ⟨D, H, g1, g2, g3⟩ := mul_exact' (ContinuousLinearMap.proj (R := ℝ) (φ := fun _ : Fin 2 => F) 0) (ContinuousLinearMap.proj (R := ℝ) (φ := fun _ : Fin 2 => F) 1)
      (fun a => (toND (shape a) (x a)).get (bcoord (shape a) out p))
    refine ⟨D, H, g1, fun t => ?_, fun s t => ?_⟩
    · rw [g2]
      show (toND (shape 0) (x 0)).get (bcoord (shape 0) out p) * t 1 + t 0 * (toND (shape 1) (x 1)).get (bcoord (shape 1) out p) =
        (toND (shape 1) (x 1)).get (bcoord (shape 1) out p) * t 0 + (toND (shape 0) (x 0)).get (bcoord (shape 0) out p) * t 1
      ring
    · rw [g3]
      show s 0 * t 1 + t 0 * s 1 = s 0 * t 1 + s 1 * t 0
      ring
  have hA := ewFn_computes (k := 2) (flags := Flags.MULTIPLICATION) (fil := fil) (g' := mulD) (g'' := mulH) hb hg
  refine ⟨hs, h0, hA, ewFn_batch (k := 1) hb, C58_axes (k := 1) hA (ewFn_batch (k := 1) hb) (Or.inr ⟨⟨_, rfl⟩, Or.inl rfl⟩) _, fun _ _ _ _ _ h => by simp at h, fun _ _ _ _ _ hg => (by cases hg),
    Or.inr (Or.inl ⟨by show Flags.MULTIPLICATION.has _ = false; decide, by show Flags.MULTIPLICATION.has _ = true; decide, ⟨rfl, [], hsl, fun es z q => ?_⟩,
      fun h => absurd h (by show ¬ Flags.MULTIPLICATION.has _ = true; decide)⟩)⟩
  rw [Finset.sum_eq_single (⟨0, by decide⟩ : Fin ([] : List ℕ).prod)]
  · rfl
  · intro c _ hc
    exact absurd (Fin.ext (Nat.lt_one_iff.mp c.2)) hc
  · intro h
    exact absurd (Finset.mem_univ _) h

omit [Inhabited F] in
theorem mulArr_safe : (mulArr (F := F) fil shape out).SparseSafe (m := 1) (fun _ => none) out :=
  ew_safe (m := 1) (by decide) (by decide) (by decide) le_rfl

end

/-! ### Functions of slices -/

section
variable {F : Type} [RCLike F] [Inhabited F] {m : ℕ} {shape : Fin (m + 1) → List ℕ} {out : List ℕ} {flags : Flags} {fil : Bool} {l : List ℤ}

theorem red_truthful {g : ((a : Fin (m + 1)) → Fin (slicesOf l (shape a)).prod → F) → F} {g' : _ → ((a : Fin (m + 1)) → Fin (slicesOf l (shape a)).prod → F) →ₗ[F] F}
    {g'' : _ → ((a : Fin (m + 1)) → Fin (slicesOf l (shape a)).prod → F) →ₗ[F] ((a : Fin (m + 1)) → Fin (slicesOf l (shape a)).prod → F) →ₗ[F] F}
    {x : (i : Fin (m + 1)) → Fin (shape i).prod → F} (hs : ∀ i, 0 ∉ shape i) (h0 : 0 ∉ out) (hfit : AxesFit l shape out)
    (h1 : flags.has Flags.LINEAR_IN_ONE = false)
    (hg : ∀ p, InB p out → ∃ D H, HasFDeriv2At g D H (fun a => sliceVec (shape a) ((InAxes.axes l).second (shape a).length) out p (x a)) ∧
      (∀ t, D t = g' (fun a => sliceVec (shape a) ((InAxes.axes l).second (shape a).length) out p (x a)) t) ∧
      ∀ s t, H s t = g'' (fun a => sliceVec (shape a) ((InAxes.axes l).second (shape a).length) out p (x a)) s t)
    (hfst : flags.has Flags.LINEAR_IN_FIRST = true → ∀ p, InB p out → ∀ s t, g'' (fun a => sliceVec (shape a) ((InAxes.axes l).second (shape a).length) out p (x a))
      (Pi.single 0 s) (Pi.single 0 t) = 0) :
    (redFn flags fil l shape out g g' g'').Truthful (fun _ => none) out (fun _ z _ => g z) x := by
  have hA := redFn_computes (flags := flags) (fil := fil) hfit.fits hg
  exact ⟨hs, h0, hA, redFn_batch hfit, C58_axes hA (redFn_batch hfit) (Or.inr ⟨⟨_, rfl⟩, Or.inl rfl⟩) _, fun _ _ _ _ _ h => by simp at h, fun _ _ _ _ _ hg => (by cases hg),
    Or.inr (Or.inr ⟨h1, fun hf v q hv hq s t => hfst hf v hv s t⟩)⟩

omit [Inhabited F] in
theorem red_safe {g : ((a : Fin (m + 1)) → Fin (slicesOf l (shape a)).prod → F) → F} {g' : _ → ((a : Fin (m + 1)) → Fin (slicesOf l (shape a)).prod → F) →ₗ[F] F}
    {g'' : _ → ((a : Fin (m + 1)) → Fin (slicesOf l (shape a)).prod → F) →ₗ[F] ((a : Fin (m + 1)) → Fin (slicesOf l (shape a)).prod → F) →ₗ[F] F}
    (hj : flags.has Flags.SPARSE_JHJ = false) (hi : flags.has Flags.INDEXING = false) (hdot : flags.has Flags.DOT_PRODUCT = true → 1 ∉ out) (hl : l ≠ []) :
    (redFn flags fil l shape out g g' g'').SparseSafe (fun _ => none) out := by
  refine ⟨Or.inl hj, Or.inl fun i => ?_, fun h _ => hdot h, fun h => absurd (hi.symm.trans h) (by decide)⟩
  show reducedAxes (shape i) ((InAxes.axes l).first _) ≠ none
  cases l with
  | nil => exact absurd rfl hl
  | cons a l => simp [InAxes.first, reducedAxes]

end

section
variable {F : Type} [RCLike F] [Inhabited F] {shape : Fin 2 → List ℕ} {out : List ℕ} {flags : Flags} {fil : Bool}

/-- The dot products of the last axes. -/
theorem dot_truthful {x : (i : Fin 2) → Fin (shape i).prod → F} (hs : ∀ i, 0 ∉ shape i) (h0 : 0 ∉ out) (hfit : AxesFit [-1] shape out)
    (hrank : ∀ a, (shape a).length = out.length + 1) (hm : flags.has Flags.DOT_PRODUCT = true) (hl : flags.has Flags.LINEAR = false)
    {s : List ℕ} (hsl : ∀ a, slicesOf [-1] (shape a) = s) :
    (redFn (k := 2) flags fil [-1] shape out (sliceDot hsl) (dotD hsl) (dotH hsl)).Truthful (m := 1) (fun _ => none) out (fun _ z _ => sliceDot hsl z) x := by
  have hA := redFn_computes (k := 2) (flags := flags) (fil := fil) (l := [-1]) (x := x) (fun a => hfit.fits (k := 1) a) fun p _ => sliceDot_exact hsl _
  exact ⟨hs, h0, hA, redFn_batch (k := 1) hfit, C58_axes (k := 1) hA (redFn_batch (k := 1) hfit) (Or.inr ⟨⟨_, rfl⟩, Or.inl rfl⟩) _, fun _ _ _ _ _ h => by simp at h, fun _ _ _ _ _ hg => (by cases hg),
    Or.inr (Or.inl ⟨hl, has_of_has (by decide) hm, ⟨rfl, s, hsl, fun es z q => rfl⟩, fun _ => ⟨rfl, hrank⟩⟩)⟩

end

/-! ### Linear functions of whole arrays -/

theorem linear_exact {E G : Type} [NormedAddCommGroup E] [NormedSpace ℝ E] [FiniteDimensional ℝ E] [NormedAddCommGroup G] [NormedSpace ℝ G] (L : E →ₗ[ℝ] G) (c : G) (x : E) :
    ∃ D H, HasFDeriv2At (fun y => L y + c) D H x ∧ (∀ t, D t = L t) ∧ ∀ s t, H s t = 0 :=
  ⟨_, _, add_exact (HasFDeriv2At.linear (LinearMap.toContinuousLinearMap L) x) (HasFDeriv2At.const c x), fun _ => add_zero _, fun _ _ => add_zero _⟩

section
variable {F : Type} [RCLike F] [Inhabited F] {k : ℕ}

/-- The affine function `L y + c` of whole arrays. -/
def linFn (flags : Flags) (fil : Bool) (kw : Option (List ℕ)) {ss : Fin k → List ℕ} {out : List ℕ} (L : Deriv F ss out) (c : Fin out.prod → F) : ArrFn F ss out :=
  wholeFn flags fil kw none ss out (fun y => L y + c) (fun _ => L) fun _ => 0

end

section
variable {F : Type} [RCLike F] [Inhabited F] {m : ℕ} {shape : Fin (m + 1) → List ℕ} {out : List ℕ} {flags : Flags} {fil : Bool} {kw : Option (List ℕ)}
  {L : Deriv F shape out} {c : Fin out.prod → F} {ifwd : (acts : List (Fin (m + 1))) → Option ((Fin acts.length → ND ℤ) → ND ℤ)}

theorem lin_truthful {x : (i : Fin (m + 1)) → Fin (shape i).prod → F} (hs : ∀ i, 0 ∉ shape i) (h0 : 0 ∉ out) (h1 : flags.has Flags.LINEAR = true)
    (hax : AxesOk ((InAxes.unset kw).first (flags.has Flags.SUMMATION)) L)
    (hix : flags.has Flags.INDEXING = true → ∀ a0 rest f, (a0 :: rest).Nodup → ifwd (a0 :: rest) = some f →
      Indexing (k := rest.length) (ss := fun a => shape ((a0 :: rest).get a)) (L ∘ₗ extendBy (P := fun i => Fin (shape i).prod) (a0 :: rest).get) f) :
    (linFn flags fil kw L c).Truthful ifwd [] (fun _ z q => (toND out (L (unslice shape z) + c)).get q) x := by
  obtain ⟨D, H, g1, g2, g3⟩ := linear_exact (E := (i : Fin (m + 1)) → Fin (shape i).prod → F) (L.restrictScalars ℝ) c x
  refine ⟨hs, h0, wholeFn_computes (f'' := fun _ => 0) ⟨D, H, g1, g2, g3⟩, wholeFn_batch, hax, hix, fun _ _ _ _ _ hg => (by cases hg), Or.inl ⟨h1, fun v q hv hq s t => ?_⟩⟩
  show byCoord out 0 q = 0
  rw [map_zero]
  rfl

end

/-! ### Sums -/

section
variable {F : Type} [RCLike F] [Inhabited F]

omit [Inhabited F] in
theorem sumOver_congr {s dims q : List ℕ} {f g : List ℕ → F} (h : ∀ p, InB p s → f p = g p) : sumOver s dims f q = sumOver s dims g q := by
  unfold sumOver
  congr 1
  exact List.map_congr_left fun p hp => h p (mem_allIdx.mp (List.mem_filter.mp hp).1)

/-- The sum of an array along axes. -/
def sumL (s dims : List ℕ) : (Fin s.prod → F) →ₗ[F] (Fin (dropDims s dims).prod → F) where
  toFun r w := sumOver s dims (byCoord s r) (unravelIdx (dropDims s dims) w)
  map_add' r r' := by
    funext w
    unfold sumOver
    rw [map_add]
    exact List.sum_map_add
  map_smul' a r := by
    funext w
    unfold sumOver
    rw [map_smul]
    show (List.map _ _).sum = a * (List.map (byCoord s r) ((allIdx s).filter fun p => keptOf dims p = unravelIdx (dropDims s dims) w)).sum
    rw [← List.sum_map_mul_left]
    rfl

theorem sumL_get {s dims : List ℕ} (r : Fin s.prod → F) {q : List ℕ} (hq : InB q (dropDims s dims)) :
    (toND (dropDims s dims) (sumL s dims r)).get q = sumOver s dims (toND s r).get q := by
  rw [toND_get _ _ hq]
  show sumOver s dims (byCoord s r) (unravelIdx (dropDims s dims) (ravelIdx (dropDims s dims) q)) = _
  rw [unravelIdx_ravelIdx hq]
  exact sumOver_congr fun p hp => byCoord_get hp r

/-- `jnp.sum(x, axes)`, as registered (`reduce_sum`). -/
def sumArr (fil : Bool) (s dims : List ℕ) : ArrFn F (k := 1) (fun _ => s) (dropDims s dims) :=
  linFn (k := 1) Flags.SUMMATION fil (some dims) (sumL s dims ∘ₗ LinearMap.proj (φ := fun _ : Fin 1 => Fin s.prod → F) 0) 0

theorem sumArr_truthful {fil : Bool} {s dims : List ℕ} {x : (i : Fin 1) → Fin s.prod → F} (h0 : 0 ∉ s) (hd : dims.Nodup) (hr : ∀ d ∈ dims, d < s.length) :
    (sumArr fil s dims).Truthful (m := 0) (fun _ => none) [] (fun _ z q => (toND _ (sumL s dims (unslice (fun _ : Fin 1 => s) z 0) + 0)).get q) x := by
  refine lin_truthful (m := 0) (shape := fun _ => s) (fun _ => h0) (fun h => h0 ?_) (by decide) ?_ (fun h => absurd h (by decide))
  · unfold dropDims at h
    obtain ⟨d, h1, h2⟩ := List.mem_map.mp h
    have h3 := List.mem_range.mp (List.mem_filter.mp h1).1
    rw [List.getD_eq_getElem _ _ h3] at h2
    rw [← h2]
    exact List.getElem_mem h3
  · refine ⟨hd, fun a => ⟨hr, rfl, fun t q hq => ?_⟩⟩
    obtain rfl : a = 0 := Subsingleton.elim (α := Fin 1) _ _
    exact sumL_get t hq

omit [Inhabited F] in
theorem sumArr_safe {fil : Bool} {s dims : List ℕ} : (sumArr (F := F) fil s dims).SparseSafe (m := 0) (fun _ => none) [] :=
  ⟨Or.inl (by show Flags.SUMMATION.has _ = false; decide), Or.inr (Or.inl rfl), fun h => absurd h (by show ¬ Flags.SUMMATION.has _ = true; decide), fun h => absurd h (by show ¬ Flags.SUMMATION.has _ = true; decide)⟩

end

/-! ### Indexing -/

section
variable {F : Type} [RCLike F] [Inhabited F] {m : ℕ} {shape : Fin (m + 1) → List ℕ} {out : List ℕ}

/-- Every element of the result is an element of an operand (`src`), or zero. -/
def takeL (src : Fin out.prod → Option ((i : Fin (m + 1)) × Fin (shape i).prod)) : Deriv F shape out :=
  LinearMap.pi fun w => match src w with
    | none => 0
    | some p => (LinearMap.proj (R := F) (φ := fun _ : Fin (shape p.1).prod => F) p.2) ∘ₗ LinearMap.proj (φ := fun i => Fin (shape i).prod → F) p.1

open Classical in
/-- The same function on integer arrays that stand for the operands `acts`. -/
noncomputable def takeIdx (src : Fin out.prod → Option ((i : Fin (m + 1)) × Fin (shape i).prod)) (acts : List (Fin (m + 1))) : (Fin acts.length → ND ℤ) → ND ℤ :=
  fun y => ND.ofFn out fun q => if h : ravelIdx out q < out.prod then
    match src ⟨_, h⟩ with
    | none => -1
    | some p => if h : ∃ a, acts.get a = p.1 then (y h.choose).get (unravelIdx (shape p.1) p.2) else -1
    else 0

/-- A function that takes elements of its operands (reshape, transpose, slices, broadcast, concatenate, …), as registered (`INDEXING`); `c`: the elements that come from elsewhere. -/
def takeArr (fil : Bool) (src : Fin out.prod → Option ((i : Fin (m + 1)) × Fin (shape i).prod)) (c : Fin out.prod → F) : ArrFn F shape out :=
  linFn Flags.INDEXING fil none (takeL src) c

omit [Inhabited F] in
theorem takeL_apply (src : Fin out.prod → Option ((i : Fin (m + 1)) × Fin (shape i).prod)) (t : (i : Fin (m + 1)) → Fin (shape i).prod → F) (w : Fin out.prod) :
    takeL src t w = match src w with | none => 0 | some p => t p.1 p.2 := by
  show (match src w with
    | none => 0
    | some p => (LinearMap.proj (R := F) (φ := fun _ : Fin (shape p.1).prod => F) p.2) ∘ₗ LinearMap.proj (φ := fun i => Fin (shape i).prod → F) p.1) t = _
  cases src w with
  | none => rfl
  | some p => rfl

theorem take_indexing (src : Fin out.prod → Option ((i : Fin (m + 1)) × Fin (shape i).prod)) {a0 : Fin (m + 1)} {rest : List (Fin (m + 1))} (hnd : (a0 :: rest).Nodup) :
    Indexing (F := F) (k := rest.length) (ss := fun a => shape ((a0 :: rest).get a)) (takeL src ∘ₗ extendBy (P := fun i => Fin (shape i).prod) (a0 :: rest).get) (takeIdx src (a0 :: rest)) := by
  refine ⟨fun _ _ => rfl, fun q hq => ?_⟩
  have hget : ∀ y, (takeIdx src (a0 :: rest) y).get q = match src ⟨_, ravelIdx_lt hq⟩ with
      | none => -1
      | some p => if h : ∃ a, (a0 :: rest).get a = p.1 then (y h.choose).get (unravelIdx (shape p.1) p.2) else -1 := by
    intro y
    unfold takeIdx
    rw [ND.get_ofFn _ hq, dif_pos (ravelIdx_lt hq)]
  have hD : ∀ t, (toND out ((takeL (F := F) src ∘ₗ extendBy (P := fun i => Fin (shape i).prod) (a0 :: rest).get) t)).get q = match src ⟨_, ravelIdx_lt hq⟩ with
      | none => 0
      | some p => extendBy (P := fun i => Fin (shape i).prod) (a0 :: rest).get t p.1 p.2 := by
    intro t
    rw [toND_get _ _ hq]
    exact takeL_apply src _ _
  cases hp : src ⟨_, ravelIdx_lt hq⟩ with
  | none => exact Or.inr ⟨fun t => by rw [hD, hp], fun y _ => by rw [hget, hp]⟩
  | some p =>
    by_cases h : ∃ a, (a0 :: rest).get a = p.1
    · refine Or.inl ?_
      obtain ⟨i, p⟩ := p
      dsimp only at h
      have hc := h.choose_spec
      have hc' : ∀ y : Fin (rest.length + 1) → ND ℤ, (takeIdx src (a0 :: rest) y).get q = (y h.choose).get (unravelIdx (shape i) p) := by
        intro y
        refine (hget y).trans ?_
        rw [hp]
        dsimp only
        rw [dif_pos h]
      have hD' : ∀ t, (toND out ((takeL (F := F) src ∘ₗ extendBy (P := fun i => Fin (shape i).prod) (a0 :: rest).get) t)).get q =
          extendBy (P := fun i => Fin (shape i).prod) (a0 :: rest).get t i p := by
        intro t
        rw [hD, hp]
      revert hc hc'
      generalize h.choose = a
      intro hc hc'
      subst hc
      refine ⟨a, unravelIdx (shape ((a0 :: rest).get a)) p, inB_unravelIdx p.2, fun t => ?_, fun y _ => hc' y⟩
      rw [hD', extendBy_act (acts_inj hnd), toND_get _ _ (inB_unravelIdx p.2)]
      exact congrArg (t a) (Fin.ext (ravelIdx_unravelIdx p.2).symm)
    · refine Or.inr ⟨fun t => ?_, fun y _ => ?_⟩
      · rw [hD, hp]
        dsimp only
        rw [extendBy_other _ h]
        rfl
      · rw [hget, hp]
        dsimp only
        rw [dif_neg h]

theorem takeArr_truthful {fil : Bool} {src : Fin out.prod → Option ((i : Fin (m + 1)) × Fin (shape i).prod)} {c : Fin out.prod → F}
    {x : (i : Fin (m + 1)) → Fin (shape i).prod → F} (hs : ∀ i, 0 ∉ shape i) (h0 : 0 ∉ out) :
    (takeArr fil src c).Truthful (fun acts => some (takeIdx src acts)) [] (fun _ z q => (toND out (takeL src (unslice shape z) + c)).get q) x := by
  refine lin_truthful hs h0 (by decide) trivial fun _ a0 rest f hnd hf => ?_
  cases hf
  exact take_indexing src hnd

omit [Inhabited F] in
theorem takeArr_safe {fil : Bool} {src : Fin out.prod → Option ((i : Fin (m + 1)) × Fin (shape i).prod)} {c : Fin out.prod → F} (hm : m ≤ 1) :
    (takeArr fil src c).SparseSafe (fun acts => some (takeIdx src acts)) [] :=
  ⟨Or.inl (by show Flags.INDEXING.has _ = false; decide), Or.inr (Or.inr ⟨hm, Or.inl (by show Flags.INDEXING.has _ = true; decide)⟩), fun h => absurd h (by show ¬ Flags.INDEXING.has _ = true; decide), fun _ _ _ h => by simp at h⟩

end

end Folx.Layout

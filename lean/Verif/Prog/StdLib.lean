import Verif.Prog.StdProofs
import Verif.Core.CustomProofs

/-!
# The kinds of functions in the registry (model of `folx/wrapped_functions.py:297-441`)

Every entry of the registry made with `wrap_forward_laplacian` is one of the following kinds.
-/

namespace Folx

open Filter Topology
open Folx.Interp (Err)

variable {F : Type} [RCLike F]

theorem noFlag' (f g : Flags) {P : Prop} (h : f.has g = true) (hn : f.has g = false) : P := by
  rw [hn] at h
  exact absurd h (by decide)

section Calc
variable {E G : Type} [NormedAddCommGroup E] [NormedSpace F E] [NormedAddCommGroup G] [NormedSpace F G]

/-- `f` is affine near `x`. -/
def AffineAt (F : Type) [RCLike F] {E G : Type} [NormedAddCommGroup E] [NormedSpace F E] [NormedAddCommGroup G]
    [NormedSpace F G] (f : E → G) (x : E) : Prop := ∃ (L : E →L[F] G) (c : G), ∀ᶠ y in 𝓝 x, f y = L y + c

theorem AffineAt.contDiffAt {f : E → G} {x : E} (h : AffineAt F f x) : ContDiffAt F 2 f x := by
  obtain ⟨L, c, h⟩ := h
  exact ((L.contDiff.add contDiff_const).contDiffAt).congr_of_eventuallyEq h

theorem AffineAt.D2_eq {f : E → G} {x : E} (h : AffineAt F f x) : D2 F f x = 0 := by
  obtain ⟨L, c, h⟩ := h
  have h1 : fderiv F f =ᶠ[𝓝 x] fun _ => L := by
    have h2 : ∀ᶠ y in 𝓝 x, f =ᶠ[𝓝 y] fun y => L y + c := eventually_eventually_nhds.mpr h
    filter_upwards [h2] with y hy
    rw [hy.fderiv_eq, fderiv_add_const]
    exact L.fderiv
  unfold D2
  rw [h1.fderiv_eq]
  simp

theorem AffineAt.comp {E' : Type} [NormedAddCommGroup E'] [NormedSpace F E'] {f : E → G} {L : E' →L[F] E} {c : E} {y : E'}
    (h : AffineAt F f (L y + c)) : AffineAt F (fun y => f (L y + c)) y := by
  obtain ⟨M, d, h⟩ := h
  refine ⟨M.comp L, M c + d, ?_⟩
  have hc : ContinuousAt (fun y => L y + c) y := (L.continuous.add continuous_const).continuousAt
  filter_upwards [hc.eventually h] with z hz
  rw [hz, map_add, add_assoc]
  rfl

/-- Second derivatives within one argument vanish if the function is affine in it. -/
theorem D2_single_zero {m : ℕ} {W : Fin m → Type} [∀ i, NormedAddCommGroup (W i)] [∀ i, NormedSpace F (W i)]
    (f : ((i : Fin m) → W i) → G) (x : (i : Fin m) → W i) (i : Fin m) (hf : ContDiffAt F 2 f x)
    (h : AffineAt F (fun u : W i => f (Function.update x i u)) (x i)) (a b : W i) :
    D2 F f x (Pi.single i a) (Pi.single i b) = 0 := by
  let L : W i →L[F] ((i : Fin m) → W i) := ContinuousLinearMap.single F W i
  have hL : ∀ u, L u = Pi.single i u := fun u => rfl
  have he : ∀ u, Function.update x i u = (x - Pi.single i (x i)) + L u := by
    intro u
    funext j
    by_cases hj : j = i
    · subst hj
      simp [hL]
    · simp [hL, Function.update_of_ne hj, Pi.single_eq_of_ne hj]
  have hx : (x - Pi.single i (x i)) + L (x i) = x := by rw [hL]; abel
  have h1 := (D2_comp_affine f L (x - Pi.single i (x i)) (x i) (by rw [hx]; exact hf)).2 a b
  rw [hx] at h1
  rw [← hL, ← hL, ← h1]
  have h2 : (fun u : W i => f (Function.update x i u)) = fun u => f ((x - Pi.single i (x i)) + L u) :=
    funext fun u => by rw [he]
  rw [h2] at h
  rw [h.D2_eq]
  rfl

end Calc

/-! ### Elementwise functions (`in_axes=()`) -/

/-- An elementwise function `φ` of `nIn` broadcast operands, wrapped with `in_axes=()` and the given flags
(e.g. `exp`, `add`, `mul`, `div`, `pow`; `wrapped_functions.py:302-322,345-359,394-399,436-439`).  Output element `q`
is `φ` of the elements at the broadcast positions `π i q`. -/
def elemStd (nIn : ℕ) (size : Fin nIn → ℕ) (out : ℕ) (φ : (Fin nIn → F) → F) (flags : Flags)
    (π : (i : Fin nIn) → Fin out → Fin (size i)) (same : (i : Fin nIn) → Option (Fin out ≃ Fin (size i)))
    (custom : (k : ℕ) → (e : Fin k ↪o Fin nIn) → ((i : Fin nIn) → Fin (size i) → F) →
      Option (CustomRule k (fun _ => 1) (Fin out) Unit F)) : Std F where
  nIn := nIn
  size := size
  out := out
  V := Fin out
  O := Unit
  K := fun i => Fin (size i)
  dim := fun _ => 1
  split := fun i => (Equiv.prodUnique (Fin (size i)) (Fin 1)).symm
  κ := π
  lay := (Equiv.prodUnique (Fin out) Unit).symm
  fn := fun z _ => φ fun i => z i 0
  flags := flags
  elem := true
  π := π
  same := same
  ax := fun i => .elem (π i)
  src := fun _ _ => none
  static := true
  oneAxis := false
  c2r := false
  custom := fun {k} e x => custom k e x

section Elem
variable {nIn : ℕ} {size : Fin nIn → ℕ} {out : ℕ} {φ : (Fin nIn → F) → F} {flags : Flags}
  {π : (i : Fin nIn) → Fin out → Fin (size i)} {same : (i : Fin nIn) → Option (Fin out ≃ Fin (size i))}
  {custom : (k : ℕ) → (e : Fin k ↪o Fin nIn) → ((i : Fin nIn) → Fin (size i) → F) →
      Option (CustomRule k (fun _ => 1) (Fin out) Unit F)}

/-- The operands' elements at output position `q`. -/
def atPos (π : (i : Fin nIn) → Fin out → Fin (size i)) (x : (i : Fin nIn) → Fin (size i) → F) (q : Fin out) :
    Fin nIn → F := fun i => x i (π i q)

theorem elemStd_whole (x : (i : Fin nIn) → Fin (size i) → F) (q : Fin out) :
    (elemStd nIn size out φ flags π same custom).whole x q = φ (atPos π x q) := rfl

/-- Taking the single elements of the slices, as linear map. -/
noncomputable def headL (F : Type) [RCLike F] (m : ℕ) : ((i : Fin m) → Fin ((fun _ => 1 : Fin m → ℕ) i) → F) →L[F] (Fin m → F) :=
  ContinuousLinearMap.pi fun i =>
    (ContinuousLinearMap.proj (R := F) (φ := fun _ : Fin 1 => F) 0).comp
      (ContinuousLinearMap.proj (R := F) (φ := fun _ : Fin m => Fin 1 → F) i)

theorem elem_fn_contDiffAt (x : (i : Fin nIn) → Fin (size i) → F) (q : Fin out)
    (h : ContDiffAt F 2 φ (atPos π x q)) :
    ContDiffAt F 2 (elemStd nIn size out φ flags π same custom).fn
      ((elemStd nIn size out φ flags π same custom).slice x q) := by
  have h1 : ContDiffAt F 2 (fun z : (i : Fin nIn) → Fin ((fun _ => 1 : Fin nIn → ℕ) i) → F => φ (headL F nIn z))
      ((elemStd nIn size out φ flags π same custom).slice x q) := by
    refine ContDiffAt.comp _ ?_ (headL F nIn).contDiff.contDiffAt
    exact h
  rw [contDiffAt_pi]
  intro _
  exact h1

theorem elem_fn_affine (x : (i : Fin nIn) → Fin (size i) → F) (q : Fin out)
    (h : AffineAt F φ (atPos π x q)) :
    AffineAt F (elemStd nIn size out φ flags π same custom).fn
      ((elemStd nIn size out φ flags π same custom).slice x q) := by
  obtain ⟨L, c, h⟩ := h
  refine ⟨(ContinuousLinearMap.pi fun _ : Unit => L).comp (headL F nIn), fun _ => c, ?_⟩
  have hc : ContinuousAt (fun z => headL F nIn z) ((elemStd nIn size out φ flags π same custom).slice x q) :=
    (headL F nIn).continuous.continuousAt
  have h' : ∀ᶠ y in 𝓝 (headL F nIn ((elemStd nIn size out φ flags π same custom).slice x q)), φ y = L y + c := h
  filter_upwards [hc.eventually h'] with z hz
  funext _
  exact hz

theorem elem_fn_affine_one (x : (i : Fin nIn) → Fin (size i) → F) (q : Fin out) (i : Fin nIn)
    (h : AffineAt F (fun u : F => φ (Function.update (atPos π x q) i u)) (x i (π i q))) :
    AffineAt F (fun u : Fin 1 → F => (elemStd nIn size out φ flags π same custom).fn
      (Function.update ((elemStd nIn size out φ flags π same custom).slice x q) i u))
      ((elemStd nIn size out φ flags π same custom).slice x q i) := by
  obtain ⟨L, c, h⟩ := h
  refine ⟨(ContinuousLinearMap.pi fun _ : Unit => L).comp (ContinuousLinearMap.proj (R := F) (φ := fun _ : Fin 1 => F) 0),
    fun _ => c, ?_⟩
  have hc : ContinuousAt (fun z : Fin 1 → F => z 0)
      ((elemStd nIn size out φ flags π same custom).slice x q i) := (continuous_apply 0).continuousAt
  filter_upwards [hc.eventually h] with z hz
  funext _
  refine Eq.trans ?_ hz
  show φ _ = φ _
  congr 1
  funext j
  by_cases hj : j = i
  · subst hj
    erw [Function.update_self, Function.update_self]
  · erw [Function.update_of_ne hj, Function.update_of_ne hj]
    rfl

/-- The structural part of `TrueAt`, which holds for all elementwise functions. -/
theorem elemStd_trueAt (n : ℕ) (x : (i : Fin nIn) → Fin (size i) → F)
    (hsame : ∀ i ε, same i = some ε → ∀ q, ε q = π i q)
    (hflags : flags.has Flags.INDEXING = false ∧ flags.has Flags.SUMMATION = false ∧ flags.has Flags.SCATTER = false)
    (smooth : ∀ q, ContDiffAt F 2 φ (atPos π x q))
    (linear : flags.has Flags.LINEAR = true → ∀ q, AffineAt F φ (atPos π x q))
    (linOne : flags.has Flags.LINEAR_IN_ONE = true → ∀ q i,
      AffineAt F (fun u : F => φ (Function.update (atPos π x q) i u)) (x i (π i q)))
    (linFirst : flags.has Flags.LINEAR_IN_FIRST = true → ∀ q (i : Fin nIn), i.val = 0 →
      AffineAt F (fun u : F => φ (Function.update (atPos π x q) i u)) (x i (π i q)))
    (mult : flags.has Flags.MULTIPLICATION = true → nIn ≤ 2 ∧ ∀ i0 i1 : Fin nIn, i0.val = 0 → i1.val = 1 →
      ∀ z, φ z = z i0 * z i1)
    (hcustom : ∀ {k : ℕ} (e : Fin k ↪o Fin nIn) c, custom k e x = some c →
      ((elemStd nIn size out φ flags π same custom).inst e x).CustomExact n c fun a => x (e a))
    (bilinear : flags.has Flags.LINEAR_IN_ONE = true → flags.has Flags.LINEAR = true ∨ nIn = 1 ∨
      (flags.has Flags.MULTIPLICATION = true ∧ ∀ {k : ℕ} (e : Fin k ↪o Fin nIn), custom k e x = none)) :
    (elemStd nIn size out φ flags π same custom).TrueAt n x where
  smooth := fun v => elem_fn_contDiffAt x v (smooth v)
  linear := fun h v => (elem_fn_affine x v (linear h v)).D2_eq
  linOne := fun h v i a b => D2_single_zero _ _ i (elem_fn_contDiffAt x v (smooth v))
    (elem_fn_affine_one x v i (linOne h v i)) a b
  linFirst := fun h v i hi a b => D2_single_zero _ _ i (elem_fn_contDiffAt x v (smooth v))
    (elem_fn_affine_one x v i (linFirst h v i hi)) a b
  mult := by
    intro h
    refine ⟨(mult h).1, fun i0 i1 h0 h1 => ⟨rfl, fun z o => ?_⟩⟩
    refine ((mult h).2 i0 i1 h0 h1 fun i => (show Fin 1 → F from z i) 0).trans ?_
    exact (Fin.sum_univ_one (fun c : Fin 1 => (show Fin 1 → F from z i0) c * (show Fin 1 → F from z i1) c)).symm
  elem := fun _ _ => rfl
  elem_slice := fun _ _ _ _ => rfl
  ax_elem := by
    intro i π' hπ q y y' h1 h2
    have hπ' : π i = π' := by
      have h : ArgAx.elem (π i) = ArgAx.elem π' := hπ
      injection h
    show φ _ = φ _
    congr 1
    funext j
    by_cases hj : j = i
    · subst hj
      have := h2 (π' q) rfl
      show y j (π j q) = y' j (π j q)
      rw [hπ']
      exact this
    · exact congrFun (h1 j hj) _
  ax_red := by
    intro i r h
    have h : ArgAx.elem (π i) = ArgAx.red r := h
    exact absurd h (by simp)
  ax_surj := by
    intro i r h
    have h : ArgAx.elem (π i) = ArgAx.red r := h
    exact absurd h (by simp)
  same := by
    intro i π' hπ ε hε q
    have hπ' : π i = π' := by
      have h : ArgAx.elem (π i) = ArgAx.elem π' := hπ
      injection h
    rw [← hπ']
    exact hsame i ε hε q
  index := fun h => noFlag' _ _ h hflags.1
  sum := fun h => noFlag' _ _ h hflags.2.1
  noScatter := hflags.2.2
  custom := hcustom
  bilinear := bilinear

end Elem

section ElemKinds
variable {nIn : ℕ} {size : Fin nIn → ℕ} {out : ℕ} {φ : (Fin nIn → F) → F}
  {π : (i : Fin nIn) → Fin out → Fin (size i)} {same : (i : Fin nIn) → Option (Fin out ≃ Fin (size i))}

/-- Elementwise functions without flags (`exp`, `sin`, `pow`, `integer_pow`, `tanh`, `sqrt`, `log`, …) where they
are twice continuously differentiable. -/
theorem elem_general (n : ℕ) (x : (i : Fin nIn) → Fin (size i) → F)
    (hsame : ∀ i ε, same i = some ε → ∀ q, ε q = π i q) (h : ∀ q, ContDiffAt F 2 φ (atPos π x q)) :
    (elemStd nIn size out φ Flags.GENERAL π same fun _ _ _ => none).TrueAt n x :=
  elemStd_trueAt n x hsame ⟨by decide, by decide, by decide⟩ h (fun h => noFlag' _ _ h (by decide))
    (fun h => noFlag' _ _ h (by decide)) (fun h => noFlag' _ _ h (by decide)) (fun h => noFlag' _ _ h (by decide))
    (fun _ _ hc => by simp at hc) (fun h => noFlag' _ _ h (by decide))

theorem AffineAt.update {m : ℕ} {f : (Fin m → F) → F} {x : Fin m → F} (h : AffineAt F f x) (i : Fin m) :
    AffineAt F (fun u : F => f (Function.update x i u)) (x i) := by
  let L : F →L[F] (Fin m → F) := ContinuousLinearMap.single F (fun _ => F) i
  have hL : ∀ u, L u = Pi.single i u := fun u => rfl
  have he : ∀ u, Function.update x i u = L u + (x - Pi.single i (x i)) := by
    intro u
    funext j
    by_cases hj : j = i
    · subst hj
      simp [hL]
    · simp [hL, Function.update_of_ne hj, Pi.single_eq_of_ne hj]
  have h2 : (fun u : F => f (Function.update x i u)) = fun u => f (L u + (x - Pi.single i (x i))) :=
    funext fun u => by rw [he]
  rw [h2]
  apply AffineAt.comp
  have : L (x i) + (x - Pi.single i (x i)) = x := by rw [hL]; abel
  rw [this]
  exact h

/-- Elementwise functions flagged `LINEAR` (`neg`, `add`, `sub`, real `abs`, `max`, `min`) where they are affine. -/
theorem elem_linear (n : ℕ) (x : (i : Fin nIn) → Fin (size i) → F)
    (hsame : ∀ i ε, same i = some ε → ∀ q, ε q = π i q) (h : ∀ q, AffineAt F φ (atPos π x q)) :
    (elemStd nIn size out φ Flags.LINEAR π same fun _ _ _ => none).TrueAt n x :=
  elemStd_trueAt n x hsame ⟨by decide, by decide, by decide⟩ (fun q => (h q).contDiffAt) (fun _ => h)
    (fun _ q i => (h q).update i) (fun _ q i _ => (h q).update i) (fun h => noFlag' _ _ h (by decide))
    (fun _ _ hc => by simp at hc) (fun _ => Or.inl (by decide))

end ElemKinds

/-- `mul` (`wrapped_functions.py:312-314`). -/
theorem elem_mul (n : ℕ) {size : Fin 2 → ℕ} {out : ℕ} {π : (i : Fin 2) → Fin out → Fin (size i)}
    {same : (i : Fin 2) → Option (Fin out ≃ Fin (size i))} (x : (i : Fin 2) → Fin (size i) → F)
    (hsame : ∀ i ε, same i = some ε → ∀ q, ε q = π i q) :
    (elemStd 2 size out (fun z => z 0 * z 1) Flags.MULTIPLICATION π same fun _ _ _ => none).TrueAt n x := by
  have haff : ∀ q (i : Fin 2), AffineAt F (fun u : F => (fun z : Fin 2 → F => z 0 * z 1)
      (Function.update (atPos π x q) i u)) (x i (π i q)) := by
    intro q i
    rcases (show i = 0 ∨ i = 1 by omega) with rfl | rfl
    · refine ⟨(ContinuousLinearMap.id F F).smulRight (x 1 (π 1 q)), 0, Eventually.of_forall fun u => ?_⟩
      simp [atPos]
    · refine ⟨(ContinuousLinearMap.id F F).smulRight (x 0 (π 0 q)), 0, Eventually.of_forall fun u => ?_⟩
      simp [atPos, mul_comm]
  refine elemStd_trueAt n x hsame ⟨by decide, by decide, by decide⟩ (fun q => ?_)
    (fun h => noFlag' _ _ h (by decide)) (fun _ => haff) (fun _ q i _ => haff q i) (fun _ => ⟨le_refl _, ?_⟩)
    (fun _ _ hc => by simp at hc) (fun _ => Or.inr (Or.inr ⟨by decide, fun _ => rfl⟩))
  · have h0 : ContDiff F 2 fun z : Fin 2 → F => z 0 := contDiff_apply F F 0
    have h1 : ContDiff F 2 fun z : Fin 2 → F => z 1 := contDiff_apply F F 1
    exact (h0.mul h1).contDiffAt
  · intro i0 i1 h0 h1 z
    have : i0 = 0 := Fin.ext h0
    have h1' : i1 = 1 := Fin.ext h1
    rw [this, h1']

/-! ### Functions of whole arrays (`in_axes=None`) -/

/-- A function of whole arrays wrapped without `in_axes`: unregistered primitives, `custom_jvp_call`, indexing
operations, `cumsum`, `scatter_add` and so on (`wrapped_functions.py:342-344,360-421,495`, `interpreter.py:205-208`).
`axes` are the resolved axes of each operand when it is treated alone (`jvp.py:130-142`).  Operands without
elements are not modelled. -/
def arrStd (nIn : ℕ) (size : Fin nIn → ℕ) (out : ℕ) (hpos : ∀ i, 0 < size i)
    (fn : ((i : Fin nIn) → Fin (size i) → F) → Fin out → F) (flags : Flags)
    (axes : (i : Fin nIn) → ArgAx (Fin (size i)) (Fin out))
    (same : (i : Fin nIn) → Option (Fin out ≃ Fin (size i)))
    (src : ((i : Fin nIn) → Fin (size i) → F) → Fin out → Option (Σ i, Fin (size i))) (static oneAxis : Bool)
    (custom : (k : ℕ) → (e : Fin k ↪o Fin nIn) → ((i : Fin nIn) → Fin (size i) → F) →
      Option (CustomRule k (fun a => size (e a)) Unit (Fin out) F)) : Std F where
  nIn := nIn
  size := size
  out := out
  V := Unit
  O := Fin out
  K := fun _ => Unit
  dim := size
  split := fun i => (Equiv.uniqueProd (Fin (size i)) Unit).symm
  κ := fun _ _ => ()
  lay := (Equiv.uniqueProd (Fin out) Unit).symm
  fn := fn
  flags := flags
  elem := false
  π := fun i _ => ⟨0, hpos i⟩
  same := same
  ax := axes
  src := src
  static := static
  oneAxis := oneAxis
  c2r := false
  custom := fun {k} e x => custom k e x

/-- The axes of an operand of a function wrapped without `in_axes` and called without `axes` argument: none for a
scalar (zero-dimensional) operand, all otherwise (`jvp.py:132-137`). -/
def allAxes (out m : ℕ) (hm : 0 < m) (scalar : Bool) : ArgAx (Fin m) (Fin out) :=
  if scalar then .elem fun _ => ⟨0, hm⟩
  else .red ⟨Unit, Fin m, (Equiv.uniqueProd (Fin m) Unit).symm, fun _ => ()⟩

/-- The axes of an operand reduced along the `axes` argument (`jvp.py:130-131`): output element `q` is computed
from the elements `split⁻¹ (κ q, c)`. -/
def someAxes {m out : ℕ} {K C : Type} [Fintype K] [DecidableEq K] [Fintype C] (split : Fin m ≃ K × C)
    (κ : Fin out → K) : ArgAx (Fin m) (Fin out) := .red ⟨K, C, split, κ⟩

section Arr
variable {nIn : ℕ} {size : Fin nIn → ℕ} {out : ℕ} {hpos : ∀ i, 0 < size i}
  {fn : ((i : Fin nIn) → Fin (size i) → F) → Fin out → F} {flags : Flags}
  {axes : (i : Fin nIn) → ArgAx (Fin (size i)) (Fin out)}
  {same : (i : Fin nIn) → Option (Fin out ≃ Fin (size i))}
  {src : ((i : Fin nIn) → Fin (size i) → F) → Fin out → Option (Σ i, Fin (size i))} {static oneAxis : Bool}
  {custom : (k : ℕ) → (e : Fin k ↪o Fin nIn) → ((i : Fin nIn) → Fin (size i) → F) →
      Option (CustomRule k (fun a => size (e a)) Unit (Fin out) F)}

/-- Output `q` of `fn` depends on operand `i` only through the elements `S q`. -/
def DependsOnly (fn : ((i : Fin nIn) → Fin (size i) → F) → Fin out → F) (i : Fin nIn)
    (S : Fin out → Set (Fin (size i))) : Prop :=
  ∀ q (y y' : (i : Fin nIn) → Fin (size i) → F), (∀ j, j ≠ i → y j = y' j) → (∀ p ∈ S q, y i p = y' i p) →
    fn y q = fn y' q

/-- The axes describe the function. -/
def AxesOk (fn : ((i : Fin nIn) → Fin (size i) → F) → Fin out → F)
    (axes : (i : Fin nIn) → ArgAx (Fin (size i)) (Fin out))
    (same : (i : Fin nIn) → Option (Fin out ≃ Fin (size i))) (i : Fin nIn) : Prop :=
  match axes i with
  | .elem π => DependsOnly fn i (fun q => {π q}) ∧ ∀ ε, same i = some ε → ∀ q, ε q = π q
  | .red r => DependsOnly fn i (fun q => {p | (r.split p).1 = r.κ q}) ∧
      (Nonempty (Fin out) → Function.Surjective r.κ)

theorem arrStd_trueAt (n : ℕ) (x : (i : Fin nIn) → Fin (size i) → F)
    (hax : ∀ i, AxesOk fn axes same i)
    (hflags : flags.has Flags.SCATTER = false ∧ flags.has Flags.MULTIPLICATION = false)
    (smooth : ContDiffAt F 2 fn x)
    (linear : flags.has Flags.LINEAR_IN_FIRST = true → flags.has Flags.LINEAR = true ∧ AffineAt F fn x)
    (linear' : flags.has Flags.LINEAR = true → flags.has Flags.LINEAR_IN_FIRST = true)
    (linear'' : flags.has Flags.LINEAR_IN_ONE = true → flags.has Flags.LINEAR_IN_FIRST = true)
    (index : flags.has Flags.INDEXING = true → static = true → ∃ cst : Fin out → F, ∀ᶠ y in 𝓝 x, ∀ q,
      fn y q = copyOr (src x q) y (cst q))
    (sum : flags.has Flags.SUMMATION = true → ∀ i r, axes i = .red r → ∀ y q,
      fn y q = ∑ c : r.C, y i (r.split.symm (r.κ q, c)))
    (hcustom : ∀ {k : ℕ} (e : Fin k ↪o Fin nIn) c, custom k e x = some c →
      ((arrStd nIn size out hpos fn flags axes same src static oneAxis custom).inst e x).CustomExact n c
        fun a => x (e a)) :
    (arrStd nIn size out hpos fn flags axes same src static oneAxis custom).TrueAt n x where
  smooth := fun _ => smooth
  linear := fun h _ => (linear (linear' h)).2.D2_eq
  linOne := fun h _ i a b => by
    have := (linear (linear'' h)).2.D2_eq
    show D2 F fn x _ _ = 0
    rw [this]
    rfl
  linFirst := fun h _ i _ a b => by
    have := (linear h).2.D2_eq
    show D2 F fn x _ _ = 0
    rw [this]
    rfl
  mult := fun h => noFlag' _ _ h hflags.2
  elem := fun h => absurd (show false = true from h) (by decide)
  elem_slice := fun h => absurd (show false = true from h) (by decide)
  ax_elem := by
    intro i π hπ
    have h := hax i
    have hπ' : axes i = .elem π := hπ
    unfold AxesOk at h
    rw [hπ'] at h
    exact h.1
  ax_red := by
    intro i r hr
    have h := hax i
    have hr' : axes i = .red r := hr
    unfold AxesOk at h
    rw [hr'] at h
    exact h.1
  ax_surj := by
    intro i r hr
    have h := hax i
    have hr' : axes i = .red r := hr
    unfold AxesOk at h
    rw [hr'] at h
    exact h.2
  same := by
    intro i π hπ
    have h := hax i
    have hπ' : axes i = .elem π := hπ
    unfold AxesOk at h
    rw [hπ'] at h
    exact h.2
  index := index
  sum := sum
  noScatter := hflags.1
  custom := hcustom
  bilinear := fun h => Or.inl (linear (linear'' h)).1

theorem allAxes_ok (scalar : Fin nIn → Bool) (hs : ∀ i, scalar i = true → size i = 1) (i : Fin nIn) :
    AxesOk fn (fun i => allAxes out (size i) (hpos i) (scalar i)) same i := by
  unfold AxesOk
  dsimp only
  have hall : ∀ q, ∀ y y' : (i : Fin nIn) → Fin (size i) → F, (∀ j, j ≠ i → y j = y' j) → (∀ p, y i p = y' i p) →
      fn y q = fn y' q := by
    intro q y y' h1 h2
    have : y = y' := by
      funext j
      by_cases hj : j = i
      · subst hj
        exact funext h2
      · exact h1 j hj
    rw [this]
  cases h : scalar i with
  | true =>
    rw [show allAxes out (size i) (hpos i) true = _ from if_pos rfl]
    have h1 := hs i h
    have hsub : ∀ p p' : Fin (size i), p = p' := fun p p' => Fin.ext (by omega)
    refine ⟨fun q y y' h2 h3 => hall q y y' h2 fun p => h3 p (hsub _ _), fun ε _ q => hsub _ _⟩
  | false =>
    rw [show allAxes out (size i) (hpos i) false = _ from if_neg (by decide)]
    refine ⟨fun q y y' h2 h3 => hall q y y' h2 fun p => h3 p (by simp), fun ⟨q⟩ u => ⟨q, by simp⟩⟩

/-- Functions of whole arrays without flags: unregistered primitives, `custom_jvp_call`
(`wrapped_functions.py:487-498`, `interpreter.py:205-208`). -/
theorem arr_general (n : ℕ) (scalar : Fin nIn → Bool) (hs : ∀ i, scalar i = true → size i = 1)
    (x : (i : Fin nIn) → Fin (size i) → F) (h : ContDiffAt F 2 fn x) :
    (arrStd nIn size out hpos fn Flags.GENERAL (fun i => allAxes out (size i) (hpos i) (scalar i)) same
      (fun _ _ => none) true oneAxis fun _ _ _ => none).TrueAt n x :=
  arrStd_trueAt n x (allAxes_ok scalar hs) ⟨by decide, by decide⟩ h (fun h => noFlag' _ _ h (by decide))
    (fun h => noFlag' _ _ h (by decide)) (fun h => noFlag' _ _ h (by decide)) (fun h => noFlag' _ _ h (by decide))
    (fun h => noFlag' _ _ h (by decide)) (fun _ _ hc => by simp at hc)

/-- Functions of whole arrays flagged `LINEAR` (`cumsum`, `scatter_add`, `scatter_max`, `scatter_min`), where they
are affine. -/
theorem arr_linear (n : ℕ) (scalar : Fin nIn → Bool) (hs : ∀ i, scalar i = true → size i = 1)
    (x : (i : Fin nIn) → Fin (size i) → F) (h : AffineAt F fn x) :
    (arrStd nIn size out hpos fn Flags.LINEAR (fun i => allAxes out (size i) (hpos i) (scalar i)) same
      (fun _ _ => none) true oneAxis fun _ _ _ => none).TrueAt n x :=
  arrStd_trueAt n x (allAxes_ok scalar hs) ⟨by decide, by decide⟩ h.contDiffAt (fun _ => ⟨by decide, h⟩)
    (fun _ => by decide) (fun _ => by decide) (fun h => noFlag' _ _ h (by decide))
    (fun h => noFlag' _ _ h (by decide)) (fun _ _ hc => by simp at hc)

/-- Indexing: copy elements or fill. -/
def pick (src : ((i : Fin nIn) → Fin (size i) → F) → Fin out → Option (Σ i, Fin (size i))) (fill : Fin out → F)
    (x : (i : Fin nIn) → Fin (size i) → F) (q : Fin out) : F :=
  copyOr (src x q) x (fill q)

theorem pick_affine (fill : Fin out → F) (x : (i : Fin nIn) → Fin (size i) → F)
    (h : ∀ᶠ y in 𝓝 x, src y = src x) : AffineAt F (pick src fill) x := by
  refine ⟨ContinuousLinearMap.pi fun q => match src x q with
      | some ⟨i, p⟩ => (ContinuousLinearMap.proj (R := F) (φ := fun _ : Fin (size i) => F) p).comp
          (ContinuousLinearMap.proj (R := F) (φ := fun i : Fin nIn => Fin (size i) → F) i)
      | none => 0, fun q => match src x q with | some _ => 0 | none => fill q, ?_⟩
  filter_upwards [h] with y hy
  funext q
  unfold pick
  rw [hy]
  show _ = (match src x q with
      | some ⟨i, p⟩ => (ContinuousLinearMap.proj (R := F) (φ := fun _ : Fin (size i) => F) p).comp
          (ContinuousLinearMap.proj (R := F) (φ := fun i : Fin nIn => Fin (size i) → F) i)
      | none => (0 : ((i : Fin nIn) → Fin (size i) → F) →L[F] F)) y + (match src x q with | some _ => 0 | none => fill q)
  rcases src x q with _ | ⟨i, p⟩
  · simp [copyOr]
  · simp [copyOr]

/-- Indexing operations (`wrapped_functions.py:360-393`): `broadcast_in_dim`, `reshape`, `slice`,
`dynamic_slice`, `concatenate`, `select_n`, `gather`, `transpose`, `squeeze`, `rev`, and the rearrangement in
`dot_general` (`:37-58`).  `src` says which element is copied; it may depend on index operands (then it must not
change near `x`).  The index operands' own dependence is thereby constant, as for integer arrays.
`static = false` models index operands unknown at trace time (`jvp.py:306-313`). -/
theorem arr_index (n : ℕ) (scalar : Fin nIn → Bool) (hs : ∀ i, scalar i = true → size i = 1) (fill : Fin out → F)
    (x : (i : Fin nIn) → Fin (size i) → F) (h : ∀ᶠ y in 𝓝 x, src y = src x) :
    (arrStd nIn size out hpos (pick src fill) Flags.INDEXING (fun i => allAxes out (size i) (hpos i) (scalar i)) same
      src static oneAxis fun _ _ _ => none).TrueAt n x :=
  arrStd_trueAt n x (allAxes_ok scalar hs) ⟨by decide, by decide⟩ (pick_affine fill x h).contDiffAt
    (fun _ => ⟨by decide, pick_affine fill x h⟩)
    (fun _ => by decide) (fun _ => by decide)
    (fun _ _ => ⟨fill, by
      filter_upwards [h] with y hy q
      unfold pick
      rw [hy]⟩)
    (fun h => noFlag' _ _ h (by decide)) (fun _ _ hc => by simp at hc)

end Arr

/-! ### Reductions along axes -/

section Red
variable {m out : ℕ} {K C : Type} [Fintype K] [DecidableEq K] [Fintype C] {hm : 0 < m}
  {same : Option (Fin out ≃ Fin m)} {oneAxis : Bool}

/-- One-operand function family. -/
abbrev oneSize (m : ℕ) : Fin 1 → ℕ := fun _ => m

/-- The reduction of the elements belonging to each output by `φ`. -/
def reduceFn (split : Fin m ≃ K × C) (κ : Fin out → K) (φ : (C → F) → F)
    (x : (i : Fin 1) → Fin (oneSize m i) → F) (q : Fin out) : F := φ fun c => x 0 (split.symm (κ q, c))

/-- A reduction with the given flags along `axes` (`wrapped_functions.py:324-341`); `κ` enumerates the kept
positions. -/
def redStd (m out : ℕ) (hm : 0 < m) (split : Fin m ≃ K × C) (κ : Fin out → K) (φ : (C → F) → F) (flags : Flags)
    (same : Option (Fin out ≃ Fin m)) (oneAxis : Bool) : Std F :=
  arrStd 1 (oneSize m) out (fun _ => hm) (reduceFn split κ φ) flags (fun _ => someAxes split κ) (fun _ => same)
    (fun _ _ => none) true oneAxis fun _ _ _ => none

theorem red_axesOk (split : Fin m ≃ K × C) (κ : Fin out → K) (hκ : Function.Surjective κ) (φ : (C → F) → F)
    (i : Fin 1) : AxesOk (reduceFn split κ φ) (fun _ => someAxes split κ) (fun _ => same) i := by
  unfold AxesOk someAxes
  refine ⟨fun q y y' _ h2 => ?_, fun _ => hκ⟩
  obtain rfl : i = 0 := Subsingleton.elim _ _
  unfold reduceFn
  congr 1
  funext c
  exact h2 _ (by simp)

/-- Gathering the elements of one output is linear. -/
noncomputable def gatherL (split : Fin m ≃ K × C) (k : K) :
    ((i : Fin 1) → Fin (oneSize m i) → F) →L[F] (C → F) :=
  ContinuousLinearMap.pi fun c => (ContinuousLinearMap.proj (R := F) (φ := fun _ : Fin m => F) (split.symm (k, c))).comp
    (ContinuousLinearMap.proj (R := F) (φ := fun _ : Fin 1 => Fin m → F) 0)

theorem reduce_contDiffAt (split : Fin m ≃ K × C) (κ : Fin out → K) (φ : (C → F) → F)
    (x : (i : Fin 1) → Fin (oneSize m i) → F)
    (h : ∀ q, ContDiffAt F 2 φ fun c => x 0 (split.symm (κ q, c))) : ContDiffAt F 2 (reduceFn split κ φ) x := by
  rw [contDiffAt_pi]
  intro q
  have : ContDiffAt F 2 (fun x => φ (gatherL split (κ q) x)) x := by
    refine ContDiffAt.comp _ ?_ (gatherL (F := F) split (κ q)).contDiff.contDiffAt
    exact h q
  exact this

theorem reduce_affine (split : Fin m ≃ K × C) (κ : Fin out → K) (φ : (C → F) → F)
    (x : (i : Fin 1) → Fin (oneSize m i) → F)
    (h : ∀ q, AffineAt F φ fun c => x 0 (split.symm (κ q, c))) : AffineAt F (reduceFn split κ φ) x := by
  choose L c h using h
  refine ⟨ContinuousLinearMap.pi fun q => (L q).comp (gatherL split (κ q)), c, ?_⟩
  have : ∀ q, ∀ᶠ y in 𝓝 x, φ (gatherL split (κ q) y) = L q (gatherL split (κ q) y) + c q := fun q =>
    (gatherL (F := F) split (κ q)).continuous.continuousAt.eventually (h q)
  filter_upwards [eventually_all.mpr this] with y hy
  funext q
  exact hy q

/-- `reduce_sum` (`wrapped_functions.py:324-328`). -/
theorem red_sum (n : ℕ) (split : Fin m ≃ K × C) (κ : Fin out → K) (hκ : Function.Surjective κ)
    (x : (i : Fin 1) → Fin (oneSize m i) → F) :
    (redStd m out hm split κ (fun v => ∑ c, v c) Flags.SUMMATION same oneAxis).TrueAt n x := by
  have haff : AffineAt F (reduceFn (F := F) split κ fun v => ∑ c, v c) x := by
    apply reduce_affine
    intro q
    refine ⟨∑ c, ContinuousLinearMap.proj (R := F) (φ := fun _ : C => F) c, 0, Eventually.of_forall fun y => ?_⟩
    simp
  refine arrStd_trueAt n x (red_axesOk split κ hκ _) ⟨by decide, by decide⟩ haff.contDiffAt (fun _ => ⟨by decide, haff⟩)
    (fun _ => by decide) (fun _ => by decide) (fun h => noFlag' _ _ h (by decide)) (fun _ i r hr y q => ?_)
    (fun _ _ hc => by simp at hc)
  obtain rfl : i = 0 := Subsingleton.elim _ _
  unfold someAxes at hr
  injection hr with hr
  subst hr
  rfl

/-- `reduce_max`, `reduce_min` (`wrapped_functions.py:329-338`) where they are affine. -/
theorem red_linear (n : ℕ) (split : Fin m ≃ K × C) (κ : Fin out → K) (hκ : Function.Surjective κ) (φ : (C → F) → F)
    (x : (i : Fin 1) → Fin (oneSize m i) → F) (h : ∀ q, AffineAt F φ fun c => x 0 (split.symm (κ q, c))) :
    (redStd m out hm split κ φ (Flags.REDUCTION ||| Flags.LINEAR) same oneAxis).TrueAt n x :=
  arrStd_trueAt n x (red_axesOk split κ hκ _) ⟨by decide, by decide⟩ (reduce_affine split κ φ x h).contDiffAt
    (fun _ => ⟨by decide, reduce_affine split κ φ x h⟩)
    (fun _ => by decide) (fun _ => by decide) (fun h => noFlag' _ _ h (by decide))
    (fun h => noFlag' _ _ h (by decide)) (fun _ _ hc => by simp at hc)

/-- `reduce_prod` (`wrapped_functions.py:339-341`) and other smooth reductions. -/
theorem red_general (n : ℕ) (split : Fin m ≃ K × C) (κ : Fin out → K) (hκ : Function.Surjective κ) (φ : (C → F) → F)
    (x : (i : Fin 1) → Fin (oneSize m i) → F) (h : ∀ q, ContDiffAt F 2 φ fun c => x 0 (split.symm (κ q, c))) :
    (redStd m out hm split κ φ Flags.REDUCTION same oneAxis).TrueAt n x :=
  arrStd_trueAt n x (red_axesOk split κ hκ _) ⟨by decide, by decide⟩ (reduce_contDiffAt split κ φ x h)
    (fun h => noFlag' _ _ h (by decide)) (fun h => noFlag' _ _ h (by decide)) (fun h => noFlag' _ _ h (by decide))
    (fun h => noFlag' _ _ h (by decide)) (fun h => noFlag' _ _ h (by decide)) (fun _ _ hc => by simp at hc)

end Red

/-! ### Inner products along the last axis -/

/-- `dot_last` (`wrapped_functions.py:166-183`): inner products of the last axes (length `d`) with broadcasting of the
others. -/
def dotStd (size : Fin 2 → ℕ) (out d : ℕ) (hd : 0 < d) (K : Fin 2 → Type) [∀ i, Fintype (K i)] [∀ i, DecidableEq (K i)]
    (split : (i : Fin 2) → Fin (size i) ≃ K i × Fin d) (κ : (i : Fin 2) → Fin out → K i) : Std F where
  nIn := 2
  size := size
  out := out
  V := Fin out
  O := Unit
  K := K
  dim := fun _ => d
  split := split
  κ := κ
  lay := (Equiv.prodUnique (Fin out) Unit).symm
  fn := fun z _ => ∑ c : Fin d, z 0 c * z 1 c
  flags := Flags.DOT_PRODUCT ||| Flags.JOIN_JVP ||| Flags.SPARSE_JHJ
  elem := false
  π := fun i q => (split i).symm (κ i q, ⟨0, hd⟩)
  same := fun _ => none
  ax := fun i => .red ⟨K i, Fin d, split i, κ i⟩
  src := fun _ _ => none
  static := true
  oneAxis := true
  c2r := false
  custom := fun _ _ => none

section Dot
variable {size : Fin 2 → ℕ} {out d : ℕ} {hd : 0 < d} {K : Fin 2 → Type} [∀ i, Fintype (K i)] [∀ i, DecidableEq (K i)]
  {split : (i : Fin 2) → Fin (size i) ≃ K i × Fin d} {κ : (i : Fin 2) → Fin out → K i}

theorem dot_whole (x : (i : Fin 2) → Fin (size i) → F) (q : Fin out) :
    (dotStd size out d hd K split κ).whole x q =
      ∑ c, x 0 ((split 0).symm (κ 0 q, c)) * x 1 ((split 1).symm (κ 1 q, c)) := rfl

theorem dot_fn_contDiff : ContDiff F 2 (fun (z : (i : Fin 2) → Fin ((fun _ => d : Fin 2 → ℕ) i) → F) (_ : Unit) =>
    ∑ c : Fin d, z 0 c * z 1 c) := by
  rw [contDiff_pi]
  intro _
  apply ContDiff.sum
  intro c _
  have h : ∀ i : Fin 2, ContDiff F 2 fun z : (i : Fin 2) → Fin ((fun _ => d : Fin 2 → ℕ) i) → F => z i c := fun i =>
    ((ContinuousLinearMap.proj (R := F) (φ := fun _ : Fin d => F) c).comp
      (ContinuousLinearMap.proj (R := F) (φ := fun _ : Fin 2 => Fin d → F) i)).contDiff
  exact (h 0).mul (h 1)

theorem dot_affine_one (z : (i : Fin 2) → Fin ((fun _ => d : Fin 2 → ℕ) i) → F) (i : Fin 2) :
    AffineAt F (fun u : Fin d → F => (fun (z : (i : Fin 2) → Fin ((fun _ => d : Fin 2 → ℕ) i) → F) (_ : Unit) =>
      ∑ c : Fin d, z 0 c * z 1 c) (Function.update z i u)) (z i) := by
  rcases (show i = 0 ∨ i = 1 by omega) with rfl | rfl
  · refine ⟨ContinuousLinearMap.pi fun _ => ∑ c : Fin d, (z 1 c) • ContinuousLinearMap.proj (R := F) (φ := fun _ : Fin d => F) c,
      0, Eventually.of_forall fun u => ?_⟩
    funext _
    simp [mul_comm]
  · refine ⟨ContinuousLinearMap.pi fun _ => ∑ c : Fin d, (z 0 c) • ContinuousLinearMap.proj (R := F) (φ := fun _ : Fin d => F) c,
      0, Eventually.of_forall fun u => ?_⟩
    funext _
    simp

theorem dot_true (n : ℕ) (hκ : ∀ i, Function.Surjective (κ i)) (x : (i : Fin 2) → Fin (size i) → F) :
    (dotStd (F := F) size out d hd K split κ).TrueAt n x where
  smooth := fun _ => dot_fn_contDiff.contDiffAt
  linear := fun h => noFlag' (Flags.DOT_PRODUCT ||| Flags.JOIN_JVP ||| Flags.SPARSE_JHJ) _ h (by decide)
  linOne := fun _ v i a b => D2_single_zero _ _ i dot_fn_contDiff.contDiffAt (dot_affine_one _ i) a b
  linFirst := fun _ v i _ a b => D2_single_zero _ _ i dot_fn_contDiff.contDiffAt (dot_affine_one _ i) a b
  mult := fun _ => ⟨le_refl 2, fun i0 i1 h0 h1 => ⟨rfl, fun z o => by
    obtain rfl : i0 = (0 : Fin 2) := Fin.ext h0
    obtain rfl : i1 = (1 : Fin 2) := Fin.ext h1
    rfl⟩⟩
  elem := fun h => absurd (show false = true from h) (by decide)
  elem_slice := fun h => absurd (show false = true from h) (by decide)
  ax_elem := by
    intro (i : Fin 2) π h
    have h : (ArgAx.red ⟨K i, Fin d, split i, κ i⟩ : ArgAx (Fin (size i)) (Fin out)) = .elem π := h
    exact absurd h (by simp)
  ax_red := by
    intro (i : Fin 2) r h q y y' h1 h2
    have h : (ArgAx.red ⟨K i, Fin d, split i, κ i⟩ : ArgAx (Fin (size i)) (Fin out)) = .red r := h
    injection h with h
    subst h
    refine (dot_whole (hd := hd) (split := split) (κ := κ) y q).trans (Eq.trans ?_ (dot_whole (hd := hd) (split := split) (κ := κ) y' q).symm)
    have h3 : ∀ c, y i ((split i).symm (κ i q, c)) = y' i ((split i).symm (κ i q, c)) := fun c => h2 _ (by
      show ((split i) ((split i).symm (κ i q, c))).1 = κ i q
      rw [Equiv.apply_symm_apply])
    refine Finset.sum_congr rfl fun c _ => ?_
    have key : ∀ j : Fin 2, y j ((split j).symm (κ j q, c)) = y' j ((split j).symm (κ j q, c)) := by
      intro j
      by_cases hj : j = i
      · subst hj
        exact h3 c
      · exact congrFun (h1 j hj) _
    rw [key 0, key 1]
  ax_surj := by
    intro (i : Fin 2) r h _
    have h : (ArgAx.red ⟨K i, Fin d, split i, κ i⟩ : ArgAx (Fin (size i)) (Fin out)) = .red r := h
    injection h with h
    subst h
    exact hκ i
  same := by
    intro (i : Fin 2) π h
    have h : (ArgAx.red ⟨K i, Fin d, split i, κ i⟩ : ArgAx (Fin (size i)) (Fin out)) = .elem π := h
    exact absurd h (by simp)
  index := fun h => noFlag' (Flags.DOT_PRODUCT ||| Flags.JOIN_JVP ||| Flags.SPARSE_JHJ) _ h (by decide)
  sum := fun h => noFlag' (Flags.DOT_PRODUCT ||| Flags.JOIN_JVP ||| Flags.SPARSE_JHJ) _ h (by decide)
  noScatter := by
    show (Flags.DOT_PRODUCT ||| Flags.JOIN_JVP ||| Flags.SPARSE_JHJ).has Flags.SCATTER = false
    decide
  custom := fun e c h => by
    have h : (none : Option (CustomRule _ (fun _ => d) (Fin out) Unit F)) = some c := h
    exact absurd h (by simp)
  bilinear := fun _ => Or.inr (Or.inr ⟨by
    show (Flags.DOT_PRODUCT ||| Flags.JOIN_JVP ||| Flags.SPARSE_JHJ).has Flags.MULTIPLICATION = true
    decide, fun _ => rfl⟩)

end Dot

end Folx

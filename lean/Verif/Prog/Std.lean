import Mathlib.Analysis.Calculus.Deriv.Comp
import Mathlib.Analysis.Calculus.Deriv.Prod
import Mathlib.Analysis.Calculus.Deriv.Mul
import Mathlib.Analysis.Calculus.Deriv.Add
import Mathlib.Analysis.Calculus.ContDiff.Operations
import Verif.Calc.Smooth
import Verif.Prog.Wrapped

/-!
# Wrapped functions given by ordinary functions

A function wrapped by `wrap_forward_laplacian` is described by what it computes on one slice.  Nothing about
derivatives is part of the description: the derivatives the rules use are Mathlib's `fderiv` (trusted behaviour of
`jax.jvp` and friends).
-/

namespace Folx

open Filter Topology
open Folx.Interp (Err)

variable {F : Type} [RCLike F]

/-- The element `o` of the operands, or a constant. -/
def copyOr {m : ℕ} {size : Fin m → ℕ} (o : Option (Σ i, Fin (size i))) (y : (i : Fin m) → Fin (size i) → F) (c : F) : F :=
  match o with
  | some ⟨i, p⟩ => y i p
  | none => c

/-- A function of several arrays as passed to `wrap_forward_laplacian(fn, in_axes, flags, ...)`
(`wrapper.py:73-138`).  It acts independently on slices: `V` are the positions of the vmapped axes, operand `i` has
kept positions `K i` (broadcast to `V` by `κ i`) and slices of `dim i` elements; `fn` maps the slices to the output
positions `O` (`hessian.py:326-371`).  Plain operands are sliced the same way. -/
structure Std (F : Type) [RCLike F] where
  nIn : ℕ
  size : Fin nIn → ℕ
  out : ℕ
  V : Type
  [fV : Fintype V]
  O : Type
  [fO : Fintype O]
  K : Fin nIn → Type
  dim : Fin nIn → ℕ
  split : (i : Fin nIn) → Fin (size i) ≃ K i × Fin (dim i)
  κ : (i : Fin nIn) → V → K i
  lay : Fin out ≃ V × O
  /-- the function on one slice -/
  fn : ((i : Fin nIn) → Fin (dim i) → F) → O → F
  flags : Flags
  /-- `in_axes == ()` -/
  elem : Bool
  /-- numpy broadcasting of each operand to the output; only looked at for elementwise functions -/
  π : (i : Fin nIn) → Fin out → Fin (size i)
  /-- operands with the shape of the output -/
  same : (i : Fin nIn) → Option (Fin out ≃ Fin (size i))
  /-- the resolved axes of each operand when it is treated alone (`jvp.py:130-142`) -/
  ax : (i : Fin nIn) → ArgAx (Fin (size i)) (Fin out)
  /-- indexing operations: the element that is copied (may depend on the values of index operands) -/
  src : ((i : Fin nIn) → Fin (size i) → F) → Fin out → Option (Σ i, Fin (size i))
  static : Bool
  oneAxis : Bool
  c2r : Bool
  custom : {k : ℕ} → (e : Fin k ↪o Fin nIn) → ((i : Fin nIn) → Fin (size i) → F) →
    Option (CustomRule k (fun a => dim (e a)) V O F)

attribute [instance] Std.fV Std.fO

namespace Std

variable (s : Std F)

/-- The operands of slice `v`. -/
def slice (x : (i : Fin s.nIn) → Fin (s.size i) → F) (v : s.V) : (i : Fin s.nIn) → Fin (s.dim i) → F :=
  fun i c => x i ((s.split i).symm (s.κ i v, c))

/-- The function on whole arrays: `vmap` of `fn` over the slices. -/
def whole (x : (i : Fin s.nIn) → Fin (s.size i) → F) (q : Fin s.out) : F :=
  s.fn (s.slice x (s.lay q).1) (s.lay q).2

/-- Second derivative as bilinear map. -/
noncomputable def bilin {E G : Type} [NormedAddCommGroup E] [NormedSpace F E]
    [NormedAddCommGroup G] [NormedSpace F G] (H : E →L[F] E →L[F] G) : E →ₗ[F] E →ₗ[F] G :=
  (ContinuousLinearMap.coeLM F).comp H.toLinearMap

/-- Copied elements, seen from the derivative-carrying operands: elements of the other operands count as constant
(`jvp.py:276-278`). -/
noncomputable def restrictSrc {m k : ℕ} (size : Fin m → ℕ) (e : Fin k ↪o Fin m) :
    Option (Σ i, Fin (size i)) → Option (Σ a, Fin (size (e a)))
  | some ⟨i, p⟩ => open Classical in
    if h : ∃ a, e a = i then some ⟨h.choose, p.cast (by rw [h.choose_spec])⟩ else none
  | none => none

/-- What `construct_fwd_laplacian_functions` (`wrapper.py:34-70`) builds when the operands `e` carry derivatives
and the others are captured. -/
noncomputable def inst {k : ℕ} (e : Fin k ↪o Fin s.nIn) (x : (i : Fin s.nIn) → Fin (s.size i) → F) :
    HInst k (fun a => Fin (s.size (e a))) (Fin s.out) F where
  fwd := fun y => s.whole (dext e x y)
  jvp := fun y => (fderiv F (fun y => s.whole (dext e x y)) y).toLinearMap
  flags := s.flags
  elem := s.elem
  π := fun a => s.π (e a)
  same := fun a => s.same (e a)
  ax := fun a => s.ax (e a)
  src := fun q => restrictSrc s.size e (s.src x q)
  static := s.static
  role := fun _ => .operand
  multi := false
  V := s.V
  K := fun a => s.K (e a)
  O := s.O
  dim := fun a => s.dim (e a)
  hsplit := fun a => s.split (e a)
  hκ := fun a => s.κ (e a)
  out := s.lay
  hess := fun v z => bilin (D2 F (fun z => s.fn (dext e (s.slice x v) z)) z)
  firstIsLapl := decide (∃ a : Fin k, a.val = 0 ∧ (e a).val = 0)
  oneAxis := s.oneAxis
  c2r := s.c2r
  custom := s.custom e x

/-- As a wrapped primitive. -/
noncomputable def toWPrim : WPrim F where
  nIn := s.nIn
  size := s.size
  out := s.out
  fwd := s.whole
  inst := s.inst

/-- Output `q` depends on operand `i` only through the elements `S q`. -/
def DependsOn (i : Fin s.nIn) (S : Fin s.out → Set (Fin (s.size i))) : Prop :=
  ∀ q (y y' : (i : Fin s.nIn) → Fin (s.size i) → F), (∀ j, j ≠ i → y j = y' j) → (∀ p ∈ S q, y i p = y' i p) →
    s.whole y q = s.whole y' q

/-- The declarations made about the function (flags, axes, custom rule) are true and it is twice continuously
differentiable, at operand values `x` (`n`: number of inputs). -/
structure TrueAt (n : ℕ) (x : (i : Fin s.nIn) → Fin (s.size i) → F) : Prop where
  smooth : ∀ v, ContDiffAt F 2 s.fn (s.slice x v)
  linear : s.flags.has Flags.LINEAR = true → ∀ v, D2 F s.fn (s.slice x v) = 0
  linOne : s.flags.has Flags.LINEAR_IN_ONE = true → ∀ v i a b,
    D2 F s.fn (s.slice x v) (Pi.single i a) (Pi.single i b) = 0
  linFirst : s.flags.has Flags.LINEAR_IN_FIRST = true → ∀ v i, i.val = 0 → ∀ a b,
    D2 F s.fn (s.slice x v) (Pi.single i a) (Pi.single i b) = 0
  mult : s.flags.has Flags.MULTIPLICATION = true → s.nIn ≤ 2 ∧ ∀ i0 i1 : Fin s.nIn, i0.val = 0 → i1.val = 1 →
    ∃ hd : s.dim i0 = s.dim i1, ∀ z o, s.fn z o = ∑ c : Fin (s.dim i0), z i0 c * z i1 (c.cast hd)
  elem : s.elem = true → ∀ i, s.ax i = .elem (s.π i)
  elem_slice : s.elem = true → ∀ i q c, (s.split i).symm (s.κ i (s.lay q).1, c) = s.π i q
  ax_elem : ∀ i π, s.ax i = .elem π → s.DependsOn i fun q => {π q}
  ax_red : ∀ i r, s.ax i = .red r → s.DependsOn i fun q => {p | (r.split p).1 = r.κ q}
  ax_surj : ∀ i r, s.ax i = .red r → Nonempty (Fin s.out) → Function.Surjective r.κ
  same : ∀ i π, s.ax i = .elem π → ∀ ε, s.same i = some ε → ∀ q, ε q = π q
  index : s.flags.has Flags.INDEXING = true → s.static = true → ∃ cst : Fin s.out → F, ∀ᶠ y in 𝓝 x, ∀ q,
    s.whole y q = copyOr (s.src x q) y (cst q)
  sum : s.flags.has Flags.SUMMATION = true → ∀ i r, s.ax i = .red r → ∀ y q,
    s.whole y q = ∑ c : r.C, y i (r.split.symm (r.κ q, c))
  noScatter : s.flags.has Flags.SCATTER = false
  custom : ∀ {k : ℕ} (e : Fin k ↪o Fin s.nIn) c, s.custom e x = some c →
    (s.inst e x).CustomExact n c fun a => x (e a)
  bilinear : s.flags.has Flags.LINEAR_IN_ONE = true → s.flags.has Flags.LINEAR = true ∨ s.nIn = 1 ∨
    (s.flags.has Flags.MULTIPLICATION = true ∧ ∀ {k : ℕ} (e : Fin k ↪o Fin s.nIn), s.custom e x = none)

/-- Static conditions under which the sparse rules avoid the known defects (C15, C17): indexing operations
evaluated at trace time; at most two operands unless all are reduced along axes; non-empty slices. -/
structure SparseOk : Prop where
  idx : s.flags.has Flags.INDEXING = true → s.static = true
  few : s.nIn ≤ 2 ∨ ∀ i, ∃ r, s.ax i = .red r
  ax : s.nIn = 1 ∨ ∀ i π, s.ax i = .elem π → s.elem = true
  dim : ∀ i, 0 < s.dim i
  surj : ∀ i, Nonempty s.V → Function.Surjective (s.κ i)
  jhj : s.flags.has Flags.SPARSE_JHJ = true → s.flags.has Flags.LINEAR_IN_ONE = true

/-! ### Derivatives of the whole function -/

/-- Slicing is linear. -/
noncomputable def sliceL (v : s.V) : ((i : Fin s.nIn) → Fin (s.size i) → F) →L[F] ((i : Fin s.nIn) → Fin (s.dim i) → F) :=
  ContinuousLinearMap.pi fun i => ContinuousLinearMap.pi fun c =>
    (ContinuousLinearMap.proj (R := F) (φ := fun _ : Fin (s.size i) => F) ((s.split i).symm (s.κ i v, c))).comp
      (ContinuousLinearMap.proj (R := F) (φ := fun i : Fin s.nIn => Fin (s.size i) → F) i)

theorem sliceL_apply (v : s.V) (x : (i : Fin s.nIn) → Fin (s.size i) → F) : s.sliceL v x = s.slice x v := rfl

theorem whole_contDiffAt (x : (i : Fin s.nIn) → Fin (s.size i) → F)
    (h : ∀ v, ContDiffAt F 2 s.fn (s.slice x v)) : ContDiffAt F 2 s.whole x := by
  rw [contDiffAt_pi]
  intro q
  have h1 : ContDiffAt F 2 (fun y => s.fn (s.sliceL (s.lay q).1 y)) x :=
    ContDiffAt.comp x (h _) (s.sliceL _).contDiff.contDiffAt
  exact (contDiffAt_pi.mp h1) (s.lay q).2

theorem whole_fderiv (x : (i : Fin s.nIn) → Fin (s.size i) → F)
    (h : ∀ v, ContDiffAt F 2 s.fn (s.slice x v)) :
    (∀ t q, fderiv F s.whole x t q = fderiv F s.fn (s.slice x (s.lay q).1) (s.slice t (s.lay q).1) (s.lay q).2) ∧
    ∀ a b q, D2 F s.whole x a b q =
      D2 F s.fn (s.slice x (s.lay q).1) (s.slice a (s.lay q).1) (s.slice b (s.lay q).1) (s.lay q).2 := by
  have hw := s.whole_contDiffAt x h
  have key : ∀ q : Fin s.out, s.whole = s.whole ∧ (fun y => s.whole y q) = fun y =>
      (ContinuousLinearMap.proj (R := F) (φ := fun _ : s.O => F) (s.lay q).2) (s.fn (0 + s.sliceL (s.lay q).1 y)) := by
    intro q
    refine ⟨rfl, ?_⟩
    funext y
    rw [zero_add]
    rfl
  -- component `q` of the derivatives
  have comp1 : ∀ (q : Fin s.out) t, fderiv F s.whole x t q = fderiv F (fun y => s.whole y q) x t := by
    intro q t
    have := (ContinuousLinearMap.proj (R := F) (φ := fun _ : Fin s.out => F) q).hasFDerivAt.comp x
      (hw.differentiableAt (by simp)).hasFDerivAt
    exact (congrArg (fun L => L t) this.fderiv).symm
  have comp2 : ∀ (q : Fin s.out) a b, D2 F s.whole x a b q = D2 F (fun y => s.whole y q) x a b := by
    intro q a b
    have h1 : ∀ᶠ y in 𝓝 x, fderiv F (fun y => s.whole y q) y =
        (ContinuousLinearMap.proj (R := F) (φ := fun _ : Fin s.out => F) q).comp (fderiv F s.whole y) := by
      filter_upwards [hw.eventually (by simp)] with y hy
      have := (ContinuousLinearMap.proj (R := F) (φ := fun _ : Fin s.out => F) q).hasFDerivAt.comp y
        (hy.differentiableAt (by simp)).hasFDerivAt
      exact this.fderiv
    have h2 : HasFDerivAt (fderiv F s.whole) (D2 F s.whole x) x :=
      ((hw.fderiv_right (m := 1) (by norm_num)).differentiableAt (by simp)).hasFDerivAt
    have h3 := (ContinuousLinearMap.compL F _ _ _
      (ContinuousLinearMap.proj (R := F) (φ := fun _ : Fin s.out => F) q)).hasFDerivAt.comp x h2
    have h4 : D2 F (fun y => s.whole y q) x = _ := (EventuallyEq.fderiv_eq h1).trans h3.fderiv
    rw [h4]
    rfl
  have hs : ∀ q : Fin s.out, ContDiffAt F 2 (fun z => (ContinuousLinearMap.proj (R := F) (φ := fun _ : s.O => F) (s.lay q).2)
      (s.fn z)) (0 + s.sliceL (s.lay q).1 x) := by
    intro q
    rw [zero_add]
    exact ContDiffAt.comp _ (ContinuousLinearMap.contDiff _).contDiffAt (h _)
  have hq1 : ∀ (q : Fin s.out) t, fderiv F (fun z => (ContinuousLinearMap.proj (R := F) (φ := fun _ : s.O => F) (s.lay q).2)
      (s.fn z)) (s.slice x (s.lay q).1) t = fderiv F s.fn (s.slice x (s.lay q).1) t (s.lay q).2 := by
    intro q t
    have := (ContinuousLinearMap.proj (R := F) (φ := fun _ : s.O => F) (s.lay q).2).hasFDerivAt.comp _
      ((h (s.lay q).1).differentiableAt (by simp)).hasFDerivAt
    exact congrArg (fun L => L t) this.fderiv
  have hq2 : ∀ (q : Fin s.out) a b, D2 F (fun z => (ContinuousLinearMap.proj (R := F) (φ := fun _ : s.O => F) (s.lay q).2)
      (s.fn z)) (s.slice x (s.lay q).1) a b = D2 F s.fn (s.slice x (s.lay q).1) a b (s.lay q).2 := by
    intro q a b
    have h1 : ∀ᶠ y in 𝓝 (s.slice x (s.lay q).1),
        fderiv F (fun z => (ContinuousLinearMap.proj (R := F) (φ := fun _ : s.O => F) (s.lay q).2) (s.fn z)) y =
        (ContinuousLinearMap.proj (R := F) (φ := fun _ : s.O => F) (s.lay q).2).comp (fderiv F s.fn y) := by
      filter_upwards [(h (s.lay q).1).eventually (by simp)] with y hy
      have := (ContinuousLinearMap.proj (R := F) (φ := fun _ : s.O => F) (s.lay q).2).hasFDerivAt.comp y
        (hy.differentiableAt (by simp)).hasFDerivAt
      exact this.fderiv
    have h2 : HasFDerivAt (fderiv F s.fn) (D2 F s.fn (s.slice x (s.lay q).1)) (s.slice x (s.lay q).1) :=
      (((h _).fderiv_right (m := 1) (by norm_num)).differentiableAt (by simp)).hasFDerivAt
    have h3 := (ContinuousLinearMap.compL F _ _ _
      (ContinuousLinearMap.proj (R := F) (φ := fun _ : s.O => F) (s.lay q).2)).hasFDerivAt.comp _ h2
    have h4 : D2 F (fun z => (ContinuousLinearMap.proj (R := F) (φ := fun _ : s.O => F) (s.lay q).2) (s.fn z))
      (s.slice x (s.lay q).1) = _ := (EventuallyEq.fderiv_eq h1).trans h3.fderiv
    rw [h4]
    rfl
  have hz : ∀ q : Fin s.out, 0 + s.sliceL (s.lay q).1 x = s.slice x (s.lay q).1 := fun q => by
    rw [zero_add]; rfl
  constructor
  · intro t q
    rw [comp1, (key q).2, (D2_comp_affine _ (s.sliceL (s.lay q).1) 0 x (hs q)).1, hz]
    exact hq1 q _
  · intro a b q
    rw [comp2, (key q).2, (D2_comp_affine _ (s.sliceL (s.lay q).1) 0 x (hs q)).2, hz]
    exact hq2 q _ _

/-- A direction that does not change output `q` has derivative `0` there. -/
theorem whole_fderiv_zero (x t : (i : Fin s.nIn) → Fin (s.size i) → F) (q : Fin s.out)
    (h : ContDiffAt F 2 s.whole x) (hc : ∀ τ : F, s.whole (x + τ • t) q = s.whole x q) :
    fderiv F s.whole x t q = 0 := by
  have h1 := (h.differentiableAt (by simp)).hasFDerivAt
  have h2 : HasDerivAt (fun τ : F => x + τ • t) t 0 := by
    have h := ((hasDerivAt_id (0 : F)).smul_const t).const_add x
    rw [one_smul] at h
    exact h
  have h1' : HasFDerivAt s.whole (fderiv F s.whole x) ((fun τ : F => x + τ • t) 0) := by simpa using h1
  have h3 : HasDerivAt (fun τ : F => s.whole (x + τ • t)) (fderiv F s.whole x t) 0 := by
    have h := HasFDerivAt.comp_hasDerivAt 0 h1' h2
    exact h
  have h4 := hasDerivAt_pi.mp h3 q
  have h5 : (fun τ : F => s.whole (x + τ • t) q) = fun _ => s.whole x q := funext hc
  rw [h5] at h4
  exact (h4.unique (hasDerivAt_const _ _))

end Std

end Folx

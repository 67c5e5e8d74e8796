import Verif.ND.WrapRed
import Verif.ND.WrapInput
import Mathlib.Analysis.SpecialFunctions.ExpDeriv

/-!
# C58: a wrapped function applied to arrays (`wrap_forward_laplacian`)

`ArrFn.wrapped` is the whole of `new_fn` on arrays of any shape: values, Jacobians (dense or sparse) and Laplacians.  `ArrRep B s t u`: the arrays `t` hold
values, derivatives and Laplacian of the function `u`.
-/

namespace Folx.Layout
open Vmap Dot

section
variable {X : Type} [NormedAddCommGroup X] [NormedSpace ℝ X] {F : Type} [RCLike F] [Inhabited F] {k : ℕ} {ss : Fin (k + 1) → List ℕ} {out : List ℕ}
variable {B : Base X} {A : ArrFn F ss out} {extras : List (ND F × List ℕ)} {b Bt : List ℕ}
  {args : Fin (k + 1) → ArrTrip F} {u : (a : Fin (k + 1)) → X → Fin (ss a).prod → F}
  {φ : List (ND F) → ((a : Fin (k + 1)) → Fin (A.inAxes.slice (ss a)).prod → F) → List ℕ → F}

/-- **C58 (linear functions).**  For a function flagged linear (or a product with constants, or a quotient by one) that is affine near the point, the wrapped function
holds value, derivatives and Laplacian of the composed function; it raises iff a sparse argument of a reduction depends on no input (and it is not an indexing function
of sparse arguments). -/
theorem C58_linear (T : ℕ) (hn : 0 < B.n) (h0 : 0 ∉ out)
    (hflags : A.flags.has Flags.LINEAR = true ∨ (A.flags.has Flags.LINEAR_IN_ONE = true ∧ k = 0) ∨
      (A.flags.has Flags.LINEAR_IN_FIRST = true ∧ A.firstIsLapl = true ∧ k = 0))
    (hrep : ∀ a, ArrRep B (ss a) (args a) (u a))
    (hfwd : ∃ c, ∀ᶠ y in nhds fun a => u a B.x0, A.fwd y = A.deriv (fun a => u a B.x0) y + c)
    (hax : AxesOk (A.inAxes.first (A.flags.has Flags.SUMMATION)) (A.deriv fun a => u a B.x0))
    (hf : A.flags.has Flags.INDEXING = true → ∀ f, A.ifwd = some f → Indexing (A.deriv fun a => u a B.x0) f)
    (hcase : (∀ a, (args a).jac.idx = none) ∨
      ((∀ a, (args a).jac.idx ≠ none) ∧ (A.flags.has Flags.INDEXING = true ∨ A.inAxes = .axes [] ∨ k = 0)) ∨
      ((args 0).jac.idx = none ∨ ∃ h : 1 < k + 1, (args ⟨1, h⟩).jac.idx = none)) :
    (A.wrapped T args extras = none ↔ (∃ a, NoDeps (A.inAxes.first (A.flags.has Flags.SUMMATION)) (ss a) (args a).jac) ∧
      ¬ (A.flags.has Flags.INDEXING = true ∧ ∀ a, (args a).jac.idx ≠ none)) ∧
    ∀ t, A.wrapped T args extras = some t → ArrRep B out t fun x => A.fwd fun a => u a x := by
  obtain ⟨h1, h2⟩ := first_total T hn h0 (A.flags.has Flags.INDEXING) (A.flags.has Flags.JOIN_JVP) (ifwd := A.ifwd) (fun a => (hrep a).arg) hax hf
    (hcase.imp id fun h => h.imp (fun h => ⟨h.1, h.2.imp id fun h => h.imp (fun h => by rw [h]; rfl) id⟩) id)
  have hS : A.second T args extras = some (ND.ofFn [] fun _ => 0) := second_linear hflags
  cases hr : jvpArr T (A.flags.has Flags.INDEXING) (A.flags.has Flags.JOIN_JVP) (A.inAxes.first (A.flags.has Flags.SUMMATION))
      (A.deriv fun a => u a B.x0) A.ifwd args with
  | none =>
    have : A.wrapped T args extras = none := by
      unfold ArrFn.wrapped
      rw [valuesOf_eq hrep, hr]
      rfl
    rw [this]
    exact ⟨iff_of_true rfl (h1.mp hr), fun t h => by simp at h⟩
  | some r =>
    obtain ⟨t, h3, h4⟩ := wrapped_affine hrep h0 hr (h2 r hr) hS hfwd
    rw [h3]
    refine ⟨iff_of_false (by simp) fun h => ?_, fun t' h => ?_⟩
    · rw [h1.mpr h] at hr
      simp at hr
    · cases h
      exact h4

/-- What the registered axes promise follows for every function of slices whose results have one element, or that has no batch. -/
theorem C58_axes {x : (a : Fin (k + 1)) → Fin (ss a).prod → F} (hA : A.Computes extras Bt φ x) (hb : A.Batch extras b Bt)
    (hax : A.inAxes = .unset none ∨ ((∃ l, A.inAxes = .axes l) ∧ (A.sliceOut = [] ∨ (Bt = [] ∧ A.inAxes ≠ .axes [])))) (sum : Bool) :
    AxesOk (A.inAxes.first sum) (A.deriv x) :=
  axes_ok hA hb hax sum

/-- **C58 (functions without special second derivative).**  `hcase`: the first-order rules; `hmix`: the second-order rules. -/
theorem C58_general (T : ℕ) (hn : 0 < B.n) (h0 : 0 ∉ out)
    (h1 : A.flags.has Flags.LINEAR_IN_ONE = false) (h2 : ¬ (A.flags.has Flags.LINEAR_IN_FIRST = true ∧ A.firstIsLapl = true ∧ k = 0))
    (hrep : ∀ a, ArrRep B (ss a) (args a) (u a)) (hA : A.Computes extras Bt φ fun a => u a B.x0) (hb : A.Batch extras b Bt)
    (hax : AxesOk (A.inAxes.first (A.flags.has Flags.SUMMATION)) (A.deriv fun a => u a B.x0))
    (hcase : (∀ a, (args a).jac.idx = none) ∨ ((∀ a, (args a).jac.idx ≠ none) ∧ (A.inAxes = .axes [] ∨ k = 0)) ∨
      ((args 0).jac.idx = none ∨ ∃ h : 1 < k + 1, (args ⟨1, h⟩).jac.idx = none))
    (hmix : (∀ a, (args a).jac.idx = none) ∨
      (A.flags.has Flags.SPARSE_JHJ = false ∧ ∃ a, (args a).jac.idx = none ∧ (args a).jac.data.shape.getD 0 0 = B.n) ∨
      (A.flags.has Flags.SPARSE_JHJ = false ∧ denseCall false T (List.ofFn (A.trips args)) b) ∨
      ((∀ a, (args a).jac.idx ≠ none) ∧ ∃ j, Bt = List.replicate j 1 ++ b)) :
    (A.wrapped T args extras = none ↔ ∃ a, NoDeps (A.inAxes.first (A.flags.has Flags.SUMMATION)) (ss a) (args a).jac) ∧
    ∀ t, A.wrapped T args extras = some t → ArrRep B out t fun x => A.fwd fun a => u a x := by
  have hi : A.flags.has Flags.INDEXING = false := by
    by_contra hc
    rw [Bool.not_eq_false] at hc
    have := has_of_has (b := Flags.LINEAR_IN_ONE) (by decide) hc
    rw [h1] at this
    exact absurd this (by decide)
  obtain ⟨h3, h4⟩ := first_total T hn h0 (A.flags.has Flags.INDEXING) (A.flags.has Flags.JOIN_JVP) (ifwd := A.ifwd) (fun a => (hrep a).arg) hax
    (by rw [hi]; intro h; exact absurd h (by decide))
    (hcase.imp id fun h => h.imp (fun h => ⟨h.1, Or.inr (h.2.imp (fun h => by rw [h]; rfl) id)⟩) id)
  obtain ⟨h5, h6⟩ := wrapped_iff hrep hA h0 (fits_batch hb) (second_general_ok hrep (hessCall_of hrep hb) hA.shape (hA.custom fun h => h2 ⟨h.1, h.2.1, Nat.succ_injective h.2.2⟩) h1 h2 hmix) h4
  refine ⟨h5.trans (h3.trans ⟨fun h => h.1, fun h => ⟨h, ?_⟩⟩), h6⟩
  rw [hi]
  exact fun h => absurd h.1 (by decide)

/-- **C58 (elementwise functions).**  A wrapped elementwise function of any number of arguments (with numpy broadcasting, and other arguments that do not enlarge the batch)
always returns value, derivatives and Laplacian of the composed function, if its arguments are all sparse or all dense. -/
theorem C58_elementwise (T : ℕ) (hn : 0 < B.n) (h0 : 0 ∉ out)
    (h1 : A.flags.has Flags.LINEAR_IN_ONE = false) (h2 : ¬ (A.flags.has Flags.LINEAR_IN_FIRST = true ∧ A.firstIsLapl = true ∧ k = 0))
    (hax : A.inAxes = .axes []) (ho : A.sliceOut = [])
    (hrep : ∀ a, ArrRep B (ss a) (args a) (u a)) (hA : A.Computes extras Bt φ fun a => u a B.x0) (hb : A.Batch extras b Bt)
    (hsame : (∀ a, (args a).jac.idx = none) ∨ ((∀ a, (args a).jac.idx ≠ none) ∧ ∃ j, Bt = List.replicate j 1 ++ b)) :
    ∃ t, A.wrapped T args extras = some t ∧ ArrRep B out t fun x => A.fwd fun a => u a x := by
  obtain ⟨h3, h4⟩ := C58_general T hn h0 h1 h2 hrep hA hb (axes_ok hA hb (Or.inr ⟨⟨_, hax⟩, Or.inl ho⟩) _)
    (hsame.imp id fun h => Or.inl ⟨h.1, Or.inl hax⟩) (hsame.imp id fun h => Or.inr (Or.inr h))
  cases hw : A.wrapped T args extras with
  | none =>
    obtain ⟨a, dims, m, h5, -⟩ := h3.mp hw
    rw [hax] at h5
    simp [InAxes.first, reducedAxes] at h5
  | some t => exact ⟨t, rfl, h4 t hw⟩

/-- **C58 (one argument).**  A wrapped function of one argument, with any axes (or none), returns value, derivatives and Laplacian of the composed function, or raises; it
raises iff its argument is sparse, depends on no input and is reduced. -/
theorem C58_one {ss : Fin 1 → List ℕ} {A : ArrFn F ss out} {args : Fin 1 → ArrTrip F} {u : (a : Fin 1) → X → Fin (ss a).prod → F}
    {φ : List (ND F) → ((a : Fin 1) → Fin (A.inAxes.slice (ss a)).prod → F) → List ℕ → F} (T : ℕ) (hn : 0 < B.n) (h0 : 0 ∉ out)
    (h1 : A.flags.has Flags.LINEAR_IN_ONE = false) (h2 : ¬ (A.flags.has Flags.LINEAR_IN_FIRST = true ∧ A.firstIsLapl = true))
    (hrep : ∀ a, ArrRep B (ss a) (args a) (u a)) (hA : A.Computes extras Bt φ fun a => u a B.x0) (hb : A.Batch (k := 1) extras b Bt)
    (hax : A.inAxes = .unset none ∨ ((∃ l, A.inAxes = .axes l) ∧ (A.sliceOut = [] ∨ (Bt = [] ∧ A.inAxes ≠ .axes []))))
    (hext : (args 0).jac.idx = none ∨ ∃ j, Bt = List.replicate j 1 ++ b) :
    (A.wrapped (k := 0) T args extras = none ↔ NoDeps (A.inAxes.first (A.flags.has Flags.SUMMATION)) (ss 0) (args 0).jac) ∧
    ∀ t, A.wrapped (k := 0) T args extras = some t → ArrRep B out t fun x => A.fwd fun a => u a x := by
  have hall : ∀ P : Fin 1 → Prop, P 0 → ∀ a, P a := fun P h a => by
    obtain rfl : a = 0 := Subsingleton.elim (α := Fin 1) _ _
    exact h
  have hd : (∀ a, (args a).jac.idx = none) ∨ ((∀ a, (args a).jac.idx ≠ none) ∧ ∃ j, Bt = List.replicate j 1 ++ b) := by
    by_cases h : (args 0).jac.idx = none
    · exact Or.inl (hall (fun a => (args a).jac.idx = none) h)
    · exact Or.inr ⟨hall (fun a => (args a).jac.idx ≠ none) h, hext.resolve_left h⟩
  obtain ⟨h3, h4⟩ := C58_general (k := 0) T hn h0 h1 (by tauto) hrep hA hb (axes_ok (k := 0) hA hb hax _)
    (hd.imp id fun h => Or.inl ⟨h.1, Or.inr rfl⟩) (hd.imp id fun h => Or.inr (Or.inr h))
  refine ⟨h3.trans ⟨fun ⟨a, h⟩ => ?_, fun h => ⟨0, h⟩⟩, h4⟩
  obtain rfl : a = 0 := Subsingleton.elim (α := Fin 1) _ _
  exact h

end

section
variable {X : Type} [NormedAddCommGroup X] [NormedSpace ℝ X] {F : Type} [RCLike F] [Inhabited F] {ss : Fin 2 → List ℕ} {out : List ℕ}
variable {B : Base X} {A : ArrFn F ss out} {extras : List (ND F × List ℕ)} {b Bt : List ℕ}
  {args : Fin 2 → ArrTrip F} {u : (a : Fin 2) → X → Fin (ss a).prod → F}
  {φ : List (ND F) → ((a : Fin 2) → Fin (A.inAxes.slice (ss a)).prod → F) → List ℕ → F}

/-- **C58 (products).**  The wrapped product of two arrays (with numpy broadcasting; dense, sparse or mixed) always returns value, derivatives and Laplacian of the product. -/
theorem C58_mul (T : ℕ) (hn : 0 < B.n) (h0 : 0 ∉ out) (hm : A.flags.has Flags.MULTIPLICATION = true) (hl : A.flags.has Flags.LINEAR = false)
    (hnd : A.flags.has Flags.DOT_PRODUCT = false) (hax : A.inAxes = .axes []) (ho : A.sliceOut = [])
    (hrep : ∀ a, ArrRep B (ss a) (args a) (u a)) (hA : A.Computes extras Bt φ fun a => u a B.x0) (hb : A.Batch extras b Bt)
    (hs : ∀ a, A.inAxes.slice (ss a) = []) (hφ : ∀ es z q, φ es z q = sliceDot hs z) (hext : ∃ j, Bt = List.replicate j 1 ++ b) :
    ∃ t, A.wrapped (k := 1) T args extras = some t ∧ ArrRep B out t fun x => A.fwd fun a => u a x := by
  have hi : A.flags.has Flags.INDEXING = false := by
    by_contra hc
    rw [Bool.not_eq_false] at hc
    have := has_of_has (b := Flags.LINEAR) (by decide) hc
    rw [hl] at this
    exact absurd this (by decide)
  obtain ⟨h3, h4⟩ := first_total (k := 1) T hn h0 (A.flags.has Flags.INDEXING) (A.flags.has Flags.JOIN_JVP) (ifwd := A.ifwd) (args := args) (fun a => (hrep a).arg)
    (axes_ok (k := 1) hA hb (Or.inr ⟨⟨_, hax⟩, Or.inl ho⟩) (A.flags.has Flags.SUMMATION)) (by rw [hi]; intro h; exact absurd h (by decide)) (by
      by_cases e0 : (args 0).jac.idx = none
      · exact Or.inr (Or.inr (Or.inl e0))
      · by_cases e1 : (args 1).jac.idx = none
        · exact Or.inr (Or.inr (Or.inr ⟨by decide, e1⟩))
        · refine Or.inr (Or.inl ⟨fun a => ?_, Or.inr (Or.inl (by rw [hax]; rfl))⟩)
          fin_cases a
          · exact e0
          · exact e1)
  obtain ⟨h5, h6⟩ := wrapped_iff (k := 1) hrep hA h0 (fits_batch (k := 1) hb) (second_product_ok hrep hA hb hm hl hs hφ (Or.inl hnd) (Or.inr (Or.inr hext))) h4
  cases hw : A.wrapped (k := 1) T args extras with
  | none =>
    obtain ⟨⟨a, dims, m, h7, -⟩, -⟩ := h3.mp (h5.mp hw)
    rw [hax] at h7
    simp [InAxes.first, reducedAxes] at h7
  | some t => exact ⟨t, rfl, h6 t hw⟩

/-- **C58 (dot products along the last axis).**  Whatever the wrapped dot product returns is value, derivatives and Laplacian of the dot products.  It raises, if one
argument is dense, iff the other is sparse and depends on no input; if both are sparse, iff one depends on no input or their Jacobians cannot be added (B1).
`hmix` excludes the call in which exactly one position is left (B41) and batch axes of size 1 (B9). -/
theorem C58_dot (T : ℕ) (hn : 0 < B.n) (h0 : 0 ∉ out) (hm : A.flags.has Flags.DOT_PRODUCT = true) (hl : A.flags.has Flags.LINEAR = false)
    (hax : A.inAxes = .axes [-1]) (ho : A.sliceOut = []) (hrank : ∀ a, (ss a).length = b.length + 1)
    (hrep : ∀ a, ArrRep B (ss a) (args a) (u a)) (hA : A.Computes [] b φ fun a => u a B.x0) (hb : A.Batch [] b b)
    {s : List ℕ} (hs : ∀ a, A.inAxes.slice (ss a) = s) (hφ : ∀ es z q, φ es z q = sliceDot hs z)
    (hmix : (∀ a, (args a).jac.idx = none) ∨ denseCall true T (List.ofFn (A.trips args)) b ∨ mergedWidth true (List.ofFn (A.trips args)) b = 0 ∨
      2 * (activeAt true (List.ofFn (A.trips args)) b).length > b.prod ∨ (1 ∉ b ∧ 2 ≤ (activeAt true (List.ofFn (A.trips args)) b).length)) :
    (∀ t, A.wrapped (k := 1) T args [] = some t → ArrRep B out t fun x => A.fwd fun a => u a x) ∧
    ((∃ a, (args a).jac.idx = none) →
      (A.wrapped (k := 1) T args [] = none ↔ ∃ a, NoDeps (.reduction (.flat [-1])) (ss a) (args a).jac)) ∧
    ∀ ms : Fin 2 → ND ℤ, (∀ a, (args a).jac.idx = some (ms a)) →
      (A.wrapped (k := 1) T args [] = none ↔ (∃ a, widest (ms a) (ss a) [b.length] = 0) ∨
        (widest (ms 0) (ss 0) [b.length] ≤ T ∧ widest (ms 1) (ss 1) [b.length] ≤ T ∧ widest (ms 0) (ss 0) [b.length] ≠ widest (ms 1) (ss 1) [b.length] ∧
          widest (ms 0) (ss 0) [b.length] ≠ 1 ∧ widest (ms 1) (ss 1) [b.length] ≠ 1)) := by
  have hi : A.flags.has Flags.INDEXING = false := by
    by_contra hc
    rw [Bool.not_eq_false] at hc
    have := has_of_has (b := Flags.LINEAR) (by decide) hc
    rw [hl] at this
    exact absurd this (by decide)
  have hfirst : A.inAxes.first (A.flags.has Flags.SUMMATION) = .reduction (.flat [-1]) := by rw [hax]; rfl
  have hred : ∀ a, reducedAxes (ss a) (A.inAxes.first (A.flags.has Flags.SUMMATION)) = some [b.length] := by
    intro a
    rw [hfirst]
    show some [axisOf (ss a).length (-1)] = _
    rw [hrank a]
    unfold axisOf
    rw [if_pos (by decide)]
    congr 2
    omega
  have hargs : ∀ a, ArgFor B.n (ss a) (args a) := fun a => (hrep a).arg
  have haxes := axes_ok (k := 1) hA hb (Or.inr ⟨⟨_, hax⟩, Or.inl ho⟩) (A.flags.has Flags.SUMMATION)
  have hidx : A.flags.has Flags.INDEXING = true → ∀ f, A.ifwd = some f → Indexing (k := 1) (A.deriv fun a => u a B.x0) f := by
    rw [hi]
    intro h
    exact absurd h (by decide)
  have h4 := C57_sound (k := 1) T hn h0 (A.flags.has Flags.INDEXING) (A.flags.has Flags.JOIN_JVP) (ifwd := A.ifwd) (args := args) hargs haxes hidx
    (Or.inr (Or.inr (Or.inr fun a _ => by rw [hred a]; simp)))
  obtain ⟨h5, h6⟩ := wrapped_iff (k := 1) hrep hA h0 (fits_batch (k := 1) hb) (second_dot_ok hrep hA hb hm hl hax hrank hs hφ hmix) h4
  refine ⟨h6, fun ⟨a, ha⟩ => ?_, fun ms hms => ?_⟩
  · rw [h5, (first_total (k := 1) T hn h0 (A.flags.has Flags.INDEXING) (A.flags.has Flags.JOIN_JVP) (ifwd := A.ifwd) (args := args) hargs haxes hidx (Or.inr (Or.inr (by
      fin_cases a
      · exact Or.inl ha
      · exact Or.inr ⟨by decide, ha⟩)))).1, hfirst, hi]
    simp
  · rw [h5, hi]
    exact (C57_two_sparse T hn h0 (A.flags.has Flags.JOIN_JVP) (ifwd := A.ifwd) hargs haxes hms hred).1

end

/-! ### Inputs and elementwise functions -/

section
variable {X : Type} [NormedAddCommGroup X] [NormedSpace ℝ X] {F : Type} [RCLike F] [Inhabited F] {k : ℕ} {ss : Fin (k + 1) → List ℕ} {out : List ℕ} {B : Base X}
  {args : Fin (k + 1) → ArrTrip F} {u : (a : Fin (k + 1)) → X → Fin (ss a).prod → F}

/-- **C58 (inputs).**  The arrays that `forward_laplacian` starts with, dense or sparse, hold value, derivatives and Laplacian of the leaves of the inputs; the
direction of input `i` has the length given by its weight. -/
theorem C58_input (sparsity : Bool) {n off : ℕ} {s : List ℕ} (h : off + s.prod ≤ n) (h0 : 0 ∉ s) (x wt : Fin n → F) :
    ArrRep (inputBase x wt) s (inputArr sparsity n off (toND s (inputPart h x)) (toND s (inputPart h wt))) fun y => inputPart h y :=
  inputArr_rep sparsity h h0 x wt

/-- **C58 (every elementwise function).**  Let `g` be a function of `k + 1` numbers that is twice differentiable at all combinations of elements that broadcasting brings together
(`g'`, `g''` its derivatives).  Registered with `in_axes = ()` and without special flags, it returns value, derivatives and Laplacian of `g` of the arguments for all arrays that
broadcast, all dense or all sparse. -/
theorem C58_function (T : ℕ) (hn : 0 < B.n) (h0 : 0 ∉ out) (hb : Broadcasts (List.ofFn ss) out)
    {flags : Flags} {fil : Bool} (h1 : flags.has Flags.LINEAR_IN_ONE = false) (h2 : ¬ (flags.has Flags.LINEAR_IN_FIRST = true ∧ fil = true ∧ k = 0))
    {g : (Fin (k + 1) → F) → F} {g' : (Fin (k + 1) → F) → (Fin (k + 1) → F) →ₗ[F] F} {g'' : (Fin (k + 1) → F) → (Fin (k + 1) → F) →ₗ[F] (Fin (k + 1) → F) →ₗ[F] F}
    (hrep : ∀ a, ArrRep B (ss a) (args a) (u a))
    (hg : ∀ p, InB p out → ∃ D H, HasFDeriv2At g D H (fun a => (toND (ss a) (u a B.x0)).get (bcoord (ss a) out p)) ∧
      (∀ t, D t = g' (fun a => (toND (ss a) (u a B.x0)).get (bcoord (ss a) out p)) t) ∧
      ∀ s t, H s t = g'' (fun a => (toND (ss a) (u a B.x0)).get (bcoord (ss a) out p)) s t)
    (hsame : (∀ a, (args a).jac.idx = none) ∨ ∀ a, (args a).jac.idx ≠ none) :
    ∃ t, (ewFn flags fil ss out g g' g'').wrapped T args [] = some t ∧
      ArrRep B out t fun x w => g fun a => (toND (ss a) (u a x)).get (bcoord (ss a) out (unravelIdx out w)) := by
  obtain ⟨t, h3, h4⟩ := C58_elementwise (A := ewFn flags fil ss out g g' g'') (extras := []) (b := out) (Bt := out) T hn h0 h1 h2 rfl rfl hrep (ewFn_computes hb hg) (ewFn_batch hb)
    (hsame.imp id fun h => ⟨h, 0, rfl⟩)
  refine ⟨t, h3, ?_⟩
  have e : (fun x (w : Fin out.prod) => g fun a => (toND (ss a) (u a x)).get (bcoord (ss a) out (unravelIdx out w))) = fun x => (ewFn flags fil ss out g g' g'').fwd fun a => u a x := by
    funext x w
    show _ = g (pickAt ss out (unravelIdx out w) fun a => u a x)
    rw [pickAt_get hb (inB_unravelIdx w.2)]
  rw [e]
  exact h4

end

section
variable {X : Type} [NormedAddCommGroup X] [NormedSpace ℝ X] {F : Type} [RCLike F] [Inhabited F] {ss : Fin 2 → List ℕ} {out : List ℕ} {B : Base X}
  {args : Fin 2 → ArrTrip F} {u : (a : Fin 2) → X → Fin (ss a).prod → F}

/-- The derivatives of the product of two numbers. -/
def mulD (z : Fin 2 → F) : (Fin 2 → F) →ₗ[F] F := z 1 • LinearMap.proj 0 + z 0 • LinearMap.proj 1
def mulH (_ : Fin 2 → F) : (Fin 2 → F) →ₗ[F] (Fin 2 → F) →ₗ[F] F :=
  (LinearMap.mul F F).compl₁₂ (LinearMap.proj 0) (LinearMap.proj 1) + ((LinearMap.mul F F).compl₁₂ (LinearMap.proj 1) (LinearMap.proj 0))

/-- **C58 (`x * y`).**  The product of any two arrays that broadcast, dense, sparse or mixed. -/
theorem C58_times (T : ℕ) (hn : 0 < B.n) (h0 : 0 ∉ out) (hb : Broadcasts (List.ofFn ss) out) (fil : Bool) (hrep : ∀ a, ArrRep B (ss a) (args a) (u a)) :
    ∃ t, (ewFn (k := 2) Flags.MULTIPLICATION fil ss out (fun z => z 0 * z 1) mulD mulH).wrapped (k := 1) T args [] = some t ∧
      ArrRep B out t fun x w => (toND (ss 0) (u 0 x)).get (bcoord (ss 0) out (unravelIdx out w)) * (toND (ss 1) (u 1 x)).get (bcoord (ss 1) out (unravelIdx out w)) := by
  have hs : ∀ a, (InAxes.axes []).slice (ss a) = [] := by
    intro a
    show skipShape (ss a) [] = []
    unfold skipShape
    simp
  have hg : ∀ p, InB p out → ∃ D H, HasFDeriv2At (fun z : Fin 2 → F => z 0 * z 1) D H (fun a => (toND (ss a) (u a B.x0)).get (bcoord (ss a) out p)) ∧
      (∀ t, D t = mulD (fun a => (toND (ss a) (u a B.x0)).get (bcoord (ss a) out p)) t) ∧
      ∀ s t, H s t = mulH (fun a => (toND (ss a) (u a B.x0)).get (bcoord (ss a) out p)) s t := by
    intro p _
    obtain ⟨D, H, g1, g2, g3⟩ := mul_exact' (ContinuousLinearMap.proj (R := ℝ) (φ := fun _ : Fin 2 => F) 0) (ContinuousLinearMap.proj (R := ℝ) (φ := fun _ : Fin 2 => F) 1)
      (fun a => (toND (ss a) (u a B.x0)).get (bcoord (ss a) out p))
    refine ⟨D, H, g1, fun t => ?_, fun s t => ?_⟩
    · rw [g2]
      show (toND (ss 0) (u 0 B.x0)).get (bcoord (ss 0) out p) * t 1 + t 0 * (toND (ss 1) (u 1 B.x0)).get (bcoord (ss 1) out p) =
        (toND (ss 1) (u 1 B.x0)).get (bcoord (ss 1) out p) * t 0 + (toND (ss 0) (u 0 B.x0)).get (bcoord (ss 0) out p) * t 1
      ring
    · rw [g3]
      show s 0 * t 1 + t 0 * s 1 = s 0 * t 1 + s 1 * t 0
      ring
  obtain ⟨t, h3, h4⟩ := C58_mul (A := ewFn (k := 2) Flags.MULTIPLICATION fil ss out (fun z : Fin 2 → F => z 0 * z 1) mulD mulH) (extras := []) (b := out) (Bt := out) T hn h0
    (by show Flags.MULTIPLICATION.has _ = true; decide) (by show Flags.MULTIPLICATION.has _ = false; decide) (by show Flags.MULTIPLICATION.has _ = false; decide) rfl rfl hrep (ewFn_computes (k := 2) hb hg) (ewFn_batch (k := 1) hb)
    hs (fun es z q => by
      unfold sliceDot
      rw [Finset.sum_eq_single (⟨0, by decide⟩ : Fin ([] : List ℕ).prod)]
      · rfl
      · intro c _ hc
        exact absurd (Fin.ext (Nat.lt_one_iff.mp c.2)) hc
      · intro h
        exact absurd (Finset.mem_univ _) h) ⟨0, rfl⟩
  refine ⟨t, h3, ?_⟩
  have e : (fun x (w : Fin out.prod) => (toND (ss 0) (u 0 x)).get (bcoord (ss 0) out (unravelIdx out w)) * (toND (ss 1) (u 1 x)).get (bcoord (ss 1) out (unravelIdx out w))) =
      fun x => (ewFn (k := 2) Flags.MULTIPLICATION fil ss out (fun z : Fin 2 → F => z 0 * z 1) mulD mulH).fwd fun a => u a x := by
    funext x w
    show _ = pickAt ss out (unravelIdx out w) (fun a => u a x) 0 * pickAt ss out (unravelIdx out w) (fun a => u a x) 1
    rw [pickAt_get hb (inB_unravelIdx w.2)]
  rw [e]
  exact h4

/-- The derivative of the sum of two numbers. -/
def addD : (Fin 2 → F) →ₗ[F] F := LinearMap.proj (R := F) (φ := fun _ : Fin 2 => F) 0 + LinearMap.proj (R := F) (φ := fun _ : Fin 2 => F) 1

/-- **C58 (`x + y`).**  The sum of any two arrays that broadcast, dense, sparse or mixed. -/
theorem C58_plus (T : ℕ) (hn : 0 < B.n) (h0 : 0 ∉ out) (hb : Broadcasts (List.ofFn ss) out) (fil : Bool) (hrep : ∀ a, ArrRep B (ss a) (args a) (u a)) :
    ∃ t, (ewFn (k := 2) Flags.LINEAR fil ss out (fun z : Fin 2 → F => z 0 + z 1) (fun _ => addD) fun _ => 0).wrapped (k := 1) T args [] = some t ∧
      ArrRep B out t fun x w => (toND (ss 0) (u 0 x)).get (bcoord (ss 0) out (unravelIdx out w)) + (toND (ss 1) (u 1 x)).get (bcoord (ss 1) out (unravelIdx out w)) := by
  have hA : (ewFn (k := 2) Flags.LINEAR fil ss out (fun z : Fin 2 → F => z 0 + z 1) (fun _ => addD) fun _ => 0).Computes [] out
      (fun _ z _ => onlyMap ss z 0 + onlyMap ss z 1) (fun a => u a B.x0) :=
    ewFn_computes (k := 2) hb fun p _ => ⟨ContinuousLinearMap.proj (R := ℝ) (φ := fun _ : Fin 2 => F) 0 + ContinuousLinearMap.proj (R := ℝ) (φ := fun _ : Fin 2 => F) 1, 0,
      HasFDeriv2At.linear (ContinuousLinearMap.proj (R := ℝ) (φ := fun _ : Fin 2 => F) 0 + ContinuousLinearMap.proj (R := ℝ) (φ := fun _ : Fin 2 => F) 1) _,
      fun t => rfl, fun s t => rfl⟩
  obtain ⟨h1, h2⟩ := C58_linear (k := 1) (A := ewFn (k := 2) Flags.LINEAR fil ss out (fun z : Fin 2 → F => z 0 + z 1) (fun _ => addD) fun _ => 0)
    (extras := []) T hn h0 (Or.inl (by show Flags.LINEAR.has _ = true; decide)) hrep ⟨0, Filter.Eventually.of_forall fun y => (add_zero _).symm⟩
    (C58_axes (k := 1) hA (ewFn_batch (k := 1) hb) (Or.inr ⟨⟨_, rfl⟩, Or.inl rfl⟩) _) (fun h => absurd h (by show ¬ Flags.LINEAR.has _ = true; decide)) (by
      by_cases e0 : (args 0).jac.idx = none
      · exact Or.inr (Or.inr (Or.inl e0))
      · by_cases e1 : (args 1).jac.idx = none
        · exact Or.inr (Or.inr (Or.inr ⟨by decide, e1⟩))
        · refine Or.inr (Or.inl ⟨fun a => ?_, Or.inr (Or.inl rfl)⟩)
          fin_cases a
          · exact e0
          · exact e1)
  have e : (fun x (w : Fin out.prod) => (toND (ss 0) (u 0 x)).get (bcoord (ss 0) out (unravelIdx out w)) + (toND (ss 1) (u 1 x)).get (bcoord (ss 1) out (unravelIdx out w))) =
      fun x => (ewFn (k := 2) Flags.LINEAR fil ss out (fun z : Fin 2 → F => z 0 + z 1) (fun _ => addD) fun _ => 0).fwd fun a => u a x := by
    funext x w
    show _ = pickAt ss out (unravelIdx out w) (fun a => u a x) 0 + pickAt ss out (unravelIdx out w) (fun a => u a x) 1
    rw [pickAt_get hb (inB_unravelIdx w.2)]
  rw [e]
  cases hw : (ewFn (k := 2) Flags.LINEAR fil ss out (fun z : Fin 2 → F => z 0 + z 1) (fun _ => addD) fun _ => 0).wrapped (k := 1) T args [] with
  | none =>
    obtain ⟨⟨a, dims, m, h7, -⟩, -⟩ := h1.mp hw
    simp [ewFn, InAxes.first, reducedAxes] at h7
  | some t => exact ⟨t, rfl, h2 t hw⟩

end

/-! ### Functions of slices -/

section
variable {X : Type} [NormedAddCommGroup X] [NormedSpace ℝ X] {F : Type} [RCLike F] [Inhabited F] {out : List ℕ} {B : Base X} {l : List ℤ}

theorem redFn_fwd {k : ℕ} {ss : Fin (k + 1) → List ℕ} {flags : Flags} {fil : Bool} {g : ((a : Fin (k + 1)) → Fin (slicesOf l (ss a)).prod → F) → F} {g'} {g''} (hf : AxesFit l ss out) (u : (a : Fin (k + 1)) → X → Fin (ss a).prod → F) :
    (fun x => (redFn flags fil l ss out g g' g'').fwd fun a => u a x) =
      fun x (w : Fin out.prod) => g fun a => sliceVec (ss a) ((InAxes.axes l).second (ss a).length) out (unravelIdx out w) (u a x) := by
  funext x w
  show g (slicesAt ss _ out (unravelIdx out w) fun a => u a x) = _
  rw [slicesAt_get hf.fits (inB_unravelIdx w.2)]

/-- **C58 (every function of slices).**  Let `g` be a function of a slice along the axes `l` (or of all elements) of one array with values in the numbers, twice differentiable at all slices.  Registered with
`in_axes = l` and without special flags, it returns value, derivatives and Laplacian of `g` of the slices; it raises iff the argument is sparse, depends on no input and `l` is not empty. -/
theorem C58_reduction {ss : Fin 1 → List ℕ} {args : Fin 1 → ArrTrip F} {u : (a : Fin 1) → X → Fin (ss a).prod → F} (T : ℕ) (hn : 0 < B.n) (h0 : 0 ∉ out) (hfit : AxesFit l ss out)
    {flags : Flags} {fil : Bool} (h1 : flags.has Flags.LINEAR_IN_ONE = false) (h2 : ¬ (flags.has Flags.LINEAR_IN_FIRST = true ∧ fil = true))
    {g : ((a : Fin 1) → Fin (slicesOf l (ss a)).prod → F) → F} {g' : _ → ((a : Fin 1) → Fin (slicesOf l (ss a)).prod → F) →ₗ[F] F}
    {g'' : _ → ((a : Fin 1) → Fin (slicesOf l (ss a)).prod → F) →ₗ[F] ((a : Fin 1) → Fin (slicesOf l (ss a)).prod → F) →ₗ[F] F}
    (hrep : ∀ a, ArrRep B (ss a) (args a) (u a))
    (hg : ∀ p, InB p out → ∃ D H, HasFDeriv2At g D H (fun a => sliceVec (ss a) ((InAxes.axes l).second (ss a).length) out p (u a B.x0)) ∧
      (∀ t, D t = g' (fun a => sliceVec (ss a) ((InAxes.axes l).second (ss a).length) out p (u a B.x0)) t) ∧
      ∀ s t, H s t = g'' (fun a => sliceVec (ss a) ((InAxes.axes l).second (ss a).length) out p (u a B.x0)) s t) :
    ((redFn flags fil l ss out g g' g'').wrapped (k := 0) T args [] = none ↔ ∃ m, (args 0).jac.idx = some m ∧ l ≠ [] ∧
      ∀ v, InB v (dropDims (ss 0) (l.map (axisOf (ss 0).length))) → depsOf m (ss 0) (l.map (axisOf (ss 0).length)) v = ∅) ∧
    ∀ t, (redFn flags fil l ss out g g' g'').wrapped (k := 0) T args [] = some t →
      ArrRep B out t fun x w => g fun a => sliceVec (ss a) ((InAxes.axes l).second (ss a).length) out (unravelIdx out w) (u a x) := by
  obtain ⟨h3, h4⟩ := C58_one (A := redFn (k := 1) flags fil l ss out g g' g'') (extras := []) (b := out) (Bt := out) T hn h0 h1 h2 hrep (redFn_computes (k := 1) hfit.fits hg)
    (redFn_batch (k := 0) hfit) (Or.inr ⟨⟨l, rfl⟩, Or.inl rfl⟩) (Or.inr ⟨0, rfl⟩)
  rw [← redFn_fwd (k := 0) hfit u]
  refine ⟨h3.trans ?_, h4⟩
  show NoDeps ((InAxes.axes l).first _) (ss 0) (args 0).jac ↔ _
  cases l with
  | nil => exact iff_of_false (fun ⟨_, _, h, _⟩ => by simp [InAxes.first, reducedAxes] at h) fun ⟨_, _, h, _⟩ => h rfl
  | cons i l =>
    refine ⟨fun ⟨dims, m, h5, h6, h7⟩ => ⟨m, h6, by simp, ?_⟩, fun ⟨m, h6, _, h7⟩ => ⟨_, m, rfl, h6, h7⟩⟩
    cases h5
    exact h7

/-- Element `c` of slice `a`. -/
def elemL {ss : Fin 2 → List ℕ} {s : List ℕ} (hs : ∀ a, ss a = s) (a : Fin 2) (c : Fin s.prod) : ((a : Fin 2) → Fin (ss a).prod → F) →ₗ[F] F :=
  (LinearMap.proj (R := F) (φ := fun _ : Fin (ss a).prod => F) (Fin.cast (congrArg List.prod (hs a).symm) c)).comp (LinearMap.proj (φ := fun a => Fin (ss a).prod → F) a)

/-- The derivatives of the dot product of two slices. -/
def dotD {ss : Fin 2 → List ℕ} {s : List ℕ} (hs : ∀ a, ss a = s) (z : (a : Fin 2) → Fin (ss a).prod → F) : ((a : Fin 2) → Fin (ss a).prod → F) →ₗ[F] F :=
  ∑ c : Fin s.prod, (elemL hs 0 c z • elemL hs 1 c + elemL hs 1 c z • elemL hs 0 c)

def dotH {ss : Fin 2 → List ℕ} {s : List ℕ} (hs : ∀ a, ss a = s) (_ : (a : Fin 2) → Fin (ss a).prod → F) :
    ((a : Fin 2) → Fin (ss a).prod → F) →ₗ[F] ((a : Fin 2) → Fin (ss a).prod → F) →ₗ[F] F :=
  ∑ c : Fin s.prod, ((LinearMap.mul F F).compl₁₂ (elemL hs 0 c) (elemL hs 1 c) + (LinearMap.mul F F).compl₁₂ (elemL hs 1 c) (elemL hs 0 c))

theorem sliceDot_exact {ss : Fin 2 → List ℕ} {s : List ℕ} (hs : ∀ a, ss a = s) (z : (a : Fin 2) → Fin (ss a).prod → F) :
    ∃ D H, HasFDeriv2At (sliceDot (F := F) hs) D H z ∧ (∀ t, D t = dotD hs z t) ∧ ∀ s t, H s t = dotH hs z s t := by
  obtain ⟨D, H, h1, h2, h3⟩ := dot_exact' (E := (a : Fin 2) → Fin (ss a).prod → F)
    (fun c : Fin s.prod => (ContinuousLinearMap.proj (R := ℝ) (φ := fun _ => F) (Fin.cast (congrArg List.prod (hs 0).symm) c)).comp
      (ContinuousLinearMap.proj (R := ℝ) (φ := fun a => Fin (ss a).prod → F) 0))
    (fun c : Fin s.prod => (ContinuousLinearMap.proj (R := ℝ) (φ := fun _ => F) (Fin.cast (congrArg List.prod (hs 1).symm) c)).comp
      (ContinuousLinearMap.proj (R := ℝ) (φ := fun a => Fin (ss a).prod → F) 1)) z
  refine ⟨D, H, h1, fun t => ?_, fun r t => ?_⟩
  · rw [h2]
    unfold dotD
    rw [LinearMap.sum_apply]
    refine Finset.sum_congr rfl fun c _ => ?_
    show _ * _ + t 0 _ * z 1 _ = _ * _ + z 1 _ * t 0 _
    rw [mul_comm (t 0 _)]
    rfl
  · rw [h3]
    unfold dotH
    rw [LinearMap.sum_apply, LinearMap.sum_apply]
    refine Finset.sum_congr rfl fun c _ => ?_
    show _ * _ + t 0 _ * r 1 _ = _ * _ + r 1 _ * t 0 _
    rw [mul_comm (t 0 _)]
    rfl

/-- **C58 (inner products).**  The dot products of the last axes of two arrays with any broadcasting of the other axes (`DOT_PRODUCT`, `in_axes = (-1,)`, with or without `JOIN_JVP`). -/
theorem C58_inner {ss : Fin 2 → List ℕ} {args : Fin 2 → ArrTrip F} {u : (a : Fin 2) → X → Fin (ss a).prod → F} (T : ℕ) (hn : 0 < B.n) (h0 : 0 ∉ out) (hfit : AxesFit [-1] ss out)
    (hrank : ∀ a, (ss a).length = out.length + 1) {flags : Flags} (fil : Bool) (hm : flags.has Flags.DOT_PRODUCT = true) (hl : flags.has Flags.LINEAR = false)
    {s : List ℕ} (hs : ∀ a, slicesOf [-1] (ss a) = s) (hrep : ∀ a, ArrRep B (ss a) (args a) (u a))
    (hmix : (∀ a, (args a).jac.idx = none) ∨
      denseCall true T (List.ofFn ((redFn (k := 2) flags fil [-1] ss out (sliceDot hs) (dotD hs) (dotH hs)).trips (k := 1) args)) out ∨
      mergedWidth true (List.ofFn ((redFn (k := 2) flags fil [-1] ss out (sliceDot hs) (dotD hs) (dotH hs)).trips (k := 1) args)) out = 0 ∨
      2 * (activeAt true (List.ofFn ((redFn (k := 2) flags fil [-1] ss out (sliceDot hs) (dotD hs) (dotH hs)).trips (k := 1) args)) out).length > out.prod ∨
      (1 ∉ out ∧ 2 ≤ (activeAt true (List.ofFn ((redFn (k := 2) flags fil [-1] ss out (sliceDot hs) (dotD hs) (dotH hs)).trips (k := 1) args)) out).length)) :
    (∀ t, (redFn (k := 2) flags fil [-1] ss out (sliceDot hs) (dotD hs) (dotH hs)).wrapped (k := 1) T args [] = some t →
      ArrRep B out t fun x w => sliceDot hs fun a => sliceVec (ss a) ((InAxes.axes [-1]).second (ss a).length) out (unravelIdx out w) (u a x)) ∧
    ((∃ a, (args a).jac.idx = none) →
      ((redFn (k := 2) flags fil [-1] ss out (sliceDot hs) (dotD hs) (dotH hs)).wrapped (k := 1) T args [] = none ↔
        ∃ a, NoDeps (.reduction (.flat [-1])) (ss a) (args a).jac)) := by
  obtain ⟨h1, h2, -⟩ := C58_dot (A := redFn (k := 2) flags fil [-1] ss out (sliceDot hs) (dotD hs) (dotH hs)) (b := out) T hn h0 hm hl rfl rfl hrank hrep
    (redFn_computes (k := 2) (fun a => hfit.fits (k := 1) a) fun p _ => sliceDot_exact hs _) (redFn_batch (k := 1) hfit) hs (fun _ _ _ => rfl) hmix
  rw [← redFn_fwd (k := 1) hfit u]
  exact ⟨h1, h2⟩

end

/-! ### Concrete arrays -/

/-- The inputs of a function of one array of two numbers and one of three, all weights 1: five elements. -/
noncomputable def exIn (x : Fin 5 → ℝ) (sp : Bool) (off : ℕ) (s : List ℕ) (h : off + s.prod ≤ 5) : ArrTrip ℝ :=
  inputArr sp 5 off (toND s (inputPart h x)) (toND s (inputPart h fun _ => 1))

/-- `exp` of an array: value, derivatives and Laplacian, for dense and sparse inputs. -/
example (x : Fin 5 → ℝ) (sp : Bool) (T : ℕ) : ∃ t, (ewFn (k := 1) Flags.GENERAL true (fun _ => [2]) [2] (fun z : Fin 1 → ℝ => Real.exp (z 0))
      (fun z => Real.exp (z 0) • LinearMap.proj 0) fun z => Real.exp (z 0) • (LinearMap.mul ℝ ℝ).compl₁₂ (LinearMap.proj 0) (LinearMap.proj 0)).wrapped (k := 0) T
        (fun _ => exIn x sp 1 [2] (by decide)) [] = some t ∧
    ArrRep (inputBase x fun _ => 1) [2] t fun y w => Real.exp (y ⟨1 + w, by have : (w : ℕ) < 2 := w.2; omega⟩) := by
  obtain ⟨t, h1, h2⟩ := C58_function (k := 0) (ss := fun _ => [2]) (out := [2]) (B := inputBase x fun _ => 1) (args := fun _ => exIn x sp 1 [2] (by decide))
    (u := fun _ y => inputPart (off := 1) (s := [2]) (by decide) y) (flags := Flags.GENERAL) (fil := true) T (by show 0 < 5; decide) (by decide) (broadcastShapes_iff.mp (by decide +kernel))
    (by decide) (by decide) (g := fun z : Fin 1 → ℝ => Real.exp (z 0)) (g' := fun z => Real.exp (z 0) • LinearMap.proj 0)
    (g'' := fun z => Real.exp (z 0) • (LinearMap.mul ℝ ℝ).compl₁₂ (LinearMap.proj 0) (LinearMap.proj 0)) (fun _ => C58_input sp (by decide) (by decide) x _) (fun p _ => by
      set z : Fin 1 → ℝ := _
      obtain ⟨H, g1, g2⟩ := exp_exact (ContinuousLinearMap.proj (R := ℝ) (φ := fun _ : Fin 1 => ℝ) 0) z
      exact ⟨_, H, g1, fun t => rfl, fun s t => g2 s t⟩) (by
      cases sp
      · exact Or.inl fun _ => rfl
      · exact Or.inr fun _ => by simp [exIn, inputArr])
  refine ⟨t, h1, ?_⟩
  have e : (fun (y : Fin 5 → ℝ) (w : Fin ([2] : List ℕ).prod) => Real.exp (y ⟨1 + w, by have : (w : ℕ) < 2 := w.2; omega⟩)) =
      fun y (w : Fin ([2] : List ℕ).prod) => Real.exp ((toND [2] (inputPart (F := ℝ) (n := 5) (off := 1) (s := [2]) (by decide) y)).get (bcoord [2] [2] (unravelIdx [2] w))) := by
    funext y w
    rw [bcoord_self (inB_unravelIdx w.2), toND_get _ _ (inB_unravelIdx w.2)]
    fin_cases w <;> rfl
  rw [e]
  exact h2

/-- A column times a row (`x[:, None] * y`): one sparse, one dense input, or any other combination. -/
example (x : Fin 5 → ℝ) (sp sp' : Bool) (T : ℕ) : ∃ t, (ewFn (k := 2) Flags.MULTIPLICATION true (Fin.cons [2, 1] fun _ => [3]) [2, 3] (fun z : Fin 2 → ℝ => z 0 * z 1) mulD
      mulH).wrapped (k := 1) T (Fin.cons (exIn x sp 0 [2, 1] (by decide)) fun _ => exIn x sp' 2 [3] (by decide)) [] = some t ∧
    ∃ u, ArrRep (inputBase x fun _ => 1) [2, 3] t u ∧ ∀ y, (toND [2, 3] (u y)).get [1, 2] = y 1 * y 4 := by
  have hb : Broadcasts (List.ofFn (Fin.cons [2, 1] fun _ => [3] : Fin 2 → List ℕ)) [2, 3] := broadcastShapes_iff.mp (by decide +kernel)
  obtain ⟨t, h1, h2⟩ := C58_times (ss := Fin.cons [2, 1] fun _ => [3]) (out := [2, 3]) (B := inputBase x fun _ => 1)
    (args := Fin.cons (exIn x sp 0 [2, 1] (by decide)) fun _ => exIn x sp' 2 [3] (by decide))
    (u := Fin.cons (fun y => inputPart (off := 0) (s := [2, 1]) (by decide) y) fun _ y => inputPart (off := 2) (s := [3]) (by decide) y)
    T (by show 0 < 5; decide) (by decide) hb true (fun a => by
      fin_cases a
      · exact C58_input sp (by decide) (by decide) x _
      · exact C58_input sp' (by decide) (by decide) x _)
  exact ⟨t, h1, _, h2, fun y => rfl⟩

/-- A point. -/
noncomputable def exPoint : Fin 8 → ℝ := fun i => i + 1

/-- Two (2, 2) arrays as inputs, the first with a sparse, the second with a dense Jacobian. -/
noncomputable def exRows : Fin 2 → ArrTrip ℝ :=
  Fin.cons (inputArr true 8 0 (toND [2, 2] (inputPart (off := 0) (by decide) exPoint)) (toND [2, 2] (inputPart (n := 8) (off := 0) (by decide) fun _ => 1)))
    fun _ => inputArr false 8 4 (toND [2, 2] (inputPart (off := 4) (by decide) exPoint)) (toND [2, 2] (inputPart (n := 8) (off := 4) (by decide) fun _ => 1))

/-- Dot products of the rows of two (2, 2) arrays: the hypotheses of `C58_inner` (hence of `C58_dot`) are met, and it returns. -/
example (T : ℕ) :
    ∃ t, (redFn (k := 2) Flags.DOT_PRODUCT true [-1] (fun _ => [2, 2]) [2] (sliceDot fun _ => rfl) (dotD fun _ => rfl) (dotH fun _ => rfl)).wrapped (k := 1) T
      exRows [] = some t ∧
    ∃ u, ArrRep (inputBase exPoint fun _ => 1) [2] t u ∧ ∀ y, (toND [2] (u y)).get [1] = y 2 * y 6 + y 3 * y 7 := by
  have hact : (activeAt true (List.ofFn ((redFn (F := ℝ) (k := 2) Flags.DOT_PRODUCT true [-1] (fun _ => [2, 2]) [2] (sliceDot fun _ => rfl) (dotD fun _ => rfl) (dotH fun _ => rfl)).trips (k := 1) exRows)) [2]).length = 2 := by
    decide +kernel
  obtain ⟨h1, h2⟩ := C58_inner (B := inputBase exPoint fun _ => 1) (out := [2]) (ss := fun _ => [2, 2]) (args := exRows) (flags := Flags.DOT_PRODUCT)
    (u := Fin.cons (fun y => inputPart (off := 0) (s := [2, 2]) (by decide) y) fun _ y => inputPart (off := 4) (s := [2, 2]) (by decide) y) T
    (by show 0 < 8; decide) (by decide) ⟨by decide, by decide, broadcastShapes_iff.mp (by decide +kernel)⟩ (by decide) true (by decide) (by decide) (fun _ => rfl) (fun a => by
      fin_cases a
      · exact C58_input true (by decide) (by decide) exPoint _
      · exact C58_input false (by decide) (by decide) exPoint _) (Or.inr (Or.inr (Or.inr (Or.inl (by rw [hact]; decide)))))
  cases hw : (redFn (F := ℝ) (k := 2) Flags.DOT_PRODUCT true [-1] (fun _ => [2, 2]) [2] (sliceDot fun _ => rfl) (dotD fun _ => rfl) (dotH fun _ => rfl)).wrapped (k := 1) T
      exRows [] with
  | none =>
    exfalso
    obtain ⟨a, dims, m, h3, h4, h5⟩ := (h2 ⟨1, rfl⟩).mp hw
    fin_cases a
    · cases h3
      cases h4
      have := h5 [0] (by decide)
      revert this
      decide +kernel
    · cases h4
  | some t =>
    refine ⟨t, rfl, _, h1 t hw, fun y => ?_⟩
    exact Fin.sum_univ_two (fun c : Fin 2 => y ⟨0 + (2 + c), by omega⟩ * y ⟨4 + (2 + c), by omega⟩)

/-- `x[:, None] + y`: the hypotheses of `C58_plus` (hence of `C58_linear`) are met. -/
example (x : Fin 5 → ℝ) (sp sp' : Bool) (T : ℕ) : ∃ t, (ewFn (k := 2) Flags.LINEAR true (Fin.cons [2, 1] fun _ => [3]) [2, 3] (fun z : Fin 2 → ℝ => z 0 + z 1)
      (fun _ => addD) fun _ => 0).wrapped (k := 1) T (Fin.cons (exIn x sp 0 [2, 1] (by decide)) fun _ => exIn x sp' 2 [3] (by decide)) [] = some t ∧
    ∃ u, ArrRep (inputBase x fun _ => 1) [2, 3] t u ∧ ∀ y, (toND [2, 3] (u y)).get [1, 2] = y 1 + y 4 := by
  have hb : Broadcasts (List.ofFn (Fin.cons [2, 1] fun _ => [3] : Fin 2 → List ℕ)) [2, 3] := broadcastShapes_iff.mp (by decide +kernel)
  obtain ⟨t, h1, h2⟩ := C58_plus (ss := Fin.cons [2, 1] fun _ => [3]) (out := [2, 3]) (B := inputBase x fun _ => 1)
    (args := Fin.cons (exIn x sp 0 [2, 1] (by decide)) fun _ => exIn x sp' 2 [3] (by decide))
    (u := Fin.cons (fun y => inputPart (off := 0) (s := [2, 1]) (by decide) y) fun _ y => inputPart (off := 2) (s := [3]) (by decide) y)
    T (by show 0 < 5; decide) (by decide) hb true (fun a => by
      fin_cases a
      · exact C58_input sp (by decide) (by decide) x _
      · exact C58_input sp' (by decide) (by decide) x _)
  exact ⟨t, h1, _, h2, fun y => rfl⟩

/-- The derivatives of `z ↦ z[0] · z[1]`. -/
noncomputable def exE (c : Fin 2) : ((a : Fin 1) → Fin (slicesOf [-1] [2, 2]).prod → ℝ) →L[ℝ] ℝ :=
  (ContinuousLinearMap.proj (R := ℝ) (φ := fun _ : Fin (slicesOf [-1] [2, 2]).prod => ℝ) (Fin.cast (by decide) c)).comp (ContinuousLinearMap.proj (R := ℝ) (φ := fun _ : Fin 1 => Fin (slicesOf [-1] [2, 2]).prod → ℝ) 0)

/-- The products of the rows of a (2, 2) array with sparse Jacobian (`in_axes = (-1,)`): the hypotheses of `C58_reduction` (hence of `C58_one`) are met, and it returns. -/
example (T : ℕ) : ∃ t, (redFn (k := 1) Flags.GENERAL true [-1] (fun _ => [2, 2]) [2] (fun z => exE 0 z * exE 1 z) (fun z => exE 0 z • (exE 1).toLinearMap + exE 1 z • (exE 0).toLinearMap)
      fun _ => (LinearMap.mul ℝ ℝ).compl₁₂ (exE 0).toLinearMap (exE 1).toLinearMap + (LinearMap.mul ℝ ℝ).compl₁₂ (exE 1).toLinearMap (exE 0).toLinearMap).wrapped (k := 0) T (fun _ => exRows 0) [] = some t ∧
    ∃ u, ArrRep (inputBase exPoint fun _ => 1) [2] t u ∧ ∀ y, (toND [2] (u y)).get [1] = y 2 * y 3 := by
  obtain ⟨h1, h2⟩ := C58_reduction (B := inputBase exPoint fun _ => 1) (l := [-1]) (out := [2]) (ss := fun _ => [2, 2]) (args := fun _ => exRows 0) (flags := Flags.GENERAL) (fil := true)
    (u := fun _ y => inputPart (off := 0) (s := [2, 2]) (by decide) y) T (by show 0 < 8; decide) (by decide) ⟨by decide, by decide, broadcastShapes_iff.mp (by decide +kernel)⟩
    (by decide) (by decide) (g := fun z => exE 0 z * exE 1 z) (g' := fun z => exE 0 z • (exE 1).toLinearMap + exE 1 z • (exE 0).toLinearMap)
    (g'' := fun _ => (LinearMap.mul ℝ ℝ).compl₁₂ (exE 0).toLinearMap (exE 1).toLinearMap + (LinearMap.mul ℝ ℝ).compl₁₂ (exE 1).toLinearMap (exE 0).toLinearMap)
    (fun _ => C58_input true (by decide) (by decide) exPoint _) (fun p _ => by
      obtain ⟨D, H, g1, g2, g3⟩ := mul_exact' (exE 0) (exE 1) (fun a : Fin 1 => sliceVec [2, 2] ((InAxes.axes [-1]).second 2) [2] p (inputPart (off := 0) (s := [2, 2]) (by decide) exPoint))
      refine ⟨D, H, g1, fun t => (g2 t).trans ?_, fun s t => (g3 s t).trans ?_⟩
      · exact congrArg₂ (· + ·) rfl (mul_comm _ _)
      · exact congrArg₂ (· + ·) rfl (mul_comm _ _))
  cases hw : (redFn (k := 1) Flags.GENERAL true [-1] (fun _ => [2, 2]) [2] (fun z => exE 0 z * exE 1 z) (fun z => exE 0 z • (exE 1).toLinearMap + exE 1 z • (exE 0).toLinearMap)
      fun _ => (LinearMap.mul ℝ ℝ).compl₁₂ (exE 0).toLinearMap (exE 1).toLinearMap + (LinearMap.mul ℝ ℝ).compl₁₂ (exE 1).toLinearMap (exE 0).toLinearMap).wrapped (k := 0) T (fun _ => exRows 0) [] with
  | none =>
    exfalso
    obtain ⟨m, h4, -, h5⟩ := h1.mp hw
    cases h4
    have := h5 [0] (by decide)
    revert this
    decide +kernel
  | some t => exact ⟨t, rfl, _, h2 t hw, fun y => rfl⟩

end Folx.Layout

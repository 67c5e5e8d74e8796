import Verif.Core.Jvp

/-!
# Second-order term (model of `folx/hessian.py`)

A wrapped function is evaluated slice by slice: `V` are the positions of the vmapped (broadcast) axes, `K a`
the positions of argument `a` without its `in_axes`, `dim a` the number of elements along its `in_axes`
(flattened row-major), `O` the output positions of one slice.
-/

namespace Folx

open Folx.Interp (Err)

/-- A custom rule `custom_jac_hessian_jac(args, extra_args, merge, materialize_idx)` on one slice
(`api.py:409-416`); the extra arguments are captured per slice. -/
abbrev CustomRule (k : ℕ) (dim : Fin k → ℕ) (V O F : Type) :=
  V → ((a : Fin k) → Trip (Fin (dim a)) F) → Option (List ℤ) → Except Err (O → F)

/-- A wrapped function with everything `hessian.py` looks at. -/
structure HInst (k : ℕ) (P : Fin k → Type) (Q F : Type) [CommRing F] extends Inst k P Q F where
  V : Type
  K : Fin k → Type
  O : Type
  [fV : Fintype V]
  dim : Fin k → ℕ
  /-- elements of argument `a`: kept position and flattened position along `in_axes` -/
  hsplit : (a : Fin k) → P a ≃ K a × Fin (dim a)
  /-- broadcasting of the kept axes -/
  hκ : (a : Fin k) → V → K a
  /-- layout of the output: vmapped axes, then the output axes of a slice (`hessian.py:333-371`) -/
  out : Q ≃ V × O
  /-- second derivative of the slice function (per slice, because of captured arguments) at a slice point:
  trusted behaviour of nested `jax.jvp` / `jax.jacfwd` / `jax.jacrev` -/
  hess : V → ((a : Fin k) → Fin (dim a) → F) →
    ((a : Fin k) → Fin (dim a) → F) →ₗ[F] ((a : Fin k) → Fin (dim a) → F) →ₗ[F] (O → F)
  /-- the first leaf of the merged arguments is the first derivative-carrying argument
  (`hessian.py:388-393`) -/
  firstIsLapl : Bool
  /-- `all(len(a) == 1 for a in in_axes)` (`hessian.py:320`) -/
  oneAxis : Bool
  /-- complex input and real output (`hessian.py:92-95`) -/
  c2r : Bool
  custom : Option (CustomRule k dim V O F)

attribute [instance] HInst.fV

variable {k : ℕ} {P : Fin k → Type} {Q F : Type} [CommRing F]

/-- Slice of an array at a kept position. -/
def sliceArr {P K : Type} {d : ℕ} (e : P ≃ K × Fin d) (u : K) (f : P → F) : Fin d → F :=
  fun c => f (e.symm (u, c))

/-- Slice of a Jacobian at a kept position (data and, if present, indices; `jax.vmap` over
`FwdJacobian`, `hessian.py:326-330,363-365`). -/
def sliceJac {P K : Type} {d : ℕ} (e : P ≃ K × Fin d) (u : K) : Jac P F → Jac (Fin d) F
  | .dense rows => .dense (rows.map (sliceArr e u))
  | .sparse rows => .sparse (rows.map fun r => ⟨fun c => r.idx (e.symm (u, c)), sliceArr e u r.val⟩)

/-- Slice of a triple. -/
def sliceTrip {P K : Type} {d : ℕ} (e : P ≃ K × Fin d) (u : K) (t : Trip P F) : Trip (Fin d) F :=
  ⟨sliceArr e u t.x, sliceJac e u t.jac, sliceArr e u t.lapl⟩

/-! ### Restricted Jacobians -/

/-- `get_reduced_jacobians(*jacs, idx)` (`utils.py:56-68`): rows of all Jacobians on common indices. -/
def reducedJacobians {dim : Fin k → ℕ} (js : (a : Fin k) → Jac (Fin (dim a)) F) (idx : Option (List ℤ)) :
    Except Err ((a : Fin k) → List (Fin (dim a) → F)) :=
  match idx with
  | none =>
    match seqFin fun a => (js a).denseArray with
    | .error e => .error e
    | .ok rows => .ok fun a => extendTo (rows a) (maxLen rows)
  | some is => seqFin fun a => (js a).constructFor (some is)

/-- Row `s` of all restricted Jacobians: one column of `grad_2d` (`hessian.py:89-90`). -/
def col {dim : Fin k → ℕ} (rows : (a : Fin k) → List (Fin (dim a) → F)) (s : ℕ) :
    (a : Fin k) → Fin (dim a) → F := fun a => (rows a).getD s (fun _ => 0)

/-! ### The three strategies for `tr(J H J^T)` -/

section Strategies
variable {dim : Fin k → ℕ} {O : Type}

/-- Flat input index `d` of the concatenated slice inputs, as unit vector. -/
def unit (d : Σ a, Fin (dim a)) : (a : Fin k) → Fin (dim a) → F := Pi.single d.1 (Pi.single d.2 1)

variable (H : ((a : Fin k) → Fin (dim a) → F) →ₗ[F] ((a : Fin k) → Fin (dim a) → F) →ₗ[F] (O → F))
  (m : ℕ) (g : ℕ → (a : Fin k) → Fin (dim a) → F)

/-- `JHJ_via_hessian` (`hessian.py:40-43`): materialise `H`, contract with `grad_2d @ grad_2d.T`. -/
def viaHessian : O → F := fun o =>
  ∑ d : (Σ a, Fin (dim a)), ∑ e : (Σ a, Fin (dim a)), H (unit d) (unit e) o *
    ∑ s ∈ Finset.range m, g s d.1 d.2 * g s e.1 e.2

/-- `JHJ_via_trace` (`hessian.py:46-59`): all mixed second directional derivatives along the columns, then
the trace. -/
def viaTrace : O → F := fun o =>
  ∑ s ∈ Finset.range m, (fun s s' => H (g s) (g s') o) s s

/-- `JHJ_via_hvp` (`hessian.py:62-70`): Hessian-vector products, then the Hadamard product with `J`. -/
def viaHvp : O → F := fun o =>
  ∑ d : (Σ a, Fin (dim a)), ∑ s ∈ Finset.range m, H (g s) (unit d) o * g s d.1 d.2

end Strategies

namespace HInst

variable (I : HInst k P Q F)

/-- The point at which slice `v` is evaluated. -/
def sliceX (x : (a : Fin k) → P a → F) (v : I.V) : (a : Fin k) → Fin (I.dim a) → F :=
  fun a => sliceArr (I.hsplit a) (I.hκ a v) (x a)

/-- The sliced arguments. -/
def sliceArgs (args : (a : Fin k) → Trip (P a) F) (v : I.V) : (a : Fin k) → Trip (Fin (I.dim a)) F :=
  fun a => sliceTrip (I.hsplit a) (I.hκ a v) (args a)

/-- `general_jac_hessian_jac` (`hessian.py:73-105`) on slice `v`.  `grad_2d` has shape
`(sum of dims) x (number of rows)`. -/
def generalJHJ (v : I.V) (args : (a : Fin k) → Trip (Fin (I.dim a)) F) (idx : Option (List ℤ)) :
    Except Err (I.O → F) :=
  match reducedJacobians (fun a => (args a).jac) idx with
  | .error e => .error e
  | .ok rows =>
    let D := ∑ a, I.dim a
    let m := maxLen rows
    let H := I.hess v fun a => (args a).x
    .ok (if m > D then (if I.c2r then viaHvp H m (col rows) else viaHessian H m (col rows))
      else viaTrace H m (col rows))

/-- The entry of the `m × m` matrix `M` that `einsum('...ij,...ij->...')` (`utils.py:47-53`) multiplies with entry `(i, j)` of a
`D × D` matrix: the entry at `(i, j)`; axes of length one on either side are stretched (`jnp.einsum` allows it), so that for
`D = 1` the sum over `M` appears. -/
def einsumFactor (D m : ℕ) (M : ℕ → ℕ → F) (i j : ℕ) : F :=
  if D = 1 then ∑ r ∈ Finset.range m, ∑ s ∈ Finset.range m, M r s
  else if m = 1 then M 0 0 else M i j

/-- `off_diagblock_jac_hessian_jac` (`hessian.py:108-132`) on slice `v`: the mixed block of the Hessian
(shape `D₁ x D₂`) is contracted with `jac_jacT = x @ y.T` (`utils.py:81-86`), whose shape is `m x m` where `m`
is the number of Jacobian rows.  `x @ y.T` raises unless `D₁ = D₂`; the `einsum` raises unless the sizes agree or one is one. -/
def offDiagJHJ (v : I.V) (args : (a : Fin k) → Trip (Fin (I.dim a)) F) (idx : Option (List ℤ)) :
    Except Err (I.O → F) :=
  if h : k = 2 then
    match reducedJacobians (fun a => (args a).jac) idx with
    | .error e => .error e
    | .ok rows =>
      let a0 : Fin k := ⟨0, by omega⟩
      let a1 : Fin k := ⟨1, by omega⟩
      let m := maxLen rows
      let H := I.hess v fun a => (args a).x
      if hd : I.dim a0 = I.dim a1 ∧ (I.dim a0 = m ∨ I.dim a0 = 1 ∨ m = 1) then
        let xyT : ℕ → ℕ → F := fun r s => ∑ c : Fin (I.dim a0), col rows r a0 c * col rows s a1 (c.cast hd.1)
        .ok fun o => 2 * ∑ i : Fin (I.dim a0), ∑ j : Fin (I.dim a1),
          H (unit ⟨a0, i⟩) (unit ⟨a1, j⟩) o * einsumFactor (I.dim a0) m xyT i j
      else .error .shape
  else .error .other

/-- `dot_product_jac_hessian_jac` (`hessian.py:135-146`, `utils.py:71-78`) on one slice; axes of length one are stretched
by the `einsum`. -/
def dotJHJ (args : (a : Fin k) → Trip (Fin (I.dim a)) F) (idx : Option (List ℤ)) :
    Except Err (I.O → F) :=
  if h : k = 2 then
    match reducedJacobians (fun a => (args a).jac) idx with
    | .error e => .error e
    | .ok rows =>
      let a0 : Fin k := ⟨0, by omega⟩
      let a1 : Fin k := ⟨1, by omega⟩
      if hd : I.dim a0 = I.dim a1 then
        .ok fun _ => 2 * ∑ s ∈ Finset.range (maxLen rows),
          ∑ c : Fin (I.dim a0), col rows s a0 c * col rows s a1 (c.cast hd)
      else if h1 : I.dim a0 = 1 then
        .ok fun _ => 2 * ∑ s ∈ Finset.range (maxLen rows),
          ∑ c : Fin (I.dim a1), col rows s a0 ⟨0, by omega⟩ * col rows s a1 c
      else if h1 : I.dim a1 = 1 then
        .ok fun _ => 2 * ∑ s ∈ Finset.range (maxLen rows),
          ∑ c : Fin (I.dim a0), col rows s a0 c * col rows s a1 ⟨0, by omega⟩
      else .error .shape
  else .error .other

/-! ### `find_out_idx` -/

/-- `np.unique` of the index mask of one argument at one broadcast position (`hessian.py:221-239`). -/
def posIdx {P K : Type} {d : ℕ} (e : P ≃ K × Fin d) (J : Jac P F) (u : K) : Finset ℤ :=
  (J.srows.map fun r => Finset.univ.image fun c => r.idx (e.symm (u, c))).foldr (· ∪ ·) ∅

/-- Number of non-negative entries of `unique_idx` (`api.py:48-56`, `hessian.py:215-217`). -/
def nUnique {P : Type} [Fintype P] : Jac P F → ℕ
  | .dense rows => rows.length
  | .sparse rows =>
    (((rows.map fun r => Finset.univ.image r.idx).foldr (· ∪ ·) ∅).filter (0 ≤ ·)).card

/-- `max_size` (`hessian.py:215-217`). -/
def maxSize [∀ a, Fintype (P a)] (args : (a : Fin k) → Trip (P a) F) : ℕ :=
  Finset.univ.sup fun a => nUnique (args a).jac

/-- `unique(..., size=max_size + 1, fill_value=-1)` followed by `remove_fill` (`hessian.py:221-239,149-165`):
at most `max_size + 1` values are kept, smallest first; then negative ones are removed. -/
def keptIdx (m : ℕ) (s : Finset ℤ) : Finset ℤ :=
  ((s.sort (· ≤ ·)).take (m + 1)).toFinset.filter (0 ≤ ·)

/-- The merged indices at one broadcast position: intersection for `LINEAR_IN_ONE`, union otherwise
(`hessian.py:241-246,168-195`). -/
def mergedIdx [∀ a, Fintype (P a)] (args : (a : Fin k) → Trip (P a) F) (v : I.V) : Finset ℤ :=
  let m := maxSize args
  let s : Fin k → Finset ℤ := fun a => keptIdx m (posIdx (I.hsplit a) (args a).jac (I.hκ a v))
  if I.flags.has Flags.LINEAR_IN_ONE then
    (Finset.univ.biUnion s).filter fun z => ∀ a, z ∈ s a
  else Finset.univ.biUnion s

/-- Width of the merged index array (`hessian.py:190`). -/
def idxWidth [∀ a, Fintype (P a)] (args : (a : Fin k) → Trip (P a) F) : ℕ :=
  Finset.univ.sup fun v => (I.mergedIdx args v).card

/-- `find_out_idx` (`hessian.py:198-251`): per position a sorted index list padded with `-1`, and whether
the output counts as dense.  The broadcast shape of `out_idx` is that of the derivative-carrying
arguments; extra arguments are assumed not to enlarge it. -/
def findOutIdx [∀ a, Fintype (P a)] (T : ℕ) (args : (a : Fin k) → Trip (P a) F) :
    Option (I.V → List ℤ) × Bool :=
  if anyWeak args = false then (none, true)
  else
    let w := I.idxWidth args
    (some fun v => (I.mergedIdx args v).sort (· ≤ ·) ++
        List.replicate (w - (I.mergedIdx args v).card) (-1),
     decide (w ≥ maxSize args ∨ w > T))

/-- `hess_transform` (`hessian.py:333-350`). -/
def hessTransform (v : I.V) (args : (a : Fin k) → Trip (Fin (I.dim a)) F) (idx : Option (List ℤ)) :
    Except Err (I.O → F) :=
  match I.custom with
  | some c => c v args idx
  | none =>
    if I.flags.has Flags.MULTIPLICATION then I.dotJHJ args idx
    else if I.flags.has Flags.LINEAR_IN_ONE then I.offDiagJHJ v args idx
    else I.generalJHJ v args idx

/-- Positions that `remove_zero_entries` (`hessian.py:254-287`) leaves to be computed.  (The realignment of
size-one axes in `:276-277` is a layout question and not modelled.) -/
def keptPos (outIdx : Option (I.V → List ℤ)) (denseOut : Bool) (v : I.V) : Prop :=
  match outIdx with
  | none => True
  | some f =>
    if (I.flags.has Flags.DOT_PRODUCT && I.oneAxis) = true ∧ denseOut = false ∧
        2 * (Finset.univ.filter fun v => ∃ z ∈ f v, z ≠ -1).card ≤ Fintype.card I.V then
      ∃ z ∈ f v, z ≠ -1
    else True

instance (outIdx : Option (I.V → List ℤ)) (denseOut : Bool) (v : I.V) :
    Decidable (I.keptPos outIdx denseOut v) := by
  unfold keptPos
  cases outIdx with
  | none => exact instDecidableTrue
  | some f =>
    dsimp only
    split <;> infer_instance

/-- `lapl_args.dense` (`api.py:359-361`). -/
def denseArgs [∀ a, Fintype (P a)] (args : (a : Fin k) → Trip (P a) F) :
    Except Err ((a : Fin k) → Trip (P a) F) :=
  match seqFin fun a => (args a).jac.denseArray with
  | .error e => .error e
  | .ok rows => .ok fun a => ⟨(args a).x, .dense (rows a), (args a).lapl⟩

/-- `vmapped_jac_hessian_jac` (`hessian.py:290-371`). -/
def vmappedJHJ [∀ a, Fintype (P a)] (T : ℕ) (args : (a : Fin k) → Trip (P a) F) : Except Err (Q → F) :=
  let fo := I.findOutIdx T args
  let densify := fo.2 && !I.flags.has Flags.SPARSE_JHJ
  match (if densify then denseArgs args else .ok args) with
  | .error e => .error e
  | .ok args' =>
    let outIdx := if densify then none else fo.1
    if outIdx.isSome = true ∧ I.idxWidth args = 0 then .ok fun _ => 0
    else
      let res : (v : I.V) → Except Err (I.O → F) := fun v =>
        if I.keptPos outIdx fo.2 v then
          I.hessTransform v (I.sliceArgs args' v) (outIdx.map fun f => f v)
        else .ok fun _ => 0
      if ∀ v, (res v).isOk = true then
        .ok fun q => ((res (I.out q).1).toOption.getD fun _ => 0) (I.out q).2
      else .error .other

/-- `hessian_transform` (`hessian.py:383-405`). -/
def hessianTransform [∀ a, Fintype (P a)] (T : ℕ) (args : (a : Fin k) → Trip (P a) F) :
    Except Err (Q → F) :=
  if I.flags.has Flags.LINEAR then .ok fun _ => 0
  else if I.flags.has Flags.LINEAR_IN_ONE ∧ k = 1 then .ok fun _ => 0
  else if I.flags.has Flags.LINEAR_IN_FIRST ∧ I.firstIsLapl = true ∧ k = 1 then .ok fun _ => 0
  else I.vmappedJHJ T args

/-- A wrapped function applied to `k ≥ 1` derivative-carrying arguments (`wrapper.py:116-136`): value,
Jacobian, first-order Laplacian plus second-order term.  The final `astype` is the identity in exact
arithmetic. -/
def wrapped [∀ a, Fintype (P a)] [∀ a, DecidableEq (P a)] [Fintype Q] [DecidableEq Q]
    (T : ℕ) (args : (a : Fin k) → Trip (P a) F) : Except Err (Trip Q F) :=
  match jvpRule I.toInst T args with
  | .error e => .error e
  | .ok o =>
    match I.hessianTransform T args with
    | .error e => .error e
    | .ok h => .ok ⟨o.y, o.jac, fun q => o.lapl q + h q⟩

end HInst

end Folx

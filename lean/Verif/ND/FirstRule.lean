import Verif.ND.Hess
import Verif.ND.ReduceRule
import Verif.Prog.NDPos
import Mathlib.Data.List.Lex
import Mathlib.Algebra.Module.LinearMap.Basic

/-!
# The first-order rules on arrays with explicit shapes (`jvp.py:116-580`, `api.py:208-224`, `utils.py:335-410, 520-525`)

`Verif/Core/Jvp.lean` models the same rules position by position.  `JAC_DIM = 0`; `none` where Python raises.  The derivative of the function is a parameter.
Scatter functions (`jvp.py:333-414`) are in `Verif/Core/Scatter.lean`.
-/

namespace Folx.Layout
open Vmap Dot

variable {F : Type} [CommRing F] [Inhabited F] {k : ℕ}

/-- The derivative of a function of `k` arrays of shapes `ss` with a result of shape `o`, on the elements in row-major order. -/
abbrev Deriv (F : Type) [CommRing F] (ss : Fin k → List ℕ) (o : List ℕ) := ((a : Fin k) → Fin (ss a).prod → F) →ₗ[F] (Fin o.prod → F)

variable {ss : Fin k → List ℕ} {o : List ℕ}

/-- `jax.jvp(fwd, x, tangents)[1]` (trusted primitive). -/
def push (D : Deriv F ss o) (ts : Fin k → ND F) : ND F := toND o (D fun a => vecOf (ts a) (ss a).prod)

/-- `jax.vmap(jvp)` over the leading axis (`jvp.py:175-178`): raises unless all leading axes have the same size. -/
def vmapPush (D : Deriv F ss o) (ts : Fin k → ND F) : Option (ND F) :=
  let n := (List.ofFn fun a => (ts a).shape.getD 0 0).foldr max 0
  if ∀ a, (ts a).shape.getD 0 0 = n then
    some (ND.ofFn (n :: o) fun w => (push D fun a => row0 (ts a) (w.getD 0 0)).get w.tail)
  else none

/-- All results, if none raises. -/
def allSome {α : Type} (f : Fin k → Option α) : Option (Fin k → α) :=
  if h : ∀ a, (f a).isSome then some fun a => (f a).get (h a) else none

/-- Zeros. -/
def zerosND (s : List ℕ) : ND F := ND.ofFn s fun _ => 0

/-- `extend_jacobians(*x, axis=0)` (`utils.py:361-379`). -/
def extendJac (ts : Fin k → ND F) : Fin k → ND F :=
  if k = 1 then ts else
  let n := (List.ofFn fun a => (ts a).shape.getD 0 0).foldr max 0
  if ∀ a, (ts a).shape.getD 0 0 = n then ts else
  fun a => if (ts a).shape.getD 0 0 < n then concat0 (ts a) (zerosND ((n - (ts a).shape.getD 0 0) :: (ts a).shape.tail)) else ts a

/-- `FwdJacobian.dense_array` (`api.py:161-168`). -/
def ArrJac.dense (j : ArrJac F) : Option (ND F) :=
  match j.idx with
  | none => some j.data
  | some m => denseArray j.data m

/-- Jacobian and Laplacian of the result. -/
abbrev FirstOut (F : Type) := ArrJac F × ND F

/-- `dense_joint_jvp` (`jvp.py:417-439`). -/
def denseJoint (D : Deriv F ss o) (args : Fin k → ArrTrip F) : Option (ND F × ND F) := do
  let ds ← allSome fun a => (args a).jac.dense
  let r ← vmapPush D fun a => concat0 (extendJac ds a) (expand0 (args a).lapl)
  pure (initRows r, lastRow r)

/-- `dense_split_jvp` (`jvp.py:442-450`). -/
def denseSplit (D : Deriv F ss o) (args : Fin k → ArrTrip F) : Option (ND F × ND F) := do
  let ds ← allSome fun a => (args a).jac.dense
  let g ← vmapPush D (extendJac ds)
  pure (g, push D fun a => (args a).lapl)

/-- `vjp(fwd, x)(jnp.ones_like(y))[0]` (`jvp.py:204, 460`) for the argument `a` (trusted primitive): the sum of the derivatives of all results. -/
def vjpOnes (D : Deriv F ss o) (a : Fin k) : ND F := toND (ss a) fun p => ∑ q, D (Pi.single a (Pi.single p 1)) q

/-- `jac * x` for `x` with a leading axis (`jvp.py:205, 461`). -/
def mulRows (j x : ND F) : ND F := ND.ofFn x.shape fun w => j.get w.tail * x.get w

/-- `jac * x` for arrays of the same shape. -/
def mulND (j x : ND F) : ND F := ND.ofFn x.shape fun w => j.get w * x.get w

end Folx.Layout

namespace Folx.Layout
open Vmap Dot

variable {F : Type} [CommRing F] [Inhabited F] {k : ℕ} {ss : Fin (k + 1) → List ℕ} {o : List ℕ}

/-- `dense_elementwise_jvp` (`jvp.py:453-463`), called with one argument. -/
def denseElementwise (D : Deriv F ss o) (args : Fin (k + 1) → ArrTrip F) : Option (ND F × ND F) :=
  if o ≠ (args 0).x.shape then denseSplit D args else do
  let d ← (args 0).jac.dense
  pure (mulRows (vjpOnes D 0) d, mulND (vjpOnes D 0) (args 0).lapl)

/-- The choice in `dense_jvp` (`jvp.py:473-478`); `ew` = `in_axes == ()`, `join` = `JOIN_JVP in flags`. -/
def densePick (ew join : Bool) (D : Deriv F ss o) (args : Fin (k + 1) → ArrTrip F) : Option (ND F × ND F) :=
  if ew ∧ k = 0 then denseElementwise D args else if join then denseJoint D args else denseSplit D args

/-- `dense_jvp` (`jvp.py:466-480`). -/
def denseJvpArr (ew join : Bool) (D : Deriv F ss o) (args : Fin (k + 1) → ArrTrip F) : Option (FirstOut F) :=
  (densePick ew join D args).map fun r => (⟨r.1, none⟩, r.2)

/-- `jnp.concatenate(l, axis=0)` / `np.concatenate`. -/
def concatAll {α : Type} [Inhabited α] : List (ND α) → ND α
  | [] => ND.ofFn [0] fun _ => default
  | [x] => x
  | x :: l => concat0 x (concatAll l)

/-- `np.unique(x, axis=0, return_inverse=True)` (`jvp.py:234-238`): the distinct rows in lexicographic order, and for every row its
position among them. -/
def rowsList (x : ND ℤ) : List (List ℤ) := (List.range (x.shape.getD 0 0)).map fun r => (row0 x r).data

/-- The distinct rows, sorted. -/
def distinctRows (x : ND ℤ) : List (List ℤ) := (rowsList x).toFinset.sort (· ≤ ·)

/-- First component of `np.unique`. -/
def uniqueMask (x : ND ℤ) : ND ℤ :=
  ND.ofFn ((distinctRows x).length :: x.shape.tail) fun w =>
    ((distinctRows x).getD (w.getD 0 0) []).getD (ravelIdx x.shape.tail w.tail) default

/-- Second component. -/
def uniqueInv (x : ND ℤ) (r : ℕ) : ℕ := (distinctRows x).idxOf ((rowsList x).getD r [])

/-- `jax.ops.segment_sum(x, inv, num_segments=n)` over the leading axis (`jvp.py:242-244`, trusted primitive). -/
def segRows (x : ND F) (inv : ℕ → ℕ) (n : ℕ) : ND F :=
  ND.ofFn (n :: x.shape.tail) fun w =>
    ((List.range (x.shape.getD 0 0)).map fun r => if inv r = w.getD 0 0 then x.get (r :: w.tail) else 0).sum

/-- Entry `j` of the one-hot Jacobian `i` (`api.py:368-381`). -/
def oneHotJac (args : Fin (k + 1) → ArrTrip F) (i j : Fin (k + 1)) : ND F :=
  if i = j then (args j).jac.data else zerosND ((args i).jac.data.shape.getD 0 0 :: (args j).jac.data.shape.tail)

/-- The derivatives of the rows (`jvp.py:196-226`). -/
def diagGrad (D : Deriv F ss o) (args : Fin (k + 1) → ArrTrip F) : Option (ND F × ND F) :=
  if k = 0 ∧ o = (args 0).x.shape then
    some (mulRows (vjpOnes D 0) (args 0).jac.data, mulND (vjpOnes D 0) (args 0).lapl)
  else do
    let r ← vmapPush D fun j => concatAll ((List.ofFn fun i => oneHotJac args i j) ++ [expand0 (args j).lapl])
    pure (initRows r, lastRow r)

/-- The masks and the summed rows (`jvp.py:228-244`). -/
def diagMask (masks : Fin (k + 1) → ND ℤ) (grad : ND F) : Option (ND ℤ × ND F) :=
  if k = 0 then some (masks 0, grad) else do
    let m ← broadcastShapes (List.ofFn fun a => (masks a).shape.tail)
    let cat := concatAll (List.ofFn fun a => bexcept m (masks a))
    pure (uniqueMask cat, segRows grad (uniqueInv cat) (distinctRows cat).length)

/-- `sparse_diag_jvp` (`jvp.py:190-252`) for sparse Jacobians. -/
def sparseDiagArr (D : Deriv F ss o) (args : Fin (k + 1) → ArrTrip F) : Option (FirstOut F) := do
  let g ← diagGrad D args
  let r ← diagMask (fun a => (args a).jac.mask) g.1
  let m ← broadcastMask r.1 r.2.shape
  pure (⟨r.2, some m⟩, g.2)

/-- `broadcast_dim(xs, fill_value, axis=0)` (`utils.py:382-410`). -/
def broadcastDim {α : Type} [Inhabited α] (fill : α) (xs : Fin (k + 1) → ND α) : Fin (k + 1) → ND α :=
  let n := (List.ofFn fun a => (xs a).shape.getD 0 0).foldr max 0
  fun a => concat0 (xs a) (ND.ofFn ((n - (xs a).shape.getD 0 0) :: (xs a).shape.tail) fun _ => fill)

/-- `sparse_index_jvp` (`jvp.py:255-330`) for sparse Jacobians; `ifwd` is the function on integer arrays (other arguments filled with -1 or kept), `none` if it
raises for the indices. -/
def sparseIndexArr (ew join : Bool) (D : Deriv F ss o) (ifwd : Option ((Fin (k + 1) → ND ℤ) → ND ℤ)) (args : Fin (k + 1) → ArrTrip F) :
    Option (FirstOut F) :=
  match ifwd with
  | none => denseJvpArr ew join D args
  | some f => do
    let ms := broadcastDim (-1) fun a => (args a).jac.mask
    let n := (ms 0).shape.getD 0 0
    let mask := ND.ofFn (n :: (f fun a => row0 (ms a) 0).shape) fun w => (f fun a => row0 (ms a) (w.getD 0 0)).get w.tail
    let ds := broadcastDim 0 fun a => (args a).jac.data
    let r ← vmapPush D fun a => concat0 (ds a) (expand0 (args a).lapl)
    if (initRows r).shape ≠ mask.shape then none else
    pure (⟨initRows r, some mask⟩, lastRow r)

/-- Elementwise sum with the leading axis broadcast. -/
def addLead {α : Type} [Inhabited α] (f : α → α → α) (x y : ND α) : ND α :=
  ND.ofFn (max (x.shape.getD 0 0) (y.shape.getD 0 0) :: x.shape.tail) fun w =>
    f (x.get ((if x.shape.getD 0 0 = 1 then 0 else w.getD 0 0) :: w.tail)) (y.get ((if y.shape.getD 0 0 = 1 then 0 else w.getD 0 0) :: w.tail))

/-- `(other.x0_idx == self.x0_idx).all()` (`api.py:216`), with numpy broadcasting of the row axis. -/
def masksAgree (m m' : ND ℤ) : Prop :=
  ∀ w ∈ allIdx (max (m.shape.getD 0 0) (m'.shape.getD 0 0) :: m.shape.tail),
    m.get ((if m.shape.getD 0 0 = 1 then 0 else w.getD 0 0) :: w.tail) = m'.get ((if m'.shape.getD 0 0 = 1 then 0 else w.getD 0 0) :: w.tail)

instance (m m' : ND ℤ) : Decidable (masksAgree m m') := by unfold masksAgree; infer_instance

/-- The dense branch of `FwdJacobian.__add__` (`api.py:211-214`, `utils.py:520-525`). -/
def addDense (j j' : ArrJac F) : Option (ArrJac F) := do
  let d ← j.dense
  let d' ← j'.dense
  let e := extendJac ![d, d']
  pure ⟨ND.ofFn (e 0).shape fun w => (e 0).get w + (e 1).get w, none⟩

/-- `FwdJacobian.__add__` (`api.py:208-224`) for Jacobians of arrays of the same shape (results of one function). -/
def addJacArr (j j' : ArrJac F) : Option (ArrJac F) :=
  if j.data.shape.tail ≠ j'.data.shape.tail then none else
  match j.idx, j'.idx with
  | some m, some m' =>
    if m.shape.getD 0 0 ≠ m'.shape.getD 0 0 ∧ m.shape.getD 0 0 ≠ 1 ∧ m'.shape.getD 0 0 ≠ 1 then none else
    if masksAgree m m' then some ⟨addLead (· + ·) j.data j'.data, some (addLead (fun a _ => a) m m')⟩
    else some ⟨concat0 j.data j'.data, some (concat0 m m')⟩
  | _, _ => addDense j j'

/-- The derivative with respect to argument `a` alone (`jvp.py:525-538`). -/
def Deriv.part (D : Deriv F ss o) (a : Fin (k + 1)) : Deriv F (fun _ : Fin 1 => ss a) o :=
  D ∘ₗ LinearMap.single F (fun a => Fin (ss a).prod → F) a ∘ₗ LinearMap.proj 0

/-- The axes of a function (`wrapper.py:74-96`, `jvp.py:130-139`). -/
inductive AxesKind where
  /-- `in_axes = ()`: elementwise -/
  | elementwise
  /-- `SUMMATION` along resolved axes (the keyword argument `axes`) -/
  | summation (axes : List ℕ)
  /-- reduction along these axes -/
  | reduction (axes : AxesArg)
  /-- `in_axes = None` without a keyword argument `axes`: all axes of the argument -/
  | all

/-- The axes of a call with one argument of rank `nd` (`jvp.py:130-143`): `None` stands for all axes; without axes the function is elementwise. -/
def AxesKind.forNd (nd : ℕ) : AxesKind → AxesKind
  | .all => if nd = 0 then .elementwise else .reduction (.flat ((List.range nd).map Int.ofNat))
  | .summation [] => .elementwise
  | .reduction (.flat []) => .elementwise
  | ax => ax

/-- `sparse_jvp` (`jvp.py:141-187`) for one sparse argument and resolved axes. -/
def sparseJvpAt (T : ℕ) (join : Bool) (ax : AxesKind) {s : List ℕ} (D : Deriv F (fun _ : Fin 1 => s) o) (arg : ArrTrip F) : Option (FirstOut F) :=
  match ax with
  | .elementwise => sparseDiagArr D fun _ => arg
  | .summation axes =>
    match arg.jac.idx with
    | none => none
    | some m => (sparseSumArr T arg.x arg.lapl arg.jac.data m axes).map fun r => (r.2.1, r.2.2)
  | .reduction axes =>
    match arg.jac.idx with
    | none => none
    | some m =>
      match sparseReduceArr T (fun t => push D fun _ => t) o arg.lapl arg.jac.data m axes with
      | none => none
      | some .dense => denseJvpArr false join D fun _ => arg
      | some (.sparse j l) => some (j, l)
  | .all => none

/-- `sparse_jvp` (`jvp.py:116-187`) for one sparse argument. -/
def sparseJvpArr (T : ℕ) (join : Bool) (ax : AxesKind) {s : List ℕ} (D : Deriv F (fun _ : Fin 1 => s) o) (arg : ArrTrip F) : Option (FirstOut F) :=
  sparseJvpAt T join (ax.forNd arg.x.ndim) D arg

/-- Is `in_axes == ()`? -/
def AxesKind.ew : AxesKind → Bool
  | .elementwise => true
  | _ => false

/-- One step of `one_by_one_jvp` (`jvp.py:540-564`). -/
def oneJvpArr (T : ℕ) (join : Bool) (ax : AxesKind) (D : Deriv F ss o) (args : Fin (k + 1) → ArrTrip F) (a : Fin (k + 1)) : Option (FirstOut F) :=
  match (args a).jac.idx with
  | none => denseJvpArr ax.ew join (D.part a) fun _ => args a
  | some _ => sparseJvpArr T join ax (D.part a) (args a)

/-- `grad += grad_; lapl += lapl_` (`jvp.py:560-564`). -/
def addOut (r r' : FirstOut F) : Option (FirstOut F) := do
  let j ← addJacArr r.1 r'.1
  pure (j, ND.ofFn r.2.shape fun w => r.2.get w + r'.2.get w)

/-- `one_by_one_jvp` (`jvp.py:523-565`). -/
def oneByOneArr (T : ℕ) (join : Bool) (ax : AxesKind) (D : Deriv F ss o) (args : Fin (k + 1) → ArrTrip F) : Option (FirstOut F) := do
  let r0 ← oneJvpArr T join ax D args 0
  (List.finRange k).foldlM (fun acc i => do
    let r ← oneJvpArr T join ax D args i.succ
    addOut acc r) r0

/-- The dispatch of `get_jvp_function` (`jvp.py:483-580`) for functions that are not scatters; `index` = `INDEXING in flags`. -/
def jvpArr (T : ℕ) (index join : Bool) (ax : AxesKind) (D : Deriv F ss o) (ifwd : Option ((Fin (k + 1) → ND ℤ) → ND ℤ))
    (args : Fin (k + 1) → ArrTrip F) : Option (FirstOut F) :=
  if ∀ a, (args a).jac.idx = none then denseJvpArr ax.ew join D args
  else if (∀ a, (args a).jac.idx ≠ none) ∧ (index ∨ ax.ew ∨ k = 0) then
    if index then sparseIndexArr ax.ew join D ifwd args
    else if ax.ew then sparseDiagArr D args
    else sparseJvpArr T join ax (D.part 0) (args 0)
  else oneByOneArr T join ax D args

end Folx.Layout

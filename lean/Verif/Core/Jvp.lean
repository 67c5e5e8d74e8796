import Mathlib.Algebra.Module.LinearMap.Basic
import Mathlib.Algebra.Module.Pi
import Mathlib.LinearAlgebra.Pi
import Mathlib.Data.Finset.Sort
import Mathlib.Data.Fintype.Pi
import Mathlib.Data.Fintype.Prod
import Mathlib.Data.Fintype.Sigma
import Verif.Core.Jac
import Verif.Core.Flags

/-!
# First-order rules (model of `folx/jvp.py`)

`k` derivative-carrying arguments with position types `P a`, one output with position type `Q`.
The remaining ("extra") arguments are already captured in the function, as `merged_fwd` does
(`jvp.py:492-495`, `wrapper.py:46-49`).
-/

namespace Folx

open Folx.Interp (Err)

variable {k : ℕ} {P : Fin k → Type} {Q F : Type}

/-- Reduction structure of one argument: which axes are kept (`K`) and which are contracted (`C`), and
which kept position an output element belongs to (`κ`, numpy broadcasting of the kept shape to the
output shape; `jvp.py:130-138`, `utils.py:428-517`). -/
structure Red (P Q : Type) where
  K : Type
  C : Type
  [fK : Fintype K]
  [dK : DecidableEq K]
  [fC : Fintype C]
  split : P ≃ K × C
  κ : Q → K

attribute [instance] Red.fK Red.dK Red.fC

/-- The `axes` of a single argument as `sparse_jvp` resolves them (`jvp.py:130-142`): empty
(elementwise, with the broadcast map of positions) or a set of reduced axes. -/
inductive ArgAx (P Q : Type) where
  | elem (π : Q → P)
  | red (r : Red P Q)

/-- Role of an argument of a scatter operation (`jvp.py:344`). -/
inductive ScatterRole where
  | operand
  | indices
  | updates
  deriving DecidableEq

/-- A scatter whose dimension numbers are those of a segment operation (`jvp.py:359-368`): a one-dimensional
operand of length `N` and a list of updates, update `u` being written to element `ids u`.  Only
two-dimensional index arrays with indices in bounds are modelled. -/
structure Seg (P Q : Type) where
  N : ℕ
  pos : Q ≃ Fin N
  ids : P → Fin N
  /-- the indices are known at trace time -/
  concrete : Bool

/-- A wrapped function together with what the rules of `jvp.py` look at. -/
structure Inst (k : ℕ) (P : Fin k → Type) (Q F : Type) [CommRing F] where
  /-- the function itself -/
  fwd : ((a : Fin k) → P a → F) → Q → F
  /-- `jax.jvp(fwd, x, t)[1]`; linearity in the tangent is part of the trusted behaviour of JAX -/
  jvp : ((a : Fin k) → P a → F) → ((a : Fin k) → P a → F) →ₗ[F] (Q → F)
  /-- `FunctionFlags` -/
  flags : Flags
  /-- `in_axes == ()` -/
  elem : Bool
  /-- broadcast maps of an elementwise function (numpy broadcasting of each argument to the output) -/
  π : (a : Fin k) → Q → P a
  /-- `y.shape == x.shape` for argument `a`, with the identification of positions -/
  same : (a : Fin k) → Option (Q ≃ P a)
  /-- the resolved `axes` of each argument, used when it is treated alone -/
  ax : (a : Fin k) → ArgAx (P a) Q
  /-- indexing operations: where each output element is copied from; `none` for elements taken from plain
  operands, which are replaced by `-1` in the index computation (`jvp.py:276-278`).  Gathers in `fill` mode
  with out-of-bounds indices (whose masks become `INT_MIN`) are not modelled. -/
  src : Q → Option (Σ a, P a)
  /-- the indexing operation can be evaluated on the masks at trace time (`jvp.py:270-302`) -/
  static : Bool
  /-- roles of the arguments of a scatter operation -/
  role : Fin k → ScatterRole
  /-- the function returns a tuple of arrays instead of one array -/
  multi : Bool
  /-- for updates of a scatter: the dimension numbers are those of a segment operation -/
  seg : (a : Fin k) → Option (Seg (P a) Q) := fun _ => none

/-- Result triple of a JVP rule. -/
structure JvpOut (Q F : Type) where
  y : Q → F
  jac : Jac Q F
  lapl : Q → F

/-- Collect the results of a family of possibly failing computations, first failure first. -/
def seqFin : {k : ℕ} → {β : Fin k → Type} → ((a : Fin k) → Except Err (β a)) →
    Except Err ((a : Fin k) → β a)
  | 0, _, _ => .ok (fun a => a.elim0)
  | _ + 1, _, f =>
    match f 0 with
    | .error e => .error e
    | .ok x =>
      match seqFin (fun a => f a.succ) with
      | .error e => .error e
      | .ok xs => .ok (Fin.cons x xs)

section Rules
variable [CommRing F]

/-- `jnp.ones_like(y)` pulled back: `vjp(fwd, x)(ones)[0]` (`jvp.py:204,460`).  `jax.vjp` is the transpose of
`jax.jvp`, so its value at position `p` is the sum over outputs of the derivative in direction `e_p`. -/
def vjpOnes [Fintype Q] [DecidableEq (Fin k)] (I : Inst k P Q F) (x : (a : Fin k) → P a → F)
    (a : Fin k) [DecidableEq (P a)] (p : P a) : F :=
  ∑ q : Q, I.jvp x (Pi.single a (Pi.single p 1)) q

/-- The tangents fed to the vmapped JVP: row `i` of every (extended) Jacobian (`utils.py:361-379`,
`jvp.py:422-428,446-448`). -/
def rowTangent (rows : (a : Fin k) → List (P a → F)) (m i : ℕ) : (a : Fin k) → P a → F :=
  fun a => (extendTo (rows a) m).getD i (fun _ => 0)

/-- Number of rows after extending all Jacobians to a common length. -/
def maxLen (rows : (a : Fin k) → List (P a → F)) : ℕ := Finset.univ.sup fun a => (rows a).length

/-- `dense_split_jvp` (`jvp.py:442-450`). -/
def denseSplit (I : Inst k P Q F) (args : (a : Fin k) → Trip (P a) F)
    (rows : (a : Fin k) → List (P a → F)) : JvpOut Q F :=
  let x := fun a => (args a).x
  let m := maxLen rows
  { y := I.fwd x
    jac := .dense ((List.range m).map fun i => I.jvp x (rowTangent rows m i))
    lapl := I.jvp x fun a => (args a).lapl }

/-- `dense_joint_jvp` (`jvp.py:417-439`): the Laplacian is appended as last tangent, all tangents are
pushed forward, and the last result is split off again. -/
def denseJoint (I : Inst k P Q F) (args : (a : Fin k) → Trip (P a) F)
    (rows : (a : Fin k) → List (P a → F)) : JvpOut Q F :=
  let x := fun a => (args a).x
  let m := maxLen rows
  let tangents : List ((a : Fin k) → P a → F) :=
    (List.range m).map (rowTangent rows m) ++ [fun a => (args a).lapl]
  let out := tangents.map fun t => I.jvp x t
  { y := I.fwd x, jac := .dense out.dropLast, lapl := out.getLastD (fun _ => 0) }

/-- `dense_elementwise_jvp` (`jvp.py:453-463`) for the only argument `a`. -/
def denseElementwise [Fintype Q] (I : Inst k P Q F) (args : (a : Fin k) → Trip (P a) F)
    (rows : (a : Fin k) → List (P a → F)) (a : Fin k) [DecidableEq (P a)] : JvpOut Q F :=
  match I.same a with
  | none => denseSplit I args rows
  | some e =>
    let x := fun a => (args a).x
    let jac := vjpOnes I x a
    { y := I.fwd x
      jac := .dense ((rows a).map fun r q => jac (e q) * r (e q))
      lapl := fun q => jac (e q) * (args a).lapl (e q) }

/-- `dense_jvp` (`jvp.py:466-480`). -/
def denseJvp [∀ a, Fintype (P a)] [∀ a, DecidableEq (P a)] [Fintype Q]
    (I : Inst k P Q F) (args : (a : Fin k) → Trip (P a) F) : Except Err (JvpOut Q F) :=
  match seqFin fun a => (args a).jac.denseArray with
  | .error e => .error e
  | .ok rows =>
    if h : I.elem = true ∧ k = 1 then
      .ok (denseElementwise I args rows ⟨0, by omega⟩)
    else if I.flags.has Flags.JOIN_JVP then .ok (denseJoint I args rows)
    else .ok (denseSplit I args rows)

/-- The index/value rows of a Jacobian seen as storage rows (dense rows are not looked at by the sparse
rules; they are given their `mask`). -/
def Jac.srows : {P : Type} → Jac P F → List (Row P F)
  | _, .sparse rows => rows
  | _, .dense rows => (arange rows.length).zipWith Row.mk rows

/-- `np.unique(masks, axis=0, return_inverse=True)` followed by `segment_sum(grad, inv)`
(`jvp.py:234-244`).  numpy orders the distinct rows lexicographically; here they are kept in order of
(last) occurrence, which only permutes the storage rows. -/
def uniqueRows [DecidableEq (Q → ℤ)] (rows : List (Row Q F)) : List (Row Q F) :=
  (rows.map Row.idx).dedup.map fun m =>
    ⟨m, fun q => ((rows.map fun r => if r.idx = m then r.val q else 0)).sum⟩

/-- `sparse_diag_jvp` (`jvp.py:190-252`) on sparse Jacobians. -/
def sparseDiag [∀ a, DecidableEq (P a)] [Fintype Q] [DecidableEq Q]
    (I : Inst k P Q F) (args : (a : Fin k) → Trip (P a) F) : Except Err (JvpOut Q F) :=
  if I.multi then .error .type else
  let x := fun a => (args a).x
  let general : List (Row Q F) × (Q → F) :=
    -- one-hot tangents: one row of one argument at a time (`jvp.py:212-226`, `api.py:367-381`)
    (List.flatten (List.ofFn fun a : Fin k => (args a).jac.srows.map fun r =>
      ⟨fun q => r.idx (I.π a q), I.jvp x (Pi.single a r.val)⟩),
     I.jvp x fun a => (args a).lapl)
  if h : k = 1 then
    let a : Fin k := ⟨0, by omega⟩
    match I.same a with
    | some e =>
      let jac := vjpOnes I x a
      .ok { y := I.fwd x
            jac := .sparse ((args a).jac.srows.map fun r =>
              ⟨fun q => r.idx (e q), fun q => jac (e q) * r.val (e q)⟩)
            lapl := fun q => jac (e q) * (args a).lapl (e q) }
    | none => .ok { y := I.fwd x, jac := .sparse general.1, lapl := general.2 }
  else .ok { y := I.fwd x, jac := .sparse (uniqueRows general.1), lapl := general.2 }

/-- `sparse_index_jvp` (`jvp.py:255-330`) on sparse Jacobians; masks are padded with `-1` and data with
`0` to the largest row count (`broadcast_dim`, `utils.py:382-410`). -/
def sparseIndex [∀ a, Fintype (P a)] [∀ a, DecidableEq (P a)] [Fintype Q]
    (I : Inst k P Q F) (args : (a : Fin k) → Trip (P a) F) : Except Err (JvpOut Q F) :=
  if I.static then
    if I.multi then .error .type else
    let x := fun a => (args a).x
    let m := Finset.univ.sup fun a => (args a).jac.srows.length
    let pad : (a : Fin k) → ℕ → Row (P a) F :=
      fun a i => (args a).jac.srows.getD i ⟨fun _ => -1, fun _ => 0⟩
    .ok { y := I.fwd x
          jac := .sparse ((List.range m).map fun i =>
            ⟨fun q => match I.src q with
              | some ⟨a, p⟩ => (pad a i).idx p
              | none => -1,
             I.jvp x fun a => (pad a i).val⟩)
          lapl := I.jvp x fun a => (args a).lapl }
  else denseJvp I args

end Rules

/-! ### Rules for a single argument -/

section Single
variable {P₀ : Type} [CommRing F]

/-- `one_by_one_jvp` (`jvp.py:523-557`) restricts the function to argument `a`, the others being static.
With a single argument this is the function itself. -/
def Inst.single (I : Inst k P Q F) (x : (a : Fin k) → P a → F) (a : Fin k) :
    Inst 1 (fun _ => P a) Q F where
  fwd := fun t => I.fwd (Function.update x a (t 0))
  jvp := fun y => (I.jvp (Function.update x a (y 0))).comp
    ((LinearMap.single F (fun a => P a → F) a).comp (LinearMap.proj 0))
  flags := I.flags
  elem := I.elem
  π := fun _ => I.π a
  same := fun _ => I.same a
  ax := fun _ => I.ax a
  src := fun _ => none
  static := I.static
  role := fun _ => I.role a
  multi := I.multi
  seg := fun _ => I.seg a

/-- Storage indices of the elements that are summed into output `q`. -/
def sumIdx (r : Red P₀ Q) (rows : List (Row P₀ F)) (q : Q) : Finset ℤ :=
  (rows.map fun row => Finset.univ.image fun c => row.idx (r.split.symm (r.κ q, c))).foldr
    (· ∪ ·) ∅

/-- `np.argmax(idx == idx_out)`: the first match, `0` if there is none (`jvp.py:87`). -/
def argmaxIdx (outs : List ℤ) (z : ℤ) : ℤ := if z ∈ outs then (outs.idxOf z : ℤ) else 0

/-- `sparse_sum_jvp` (`jvp.py:38-113`) at position level.  `compute_outdeps` (`:65-75`) collects the
distinct indices per output (padding included); above the threshold the result is dense with
`max(idx) + 1` rows.  Layout: `Verif/ND`. -/
def sparseSum [Fintype P₀] [Fintype Q] (r : Red P₀ Q) (T : ℕ) (arg : Trip P₀ F) : Except Err (JvpOut Q F) :=
  let rows := arg.jac.srows
  let y : Q → F := fun q => ∑ c : r.C, arg.x (r.split.symm (r.κ q, c))
  let lapl : Q → F := fun q => ∑ c : r.C, arg.lapl (r.split.symm (r.κ q, c))
  if Fintype.card Q = 0 then .error .emptyReduction else
  let maxOut := Finset.univ.sup fun q : Q => max 1 (sumIdx r rows q).card
  let col : Q → List ℤ := fun q =>
    let l := (sumIdx r rows q).sort (· ≤ ·)
    l ++ List.replicate (maxOut - l.length) (-1)
  if maxOut > T then
    match Jac.maxN rows with
    | ⊥ => .error .emptyReduction
    | (m : ℤ) => .ok
      { y := y
        jac := .dense ((List.range (m + 1).toNat).map fun (i : ℕ) (q : Q) =>
          (rows.map fun row => ∑ c : r.C, if row.idx (r.split.symm (r.κ q, c)) = (i : ℤ) then
            row.val (r.split.symm (r.κ q, c)) else 0).sum)
        lapl := lapl }
  else .ok
    { y := y
      jac := .sparse ((List.range maxOut).map fun (s : ℕ) =>
        ⟨fun q => (col q).getD s (-1),
         fun q => (rows.map fun row => ∑ c : r.C,
           if argmaxIdx (col q) (row.idx (r.split.symm (r.κ q, c))) = (s : ℤ) then
            row.val (r.split.symm (r.κ q, c)) else 0).sum⟩)
      lapl := lapl }

/-- Indices (without `-1`) the kept position `u` depends on (`utils.py:486-487`). -/
def redIdx (r : Red P₀ Q) (rows : List (Row P₀ F)) (u : r.K) : Finset ℤ :=
  (rows.map fun row => (Finset.univ.image fun c => row.idx (r.split.symm (u, c))).erase (-1)).foldr
    (· ∪ ·) ∅

/-- `get_jacobian_for_reduction` (`utils.py:428-517`) for one Jacobian, at position level: the output
masks (one list per kept position, padded with `-1` to a common width) and the materialised tangents. -/
def jacobianForReduction (r : Red P₀ Q) (rows : List (Row P₀ F)) :
    Except Err (List (P₀ → F) × List (r.K → ℤ)) :=
  if Fintype.card r.K = 0 then .error .emptyReduction else
  let maxU := Finset.univ.sup fun u : r.K => (redIdx r rows u).card
  let outMask : List (r.K → ℤ) := (List.range maxU).map fun (s : ℕ) u =>
    ((redIdx r rows u).sort (· ≤ ·)).getD s (-1)
  match Jac.getIndexMask rows (outMask.map fun m p => m (r.split p).1) with
  | .error e => .error e
  | .ok ids => .ok (Jac.materializeForIdx rows ids maxU, outMask)

/-- The general branch of `sparse_jvp` (`jvp.py:161-187`). -/
def sparseReduce [Fintype P₀] [DecidableEq P₀] [Fintype Q] (I : Inst 1 (fun _ => P₀) Q F)
    (r : Red P₀ Q) (T : ℕ) (arg : Trip P₀ F) : Except Err (JvpOut Q F) :=
  match jacobianForReduction r arg.jac.srows with
  | .error e => .error e
  | .ok (gradTan, outMask) =>
    if outMask.length > T then denseJvp I (fun _ => arg)
    else if I.multi then .error .type
    else .ok
      { y := I.fwd fun _ => arg.x
        jac := .sparse ((outMask.zip gradTan).map fun mg =>
          ⟨fun q => mg.1 (r.κ q), I.jvp (fun _ => arg.x) fun _ => mg.2⟩)
        lapl := I.jvp (fun _ => arg.x) fun _ => arg.lapl }

/-- `out_mask[s, i]` after `one_hot(..).sum(0)` and `segment_sum` (`jvp.py:370-375`): how many stored entries
with index `i` the updates written to element `s` have.  (`one_hot` of `-1` is zero.) -/
def segCount [Fintype P₀] (g : Seg P₀ Q) (rows : List (Row P₀ F)) (s i : ℕ) : ℕ :=
  ∑ u : P₀, if (g.ids u : ℕ) = s then (rows.filter fun r => decide (r.idx u = (i : ℤ))).length else 0

/-- The distinct values of `out_mask * arange(n)` where `out_mask > 0`, for one element (`jvp.py:377-379`).
Note that it is the product with the count that becomes an index. -/
def segCol [Fintype P₀] (g : Seg P₀ Q) (rows : List (Row P₀ F)) (n s : ℕ) : Finset ℤ :=
  ((Finset.range n).filter fun i => 0 < segCount g rows s i).image fun i => ((segCount g rows s i * i : ℕ) : ℤ)

/-- The number of segments `jax.ops.segment_sum` infers: `max(ids) + 1` (`jvp.py:375`). -/
def Seg.numSegments [Fintype P₀] (g : Seg P₀ Q) : ℕ := Finset.univ.sup fun u => (g.ids u : ℕ) + 1

/-- `max_out` (`jvp.py:376`). -/
def segMaxOut [Fintype P₀] (g : Seg P₀ Q) (rows : List (Row P₀ F)) (n : ℕ) : ℕ :=
  (Finset.range g.numSegments).sup fun s => ((Finset.range n).filter fun i => 0 < segCount g rows s i).card

/-- Row `j` of the final `out_mask` for element `s` (`jvp.py:380-384`): `jnp.unique` sorts and pads with `-1`;
the marker `INT_MAX` is the largest value and becomes `-1`. -/
def segMask [Fintype P₀] (g : Seg P₀ Q) (rows : List (Row P₀ F)) (n j s : ℕ) : ℤ :=
  ((segCol g rows n s).sort (· ≤ ·)).getD j (-1)

/-- The segment branch of `sparse_scatter_jvp` (`jvp.py:370-414`).  Indices that are not known at trace time
cannot be converted to numpy (`:375`).  The returned mask has `max(ids) + 1` columns while the data have
`N`; in the addition that follows (`jvp.py:563`) this is harmless if all columns agree (`utils.py:414-425`
compacts them) and raises otherwise, which is recorded here. -/
def sparseSegment [Fintype P₀] [DecidableEq P₀] [Fintype Q] (I : Inst 1 (fun _ => P₀) Q F)
    (g : Seg P₀ Q) (T : ℕ) (arg : Trip P₀ F) : Except Err (JvpOut Q F) :=
  let rows := arg.jac.srows
  match Jac.maxN rows with
  | ⊥ => .error .emptyReduction
  | (m : ℤ) =>
    let n := (m + 1).toNat
    if g.concrete = false then .error .type else
    let maxOut := segMaxOut g rows n
    if maxOut > T then denseJvp I (fun _ => arg)
    else
      match Jac.getIndexMask rows ((List.range maxOut).map fun j u => segMask g rows n j (g.ids u)) with
      | .error e => .error e
      | .ok ids =>
        let tan := Jac.materializeForIdx rows ids maxOut
        let out : (Q → ℕ) → JvpOut Q F := fun col =>
          { y := I.fwd fun _ => arg.x
            jac := .sparse ((List.range maxOut).map fun j =>
              ⟨fun q => segMask g rows n j (col q),
               I.jvp (fun _ => arg.x) fun _ => tan.getD j fun _ => 0⟩)
            lapl := I.jvp (fun _ => arg.x) fun _ => arg.lapl }
        if g.numSegments = g.N then .ok (out fun q => (g.pos q : ℕ))
        else if ∀ s < g.numSegments, ∀ j < maxOut, segMask g rows n j s = segMask g rows n j 0 then
          .ok (out fun _ => 0)
        else .error .shape

/-- `sparse_scatter_jvp` (`jvp.py:333-414`) for a single derivative-carrying argument.  If that argument
is the operand and the flags contain `LINEAR`, operand Jacobian and Laplacian are returned as they
are (`:347-352`; the operand has the shape of the output, given by `same`). -/
def sparseScatter [Fintype P₀] [DecidableEq P₀] [Fintype Q] (I : Inst 1 (fun _ => P₀) Q F)
    (T : ℕ) (arg : Trip P₀ F) : Except Err (JvpOut Q F) :=
  match I.role 0 with
  | .indices => denseJvp I (fun _ => arg)
  | .updates =>
    match I.seg 0 with
    | none => denseJvp I (fun _ => arg)
    | some g => sparseSegment I g T arg
  | .operand =>
    if I.flags.has Flags.LINEAR then
      match I.same 0 with
      | none => .error .shape
      | some e => .ok
        { y := I.fwd fun _ => arg.x
          jac := .sparse (arg.jac.srows.map fun r => ⟨fun q => r.idx (e q), fun q => r.val (e q)⟩)
          lapl := fun q => arg.lapl (e q) }
    else denseJvp I (fun _ => arg)

/-- `sparse_jvp` (`jvp.py:116-187`) for a single sparse argument. -/
def sparseSingle [Fintype P₀] [DecidableEq P₀] [Fintype Q] [DecidableEq Q]
    (I : Inst 1 (fun _ => P₀) Q F) (T : ℕ) (arg : Trip P₀ F) : Except Err (JvpOut Q F) :=
  match I.ax 0 with
  | .elem π => sparseDiag { I with π := fun _ => π } (fun _ => arg)
  | .red r =>
    if I.flags.has Flags.SCATTER then sparseScatter I T arg
    else if I.flags.has Flags.SUMMATION then sparseSum r T arg
    else sparseReduce I r T arg

/-- `_jvp` inside `one_by_one_jvp` (`jvp.py:540-557`). -/
def singleJvp [Fintype P₀] [DecidableEq P₀] [Fintype Q] [DecidableEq Q]
    (I : Inst 1 (fun _ => P₀) Q F) (T : ℕ) (arg : Trip P₀ F) : Except Err (JvpOut Q F) :=
  if arg.jac.weak then sparseSingle I T arg else denseJvp I (fun _ => arg)

end Single

section Dispatch
variable [CommRing F]

/-- Accumulation of the one-argument results (`jvp.py:559-565`): Jacobians with `FwdJacobian.__add__`,
Laplacians with `+`, the value of the first. -/
def accumulate [Fintype Q] [DecidableEq Q] :
    List (Except Err (JvpOut Q F)) → Option (JvpOut Q F) → Except Err (Option (JvpOut Q F))
  | [], acc => .ok acc
  | .error e :: _, _ => .error e
  | .ok o :: rest, none => accumulate rest (some o)
  | .ok o :: rest, some acc =>
    match acc.jac.add o.jac with
    | .error e => .error e
    | .ok j => accumulate rest (some ⟨acc.y, j, fun q => acc.lapl q + o.lapl q⟩)

/-- `one_by_one_jvp` (`jvp.py:523-565`). -/
def oneByOne [∀ a, Fintype (P a)] [∀ a, DecidableEq (P a)] [Fintype Q] [DecidableEq Q]
    (I : Inst k P Q F) (T : ℕ) (args : (a : Fin k) → Trip (P a) F) : Except Err (JvpOut Q F) :=
  match accumulate (List.ofFn fun a : Fin k =>
      singleJvp (I.single (fun a => (args a).x) a) T (args a)) none with
  | .error e => .error e
  | .ok none => .error .other
  | .ok (some o) => .ok o

/-- `all_jacobian_weak`, `any_jacobian_weak` (`api.py:351-357`). -/
def allWeak (args : (a : Fin k) → Trip (P a) F) : Bool := decide (∀ a, (args a).jac.weak = true)
/-- `any_jacobian_weak` (`api.py:355-357`). -/
def anyWeak (args : (a : Fin k) → Trip (P a) F) : Bool := decide (∃ a, (args a).jac.weak = true)

/-- `parallel_jvp` (`jvp.py:497-521`).  For non-elementwise, non-indexing functions it is only reached
with one argument (see `jvpRule`). -/
def parallelJvp [∀ a, Fintype (P a)] [∀ a, DecidableEq (P a)] [Fintype Q] [DecidableEq Q]
    (I : Inst k P Q F) (T : ℕ) (args : (a : Fin k) → Trip (P a) F) : Except Err (JvpOut Q F) :=
  if allWeak args = false then denseJvp I args
  else if I.flags.has Flags.INDEXING then sparseIndex I args
  else if I.elem then sparseDiag I args
  else if h : k = 1 then
    sparseSingle (I.single (fun a => (args a).x) ⟨0, by omega⟩) T (args ⟨0, by omega⟩)
  else denseJvp I args

/-- `jvp` as returned by `get_jvp_function` (`jvp.py:567-580`). -/
def jvpRule [∀ a, Fintype (P a)] [∀ a, DecidableEq (P a)] [Fintype Q] [DecidableEq Q]
    (I : Inst k P Q F) (T : ℕ) (args : (a : Fin k) → Trip (P a) F) : Except Err (JvpOut Q F) :=
  if anyWeak args = false ∨
      (allWeak args = true ∧ (I.flags.has Flags.INDEXING = true ∨ I.elem = true ∨ k = 1)) then
    parallelJvp I T args
  else oneByOne I T args

end Dispatch

end Folx

import Verif.Core.Hess
import Verif.Interp.Env
import Mathlib.Data.Finset.Sort

/-!
# Values and primitives of programs

In a program every array has a fixed size (jaxprs are shape-typed); an array of size `m` has positions
`Fin m` (row-major).
-/

namespace Folx

open Folx.Interp (Err)

/-- A plain array. -/
abbrev PArr (F : Type) := Σ m : ℕ, Fin m → F

/-- An operand of known size: a plain array or a `FwdLaplArray` (`ArrayOrFwdLaplArray`, `api.py:320`). -/
inductive Opd (F : Type) (m : ℕ) where
  | plain (x : Fin m → F)
  | lapl (t : Trip (Fin m) F)

/-- A value in the interpreter's environment. -/
abbrev PVal (F : Type) := Σ m : ℕ, Opd F m

namespace Opd
variable {F : Type} {m : ℕ}

/-- `isinstance(x, FwdLaplArray)`. -/
def isLapl : Opd F m → Bool
  | plain _ => false
  | lapl _ => true

/-- `x.x if isinstance(x, FwdLaplArray) else x` (`wrapper.py:141-154`, `interpreter.py:283-285`). -/
def x : Opd F m → Fin m → F
  | plain x => x
  | lapl t => t.x

/-- The triple of a derivative-carrying operand. -/
def trip [Zero F] : Opd F m → Trip (Fin m) F
  | plain x => ⟨x, .dense [], fun _ => 0⟩
  | lapl t => t

end Opd

/-- Read a sized value at the size the aval prescribes. -/
def castTo {β : ℕ → Type} (m : ℕ) (v : Σ m, β m) : Except Err (β m) :=
  if h : v.1 = m then .ok (h ▸ v.2) else .error .shape

/-- Read a list of values at prescribed sizes. -/
def unpack {β : ℕ → Type} {k : ℕ} (size : Fin k → ℕ) (l : List (Σ m, β m)) :
    Except Err ((i : Fin k) → β (size i)) :=
  if h : l.length = k then seqFin fun i => castTo (size i) (l.get (i.cast h.symm)) else .error .length

/-- A primitive with its parameters and operand shapes: the ordinary semantics (`primitive.bind`) and the
forward-Laplacian rule found in the registry (`wrapped_functions.py:297-441`). -/
structure Prim (F : Type) where
  nIn : ℕ
  size : Fin nIn → ℕ
  nOut : ℕ
  outSize : Fin nOut → ℕ
  fwd : ((i : Fin nIn) → Fin (size i) → F) → (j : Fin nOut) → Fin (outSize j) → F
  rule : ℕ → ((i : Fin nIn) → Opd F (size i)) → Except Err ((j : Fin nOut) → Opd F (outSize j))

namespace Prim
variable {F : Type}

/-- `eqn.primitive.bind(*invals)` on plain arrays (`interpreter.py:174-200`). -/
def bind (p : Prim F) (xs : List (PArr F)) : Except Err (List (PArr F)) :=
  match unpack (β := fun m => Fin m → F) p.size xs with
  | .error e => .error e
  | .ok x => .ok (List.ofFn fun j => ⟨p.outSize j, p.fwd x j⟩)

/-- `fn(invals, params, sparsity_threshold)` (`interpreter.py:163-169`). -/
def call (p : Prim F) (T : ℕ) (xs : List (PVal F)) : Except Err (List (PVal F)) :=
  match unpack (β := Opd F) p.size xs with
  | .error e => .error e
  | .ok x =>
    match p.rule T x with
    | .error e => .error e
    | .ok r => .ok (List.ofFn fun j => ⟨p.outSize j, r j⟩)

end Prim

/-! ### Functions wrapped by `wrap_forward_laplacian` -/

/-- A function of `m` arrays wrapped by `wrap_forward_laplacian` (`wrapper.py:73-138`).  For every choice `e` of
derivative-carrying operands (in order) and values of all operands (those at derivative-carrying places are
only used where the source reads `lapl_args.x`), `inst` is what `construct_fwd_laplacian_functions`
(`wrapper.py:34-70`) builds. -/
structure WPrim (F : Type) [CommRing F] where
  nIn : ℕ
  size : Fin nIn → ℕ
  out : ℕ
  fwd : ((i : Fin nIn) → Fin (size i) → F) → Fin out → F
  inst : {k : ℕ} → (e : Fin k ↪o Fin nIn) → ((i : Fin nIn) → Fin (size i) → F) →
    HInst k (fun a => Fin (size (e a))) (Fin out) F

namespace WPrim
variable {F : Type} [CommRing F]

/-- The derivative-carrying operands, in order (`split_args`, `utils.py:264-297`). -/
def laplIdx {m : ℕ} {size : Fin m → ℕ} (o : (i : Fin m) → Opd F (size i)) : Finset (Fin m) :=
  Finset.univ.filter fun i => (o i).isLapl = true

/-- The embedding of the derivative-carrying operands into all operands: `merge`'s bookkeeping. -/
def laplEmb {m : ℕ} {size : Fin m → ℕ} (o : (i : Fin m) → Opd F (size i)) :
    Fin (laplIdx o).card ↪o Fin m := (laplIdx o).orderEmbOfFin rfl

/-- `new_fn` (`wrapper.py:93-136`). -/
def call (p : WPrim F) (T : ℕ) (o : (i : Fin p.nIn) → Opd F (p.size i)) : Except Err (Opd F p.out) :=
  if (laplIdx o).card = 0 then .ok (.plain (p.fwd fun i => (o i).x))
  else
    match (p.inst (laplEmb o) fun i => (o i).x).wrapped T (fun a => (o (laplEmb o a)).trip) with
    | .error e => .error e
    | .ok t => .ok (.lapl t)

/-- As a primitive with one output. -/
def toPrim (p : WPrim F) : Prim F where
  nIn := p.nIn
  size := p.size
  nOut := 1
  outSize := fun _ => p.out
  fwd := fun x _ => p.fwd x
  rule := fun T o =>
    match p.call T o with
    | .error e => .error e
    | .ok r => .ok fun _ => r

end WPrim

end Folx

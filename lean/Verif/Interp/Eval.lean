import Verif.Interp.EnvSpec
import Verif.Interp.Relate
import Verif.Prog.Values

/-!
# Evaluation of programs with nested programs (model of `folx/interpreter.py:80-219`)

Programs of nesting depth at most `d` are jaxprs over `Op d`; the theorems hold for every `d`.
-/

namespace Folx

open Folx.Interp

/-- Parameters of `lax.scan` the interpreter reads (`interpreter.py:86-137`). -/
structure ScanParams (O F : Type) where
  numConsts : ℕ
  numCarry : ℕ
  length : ℕ
  reverse : Bool
  body : Jaxpr O (PArr F)

/-- An equation's primitive with its parameters; `O` are the operations allowed in nested programs. -/
inductive OpStep (O F : Type) where
  /-- a primitive with a rule from the registry, the default rule, or `custom_jvp_call`
  (`interpreter.py:155-169,205-208`) -/
  | prim (p : Prim F)
  /-- a jitted sub-function (`interpreter.py:139-153`) -/
  | pjit (name : String) (j : Jaxpr O (PArr F)) (consts : List (PArr F))
  /-- `lax.scan` (`interpreter.py:86-137`) -/
  | scan (s : ScanParams O F)

/-- Operations of programs with nesting depth at most `d`. -/
def Op : ℕ → Type → Type
  | 0, _ => Empty
  | d + 1, F => OpStep (Op d F) F

/-! ### Scan -/

section Scan
variable {F : Type}

/-- `x[t]` for an array with leading axis of length `L`. -/
def timeSlice [Zero F] (L t : ℕ) (a : PArr F) : PArr F :=
  ⟨a.1 / L, fun i => if h : t * (a.1 / L) + i < a.1 then a.2 ⟨t * (a.1 / L) + i, h⟩ else 0⟩

/-- Stacking of per-step outputs along a new leading axis. -/
def stackArrs (l : List (PArr F)) : PArr F :=
  let flat := l.flatMap fun a => List.ofFn a.2
  ⟨flat.length, flat.get⟩

/-- The loop of `lax.scan`: the body maps constants, carry and the slices at step `t` to the new carry and the
per-step outputs; `chk` is the comparison of the new carry with the initial one. -/
def scanLoop {V : Type} (b : List V → Except Err (List V)) (chk : List V → Except Err Unit) (consts : List V)
    (nc : ℕ) (xsAt : ℕ → List V) : List ℕ → List V → Except Err (List V × List (List V))
  | [], c => .ok (c, [])
  | t :: ts, c =>
    match b (consts ++ c ++ xsAt t) with
    | .error e => .error e
    | .ok r =>
      match chk (r.take nc) with
      | .error e => .error e
      | .ok () =>
        match scanLoop b chk consts nc xsAt ts (r.take nc) with
        | .error e => .error e
        | .ok (c', ys) => .ok (c', r.drop nc :: ys)

/-- Order of the steps. -/
def scanOrder (L : ℕ) (reverse : Bool) : List ℕ := if reverse then (List.range L).reverse else List.range L

/-- Stacked outputs in order of the step index. -/
def stackSteps (L nc nOut : ℕ) (reverse : Bool) (ys : List (List (PArr F))) : List (PArr F) :=
  let ys' := if reverse then ys.reverse else ys
  (List.range (nOut - nc)).map fun i => stackArrs (ys'.filterMap fun r => r[i]?)

/-- Ordinary semantics of `lax.scan`. -/
def scanPlain [Zero F] {O : Type} (s : ScanParams O F) (b : List (PArr F) → Except Err (List (PArr F)))
    (xs : List (PArr F)) : Except Err (List (PArr F)) :=
  let consts := xs.take s.numConsts
  let carry := (xs.drop s.numConsts).take s.numCarry
  let inp := (xs.drop s.numConsts).drop s.numCarry
  match scanLoop b (fun _ => .ok ()) consts s.numCarry (fun t => inp.map (timeSlice s.length t))
      (scanOrder s.length s.reverse) carry with
  | .error e => .error e
  | .ok (c, ys) => .ok (c ++ stackSteps s.length s.numCarry s.body.outvars.length s.reverse ys)

/-- A plain array as value of the interpreter. -/
def PVal.ofPlain (a : PArr F) : PVal F := ⟨a.1, .plain a.2⟩

/-- What the checks on the carry look at: the size, and for a `FwdLaplArray` the number of Jacobian rows and the
mask. -/
structure Sig where
  size : ℕ
  lapl : Bool
  rows : ℕ
  mask : Option (List (List ℤ))
  deriving DecidableEq

/-- The part of a value that `eval_scan` compares (`interpreter.py:111-117`) and that `lax.scan` fixes. -/
def PVal.sig (v : PVal F) : Sig :=
  match v.2 with
  | .plain _ => ⟨v.1, false, 0, none⟩
  | .lapl t => ⟨v.1, true, t.jac.nrows, match t.jac with
      | .dense _ => none
      | .sparse rows => some (rows.map fun r => List.ofFn r.idx)⟩

/-- The checks on the carry (`interpreter.py:110-116`) together with the carry-type check of `jax.lax.scan`.
The source performs the mask comparison once, on the first iteration; the body is traced once, so masks
and row counts are the same in all iterations, and here the comparison is made in each.  That this makes no difference is
C64 (`Verif/Interp/ScanTraced.lean` models the scan as written). -/
def checkCarry (c0 c : List (PVal F)) : Except Err Unit :=
  if (c0.map PVal.sig).map Sig.lapl ≠ (c.map PVal.sig).map Sig.lapl then .error .scanType
  else if c0.map PVal.sig = c.map PVal.sig then .ok () else .error .scanSparsity

/-- `jacobian.data` as one flat array: the rows one after the other (row-major order). -/
def flatRows {m : ℕ} : Jac (Fin m) F → PArr F
  | .dense rows => stackArrs (rows.map fun r => ⟨m, r⟩)
  | .sparse rows => stackArrs (rows.map fun r => ⟨m, r.val⟩)

/-- What `jax.lax.scan` makes of per-step outputs that carry derivatives (`interpreter.py:117-136`): the leaves are
stacked along a new leading axis, so `jacobian.data` gets shape `(L, K, ...)` for `L` steps and `K` Jacobian rows, and
its leading axis is read as the Jacobian axis.  For dense Jacobians with `K = L` this is a well-formed Jacobian of the
stacked array: row `l` at element `(k, p)` is row `k` of step `l` at `p`.  In all other cases the shapes of the parts do
not fit together; `other` stands for whatever comes out. -/
def stackedY [Zero F] (other : List (PVal F) → PVal F) (col : List (PVal F)) : PVal F :=
  let x := stackArrs (col.map fun v => ⟨v.1, v.2.x⟩)
  let lapl := stackArrs (col.map fun v => ⟨v.1, v.2.trip.lapl⟩)
  if col.all (fun v => v.2.isLapl && !v.2.trip.jac.weak && v.2.trip.jac.nrows == col.length) then
    ⟨x.1, .lapl ⟨x.2, .dense (col.map fun v q =>
        if h : q.1 < (flatRows v.2.trip.jac).1 then (flatRows v.2.trip.jac).2 ⟨q.1, h⟩ else 0),
      fun q => if h : q.1 < lapl.1 then lapl.2 ⟨q.1, h⟩ else 0⟩⟩
  else other col

/-- `eval_scan` (`interpreter.py:86-137`).  Stacked outputs that carry derivatives come out malformed (C29, `stackedY`);
`junk` stands for whatever they are. -/
def scanLapl [Zero F] {O : Type} (junk : List (PVal F) → PVal F) (s : ScanParams O F)
    (b : List (PVal F) → Except Err (List (PVal F))) (xs : List (PVal F)) : Except Err (List (PVal F)) :=
  let consts := xs.take s.numConsts
  let carry := (xs.drop s.numConsts).take s.numCarry
  let inp := (xs.drop s.numConsts).drop s.numCarry
  if inp.any (fun v => v.2.isLapl) then .error .scanInput
  else if s.length = 0 ∧ inp ≠ [] then .error .shape
  else
    let xsAt : ℕ → List (PVal F) := fun t =>
      inp.map fun v => PVal.ofPlain (timeSlice s.length t ⟨v.1, v.2.x⟩)
    match b (consts ++ carry ++ xsAt 0) with
    | .error e => .error e
    | .ok first =>
      match checkCarry carry (first.take s.numCarry) with
      | .error e => .error e
      | .ok () =>
        match scanLoop b (checkCarry carry) consts s.numCarry xsAt (scanOrder s.length s.reverse) carry with
        | .error e => .error e
        | .ok (c, ys) =>
          let ys' := if s.reverse then ys.reverse else ys
          .ok (c ++ (List.range (s.body.outvars.length - s.numCarry)).map fun i =>
            let col := ys'.filterMap fun r => r[i]?
            if col.any (fun v => v.2.isLapl) then junk col
            else PVal.ofPlain (stackArrs (col.map fun v => ⟨v.1, v.2.x⟩)))

end Scan

/-! ### Equations -/

section
variable {F : Type} [Zero F]

/-- Ordinary evaluation of an equation (`primitive.bind`; nested programs are evaluated ordinarily). -/
def evPlain : (d : ℕ) → Op d F → List (PArr F) → Except Err (List (PArr F))
  | 0, op, _ => nomatch op
  | _ + 1, .prim p, xs => p.bind xs
  | d + 1, .pjit _ j consts, xs => evalSpec (evPlain d) j consts xs
  | d + 1, .scan s, xs => scanPlain s (fun args => evalSpec (evPlain d) s.body [] args) xs

/-- Evaluation of an equation in `eval_jaxpr_with_forward_laplacian` (`interpreter.py:171-218`), with
registry `reg` for names of jitted functions and threshold `T`. -/
def evLapl (reg : String → Option (Prim F)) (junk : List (PVal F) → PVal F) (T : ℕ) :
    (d : ℕ) → Op d F → List (PVal F) → Except Err (List (PVal F))
  | 0, op, _ => nomatch op
  | d + 1, op, xs =>
    if xs.all (fun v => !v.2.isLapl) then
      -- no operand carries derivatives: the ordinary primitive (`interpreter.py:175-202`)
      match evPlain (d + 1) op (xs.map fun v => ⟨v.1, v.2.x⟩) with
      | .error e => .error e
      | .ok ys => .ok (ys.map PVal.ofPlain)
    else
      match op with
      | .scan s => scanLapl junk s
          (fun args => evalRC (evLapl reg junk T d) (s.body.map PVal.ofPlain) [] args) xs
      | .pjit name j consts =>
        match reg name with
        | some p => p.call T xs
        | none => evalRC (evLapl reg junk T d) (j.map PVal.ofPlain) (consts.map PVal.ofPlain) xs
      | .prim p => p.call T xs

/-- `eval_jaxpr_with_forward_laplacian` on a closed jaxpr (`interpreter.py:80-219,295-300`). -/
def evalLapl (reg : String → Option (Prim F)) (junk : List (PVal F) → PVal F) (T d : ℕ)
    (j : Jaxpr (Op d F) (PArr F)) (consts : List (PArr F)) (args : List (PVal F)) :
    Except Err (List (PVal F)) :=
  evalRC (evLapl reg junk T d) (j.map PVal.ofPlain) (consts.map PVal.ofPlain) args

/-- Ordinary evaluation of a closed jaxpr (`jax.core.eval_jaxpr`): the function `fn` itself. -/
def evalPlain (d : ℕ) (j : Jaxpr (Op d F) (PArr F)) (consts : List (PArr F)) (args : List (PArr F)) :
    Except Err (List (PArr F)) :=
  evalSpec (evPlain d) j consts args

end

end Folx

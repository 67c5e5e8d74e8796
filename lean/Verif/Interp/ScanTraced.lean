import Verif.Interp.Eval

/-!
# `eval_scan` as written (model of `folx/interpreter.py:86-137`)

`Verif/Interp/Eval.lean` checks the carry after every iteration and keeps the masks of the values the body returns.  The
source checks only the first iteration, hands the loop to `jax.lax.scan`, which carries arrays but not masks, and restores the
masks: before every iteration those of the initial carry (`extract_jacobian_mask`), at the end those of the first iteration's
carry.  This file models that; `Verif/Form/Scan.lean` proves that the two agree.
-/

namespace Folx

open Folx.Interp

variable {F : Type}

/-- A mask: `None` for a dense Jacobian, else for every row the input index at every position. -/
abbrev Mask := Option (List (List ℤ))

/-- `jacobian.data`: the rows. -/
def Jac.values {P : Type} : Jac P F → List (P → F)
  | .dense rows => rows
  | .sparse rows => rows.map fun r => r.val

/-- `jacobian.x0_idx`. -/
def Jac.x0 {m : ℕ} : Jac (Fin m) F → Mask
  | .dense _ => none
  | .sparse rows => some (rows.map fun r => List.ofFn r.idx)

/-- `jacobian._replace(x0_idx=mask)` (`utils.py:537`, `interpreter.py:125,131`). -/
def Jac.replaceMask {m : ℕ} (J : Jac (Fin m) F) : Mask → Jac (Fin m) F
  | none => .dense J.values
  | some rows => .sparse (List.zipWith (fun i v => ⟨fun p => i.getD p.1 0, v⟩) rows J.values)

/-- `indices` of `extract_jacobian_mask` (`utils.py:529-532`). -/
def masksOf : List (PVal F) → List Mask
  | [] => []
  | ⟨_, .plain _⟩ :: vs => masksOf vs
  | ⟨_, .lapl t⟩ :: vs => t.jac.x0 :: masksOf vs

/-- `merge` of `extract_jacobian_mask` (`utils.py:534-541`): `next` on an exhausted iterator raises. -/
def restoreMasks : List Mask → List (PVal F) → Except Err (List (PVal F))
  | _, [] => .ok []
  | ms, ⟨m, .plain x⟩ :: vs =>
    match restoreMasks ms vs with
    | .error e => .error e
    | .ok r => .ok (⟨m, .plain x⟩ :: r)
  | [], ⟨_, .lapl _⟩ :: _ => .error .other
  | i :: ms, ⟨m, .lapl t⟩ :: vs =>
    match restoreMasks ms vs with
    | .error e => .error e
    | .ok r => .ok (⟨m, .lapl ⟨t.x, t.jac.replaceMask i, t.lapl⟩⟩ :: r)

/-- `a._replace(jacobian=a.jacobian._replace(x0_idx=b.jacobian.x0_idx)) if isinstance(a, FwdLaplArray) else a`
(`interpreter.py:124-129`). -/
def maskLike (a b : PVal F) : PVal F :=
  match a with
  | ⟨m, .plain x⟩ => ⟨m, .plain x⟩
  | ⟨m, .lapl t⟩ => ⟨m, .lapl ⟨t.x, t.jac.replaceMask b.sig.mask, t.lapl⟩⟩

/-- The loop of `jax.lax.scan` over `wrapped`, without checks; `σ` is what happens to the carry between the iterations. -/
def scanTraced {V : Type} (σ : List V → List V) (wrapped : List V → List V → Except Err (List V)) (nc : ℕ) (xsAt : ℕ → List V) :
    List ℕ → List V → Except Err (List V × List (List V))
  | [], c => .ok (c, [])
  | t :: ts, c =>
    match wrapped c (xsAt t) with
    | .error e => .error e
    | .ok r =>
      match scanTraced σ wrapped nc xsAt ts (σ (r.take nc)) with
      | .error e => .error e
      | .ok (c', ys) => .ok (c', r.drop nc :: ys)

/-- `eval_scan` (`interpreter.py:86-137`): one evaluation of the body outside the loop, the checks on its carry
(`checkCarry`, which includes the check of `jax.lax.scan` that the carry keeps its shapes), then the loop.  `σ` is whatever
`jax.lax.scan` does to the masks of the carry between the iterations and at the end. -/
def scanOnce [Zero F] {O : Type} (σ : List (PVal F) → List (PVal F)) (junk : List (PVal F) → PVal F) (s : ScanParams O F)
    (b : List (PVal F) → Except Err (List (PVal F))) (xs : List (PVal F)) : Except Err (List (PVal F)) :=
  let consts := xs.take s.numConsts
  let carry := (xs.drop s.numConsts).take s.numCarry
  let inp := (xs.drop s.numConsts).drop s.numCarry
  if inp.any (fun v => v.2.isLapl) then .error .scanInput
  else if s.length = 0 ∧ inp ≠ [] then .error .shape
  else
    let xsAt : ℕ → List (PVal F) := fun t =>
      inp.map fun v => PVal.ofPlain (timeSlice s.length t ⟨v.1, v.2.x⟩)
    let wrapped : List (PVal F) → List (PVal F) → Except Err (List (PVal F)) := fun c x =>
      match restoreMasks (masksOf carry) c with
      | .error e => .error e
      | .ok c' => b (consts ++ c' ++ x)
    match wrapped carry (xsAt 0) with
    | .error e => .error e
    | .ok first =>
      match checkCarry carry (first.take s.numCarry) with
      | .error e => .error e
      | .ok () =>
        match scanTraced σ wrapped s.numCarry xsAt (scanOrder s.length s.reverse) (σ carry) with
        | .error e => .error e
        | .ok (c, ys) =>
          let ys' := if s.reverse then ys.reverse else ys
          .ok (List.zipWith maskLike c (first.take s.numCarry) ++ (List.range (s.body.outvars.length - s.numCarry)).map fun i =>
            let col := ys'.filterMap fun r => r[i]?
            if col.any (fun v => v.2.isLapl) then junk col
            else PVal.ofPlain (stackArrs (col.map fun v => ⟨v.1, v.2.x⟩)))

/-- `eval_jaxpr_with_forward_laplacian` with `eval_scan` as written (`interpreter.py:171-218`); otherwise as `evLapl`. -/
def evOnce [Zero F] (σ : List (PVal F) → List (PVal F)) (reg : String → Option (Prim F)) (junk : List (PVal F) → PVal F) (T : ℕ) :
    (d : ℕ) → Op d F → List (PVal F) → Except Err (List (PVal F))
  | 0, op, _ => nomatch op
  | d + 1, op, xs =>
    if xs.all (fun v => !v.2.isLapl) then
      match evPlain (d + 1) op (xs.map fun v => ⟨v.1, v.2.x⟩) with
      | .error e => .error e
      | .ok ys => .ok (ys.map PVal.ofPlain)
    else
      match op with
      | .scan s => scanOnce σ junk s
          (fun args => evalRC (evOnce σ reg junk T d) (s.body.map PVal.ofPlain) [] args) xs
      | .pjit name j consts =>
        match reg name with
        | some p => p.call T xs
        | none => evalRC (evOnce σ reg junk T d) (j.map PVal.ofPlain) (consts.map PVal.ofPlain) xs
      | .prim p => p.call T xs

end Folx

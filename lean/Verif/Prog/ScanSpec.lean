import Verif.Interp.Eval

/-!
# Specification of `lax.scan`

The documented meaning: a sequence of carries, one call of the body per step, outputs ordered by time.
-/

namespace Folx
open Folx.Interp

variable {F : Type}

/-- A run of `lax.scan`: `c k` is the carry after `k` steps, `y t` the outputs of the body called with the slices at time
`t`; with `reverse` the steps run from the last time to the first.  The result is the last carry followed by the outputs
stacked in the order of time. -/
structure ScanRun (body : List (PArr F) → Except Err (List (PArr F))) (consts init : List (PArr F))
    (slices : ℕ → List (PArr F)) (L nCarry nOut : ℕ) (reverse : Bool) (res : List (PArr F)) (c : ℕ → List (PArr F))
    (y : ℕ → List (PArr F)) : Prop where
  start : c 0 = init
  step : ∀ k < L, ∃ r, body (consts ++ c k ++ slices (if reverse = true then L - 1 - k else k)) = .ok r ∧
    c (k + 1) = r.take nCarry ∧ y (if reverse = true then L - 1 - k else k) = r.drop nCarry
  result : res = c L ++ (List.range (nOut - nCarry)).map fun i =>
    stackArrs ((List.range L).filterMap fun t => (y t)[i]?)

end Folx

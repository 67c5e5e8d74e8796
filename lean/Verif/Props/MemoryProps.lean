import Verif.Memory.MemProofs

/-!
# Property C25: the bookkeeping of `compute_memory`

Full statement: *while walking a jaxpr, the running memory counter equals the total size of the values currently stored,
and the reported peak is at least this counter at every equation.*

The first half is false for equations that have one variable twice among their operands (`y * y`): its bytes are
subtracted twice (`C25_counterexample`).  Proved: the counter never exceeds the size of the live values, and equals it if
no equation repeats an operand (`C25_counter_partial`); the reported number is at most the true peak, and equal to it
under the same condition, at all nesting depths (`C25_peak_partial`); the second half (`C25_peak_ge`).
-/

namespace Folx.Mem

open Folx.Interp

/-- The state after the first `pre.length` equations of a jaxpr. -/
def After (d : ℕ) (j : Jaxpr (MOp d) AVal) (consts args : List AVal) (pre : List (Eqn (MOp d) AVal)) (m : MState)
    (peak : ℤ) : Prop :=
  ∃ m0, initMem j consts args = .ok m0 ∧ runMem (evMem d) m0 0 pre = .ok (m, peak)

/-- **C25, the counter (partial: equality only without repeated operands).**  After any number of equations of a jaxpr in
SSA form, the counter is at most the total size of the values in the dictionary, and if none of the equations so far had
a repeated operand it is equal to it. -/
theorem C25_counter_partial (d : ℕ) (j : Jaxpr (MOp d) AVal) (consts args : List AVal)
    (hc : j.constvars.length = consts.length) (ha : j.invars.length = args.length) (hssa : SSA j)
    (pre post : List (Eqn (MOp d) AVal)) (hj : j.eqns = pre ++ post) (m : MState) (peak : ℤ)
    (hm : After d j consts args pre m peak)
    (stored : List Var) (hnd : stored.Nodup) (hst : ∀ v, v ∈ stored ↔ m.s.env v ≠ none) :
    m.memory ≤ ((stored.map (storedBytes m.s)).sum : ℕ) ∧
    ((∀ e ∈ pre, (e.invars.filterMap Atom.var?).Nodup) → m.memory = ((stored.map (storedBytes m.s)).sum : ℕ)) := by
  obtain ⟨m0, h1, h2⟩ := hm
  obtain ⟨m1, h3, h4, h5⟩ := init_einv j hssa consts args hc ha
  rw [h1, Except.ok.injEq] at h3
  subst h3
  have hr : eqnReads j.eqns = eqnReads pre ++ eqnReads post := by rw [hj]; simp [eqnReads]
  have hk := liveBytes_congr (later := eqnReads j.eqns) (keepVars_mem j)
    (j.constvars.zip consts ++ j.invars.zip args)
  rw [hk] at h5
  rw [hr] at h4 h5
  obtain ⟨b', h6, h7, h8⟩ := prefix_mem pre h4 (by
    rw [List.map_append, List.map_fst_zip (le_of_eq hc), List.map_fst_zip (le_of_eq ha)]
    have := hssa.1
    rw [hj, List.flatMap_append, ← List.append_assoc] at this
    exact (List.nodup_append.mp this).1) (le_of_eq h5) h2
  have := live_eq_stored h6 stored hnd (fun v hv => (hst v).mpr hv)
  rw [← this]
  exact ⟨h7, fun hn => h8 hn h5⟩

/-- **C25, the peak (partial: equality only without repeated operands).**  For every jaxpr, with jitted sub-functions and
scans nested to any depth, whose jaxprs are in SSA form: `compute_memory` raises exactly when the evaluation fails, and
otherwise reports at most the true peak of the live set; exactly that peak if no equation repeats an operand. -/
theorem C25_peak_partial (d : ℕ) (j : Jaxpr (MOp d) AVal) (consts args : List AVal)
    (hssa : AllJaxprs (fun _ j => SSA j) d j) :
    (∃ ys p q, computeMemory d j consts args = .ok p ∧ specJaxpr (evSpecMem d) j consts args = .ok (ys, q) ∧
      p ≤ q ∧ (AllJaxprs (fun _ j => NoRepeat j) d j → p = q)) ∨
    (∃ e, computeMemory d j consts args = .error e ∧ specJaxpr (evSpecMem d) j consts args = .error e) := by
  have h := jaxpr_agree (nr := AllJaxprs (fun _ j => NoRepeat j) d j) (evM := evMem d) (evS := evSpecMem d) j hssa.1
    (fun hn => hn.1) (fun e he xs => ev_agree d e.op (hssa.2 e he) (fun hn => hn.2 e he) xs) consts args
  unfold computeMemory
  rcases h with ⟨y, p, q, h1, h2, h3, h4⟩ | ⟨e, h1, h2⟩
  · rw [h1, h2]; exact Or.inl ⟨y, p, q, rfl, rfl, h3, h4⟩
  · rw [h1, h2]; exact Or.inr ⟨e, rfl, rfl⟩

/-- **C25, second half.**  The reported peak is at least the counter after every equation (no hypothesis on the jaxpr). -/
theorem C25_peak_ge (d : ℕ) (j : Jaxpr (MOp d) AVal) (consts args : List AVal) (p : ℤ)
    (hp : computeMemory d j consts args = .ok p)
    (pre post : List (Eqn (MOp d) AVal)) (hj : j.eqns = pre ++ post) (hne : pre ≠ []) (m : MState) (peak : ℤ)
    (hm : After d j consts args pre m peak) : m.memory ≤ p := by
  obtain ⟨m0, h1, h2⟩ := hm
  unfold computeMemory jaxprMem at hp
  rw [h1] at hp
  dsimp only at hp
  rw [hj, runMem_append, h2] at hp
  dsimp only at hp
  have hsub := fun o xs ys q (h : evMem d o xs = .ok (ys, q)) => evMem_nonneg d o xs ys q h
  have hpre := (runMem_peak hsub pre h2).2 hne
  cases h3 : runMem (evMem d) m peak post with
  | error e => rw [h3] at hp; simp at hp
  | ok r =>
    obtain ⟨m', peak'⟩ := r
    rw [h3] at hp
    dsimp only at hp
    have hpost := (runMem_peak hsub post h3).1
    cases h4 : m'.readMany j.outvars with
    | error e => rw [h4] at hp; simp at hp
    | ok r =>
      rw [h4] at hp
      simp only [Except.ok.injEq] at hp
      omega

/-! ### The counterexample and instances -/

/-- Elementwise primitive: the result has the shape of the first operand. -/
def elem : MOp 1 := .prim fun xs => match xs with
  | a :: _ => .ok [a]
  | [] => .error .type

/-- Concatenation of two copies along the leading axis. -/
def dbl : MOp 1 := .prim fun xs => match xs with
  | ⟨n :: sh, i⟩ :: _ => .ok [⟨(2 * n) :: sh, i⟩]
  | _ => .error .type

/-- `y = -x; z = y * y; w = concatenate([z, -z])`-like program with a repeated operand. -/
def sqProg : Jaxpr (MOp 1) AVal :=
  { constvars := [], invars := [0], outvars := [.var 3],
    eqns := [⟨elem, [.var 0], [1]⟩, ⟨elem, [.var 1, .var 1], [2]⟩, ⟨dbl, [.var 2], [3]⟩] }

/-- The same with a copy of the operand. -/
def okProg : Jaxpr (MOp 1) AVal :=
  { constvars := [], invars := [0], outvars := [.var 3],
    eqns := [⟨elem, [.var 0], [1]⟩, ⟨elem, [.var 1, .var 0], [2]⟩, ⟨dbl, [.var 2], [3]⟩] }

/-- An array of 1000 four-byte numbers. -/
def kb4 : AVal := ⟨[1000], 4⟩

theorem sqProg_ssa : SSA sqProg := by
  refine ⟨by decide, ?_⟩
  intro v
  refine le_trans List.count_le_length ?_
  decide

/-- **C25 is false for repeated operands.**  After `z = y * y` the counter is 4000 although 8000 bytes are stored, and the
reported peak is 12000 although 16000 bytes are live at the last equation. -/
theorem C25_counterexample :
    SSA sqProg ∧
    (∃ m peak, After 1 sqProg [] [kb4] (sqProg.eqns.take 2) m peak ∧ m.memory = 4000 ∧
      storedBytes m.s 0 + storedBytes m.s 2 = 8000) ∧
    computeMemory 1 sqProg [] [kb4] = .ok 12000 ∧
    (specJaxpr (evSpecMem 1) sqProg [] [kb4]).toOption.map Prod.snd = some 16000 := by
  refine ⟨sqProg_ssa, ?_, by decide, by decide⟩
  refine ⟨_, _, ⟨_, rfl, rfl⟩, ?_, ?_⟩ <;> decide

/-- Non-vacuity of `C25_peak_partial`: without the repetition the number is right. -/
example : AllJaxprs (fun _ j => SSA j) 1 okProg ∧ AllJaxprs (fun _ j => NoRepeat j) 1 okProg ∧
    computeMemory 1 okProg [] [kb4] = .ok 16000 := by
  refine ⟨⟨⟨by decide, ?_⟩, ?_⟩, ⟨?_, ?_⟩, by decide⟩
  · intro v
    refine le_trans List.count_le_length ?_
    decide
  · intro e he
    simp only [okProg, List.mem_cons, List.not_mem_nil, or_false] at he
    rcases he with rfl | rfl | rfl <;> trivial
  · intro e he
    simp only [okProg, List.mem_cons, List.not_mem_nil, or_false] at he
    rcases he with rfl | rfl | rfl <;> decide
  · intro e he
    simp only [okProg, List.mem_cons, List.not_mem_nil, or_false] at he
    rcases he with rfl | rfl | rfl <;> trivial

/-- Body of the scan below: a jitted call. -/
def nestedBody : Jaxpr (MOp 2) AVal where
  constvars := []
  invars := [0, 1]
  outvars := [.var 0, .var 2]
  eqns := [⟨MOpStep.pjit (O := MOp 1) okProg [], [.var 1], [2]⟩]

/-- A scan around a jitted call (depth 3): inputs of the callee are counted in caller and callee. -/
def nested : Jaxpr (MOp 3) AVal where
  constvars := []
  invars := [0, 1]
  outvars := [.var 2, .var 3]
  eqns := [⟨MOpStep.scan (O := MOp 2) 0 1 nestedBody, [.var 0, .var 1], [2, 3]⟩]

example : computeMemory 3 nested [] [⟨[5], 8⟩, ⟨[10, 1000], 4⟩] = .ok 148120 := by decide

/-- Non-vacuity of `C25_counter_partial`: the states after each prefix exist. -/
example : ∃ m peak, After 1 okProg [] [kb4] (okProg.eqns.take 2) m peak ∧ m.memory = 8000 ∧
    storedBytes m.s 0 + storedBytes m.s 2 = 8000 := by
  refine ⟨_, _, ⟨_, rfl, rfl⟩, ?_, ?_⟩ <;> decide

/-- Remark: the peak of a jaxpr without equations is reported as 0, whatever its inputs are. -/
theorem C25_no_equations (j : Jaxpr (MOp 0) AVal) (h : j.eqns = []) (consts args : List AVal) (p : ℤ)
    (hp : computeMemory 0 j consts args = .ok p) : p = 0 := by
  unfold computeMemory jaxprMem at hp
  rw [h] at hp
  simp only [runMem] at hp
  split at hp
  · simp at hp
  · rename_i hh
    simp only [Except.ok.injEq] at hp
    split at hh
    · simp at hh
    · split at hh
      · simp at hh
      · simp only [Except.ok.injEq, Prod.mk.injEq] at hh
        rw [← hp, ← hh.2]

end Folx.Mem

import Verif.Interp.EnvProofs

/-!
# Properties C06 and C07: reference counting in the jaxpr environment
-/

namespace Folx.Interp

variable {O V : Type}

/-- **C06.** For every jaxpr (no well-formedness assumed), every evaluation function for equations and
all arguments, the evaluation with reference-counted freeing returns exactly what evaluation with an
environment that never frees returns — the same values in the same order, or the same exception.
The only hypothesis: no *output* variable is read more than `2^31 - 1` times in total. -/
theorem C06_refcount_never_loses_values (ev : O → List V → Except Err (List V)) (j : Jaxpr O V)
    (consts args : List V)
    (hbound : ∀ v, Atom.var v ∈ j.outvars → (readsOf j.eqns j.outvars).count v ≤ 2147483647) :
    evalRC ev j consts args = evalSpec ev j consts args := by
  have h0 : Coupled (readsOf j.eqns j.outvars) (⟨fun _ => none, initRC j⟩ : EnvState V)
      (fun _ => none) := by
    intro v hv
    refine ⟨rfl, ?_⟩
    show _ ≤ initRC j v
    rw [initRC_apply]
    split
    · rename_i hm
      have hv' : Atom.var v ∈ j.outvars := by
        rw [List.mem_filterMap] at hm
        obtain ⟨a, ha, hav⟩ := hm
        cases a with
        | lit x => simp [Atom.var?] at hav
        | var w => simp [Atom.var?] at hav; subst hav; exact ha
      have := hbound v hv'
      unfold int32Max
      omega
    · rename_i hm
      unfold readsOf
      rw [List.count_append, List.count_eq_zero_of_not_mem hm]
      omega
  unfold evalRC evalSpec initEnv specInit
  rcases writeMany_coupled j.constvars consts h0 with ⟨s1, t1, h1, h2, h3⟩ | ⟨e, h1, h2⟩
  · rw [h1, h2]
    dsimp only
    rcases writeMany_coupled j.invars args h3 with ⟨s2, t2, h4, h5, h6⟩ | ⟨e, h4, h5⟩
    · rw [h4, h5]
      dsimp only
      rcases run_coupled ev j.eqns j.outvars h6 with ⟨s3, t3, h7, h8, h9⟩ | ⟨e, h7, h8⟩
      · rw [h7, h8]
        dsimp only
        have h9' : Coupled (j.outvars.filterMap Atom.var? ++ []) s3 t3 := by simpa using h9
        rcases readMany_coupled h9' with ⟨xs, s4, h10, h11, _⟩ | ⟨e, h10, h11⟩
        · rw [h10, h11]
        · rw [h10, h11]
      · rw [h7, h8]
    · rw [h4, h5]
  · rw [h1, h2]

/-- Non-vacuity: a three-equation program with a repeated operand (`y * y`), a dead result, an output
that is also an operand and an output listed twice.  The hypothesis holds and the run succeeds. -/
def exampleJaxpr : Jaxpr String Int :=
  { constvars := [10], invars := [0],
    eqns := [⟨"add", [.var 0, .lit 1], [1]⟩, ⟨"mul", [.var 1, .var 1], [2]⟩,
             ⟨"add", [.var 2, .var 10], [3]⟩, ⟨"mul", [.var 3, .lit 0], [4]⟩],
    outvars := [.var 2, .var 3, .var 2, .lit 5] }

/-- A tiny evaluator for the example. -/
def exampleEv (o : String) (xs : List Int) : Except Err (List Int) :=
  match o, xs with
  | "add", [a, b] => .ok [a + b]
  | "mul", [a, b] => .ok [a * b]
  | _, _ => .error .other

example : ∀ v, Atom.var v ∈ exampleJaxpr.outvars →
    (readsOf exampleJaxpr.eqns exampleJaxpr.outvars).count v ≤ 2147483647 := by
  intro v _
  refine Nat.le_trans List.count_le_length ?_
  decide

example : evalRC exampleEv exampleJaxpr [7] [2] = .ok [9, 16, 9, 5] := by decide

/-- **C06 (the bound is needed).** With an output variable that is read exactly `2^31 - 1` times by
equations and then returned, the counter reaches zero before the outputs are read, and the
interpreter raises a `KeyError` although the program is meaningful.
(Real jaxprs never get there; the statement records why the hypothesis is present.) -/
theorem C06_bound_is_tight (ev : Unit → List V → Except Err (List V)) (x : V)
    (hev : ∀ xs, ev () xs = .ok []) :
    let j : Jaxpr Unit V := ⟨[], [0], [⟨(), List.replicate int32Max.toNat (.var 0), []⟩], [.var 0]⟩
    evalRC ev j [] [x] = .error .key ∧ evalSpec ev j [] [x] = .ok [x] := by
  have key : ∀ (n : Nat) (s : EnvState V), s.env 0 = some x → s.rc 0 = (n : Int) + 1 →
      ∃ xs s', s.readMany (List.replicate (n + 1) (.var 0)) = .ok (xs, s') ∧ s'.env 0 = none := by
    intro n
    induction n with
    | zero =>
      intro s h1 h2
      refine ⟨[x], ⟨upd s.env 0 none, upd (upd s.rc 0 (s.rc 0 - 1)) 0 0⟩, ?_, by simp⟩
      simp [List.replicate, EnvState.readMany, EnvState.read, h1, h2]
    | succ n ih =>
      intro s h1 h2
      obtain ⟨xs, s', h3, h4⟩ := ih ⟨s.env, upd s.rc 0 (s.rc 0 - 1)⟩ h1 (by simp [h2])
      refine ⟨x :: xs, s', ?_, h4⟩
      rw [List.replicate_succ, EnvState.readMany]
      have : s.read (.var 0) = .ok (x, ⟨s.env, upd s.rc 0 (s.rc 0 - 1)⟩) := by
        have hne : ¬ (s.rc 0 - 1 = 0) := by rw [h2]; omega
        simp [EnvState.read, h1, hne]
      rw [this]
      dsimp only
      rw [h3]
  have key2 : ∀ (n : Nat) (t : SEnv V), t 0 = some x →
      t.getMany (List.replicate n (.var 0)) = .ok (List.replicate n x) := by
    intro n
    induction n with
    | zero => intro t _; rfl
    | succ n ih =>
      intro t h
      rw [List.replicate_succ, List.replicate_succ, SEnv.getMany]
      have h' : t.get (.var 0) = .ok x := by simp [SEnv.get, h]
      rw [h', ih t h]
  obtain ⟨N, hM, hI⟩ : ∃ N : Nat, int32Max.toNat = N + 1 ∧ int32Max = (N : Int) + 1 :=
    ⟨2147483646, by decide, by decide⟩
  rw [hM]
  intro j
  have hrc : initRC j 0 = (N : Int) + 1 := by
    rw [initRC_apply, if_pos (by simp [j, Atom.var?])]; exact hI
  constructor
  · have hinit : initEnv j [] [x] = .ok ⟨upd (fun _ => none) 0 (some x), initRC j⟩ := by
      unfold initEnv EnvState.writeMany
      simp only [j, List.length_nil, if_true, List.zip_nil_left, List.foldl_nil, List.length_cons,
        List.zip_cons_cons, List.foldl_cons]
      unfold EnvState.write
      rw [if_pos (by show 0 < initRC j 0; rw [hrc]; omega)]
    unfold evalRC
    rw [hinit]
    dsimp only
    obtain ⟨xs, s', h1, h2⟩ := key N ⟨upd (fun _ => none) 0 (some x), initRC j⟩ (by simp)
      hrc
    have hrun : runRC ev ⟨upd (fun _ => none) 0 (some x), initRC j⟩ j.eqns = .ok s' := by
      show runRC ev _ [⟨(), List.replicate (N + 1) (.var 0), []⟩] = _
      unfold runRC stepRC
      dsimp only
      rw [h1]
      dsimp only
      rw [hev]
      simp [EnvState.writeMany, runRC]
    rw [hrun]
    dsimp only
    show (match s'.readMany [.var 0] with | .error err => _ | .ok (ys, _) => _) = _
    unfold EnvState.readMany EnvState.read
    simp [h2]
  · unfold evalSpec
    have hinit : specInit j [] [x] = .ok (upd (fun _ => none) 0 (some x)) := by
      simp [specInit, SEnv.bind, j]
    rw [hinit]
    dsimp only
    have hrun : specRun ev (upd (fun _ => none) 0 (some x)) j.eqns
        = .ok (upd (fun _ => none) 0 (some x)) := by
      show specRun ev _ [⟨(), List.replicate (N + 1) (.var 0), []⟩] = _
      unfold specRun specStep
      dsimp only
      rw [key2 _ _ (by simp)]
      dsimp only
      rw [hev]
      simp [SEnv.bind, specRun]
    rw [hrun]
    show (SEnv.getMany _ [.var 0]) = _
    simp [SEnv.getMany, SEnv.get]

/-- **C07.** After any prefix `pre` of the equations has been evaluated, every variable still stored
that is neither an input, a constant nor an output of the jaxpr is read by some later equation:
intermediate results are dropped at their last use, and results nobody reads are never stored. -/
theorem C07_stored_intermediates_are_live (ev : O → List V → Except Err (List V)) (j : Jaxpr O V)
    (consts args : List V) (pre post : List (Eqn O V)) (hsplit : j.eqns = pre ++ post)
    (s0 s : EnvState V) (hinit : initEnv j consts args = .ok s0) (hrun : runRC ev s0 pre = .ok s)
    (v : Var) (hio : v ∉ j.invars ∧ v ∉ j.constvars ∧ Atom.var v ∉ j.outvars)
    (hstored : s.env v ≠ none) :
    ∃ e ∈ post, Atom.var v ∈ e.invars := by
  have hmem : ∀ (l : List (Atom V)) (v : Var), v ∈ l.filterMap Atom.var? ↔ Atom.var v ∈ l := by
    intro l v
    rw [List.mem_filterMap]
    constructor
    · rintro ⟨a, ha, hav⟩
      cases a with
      | lit x => simp [Atom.var?] at hav
      | var w => simp [Atom.var?] at hav; subst hav; exact ha
    · intro h; exact ⟨_, h, rfl⟩
  have ht0 : Tight (j.invars ++ j.constvars ++ j.outvars.filterMap Atom.var?)
      ((pre.flatMap fun e => e.invars.filterMap Atom.var?) ++
        (post.flatMap fun e => e.invars.filterMap Atom.var?))
      (⟨fun _ => none, initRC j⟩ : EnvState V) := by
    intro w hw
    simp only [List.mem_append, not_or] at hw
    refine ⟨?_, fun h => absurd rfl h⟩
    show initRC j w = _
    rw [initRC_apply, if_neg hw.2, hsplit, List.flatMap_append]
    rw [List.count_eq_zero_of_not_mem (l := j.invars ++ j.constvars)
      (by simp [List.mem_append, hw.1.1, hw.1.2])]
    simp
  have ht1 : Tight (j.invars ++ j.constvars ++ j.outvars.filterMap Atom.var?)
      ((pre.flatMap fun e => e.invars.filterMap Atom.var?) ++
        (post.flatMap fun e => e.invars.filterMap Atom.var?)) s0 := by
    unfold initEnv at hinit
    split at hinit
    · simp at hinit
    · rename_i s1 h1
      exact writeMany_tight (writeMany_tight ht0 h1) hinit
  have ht2 := run_tight ev ht1 hrun
  obtain ⟨h1, h2⟩ := ht2 v (by simp [hio.1, hio.2.1]; intro a ha hav; exact hio.2.2 (by
    cases a with
    | lit x => simp [Atom.var?] at hav
    | var w => simp [Atom.var?] at hav; subst hav; exact ha))
  have h3 := h2 hstored
  rw [h1] at h3
  have h4 : v ∈ post.flatMap fun e => e.invars.filterMap Atom.var? :=
    List.count_pos_iff.mp (by omega)
  rw [List.mem_flatMap] at h4
  obtain ⟨e, he, hv⟩ := h4
  exact ⟨e, he, (hmem _ _).mp hv⟩

/-- Non-vacuity: after the first equation of `exampleJaxpr`, variable `1` (an intermediate) is stored
and the second equation reads it; after the second equation it is gone. -/
example : ∃ s0 s1 s2 : EnvState Int,
    initEnv exampleJaxpr [7] [2] = .ok s0 ∧
    runRC exampleEv s0 (exampleJaxpr.eqns.take 1) = .ok s1 ∧ s1.env 1 = some 3 ∧
    runRC exampleEv s0 (exampleJaxpr.eqns.take 2) = .ok s2 ∧ s2.env 1 = none ∧
    s2.env 2 = some 9 :=
  ⟨_, _, _, rfl, rfl, rfl, rfl, rfl, rfl⟩

end Folx.Interp

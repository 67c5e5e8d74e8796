import Verif.Interp.EnvSpec

namespace Folx.Interp

variable {O V : Type}

@[simp] theorem upd_self {β : Type} (f : Var → β) (v : Var) (b : β) : upd f v b v = b := by
  simp [upd]

theorem upd_ne {β : Type} (f : Var → β) {v w : Var} (b : β) (h : w ≠ v) : upd f v b w = f w := by
  simp [upd, h]

/-- Coupling between the counted and the never-freeing environment: every variable that still
has `rem` reads ahead of it has the same binding and a counter of at least that many. -/
def Coupled (rem : List Var) (s : EnvState V) (t : SEnv V) : Prop :=
  ∀ v, v ∈ rem → s.env v = t v ∧ (rem.count v : Int) ≤ s.rc v

theorem Coupled.of_suffix {a : List Var} {rem : List Var} {s : EnvState V} {t : SEnv V}
    (h : Coupled (a ++ rem) s t) : Coupled rem s t := by
  intro v hv
  obtain ⟨h1, h2⟩ := h v (by simp [hv])
  refine ⟨h1, ?_⟩
  rw [List.count_append] at h2
  omega

theorem read_coupled {a : Atom V} {rem : List Var} {s : EnvState V} {t : SEnv V}
    (h : Coupled ((a.var?).toList ++ rem) s t) :
    (∃ x s', s.read a = .ok (x, s') ∧ t.get a = .ok x ∧ Coupled rem s' t) ∨
    (∃ e, s.read a = .error e ∧ t.get a = .error e) := by
  cases a with
  | lit x => exact Or.inl ⟨x, s, rfl, rfl, by simpa [Atom.var?] using h⟩
  | var v =>
    simp only [Atom.var?, Option.toList_some, List.singleton_append] at h
    obtain ⟨h1, h2⟩ := h v (by simp)
    simp only [EnvState.read, SEnv.get, ← h1, upd_self]
    cases hx : s.env v with
    | none => right; exact ⟨.key, rfl, rfl⟩
    | some x =>
      left
      dsimp only
      have hc : ((v :: rem).count v : Int) = rem.count v + 1 := by simp
      rw [hc] at h2
      split
      · rename_i h0
        refine ⟨x, _, rfl, rfl, ?_⟩
        intro w hw
        have hne : w ≠ v := by
          rintro rfl
          have : 0 < rem.count w := List.count_pos_iff.mpr hw
          omega
        obtain ⟨h3, h4⟩ := h w (by simp [hw])
        rw [List.count_cons_of_ne (Ne.symm hne)] at h4
        simp [upd_ne _ _ hne, h3, h4]
      · refine ⟨x, _, rfl, rfl, ?_⟩
        intro w hw
        obtain ⟨h3, h4⟩ := h w (by simp [hw])
        refine ⟨h3, ?_⟩
        by_cases hne : w = v
        · subst hne; simp; omega
        · rw [List.count_cons_of_ne (Ne.symm hne)] at h4
          simpa [upd_ne _ _ hne] using h4

theorem readMany_coupled {as : List (Atom V)} {rem : List Var} {s : EnvState V} {t : SEnv V}
    (h : Coupled (as.filterMap Atom.var? ++ rem) s t) :
    (∃ xs s', s.readMany as = .ok (xs, s') ∧ t.getMany as = .ok xs ∧ Coupled rem s' t) ∨
    (∃ e, s.readMany as = .error e ∧ t.getMany as = .error e) := by
  induction as generalizing s with
  | nil => exact Or.inl ⟨[], s, rfl, rfl, by simpa using h⟩
  | cons a as ih =>
    have h' : Coupled ((a.var?).toList ++ (as.filterMap Atom.var? ++ rem)) s t := by
      have : (a :: as).filterMap Atom.var? = (a.var?).toList ++ as.filterMap Atom.var? := by
        cases ha : a.var? <;> simp [ha]
      rw [this, List.append_assoc] at h
      exact h
    rcases read_coupled h' with ⟨x, s', h1, h2, h3⟩ | ⟨e, h1, h2⟩
    · rcases ih h3 with ⟨xs, s'', h4, h5, h6⟩ | ⟨e, h4, h5⟩
      · exact Or.inl ⟨x :: xs, s'', by simp [EnvState.readMany, h1, h4],
          by simp [SEnv.getMany, h2, h5], h6⟩
      · exact Or.inr ⟨e, by simp [EnvState.readMany, h1, h4], by simp [SEnv.getMany, h2, h5]⟩
    · exact Or.inr ⟨e, by simp [EnvState.readMany, h1], by simp [SEnv.getMany, h2]⟩

theorem write_coupled {rem : List Var} {s : EnvState V} {t : SEnv V} (v : Var) (x : V)
    (h : Coupled rem s t) : Coupled rem (s.write v x) (upd t v (some x)) := by
  intro w hw
  obtain ⟨h1, h2⟩ := h w hw
  have hpos : 0 < rem.count w := List.count_pos_iff.mpr hw
  unfold EnvState.write
  by_cases hwv : w = v
  · subst hwv
    have : 0 < s.rc w := by omega
    simp [this, h2]
  · split
    · simp [upd_ne _ _ hwv, h1, h2]
    · simp [upd_ne _ _ hwv, h1, h2]

theorem writeFold_coupled {rem : List Var} (ps : List (Var × V)) {s : EnvState V} {t : SEnv V}
    (h : Coupled rem s t) :
    Coupled rem (ps.foldl (fun s p => s.write p.1 p.2) s)
      (ps.foldl (fun s p => upd s p.1 (some p.2)) t) := by
  induction ps generalizing s t with
  | nil => exact h
  | cons p ps ih => exact ih (write_coupled p.1 p.2 h)

theorem writeMany_coupled {rem : List Var} {s : EnvState V} {t : SEnv V} (vs : List Var) (xs : List V)
    (h : Coupled rem s t) :
    (∃ s' t', s.writeMany vs xs = .ok s' ∧ t.bind vs xs = .ok t' ∧ Coupled rem s' t') ∨
    (∃ e, s.writeMany vs xs = .error e ∧ t.bind vs xs = .error e) := by
  unfold EnvState.writeMany SEnv.bind
  split
  · exact Or.inl ⟨_, _, rfl, rfl, writeFold_coupled _ h⟩
  · exact Or.inr ⟨_, rfl, rfl⟩

theorem step_coupled (ev : O → List V → Except Err (List V)) {e : Eqn O V} {rem : List Var}
    {s : EnvState V} {t : SEnv V} (h : Coupled (e.invars.filterMap Atom.var? ++ rem) s t) :
    (∃ s' t', stepRC ev s e = .ok s' ∧ specStep ev t e = .ok t' ∧ Coupled rem s' t') ∨
    (∃ err, stepRC ev s e = .error err ∧ specStep ev t e = .error err) := by
  unfold stepRC specStep
  rcases readMany_coupled h with ⟨xs, s', h1, h2, h3⟩ | ⟨err, h1, h2⟩
  · rw [h1, h2]
    dsimp only
    cases ev e.op xs with
    | error err => exact Or.inr ⟨err, rfl, rfl⟩
    | ok ys => exact writeMany_coupled _ _ h3
  · rw [h1, h2]; exact Or.inr ⟨err, rfl, rfl⟩

theorem run_coupled (ev : O → List V → Except Err (List V)) (es : List (Eqn O V))
    (outs : List (Atom V)) {s : EnvState V} {t : SEnv V} (h : Coupled (readsOf es outs) s t) :
    (∃ s' t', runRC ev s es = .ok s' ∧ specRun ev t es = .ok t' ∧
        Coupled (outs.filterMap Atom.var?) s' t') ∨
    (∃ err, runRC ev s es = .error err ∧ specRun ev t es = .error err) := by
  induction es generalizing s t with
  | nil => exact Or.inl ⟨s, t, rfl, rfl, by simpa [readsOf] using h⟩
  | cons e es ih =>
    have h' : Coupled (e.invars.filterMap Atom.var? ++ readsOf es outs) s t := by
      simpa [readsOf, List.append_assoc] using h
    rcases step_coupled ev h' with ⟨s', t', h1, h2, h3⟩ | ⟨err, h1, h2⟩
    · rcases ih h3 with ⟨s'', t'', h4, h5, h6⟩ | ⟨err, h4, h5⟩
      · exact Or.inl ⟨s'', t'', by simp [runRC, h1, h4], by simp [specRun, h2, h5], h6⟩
      · exact Or.inr ⟨err, by simp [runRC, h1, h4], by simp [specRun, h2, h5]⟩
    · exact Or.inr ⟨err, by simp [runRC, h1], by simp [specRun, h2]⟩

/-! ### Initial counters -/

theorem foldl_inc (l : List Var) (rc : Var → Int) (v : Var) :
    l.foldl (fun rc v => upd rc v (rc v + 1)) rc v = rc v + l.count v := by
  induction l generalizing rc with
  | nil => simp
  | cons a l ih =>
    rw [List.foldl_cons, ih]
    by_cases h : v = a
    · subst h; simp; omega
    · simp [upd_ne _ _ h, List.count_cons_of_ne (Ne.symm h)]

theorem foldl_eqns (es : List (Eqn O V)) (rc : Var → Int) (v : Var) :
    es.foldl (fun rc e => (e.invars.filterMap Atom.var?).foldl (fun rc v => upd rc v (rc v + 1)) rc) rc v
      = rc v + (es.flatMap fun e => e.invars.filterMap Atom.var?).count v := by
  induction es generalizing rc with
  | nil => simp
  | cons e es ih =>
    rw [List.foldl_cons, ih, foldl_inc, List.flatMap_cons, List.count_append]
    omega

theorem foldl_set (l : List Var) (rc : Var → Int) (m : Int) (v : Var) :
    l.foldl (fun rc v => upd rc v m) rc v = if v ∈ l then m else rc v := by
  induction l generalizing rc with
  | nil => simp
  | cons a l ih =>
    rw [List.foldl_cons, ih]
    by_cases h : v = a
    · subst h; simp
    · simp [upd_ne _ _ h, h]

theorem initRC_apply (j : Jaxpr O V) (v : Var) :
    initRC j v = if v ∈ j.outvars.filterMap Atom.var? then int32Max else
      ((j.invars ++ j.constvars).count v : Int) +
        (j.eqns.flatMap fun e => e.invars.filterMap Atom.var?).count v := by
  unfold initRC
  rw [foldl_set, foldl_eqns, foldl_inc, Int.zero_add]

/-! ### Liveness -/

/-- For a variable that is not an input, constant or output: it is stored only if its counter is
positive, and its counter is exactly the number of reads still to come. -/
def Tight (io rem : List Var) (s : EnvState V) : Prop :=
  ∀ v, v ∉ io → s.rc v = rem.count v ∧ (s.env v ≠ none → 0 < s.rc v)

theorem read_tight {io rem : List Var} {a : Atom V} {s s' : EnvState V} {x : V}
    (h : Tight io ((a.var?).toList ++ rem) s) (hr : s.read a = .ok (x, s')) : Tight io rem s' := by
  cases a with
  | lit y =>
    simp only [EnvState.read, Except.ok.injEq, Prod.mk.injEq] at hr
    rw [← hr.2]; simpa [Atom.var?] using h
  | var w =>
    simp only [Atom.var?, Option.toList_some, List.singleton_append] at h
    simp only [EnvState.read, upd_self] at hr
    cases hx : s.env w with
    | none => simp [hx] at hr
    | some y =>
      simp only [hx] at hr
      split at hr
      · rename_i h0
        simp only [Except.ok.injEq, Prod.mk.injEq] at hr
        obtain ⟨_, rfl⟩ := hr
        intro v hv
        obtain ⟨h1, h2⟩ := h v hv
        by_cases hvw : v = w
        · subst hvw; simp at h1 ⊢; omega
        · rw [List.count_cons_of_ne (Ne.symm hvw)] at h1
          simp [upd_ne _ _ hvw, h1] at h2 ⊢
          exact h2
      · rename_i h0
        simp only [Except.ok.injEq, Prod.mk.injEq] at hr
        obtain ⟨_, rfl⟩ := hr
        intro v hv
        obtain ⟨h1, h2⟩ := h v hv
        by_cases hvw : v = w
        · subst hvw
          rw [List.count_cons_self] at h1
          simp only [upd_self]
          refine ⟨by omega, fun hne => ?_⟩
          have := h2 hne
          omega
        · rw [List.count_cons_of_ne (Ne.symm hvw)] at h1
          simp only [upd_ne _ _ hvw]
          exact ⟨h1, h2⟩

theorem readMany_tight {io rem : List Var} {as : List (Atom V)} {s s' : EnvState V} {xs : List V}
    (h : Tight io (as.filterMap Atom.var? ++ rem) s) (hr : s.readMany as = .ok (xs, s')) :
    Tight io rem s' := by
  induction as generalizing s xs with
  | nil =>
    simp only [EnvState.readMany, Except.ok.injEq, Prod.mk.injEq] at hr
    rw [← hr.2]; simpa using h
  | cons a as ih =>
    have h' : Tight io ((a.var?).toList ++ (as.filterMap Atom.var? ++ rem)) s := by
      have : (a :: as).filterMap Atom.var? = (a.var?).toList ++ as.filterMap Atom.var? := by
        cases ha : a.var? <;> simp [ha]
      rw [this, List.append_assoc] at h
      exact h
    simp only [EnvState.readMany] at hr
    cases h1 : s.read a with
    | error e => simp [h1] at hr
    | ok p =>
      obtain ⟨x, s1⟩ := p
      simp only [h1] at hr
      cases h2 : s1.readMany as with
      | error e => simp [h2] at hr
      | ok q =>
        obtain ⟨ys, s2⟩ := q
        simp only [h2, Except.ok.injEq, Prod.mk.injEq] at hr
        obtain ⟨_, rfl⟩ := hr
        exact ih (read_tight h' h1) h2

theorem write_tight {io rem : List Var} {s : EnvState V} (v : Var) (x : V) (h : Tight io rem s) :
    Tight io rem (s.write v x) := by
  intro w hw
  obtain ⟨h1, h2⟩ := h w hw
  unfold EnvState.write
  split
  · rename_i hpos
    refine ⟨h1, fun hne => ?_⟩
    by_cases hwv : w = v
    · subst hwv; exact hpos
    · exact h2 (by simpa [upd_ne _ _ hwv] using hne)
  · exact ⟨h1, h2⟩

theorem writeMany_tight {io rem : List Var} {s s' : EnvState V} {vs : List Var} {xs : List V}
    (h : Tight io rem s) (hw : s.writeMany vs xs = .ok s') : Tight io rem s' := by
  unfold EnvState.writeMany at hw
  split at hw
  · simp only [Except.ok.injEq] at hw
    subst hw
    generalize vs.zip xs = ps
    induction ps generalizing s with
    | nil => exact h
    | cons p ps ih => exact ih (write_tight _ _ h)
  · simp at hw

theorem run_tight (ev : O → List V → Except Err (List V)) {io rem : List Var} {es : List (Eqn O V)}
    {s s' : EnvState V}
    (h : Tight io ((es.flatMap fun e => e.invars.filterMap Atom.var?) ++ rem) s)
    (hr : runRC ev s es = .ok s') : Tight io rem s' := by
  induction es generalizing s with
  | nil =>
    simp only [runRC, Except.ok.injEq] at hr
    subst hr; simpa using h
  | cons e es ih =>
    simp only [runRC] at hr
    cases h1 : stepRC ev s e with
    | error err => simp [h1] at hr
    | ok s1 =>
      simp only [h1] at hr
      refine ih ?_ hr
      unfold stepRC at h1
      cases h2 : s.readMany e.invars with
      | error err => simp [h2] at h1
      | ok p =>
        obtain ⟨xs, s2⟩ := p
        simp only [h2] at h1
        cases h3 : ev e.op xs with
        | error err => simp [h3] at h1
        | ok ys =>
          simp only [h3] at h1
          refine writeMany_tight (readMany_tight (rem := _) ?_ h2) h1
          simpa [List.append_assoc] using h

theorem runRC_append (ev : O → List V → Except Err (List V)) (s : EnvState V)
    (pre post : List (Eqn O V)) :
    runRC ev s (pre ++ post) =
      match runRC ev s pre with
      | .error e => .error e
      | .ok s' => runRC ev s' post := by
  induction pre generalizing s with
  | nil => simp [runRC]
  | cons e es ih =>
    simp only [List.cons_append, runRC]
    cases stepRC ev s e with
    | error err => rfl
    | ok s1 => exact ih s1

end Folx.Interp

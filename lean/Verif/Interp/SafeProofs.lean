import Verif.Interp.EnvProofs

/-! # Reference counting can only fail, never return something else -/

namespace Folx.Interp

variable {O V : Type}

/-- Everything stored has a positive counter and the value of the never-freeing environment. -/
def Safe (s : EnvState V) (t : SEnv V) : Prop := ∀ v x, s.env v = some x → 0 < s.rc v ∧ t v = some x

theorem Safe.read {s s' : EnvState V} {t : SEnv V} {a : Atom V} {x : V} (h : Safe s t)
    (hr : s.read a = .ok (x, s')) : t.get a = .ok x ∧ Safe s' t := by
  cases a with
  | lit y =>
    simp only [EnvState.read, Except.ok.injEq, Prod.mk.injEq] at hr
    rw [← hr.2, ← hr.1]
    exact ⟨rfl, h⟩
  | var v =>
    simp only [EnvState.read] at hr
    cases hv : s.env v with
    | none => simp [hv] at hr
    | some y =>
      simp only [hv] at hr
      obtain ⟨h1, h2⟩ := h v y hv
      split at hr
      · simp only [Except.ok.injEq, Prod.mk.injEq] at hr
        rw [← hr.2, ← hr.1]
        refine ⟨by simp [SEnv.get, h2], ?_⟩
        intro w z hw
        by_cases hwv : w = v
        · subst hwv; simp at hw
        · simp only [upd_ne _ _ hwv] at hw ⊢
          exact h w z hw
      · rename_i hne
        simp only [Except.ok.injEq, Prod.mk.injEq] at hr
        rw [← hr.2, ← hr.1]
        refine ⟨by simp [SEnv.get, h2], ?_⟩
        intro w z hw
        by_cases hwv : w = v
        · subst hwv
          simp only [upd_self] at hne ⊢
          exact ⟨by omega, (h w z hw).2⟩
        · simp only [upd_ne _ _ hwv]
          exact h w z hw

theorem Safe.readMany {t : SEnv V} : ∀ {as : List (Atom V)} {s s' : EnvState V} {xs : List V}, Safe s t →
    s.readMany as = .ok (xs, s') → t.getMany as = .ok xs ∧ Safe s' t
  | [], s, s', xs, h, hr => by
    simp only [EnvState.readMany, Except.ok.injEq, Prod.mk.injEq] at hr
    rw [← hr.2, ← hr.1]
    exact ⟨rfl, h⟩
  | a :: as, s, s', xs, h, hr => by
    simp only [EnvState.readMany] at hr
    split at hr
    · simp at hr
    · rename_i x s1 h1
      split at hr
      · simp at hr
      · rename_i ys s2 h2
        simp only [Except.ok.injEq, Prod.mk.injEq] at hr
        obtain ⟨g1, g2⟩ := h.read h1
        obtain ⟨g3, g4⟩ := g2.readMany h2
        rw [← hr.2, ← hr.1]
        exact ⟨by simp [SEnv.getMany, g1, g3], g4⟩

theorem Safe.write {s : EnvState V} {t : SEnv V} (h : Safe s t) (v : Var) (x : V) :
    Safe (s.write v x) (upd t v (some x)) := by
  intro w z hw
  unfold EnvState.write at hw ⊢
  split at hw
  · rename_i hpos
    rw [if_pos hpos]
    by_cases hwv : w = v
    · subst hwv
      simp only [upd_self, Option.some.injEq] at hw ⊢
      exact ⟨hpos, hw⟩
    · simp only [upd_ne _ _ hwv] at hw ⊢
      exact h w z hw
  · rename_i hpos
    rw [if_neg hpos]
    have hwv : w ≠ v := fun e => hpos (e ▸ (h w z hw).1)
    rw [upd_ne _ _ hwv]
    exact h w z hw

theorem Safe.writeMany {s s' : EnvState V} {t : SEnv V} (h : Safe s t) (vs : List Var) (xs : List V)
    (hw : s.writeMany vs xs = .ok s') : ∃ t', t.bind vs xs = .ok t' ∧ Safe s' t' := by
  unfold EnvState.writeMany at hw
  unfold SEnv.bind
  split at hw
  · rename_i hl
    simp only [Except.ok.injEq] at hw
    rw [if_pos hl]
    refine ⟨_, rfl, ?_⟩
    rw [← hw]
    generalize vs.zip xs = ps
    clear hw hl
    induction ps generalizing s t with
    | nil => exact h
    | cons p ps ih => exact ih (h.write p.1 p.2)
  · simp at hw

theorem Safe.run (ev : O → List V → Except Err (List V)) : ∀ (es : List (Eqn O V)) {s s' : EnvState V} {t : SEnv V},
    Safe s t → runRC ev s es = .ok s' → ∃ t', specRun ev t es = .ok t' ∧ Safe s' t'
  | [], s, s', t, h, hr => by
    simp only [runRC, Except.ok.injEq] at hr
    exact ⟨t, rfl, hr ▸ h⟩
  | e :: es, s, s', t, h, hr => by
    simp only [runRC, stepRC] at hr
    cases h1 : s.readMany e.invars with
    | error err => simp [h1] at hr
    | ok p =>
      obtain ⟨xs, s1⟩ := p
      simp only [h1] at hr
      obtain ⟨g1, g2⟩ := h.readMany h1
      cases h2 : ev e.op xs with
      | error err => simp [h2] at hr
      | ok ys =>
        simp only [h2] at hr
        cases h3 : s1.writeMany e.outvars ys with
        | error err => simp [h3] at hr
        | ok s2 =>
          simp only [h3] at hr
          obtain ⟨t2, g3, g4⟩ := g2.writeMany _ _ h3
          obtain ⟨t3, g5, g6⟩ := Safe.run ev es g4 hr
          exact ⟨t3, by simp [specRun, specStep, g1, h2, g3, g5], g6⟩

/-- If reference-counted evaluation returns, never-freeing evaluation returns the same. -/
theorem evalRC_safe (ev : O → List V → Except Err (List V)) (j : Jaxpr O V) (consts args ys : List V)
    (h : evalRC ev j consts args = .ok ys) : evalSpec ev j consts args = .ok ys := by
  have h0 : Safe (⟨fun _ => none, initRC j⟩ : EnvState V) (fun _ => none) := by
    intro v x hx; simp at hx
  unfold evalRC initEnv at h
  cases h1 : EnvState.writeMany ⟨fun _ => none, initRC j⟩ j.constvars consts with
  | error err => simp [h1] at h
  | ok s1 =>
    simp only [h1] at h
    obtain ⟨t1, g1, g2⟩ := h0.writeMany _ _ h1
    cases h2 : s1.writeMany j.invars args with
    | error err => simp [h2] at h
    | ok s2 =>
      simp only [h2] at h
      obtain ⟨t2, g3, g4⟩ := g2.writeMany _ _ h2
      cases h3 : runRC ev s2 j.eqns with
      | error err => simp [h3] at h
      | ok s3 =>
        simp only [h3] at h
        obtain ⟨t3, g5, g6⟩ := Safe.run ev j.eqns g4 h3
        cases h4 : s3.readMany j.outvars with
        | error err => simp [h4] at h
        | ok p =>
          obtain ⟨zs, s4⟩ := p
          simp only [h4, Except.ok.injEq] at h
          subst h
          simp [evalSpec, specInit, g1, g3, g5, (g6.readMany h4).1]

end Folx.Interp

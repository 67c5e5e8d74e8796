import Verif.Logging.Prefix

/-!
# C36: the logging context restores the handlers
-/

namespace Folx.Log

/-- The handlers of the root logger, as a user sees them. -/
def St.handlers (σ : St) : List Handler := σ.heap σ.cur

/-- References in use are allocated. -/
def St.Wf (σ : St) : Prop := σ.cur < σ.next

/-- What a statement can touch, given a set of references that contains the current one and everything not yet
allocated. -/
structure Safe (R : ℕ → Prop) (σ σ' : St) : Prop where
  next_le : σ.next ≤ σ'.next
  cur : R σ'.cur
  heap : ∀ r, ¬ R r → σ'.heap r = σ.heap r
  old : ∀ i, R (σ.old i) → R (σ'.old i)

theorem Safe.refl {R : ℕ → Prop} {σ : St} (h : R σ.cur) : Safe R σ σ :=
  ⟨le_rfl, h, fun _ _ => rfl, fun _ h => h⟩

theorem Safe.trans {R : ℕ → Prop} {σ σ' σ'' : St} (h : Safe R σ σ') (h' : Safe R σ' σ'') : Safe R σ σ'' :=
  ⟨h.next_le.trans h'.next_le, h'.cur, fun r hr => (h'.heap r hr).trans (h.heap r hr), fun i hi => h'.old i (h.old i hi)⟩

theorem emit_safe {R : ℕ → Prop} {σ : St} (h : R σ.cur) (msg : String) : Safe R σ (σ.emit msg) :=
  ⟨le_rfl, h, fun r hr => Function.update_of_ne (fun e => hr (by rw [e]; exact h)) _ _, fun _ h => h⟩

theorem exec_safe (R : ℕ → Prop) (s : Stmt) : ∀ σ : St, R σ.cur → (∀ r, σ.next ≤ r → R r) →
    Safe R σ (exec s σ).1 := by
  induction s with
  | skip => exact fun σ h _ => Safe.refl h
  | emit msg => exact fun σ h _ => emit_safe h msg
  | raise => exact fun σ h _ => Safe.refl h
  | addHandler h =>
    exact fun σ hc _ => ⟨le_rfl, hc, fun r hr => Function.update_of_ne (fun e => hr (by rw [e]; exact hc)) _ _, fun _ h => h⟩
  | removeHandler h =>
    exact fun σ hc _ => ⟨le_rfl, hc, fun r hr => Function.update_of_ne (fun e => hr (by rw [e]; exact hc)) _ _, fun _ h => h⟩
  | assign hs =>
    intro σ hc hn
    exact ⟨Nat.le_succ _, hn _ le_rfl,
      fun r hr => Function.update_of_ne (fun e => hr (by rw [e]; exact hn _ le_rfl)) _ _, fun _ h => h⟩
  | seq s t ihs iht =>
    intro σ hc hn
    have h1 := ihs σ hc hn
    simp only [exec]
    rcases hs : exec s σ with ⟨σ', r⟩
    rw [hs] at h1
    cases r
    · exact h1.trans (iht σ' h1.cur fun r hr => hn r (h1.next_le.trans hr))
    · exact h1
  | tryExcept s t ihs iht =>
    intro σ hc hn
    have h1 := ihs σ hc hn
    simp only [exec]
    rcases hs : exec s σ with ⟨σ', r⟩
    rw [hs] at h1
    cases r
    · exact h1
    · exact h1.trans (iht σ' h1.cur fun r hr => hn r (h1.next_le.trans hr))
  | withPrefix inst s ih =>
    intro σ hc hn
    have h0 : Safe R σ (σ.enter inst) := by
      refine ⟨Nat.le_succ _, hn _ le_rfl,
        fun r hr => Function.update_of_ne (fun e => hr (by rw [e]; exact hn _ le_rfl)) _ _, fun i hi => ?_⟩
      by_cases h : i = inst
      · subst h; simpa [St.enter] using hc
      · simpa [St.enter, Function.update_of_ne h] using hi
    have ho : R ((σ.enter inst).old inst) := by simpa [St.enter] using hc
    have h1 := ih (σ.enter inst) h0.cur fun r hr => hn r (h0.next_le.trans hr)
    simp only [exec]
    rcases hs : exec s (σ.enter inst) with ⟨σ', r⟩
    rw [hs] at h1
    have h2 := h0.trans h1
    have ho' := h1.old _ ho
    cases r
    · exact ⟨h2.next_le, ho', h2.heap, h2.old⟩
    · have h3 := h2.trans (emit_safe h2.cur "Exception occurred")
      exact ⟨h3.next_le, ho', h3.heap, h3.old⟩

theorem exec_old (s : Stmt) (i : ℕ) (hi : i ∉ s.insts) : ∀ σ : St, (exec s σ).1.old i = σ.old i := by
  induction s with
  | skip | emit | raise | addHandler | removeHandler | assign => intro σ; rfl
  | seq s t ihs iht =>
    intro σ
    simp only [Stmt.insts, List.mem_append, not_or] at hi
    have h1 := ihs hi.1 σ
    simp only [exec]
    rcases hs : exec s σ with ⟨σ', r⟩
    rw [hs] at h1
    cases r
    · exact (iht hi.2 σ').trans h1
    · exact h1
  | tryExcept s t ihs iht =>
    intro σ
    simp only [Stmt.insts, List.mem_append, not_or] at hi
    have h1 := ihs hi.1 σ
    simp only [exec]
    rcases hs : exec s σ with ⟨σ', r⟩
    rw [hs] at h1
    cases r
    · exact h1
    · exact (iht hi.2 σ').trans h1
  | withPrefix inst s ih =>
    intro σ
    simp only [Stmt.insts, List.mem_cons, not_or] at hi
    have h1 := ih hi.2 (σ.enter inst)
    simp only [exec]
    rcases hs : exec s (σ.enter inst) with ⟨σ', r⟩
    rw [hs] at h1
    have h2 : (σ.enter inst).old i = σ.old i := Function.update_of_ne hi.1 _ _
    cases r <;> exact h1.trans h2

/-! ### The property -/

/-- **C36.**  `with LoggingPrefix(...): body` for any body (nested contexts, handlers added, removed or replaced,
messages, exceptions raised and caught): afterwards the root logger refers to the same list object as before, that
list has the same content, and an exception of the body is passed on.  The `LoggingPrefix` object must not be
entered again inside its own body; folx creates a new one for every `with`. -/
theorem C36_restores (inst : ℕ) (body : Stmt) (hi : inst ∉ body.insts) (σ : St) (hσ : σ.Wf) :
    let r := exec (.withPrefix inst body) σ
    r.1.cur = σ.cur ∧ r.1.handlers = σ.handlers ∧ r.2 = (exec body (σ.enter inst)).2 := by
  have h1 := exec_safe (fun r => σ.next ≤ r) body (σ.enter inst) le_rfl (fun r hr => (Nat.le_succ _).trans hr)
  have h2 := exec_old body inst hi (σ.enter inst)
  have h3 : (σ.enter inst).old inst = σ.cur := Function.update_self _ _ _
  have h4 : (σ.enter inst).heap σ.cur = σ.heap σ.cur := Function.update_of_ne (Nat.ne_of_lt hσ) _ _
  have hR : ¬ σ.next ≤ σ.cur := Nat.not_le_of_lt hσ
  simp only [exec]
  rcases hs : exec body (σ.enter inst) with ⟨σ', r⟩
  rw [hs] at h1 h2
  have hc : σ'.old inst = σ.cur := h2.trans h3
  cases r
  · refine ⟨hc, ?_, trivial⟩
    show σ'.heap (σ'.old inst) = _
    rw [hc, h1.heap _ hR, h4]; rfl
  · refine ⟨hc, ?_, trivial⟩
    have h5 := h1.trans (emit_safe h1.cur "Exception occurred")
    show (σ'.emit "Exception occurred").heap (σ'.old inst) = _
    rw [hc, h5.heap _ hR, h4]; rfl

/-- **C36 (inside).**  While the body runs, and before it changes handlers itself, messages go to the prefix handler
only. -/
theorem C36_inside (inst : ℕ) (msg : String) (σ : St) :
    (exec (.emit msg) (σ.enter inst)).1.out = σ.out ++ [(.folx inst, msg)] := by
  simp [exec, St.emit, St.enter]

/-- A user with two handlers; a nested context whose body adds a handler, replaces the list and raises, caught
outside. -/
example :
    let σ : St := ⟨fun _ => [.user 0, .user 1], 1, 0, fun _ => 0, []⟩
    let body := Stmt.seq (.addHandler (.user 7)) (.withPrefix 1 (.seq (.assign []) (.seq (.emit "m") .raise)))
    σ.Wf ∧ 0 ∉ body.insts ∧ (exec (.withPrefix 0 body) σ).2 = true ∧
      (exec (.withPrefix 0 body) σ).1.handlers = [.user 0, .user 1] ∧
      (exec (.withPrefix 0 body) σ).1.out = [(.basic, "m"), (.basic, "Exception occurred"),
        (.folx 0, "Exception occurred"), (.user 7, "Exception occurred")] := by
  refine ⟨by simp [St.Wf], by decide, by decide, by decide, by decide⟩

/-- The restriction is needed: entering the same `LoggingPrefix` object inside itself loses the user's handlers
(`_old_handlers` is one attribute of the object, overwritten by the second `__enter__`). -/
theorem C36_reentry_counterexample :
    let σ : St := ⟨fun _ => [.user 0], 1, 0, fun _ => 0, []⟩
    (exec (.withPrefix 0 (.withPrefix 0 .skip)) σ).1.handlers = [.folx 0] := by
  decide

end Folx.Log

import Verif.Interp.EnvProofs
import Mathlib.Data.List.Nodup

/-!
# Inlining a nested program (specification for C27)

`inlineAt` is textbook inlining of a call in a straight-line program: the operands are substituted for the parameters,
local variables are renamed apart, and the results are substituted in the rest of the program.  It is not part of folx;
it says what "the same program without `jax.jit`" is.
-/

namespace Folx.Interp

variable {O O' V : Type}

/-- Replace variables by atoms. -/
def Atom.subst (σ : Var → Atom V) : Atom V → Atom V
  | .lit x => .lit x
  | .var v => σ v

/-- Substitution sending `ks` to `as`, everything else according to `σ`. -/
def bindAtoms : List Var → List (Atom V) → (Var → Atom V) → Var → Atom V
  | k :: ks, a :: as, σ => fun v => if v = k then a else bindAtoms ks as σ v
  | _, _, σ => σ

/-- Variables read are bound before, variables bound are new. -/
def Scoped : List Var → List (Eqn O V) → List (Atom V) → Prop
  | D, [], outs => ∀ v, Atom.var v ∈ outs → v ∈ D
  | D, e :: es, outs => (∀ v, Atom.var v ∈ e.invars → v ∈ D) ∧ (∀ v ∈ e.outvars, v ∉ D) ∧ e.outvars.Nodup ∧
      Scoped (e.outvars ++ D) es outs

/-- A valid jaxpr (`jax.core.check_jaxpr`): every variable is bound once, before it is read. -/
structure Jaxpr.Valid (j : Jaxpr O V) : Prop where
  distinct : (j.constvars ++ j.invars).Nodup
  inScope : Scoped (j.constvars ++ j.invars) j.eqns j.outvars

/-- What the parameters and local variables of the sub-program `sub`, called on `as`, become. -/
def callSubst (N : ℕ) (sub : Jaxpr O' V) (consts : List V) (as : List (Atom V)) : Var → Atom V :=
  bindAtoms sub.constvars (consts.map .lit) (bindAtoms sub.invars as fun v => .var (v + N))

/-- The equations of `sub` as part of the calling program; `f` embeds its operations. -/
def callEqns (N : ℕ) (f : O' → O) (sub : Jaxpr O' V) (consts : List V) (as : List (Atom V)) : List (Eqn O V) :=
  sub.eqns.map fun e => ⟨f e.op, e.invars.map (Atom.subst (callSubst N sub consts as)), e.outvars.map (· + N)⟩

/-- What the results `os` of the call become. -/
def resultSubst (N : ℕ) (sub : Jaxpr O' V) (consts : List V) (as : List (Atom V)) (os : List Var) : Var → Atom V :=
  bindAtoms os (sub.outvars.map (Atom.subst (callSubst N sub consts as))) .var

/-- The program `pre; os := sub(as); post` with the call inlined. -/
def inlineAt (N : ℕ) (f : O' → O) (constvars invars : List Var) (pre : List (Eqn O V)) (sub : Jaxpr O' V)
    (consts : List V) (as : List (Atom V)) (os : List Var) (post : List (Eqn O V)) (outs : List (Atom V)) : Jaxpr O V :=
  ⟨constvars, invars,
    pre ++ callEqns N f sub consts as ++
      post.map fun e => ⟨e.op, e.invars.map (Atom.subst (resultSubst N sub consts as os)), e.outvars⟩,
    outs.map (Atom.subst (resultSubst N sub consts as os))⟩

/-! ### Proofs -/

/-- All variables bound by the equations. -/
def boundBy (es : List (Eqn O V)) : List Var := es.flatMap Eqn.outvars

theorem Scoped.fresh {D : List Var} {es : List (Eqn O V)} {outs : List (Atom V)} (h : Scoped D es outs) :
    ∀ w ∈ boundBy es, w ∉ D := by
  induction es generalizing D with
  | nil => intro w hw; simp [boundBy] at hw
  | cons e es ih =>
    intro w hw
    rcases List.mem_append.mp (show w ∈ e.outvars ++ boundBy es from hw) with h1 | h1
    · exact h.2.1 w h1
    · intro hD
      exact ih h.2.2.2 w h1 (List.mem_append_right _ hD)

theorem Scoped.append {D : List Var} {pre post : List (Eqn O V)} {outs : List (Atom V)}
    (h : Scoped D (pre ++ post) outs) : ∃ D', (∀ v ∈ D, v ∈ D') ∧ (∀ v ∈ D', v ∈ D ∨ v ∈ boundBy pre) ∧
      (∀ v ∈ boundBy pre, v ∈ D') ∧ Scoped D' post outs := by
  induction pre generalizing D with
  | nil => exact ⟨D, fun v hv => hv, fun v hv => Or.inl hv, fun v hv => by simp [boundBy] at hv, h⟩
  | cons e pre ih =>
    obtain ⟨D', h1, h2, h3, h4⟩ := ih h.2.2.2
    refine ⟨D', fun v hv => h1 v (List.mem_append_right _ hv), fun v hv => ?_, fun v hv => ?_, h4⟩
    · rcases h2 v hv with h5 | h5
      · rcases List.mem_append.mp h5 with h6 | h6
        · exact Or.inr (List.mem_append_left _ h6)
        · exact Or.inl h6
      · exact Or.inr (List.mem_append_right _ h5)
    · rcases List.mem_append.mp (show v ∈ e.outvars ++ boundBy pre from hv) with h5 | h5
      · exact h1 v (List.mem_append_left _ h5)
      · exact h3 v h5

/-- Binding distinct variables. -/
theorem foldl_upd (ps : List (Var × V)) (hn : (ps.map Prod.fst).Nodup) (s : SEnv V) :
    (∀ p ∈ ps, ps.foldl (fun s p => upd s p.1 (some p.2)) s p.1 = some p.2) ∧
    ∀ v, v ∉ ps.map Prod.fst → ps.foldl (fun s p => upd s p.1 (some p.2)) s v = s v := by
  induction ps generalizing s with
  | nil => simp
  | cons p ps ih =>
    rw [List.map_cons, List.nodup_cons] at hn
    obtain ⟨h1, h2⟩ := ih hn.2 (upd s p.1 (some p.2))
    refine ⟨fun q hq => ?_, fun v hv => ?_⟩
    · rw [List.foldl_cons]
      rcases List.mem_cons.mp hq with rfl | hq
      · rw [h2 _ hn.1, upd_self]
      · exact h1 q hq
    · rw [List.map_cons, List.mem_cons, not_or] at hv
      rw [List.foldl_cons, h2 v hv.2, upd_ne _ _ hv.1]

theorem bind_ok {s s' : SEnv V} {vs : List Var} {xs : List V} (hn : vs.Nodup) (h : s.bind vs xs = .ok s') :
    vs.length = xs.length ∧ (∀ p ∈ vs.zip xs, s' p.1 = some p.2) ∧ ∀ v, v ∉ vs → s' v = s v := by
  unfold SEnv.bind at h
  split at h
  · rename_i hl
    obtain rfl := Except.ok.inj h
    have e : (vs.zip xs).map Prod.fst = vs := List.map_fst_zip (by omega)
    obtain ⟨h1, h2⟩ := foldl_upd (vs.zip xs) (by rw [e]; exact hn) s
    rw [e] at h2
    exact ⟨hl, h1, h2⟩
  · simp at h

/-- Frame rule without any assumption. -/
theorem bind_frame {s s' : SEnv V} {vs : List Var} {xs : List V} (h : s.bind vs xs = .ok s') (v : Var) (hv : v ∉ vs) :
    s' v = s v := by
  unfold SEnv.bind at h
  split at h
  · obtain rfl := Except.ok.inj h
    have : ∀ (ps : List (Var × V)) (s : SEnv V), v ∉ ps.map Prod.fst →
        ps.foldl (fun s p => upd s p.1 (some p.2)) s v = s v := by
      intro ps
      induction ps with
      | nil => intros; rfl
      | cons p ps ih =>
        intro s hv
        rw [List.map_cons, List.mem_cons, not_or] at hv
        rw [List.foldl_cons, ih _ hv.2, upd_ne _ _ hv.1]
    apply this
    intro hm
    obtain ⟨p, hp, rfl⟩ := List.mem_map.mp hm
    exact hv (List.of_mem_zip hp).1
  · simp at h

theorem run_frame (ev : O → List V → Except Err (List V)) {es : List (Eqn O V)} {s s' : SEnv V}
    (h : specRun ev s es = .ok s') (v : Var) (hv : v ∉ boundBy es) : s' v = s v := by
  induction es generalizing s with
  | nil => rw [Except.ok.inj h]
  | cons e es ih =>
    unfold specRun at h
    split at h
    · simp at h
    · rename_i s1 h1
      have hv' : v ∉ e.outvars ∧ v ∉ boundBy es := by
        refine ⟨fun hh => hv ?_, fun hh => hv ?_⟩
        · exact List.mem_append_left _ hh
        · exact List.mem_append_right _ hh
      rw [ih h hv'.2]
      unfold specStep at h1
      split at h1
      · simp at h1
      · split at h1
        · simp at h1
        · exact bind_frame h1 v hv'.1

/-- The variables `D` are bound in `t`, and their images have the same values in `u`. -/
def Sim (D : List Var) (t u : SEnv V) (σ : Var → Atom V) : Prop :=
  ∀ v ∈ D, ∃ x, t v = some x ∧ u.get (σ v) = .ok x

theorem Sim.getMany {D : List Var} {t u : SEnv V} {σ : Var → Atom V} (h : Sim D t u σ) (as : List (Atom V))
    (ha : ∀ v, Atom.var v ∈ as → v ∈ D) :
    ∃ xs, t.getMany as = .ok xs ∧ u.getMany (as.map (Atom.subst σ)) = .ok xs ∧ xs.length = as.length := by
  induction as with
  | nil => exact ⟨[], rfl, rfl, rfl⟩
  | cons a as ih =>
    obtain ⟨xs, h1, h2, h3⟩ := ih fun v hv => ha v (List.mem_cons_of_mem _ hv)
    have : ∃ x, t.get a = .ok x ∧ u.get (a.subst σ) = .ok x := by
      cases a with
      | lit x => exact ⟨x, rfl, rfl⟩
      | var v =>
        obtain ⟨x, h4, h5⟩ := h v (ha v (List.mem_cons_self ..))
        exact ⟨x, by simp [SEnv.get, h4], h5⟩
    obtain ⟨x, h4, h5⟩ := this
    refine ⟨x :: xs, ?_, ?_, by simp [h3]⟩
    · simp [SEnv.getMany, h4, h1]
    · simp [SEnv.getMany, h5, h2]

/-- Running the equations with renamed variables gives the same outcome. -/
theorem run_sim (ev : O → List V → Except Err (List V)) (ev' : O' → List V → Except Err (List V)) (f : O' → O)
    (hf : ∀ o xs, ev (f o) xs = ev' o xs) (σ : Var → Atom V) (ρ : Var → Var) (hρ : Function.Injective ρ)
    (outs : List (Atom V)) (es : List (Eqn O' V)) (D : List Var) (t u : SEnv V) (hsc : Scoped D es outs)
    (hsim : Sim D t u σ) (hσ : ∀ w ∈ boundBy es, σ w = .var (ρ w))
    (hsep : ∀ v ∈ D, ∀ w ∈ boundBy es, σ v ≠ .var (ρ w)) :
    let es' : List (Eqn O V) := es.map fun e => ⟨f e.op, e.invars.map (Atom.subst σ), e.outvars.map ρ⟩
    (∃ err, specRun ev' t es = .error err ∧ specRun ev u es' = .error err) ∨
    ∃ t' u' ys, specRun ev' t es = .ok t' ∧ specRun ev u es' = .ok u' ∧ t'.getMany outs = .ok ys ∧
      u'.getMany (outs.map (Atom.subst σ)) = .ok ys ∧ ys.length = outs.length := by
  induction es generalizing D t u with
  | nil =>
    obtain ⟨xs, h1, h2, h3⟩ := hsim.getMany outs hsc
    exact Or.inr ⟨t, u, xs, rfl, rfl, h1, h2, h3⟩
  | cons e es ih =>
    obtain ⟨s1, s2, s3, s4⟩ := hsc
    obtain ⟨xs, h1, h2, _⟩ := hsim.getMany e.invars s1
    dsimp only
    rw [List.map_cons]
    unfold specRun specStep
    dsimp only
    rw [h1, h2]
    dsimp only
    rw [hf]
    cases hev : ev' e.op xs with
    | error err => exact Or.inl ⟨err, rfl, rfl⟩
    | ok ys =>
      dsimp only
      by_cases hl : e.outvars.length = ys.length
      · have e1 : t.bind e.outvars ys = .ok ((e.outvars.zip ys).foldl (fun s p => upd s p.1 (some p.2)) t) := by
          unfold SEnv.bind; rw [if_pos hl]
        have e2 : u.bind (e.outvars.map ρ) ys =
            .ok (((e.outvars.map ρ).zip ys).foldl (fun s p => upd s p.1 (some p.2)) u) := by
          unfold SEnv.bind; rw [if_pos (by simpa using hl)]
        rw [e1, e2]
        dsimp only
        obtain ⟨-, b1, b2⟩ := bind_ok s3 e1
        obtain ⟨-, c1, c2⟩ := bind_ok (List.Nodup.map hρ s3) e2
        set t1 := (e.outvars.zip ys).foldl (fun s p => upd s p.1 (some p.2)) t
        set u1 := ((e.outvars.map ρ).zip ys).foldl (fun s p => upd s p.1 (some p.2)) u
        have hin : ∀ w ∈ e.outvars, w ∈ boundBy (e :: es) := fun w hw => List.mem_append_left _ hw
        have htl : ∀ w ∈ boundBy es, w ∈ boundBy (e :: es) := fun w hw => List.mem_append_right _ hw
        apply ih (e.outvars ++ D) t1 u1 s4
        · intro v hv
          rcases List.mem_append.mp hv with hv | hv
          · obtain ⟨i, hi, rfl⟩ := List.getElem_of_mem hv
            refine ⟨ys[i]'(hl ▸ hi), ?_, ?_⟩
            · exact b1 (e.outvars[i], ys[i]'(hl ▸ hi)) (by
                rw [List.mem_iff_getElem]
                exact ⟨i, by simp; omega, by simp⟩)
            · rw [hσ _ (hin _ hv)]
              have := c1 (ρ e.outvars[i], ys[i]'(hl ▸ hi)) (by
                rw [List.mem_iff_getElem]
                exact ⟨i, by simp; omega, by simp⟩)
              simp only [SEnv.get]
              rw [this]
          · obtain ⟨x, h3, h4⟩ := hsim v hv
            refine ⟨x, ?_, ?_⟩
            · rw [b2 v (fun hh => s2 v hh hv), h3]
            · cases hs : σ v with
              | lit y => rw [hs] at h4; exact h4
              | var w =>
                rw [hs] at h4
                have : u1 w = u w := c2 w (by
                  intro hm
                  obtain ⟨w', hw', rfl⟩ := List.mem_map.mp hm
                  exact hsep v hv w' (hin _ hw') hs)
                simpa [SEnv.get, this] using h4
        · exact fun w hw => hσ w (htl w hw)
        · intro v hv w hw
          rcases List.mem_append.mp hv with hv' | hv'
          · rw [hσ v (hin v hv')]
            intro he
            have he : ρ v = ρ w := by simpa using he
            exact s4.fresh w hw (List.mem_append_left _ (hρ he ▸ hv'))
          · exact hsep v hv' w (htl w hw)
      · have e1 : t.bind e.outvars ys = .error .length := by unfold SEnv.bind; rw [if_neg hl]
        have e2 : u.bind (e.outvars.map ρ) ys = .error .length := by
          unfold SEnv.bind; rw [if_neg (by simpa using hl)]
        rw [e1, e2]
        exact Or.inl ⟨_, rfl, rfl⟩

theorem bindAtoms_mem {ks : List Var} {as : List (Atom V)} {σ : Var → Atom V} (hl : ks.length = as.length)
    (hn : ks.Nodup) (i : ℕ) (hi : i < ks.length) : bindAtoms ks as σ ks[i] = as[i]'(hl ▸ hi) := by
  induction ks generalizing as i with
  | nil => simp at hi
  | cons k ks ih =>
    cases as with
    | nil => simp at hl
    | cons a as =>
      rw [List.nodup_cons] at hn
      cases i with
      | zero => simp [bindAtoms]
      | succ i =>
        have hi' : i < ks.length := by simpa using hi
        have hne : ks[i] ≠ k := fun he => hn.1 (he ▸ List.getElem_mem hi')
        simp only [List.getElem_cons_succ, bindAtoms, if_neg hne]
        exact ih (by simpa using hl) hn.2 i hi'

theorem bindAtoms_notMem {ks : List Var} {as : List (Atom V)} {σ : Var → Atom V} (v : Var) (hv : v ∉ ks) :
    bindAtoms ks as σ v = σ v := by
  induction ks generalizing as with
  | nil => rfl
  | cons k ks ih =>
    rw [List.mem_cons, not_or] at hv
    cases as with
    | nil => rfl
    | cons a as => simp only [bindAtoms, if_neg hv.1]; exact ih hv.2

theorem specRun_append (ev : O → List V → Except Err (List V)) (s : SEnv V) (pre post : List (Eqn O V)) :
    specRun ev s (pre ++ post) = match specRun ev s pre with
      | .error e => .error e
      | .ok s' => specRun ev s' post := by
  induction pre generalizing s with
  | nil => rfl
  | cons e pre ih =>
    rw [List.cons_append, specRun, specRun]
    cases specStep ev s e with
    | error err => rfl
    | ok s' => exact ih s'

theorem bind_dom {s s' : SEnv V} {vs : List Var} {xs : List V} (h : s.bind vs xs = .ok s') (v : Var)
    (hv : v ∈ vs ∨ s v ≠ none) : s' v ≠ none := by
  unfold SEnv.bind at h
  split at h
  · rename_i hl
    obtain rfl := Except.ok.inj h
    have : ∀ (ps : List (Var × V)) (s : SEnv V), (v ∈ ps.map Prod.fst ∨ s v ≠ none) →
        ps.foldl (fun s p => upd s p.1 (some p.2)) s v ≠ none := by
      intro ps
      induction ps with
      | nil => intro s hs; simpa using hs
      | cons p ps ih =>
        intro s hs
        rw [List.foldl_cons]
        apply ih
        by_cases hp : v = p.1
        · right; rw [hp, upd_self]; simp
        · rw [upd_ne _ _ hp]
          rw [List.map_cons, List.mem_cons] at hs
          rcases hs with (hs | hs) | hs
          · exact absurd hs hp
          · exact Or.inl hs
          · exact Or.inr hs
    apply this
    rwa [List.map_fst_zip (by omega)]
  · simp at h

theorem run_dom (ev : O → List V → Except Err (List V)) {es : List (Eqn O V)} {s s' : SEnv V}
    (h : specRun ev s es = .ok s') (v : Var) (hv : v ∈ boundBy es ∨ s v ≠ none) : s' v ≠ none := by
  induction es generalizing s with
  | nil =>
    rw [← Except.ok.inj h]
    simpa [boundBy] using hv
  | cons e es ih =>
    unfold specRun at h
    split at h
    · simp at h
    · rename_i s1 h1
      apply ih h
      unfold specStep at h1
      split at h1
      · simp at h1
      · split at h1
        · simp at h1
        · rcases hv with hv | hv
          · rcases List.mem_append.mp (show v ∈ e.outvars ++ boundBy es from hv) with h2 | h2
            · exact Or.inr (bind_dom h1 v (Or.inl h2))
            · exact Or.inl h2
          · exact Or.inr (bind_dom h1 v (Or.inr hv))

theorem getMany_getElem {s : SEnv V} {as : List (Atom V)} {xs : List V} (h : s.getMany as = .ok xs) :
    ∃ hl : as.length = xs.length, ∀ i (hi : i < as.length), s.get as[i] = .ok (xs[i]'(hl ▸ hi)) := by
  induction as generalizing xs with
  | nil => obtain rfl := Except.ok.inj h; exact ⟨rfl, fun i hi => by simp at hi⟩
  | cons a as ih =>
    unfold SEnv.getMany at h
    split at h
    · simp at h
    · rename_i x hx
      split at h
      · simp at h
      · rename_i ys hy
        obtain rfl := Except.ok.inj h
        obtain ⟨hl, h2⟩ := ih hy
        refine ⟨by simp [hl], fun i hi => ?_⟩
        cases i with
        | zero => exact hx
        | succ i => exact h2 i (by simpa using hi)

/-- Inlining a call does not change the outcome of a program. -/
theorem evalSpec_inlineAt (ev : O → List V → Except Err (List V)) (evS : O' → List V → Except Err (List V))
    (f : O' → O) (hf : ∀ o xs, ev (f o) xs = evS o xs) (N : ℕ) (constvars invars : List Var) (pre : List (Eqn O V))
    (op : O) (sub : Jaxpr O' V) (consts : List V) (as : List (Atom V)) (os : List Var) (post : List (Eqn O V))
    (outs : List (Atom V)) (hop : ∀ xs, ev op xs = evalSpec evS sub consts xs)
    (hval : (⟨constvars, invars, pre ++ ⟨op, as, os⟩ :: post, outs⟩ : Jaxpr O V).Valid) (hsub : sub.Valid)
    (hN : ∀ v ∈ constvars ++ invars ++ boundBy (pre ++ ⟨op, as, os⟩ :: post), v < N)
    (hlc : consts.length = sub.constvars.length) (hli : as.length = sub.invars.length)
    (hlo : os.length = sub.outvars.length) (cs args : List V) :
    evalSpec ev ⟨constvars, invars, pre ++ ⟨op, as, os⟩ :: post, outs⟩ cs args =
      evalSpec ev (inlineAt N f constvars invars pre sub consts as os post outs) cs args := by
  unfold evalSpec
  have e0 : specInit (inlineAt N f constvars invars pre sub consts as os post outs) cs args =
    specInit (⟨constvars, invars, pre ++ ⟨op, as, os⟩ :: post, outs⟩ : Jaxpr O V) cs args := rfl
  rw [e0]
  cases hinit : specInit (⟨constvars, invars, pre ++ ⟨op, as, os⟩ :: post, outs⟩ : Jaxpr O V) cs args with
  | error e => rfl
  | ok s0 =>
    dsimp only [inlineAt]
    rw [List.append_assoc, specRun_append, specRun_append]
    cases hpre : specRun ev s0 pre with
    | error e => rfl
    | ok s =>
      dsimp only
      -- the state after `pre`
      have hdom0 : ∀ v ∈ constvars ++ invars, s0 v ≠ none := by
        intro v hv
        unfold specInit at hinit
        split at hinit
        · simp at hinit
        · rename_i s1 h1
          rcases List.mem_append.mp hv with hv | hv
          · exact bind_dom hinit v (Or.inr (bind_dom h1 v (Or.inl hv)))
          · exact bind_dom hinit v (Or.inl hv)
      obtain ⟨D, d1, d2, d3, d4⟩ := hval.inScope.append
      obtain ⟨sc1, sc2, sc3, sc4⟩ := d4
      have hdom : ∀ v ∈ D, ∃ x, s v = some x := by
        intro v hv
        apply Option.ne_none_iff_exists'.mp
        rcases d2 v hv with h | h
        · exact run_dom ev hpre v (Or.inr (hdom0 v h))
        · exact run_dom ev hpre v (Or.inl h)
      have hDN : ∀ v ∈ D, v < N := by
        intro v hv
        apply hN
        rcases d2 v hv with h | h
        · exact List.mem_append_left _ h
        · apply List.mem_append_right
          unfold boundBy
          rw [List.flatMap_append]
          exact List.mem_append_left _ h
      have hpostN : ∀ w ∈ boundBy post, w < N := by
        intro w hw
        apply hN
        apply List.mem_append_right
        unfold boundBy
        rw [List.flatMap_append]
        exact List.mem_append_right _ (List.mem_append_right _ hw)
      -- the operands
      have hid : Sim D s s Atom.var := by
        intro v hv
        obtain ⟨x, hx⟩ := hdom v hv
        exact ⟨x, hx, by simp [SEnv.get, hx]⟩
      obtain ⟨xs, g1, -, g3⟩ := hid.getMany as sc1
      rw [specRun, specStep]
      dsimp only
      rw [g1]
      dsimp only
      rw [hop xs]
      -- the call
      have hdc : sub.constvars.Nodup := (List.nodup_append.mp hsub.distinct).1
      have hdi : sub.invars.Nodup := (List.nodup_append.mp hsub.distinct).2.1
      have hdd : ∀ v ∈ sub.invars, v ∉ sub.constvars := fun v hv hc =>
        (List.nodup_append.mp hsub.distinct).2.2 v hc v hv rfl
      obtain ⟨t0, ht0⟩ : ∃ t0, SEnv.bind (fun _ => none) sub.constvars consts = .ok t0 := by
        unfold SEnv.bind; rw [if_pos hlc.symm]; exact ⟨_, rfl⟩
      obtain ⟨t, ht⟩ : ∃ t, SEnv.bind t0 sub.invars xs = .ok t := by
        unfold SEnv.bind; rw [if_pos (by omega)]; exact ⟨_, rfl⟩
      obtain ⟨-, c1, -⟩ := bind_ok hdc ht0
      obtain ⟨-, i1, i2⟩ := bind_ok hdi ht
      have hsi : specInit sub consts xs = .ok t := by unfold specInit; rw [ht0]; exact ht
      have hσc : ∀ i (hi : i < sub.constvars.length),
          callSubst N sub consts as sub.constvars[i] = .lit (consts[i]'(hlc ▸ hi)) := by
        intro i hi
        unfold callSubst
        rw [bindAtoms_mem (by simp [hlc]) hdc i hi, List.getElem_map]
      have hσi : ∀ i (hi : i < sub.invars.length),
          callSubst N sub consts as sub.invars[i] = as[i]'(hli ▸ hi) := by
        intro i hi
        unfold callSubst
        rw [bindAtoms_notMem _ (hdd _ (List.getElem_mem hi)), bindAtoms_mem hli.symm hdi i hi]
      have hσo : ∀ v, v ∉ sub.constvars ++ sub.invars → callSubst N sub consts as v = .var (v + N) := by
        intro v hv
        rw [List.mem_append, not_or] at hv
        unfold callSubst
        rw [bindAtoms_notMem _ hv.1, bindAtoms_notMem _ hv.2]
      obtain ⟨ha1, ha2⟩ := getMany_getElem g1
      have simS : Sim (sub.constvars ++ sub.invars) t s (callSubst N sub consts as) := by
        intro v hv
        rcases List.mem_append.mp hv with hv | hv
        · obtain ⟨i, hi, rfl⟩ := List.getElem_of_mem hv
          refine ⟨consts[i]'(hlc ▸ hi), ?_, ?_⟩
          · rw [i2 _ (fun h => hdd _ h hv)]
            exact c1 (sub.constvars[i], consts[i]'(hlc ▸ hi)) (by
              rw [List.mem_iff_getElem]; exact ⟨i, by simp; omega, by simp⟩)
          · rw [hσc i hi]; rfl
        · obtain ⟨i, hi, rfl⟩ := List.getElem_of_mem hv
          refine ⟨xs[i]'(by omega), ?_, ?_⟩
          · exact i1 (sub.invars[i], xs[i]'(by omega)) (by
              rw [List.mem_iff_getElem]; exact ⟨i, by simp; omega, by simp⟩)
          · rw [hσi i hi]; exact ha2 i (by omega)
      have hsubran : ∀ v, (∃ y, callSubst N sub consts as v = .lit y) ∨ (∃ w ∈ D, callSubst N sub consts as v = .var w) ∨
          callSubst N sub consts as v = .var (v + N) := by
        intro v
        by_cases hv : v ∈ sub.constvars ++ sub.invars
        · rcases List.mem_append.mp hv with hv | hv
          · obtain ⟨i, hi, rfl⟩ := List.getElem_of_mem hv
            exact Or.inl ⟨_, hσc i hi⟩
          · obtain ⟨i, hi, rfl⟩ := List.getElem_of_mem hv
            rw [hσi i hi]
            have hm : as[i]'(hli ▸ hi) ∈ as := List.getElem_mem _
            cases hcase : as[i]'(hli ▸ hi) with
            | lit y => exact Or.inl ⟨y, rfl⟩
            | var w => exact Or.inr (Or.inl ⟨w, sc1 w (hcase ▸ hm), rfl⟩)
        · exact Or.inr (Or.inr (hσo v hv))
      have hsim := run_sim ev evS f hf (callSubst N sub consts as) (· + N) (fun a b h => by simpa using h) sub.outvars
        sub.eqns (sub.constvars ++ sub.invars) t s hsub.inScope simS
        (fun w hw => hσo w (hsub.inScope.fresh w hw))
        (fun v hv w hw => by
          rcases hsubran v with ⟨y, hy⟩ | ⟨w', hw', hy⟩ | hy
          · rw [hy]; simp
          · rw [hy]
            have := hDN w' hw'
            intro he
            have he : w' = w + N := Atom.var.inj he
            exact absurd (he ▸ this) (Nat.not_lt.mpr (Nat.le_add_left ..))
          · rw [hy]
            intro he
            have he : v + N = w + N := Atom.var.inj he
            have : v = w := Nat.add_right_cancel he
            exact hsub.inScope.fresh w hw (this ▸ hv))
      dsimp only at hsim
      unfold evalSpec
      rw [hsi]
      dsimp only
      rw [specRun_append]
      rcases hsim with ⟨err, r1, r2⟩ | ⟨t', u', ys, r1, r2, r3, r4, r5⟩
      · rw [r1]
        have : specRun ev s (callEqns N f sub consts as) = .error err := r2
        rw [this]
      · rw [r1]
        have r2' : specRun ev s (callEqns N f sub consts as) = .ok u' := r2
        rw [r2']
        dsimp only
        rw [r3]
        dsimp only
        obtain ⟨s1, hs1⟩ : ∃ s1, SEnv.bind s os ys = .ok s1 := by
          unfold SEnv.bind; rw [if_pos (by omega)]; exact ⟨_, rfl⟩
        rw [hs1]
        dsimp only
        obtain ⟨-, b1, b2⟩ := bind_ok sc3 hs1
        have hu' : ∀ v, v < N → u' v = s v := by
          intro v hv
          apply run_frame ev r2' v
          intro hm
          unfold boundBy callEqns at hm
          rw [List.mem_flatMap] at hm
          obtain ⟨e, he, hm⟩ := hm
          obtain ⟨e', -, rfl⟩ := List.mem_map.mp he
          obtain ⟨w, -, rfl⟩ := List.mem_map.mp hm
          omega
        obtain ⟨ho1, ho2⟩ := getMany_getElem r4
        have hρo : ∀ i (hi : i < os.length), resultSubst N sub consts as os os[i] =
            (sub.outvars[i]'(hlo ▸ hi)).subst (callSubst N sub consts as) := by
          intro i hi
          unfold resultSubst
          rw [bindAtoms_mem (by simp [hlo]) sc3 i hi, List.getElem_map]
        have hρn : ∀ v, v ∉ os → resultSubst N sub consts as os v = .var v := by
          intro v hv
          unfold resultSubst
          rw [bindAtoms_notMem _ hv]
        have simP : Sim (os ++ D) s1 u' (resultSubst N sub consts as os) := by
          intro v hv
          rcases List.mem_append.mp hv with hv | hv
          · obtain ⟨i, hi, rfl⟩ := List.getElem_of_mem hv
            refine ⟨ys[i]'(by omega), ?_, ?_⟩
            · exact b1 (os[i], ys[i]'(by omega)) (by
                rw [List.mem_iff_getElem]; exact ⟨i, by simp; omega, by simp⟩)
            · rw [hρo i hi]
              have := ho2 i (by simp; omega)
              rwa [List.getElem_map] at this
          · have hno : v ∉ os := fun h => sc2 v h hv
            obtain ⟨x, hx⟩ := hdom v hv
            refine ⟨x, by rw [b2 v hno, hx], ?_⟩
            rw [hρn v hno]
            simp [SEnv.get, hu' v (hDN v hv), hx]
        have hfin := run_sim ev ev id (fun _ _ => rfl) (resultSubst N sub consts as os) id (fun _ _ h => h) outs post
          (os ++ D) s1 u' sc4 simP
          (fun w hw => hρn w (fun h => sc4.fresh w hw (List.mem_append_left _ h)))
          (fun v hv w hw => by
            have hwf := sc4.fresh w hw
            rcases List.mem_append.mp hv with hv | hv
            · obtain ⟨i, hi, rfl⟩ := List.getElem_of_mem hv
              rw [hρo i hi]
              cases sub.outvars[i]'(hlo ▸ hi) with
              | lit y => simp [Atom.subst]
              | var z =>
                show callSubst N sub consts as z ≠ _
                rcases hsubran z with ⟨y, hy⟩ | ⟨w', hw', hy⟩ | hy
                · rw [hy]; simp
                · rw [hy]
                  simp only [ne_eq, Atom.var.injEq, id]
                  intro he
                  exact hwf (List.mem_append_right _ (he ▸ hw'))
                · rw [hy]
                  have := hpostN w hw
                  intro he
                  have he : z + N = w := Atom.var.inj he
                  exact absurd (he ▸ this) (Nat.not_lt.mpr (Nat.le_add_left ..))
            · rw [hρn v (fun h => sc2 v h hv)]
              simp only [ne_eq, Atom.var.injEq, id]
              intro he
              exact hwf (List.mem_append_right _ (he ▸ hv)))
        simp only [List.map_id, id] at hfin
        rcases hfin with ⟨err, r6, r7⟩ | ⟨t2, u2, zs, r6, r7, r8, r9, -⟩
        · rw [r6, r7]
        · rw [r6, r7]
          dsimp only
          rw [r8, r9]

end Folx.Interp

import Verif.Props.InitProps

/-!
# C08, C27, C28, C29: plain values, nested functions, loops
-/

namespace Folx

open Filter Topology
open Folx.Interp

section Plain
variable {F : Type} [Zero F]

/-! ### C08 -/

/-- Plain arrays as values of the interpreter. -/
def asPlain (xs : List (PArr F)) : List (PVal F) := xs.map PVal.ofPlain

omit [Zero F] in
theorem asPlain_all (xs : List (PArr F)) : (asPlain xs).all (fun v => !v.2.isLapl) = true := by
  rw [List.all_eq_true]
  intro v hv
  obtain ⟨a, _, rfl⟩ := List.mem_map.mp hv
  rfl

omit [Zero F] in
theorem asPlain_x (xs : List (PArr F)) : ((asPlain xs).map fun v => (⟨v.1, v.2.x⟩ : PArr F)) = xs := by
  unfold asPlain
  rw [List.map_map]
  exact List.map_id _

/-- **C08**, one equation: if no operand carries derivatives the result is the ordinary one, without derivatives — also
for jitted functions (whatever is registered) and loops. -/
theorem C08_equation (reg : String → Option (Prim F)) (junk : List (PVal F) → PVal F) (T d : ℕ) (op : Op d F)
    (xs : List (PArr F)) : evLapl reg junk T d op (asPlain xs) = (evPlain d op xs).map asPlain := by
  cases d with
  | zero => exact nomatch op
  | succ d =>
    unfold evLapl
    rw [if_pos (asPlain_all xs), asPlain_x]
    cases evPlain (d + 1) op xs <;> rfl

omit [Zero F] in
/-- **C08**: a function wrapped with `wrap_forward_laplacian` called without derivative-carrying argument returns the
plain function value. -/
theorem C08_wrapped [CommRing F] (p : WPrim F) (T : ℕ) (x : (i : Fin p.nIn) → Fin (p.size i) → F) :
    p.call T (fun i => .plain (x i)) = .ok (.plain (p.fwd x)) := by
  unfold WPrim.call
  have : WPrim.laplIdx (fun i => (Opd.plain (x i) : Opd F (p.size i))) = ∅ := by
    unfold WPrim.laplIdx
    simp [Opd.isLapl]
  rw [if_pos (by rw [this]; rfl)]
  rfl

/-- Variables that (syntactically) depend on a set of variables, after the equations. -/
def dependents {O V : Type} : List (Eqn O V) → (Var → Prop) → Var → Prop
  | [], D => D
  | e :: es, D => dependents es fun v =>
      if v ∈ e.outvars then ∃ u, Atom.var u ∈ e.invars ∧ D u else D v

/-- Both environments hold the same plain values outside of `D`. -/
def AgreeOff (D : Var → Prop) (s : SEnv (PVal F)) (s' : SEnv (PArr F)) : Prop :=
  ∀ v, ¬ D v → s v = (s' v).map PVal.ofPlain

omit [Zero F] in
theorem agree_getMany {D : Var → Prop} {s : SEnv (PVal F)} {s' : SEnv (PArr F)} (h : AgreeOff D s s') :
    ∀ as : List (Atom (PArr F)), (∀ u, Atom.var u ∈ as → ¬ D u) →
      s.getMany (as.map (Atom.map PVal.ofPlain)) = (s'.getMany as).map asPlain
  | [], _ => rfl
  | a :: as, hD => by
    have ih := agree_getMany h as fun u hu => hD u (by simp [hu])
    have h1 : s.get (a.map PVal.ofPlain) = (s'.get a).map PVal.ofPlain := by
      cases a with
      | lit p => rfl
      | var u =>
        have := h u (hD u (by simp))
        simp only [Atom.map, SEnv.get, this]
        cases s' u <;> rfl
    simp only [List.map_cons, SEnv.getMany, h1, ih]
    cases s'.get a with
    | error e => rfl
    | ok x =>
      cases s'.getMany as <;> rfl

theorem foldl_upd_not_mem {V : Type} (v : Var) : ∀ (l : List (Var × V)) (s : SEnv V), v ∉ l.map Prod.fst →
    (l.foldl (fun s p => Interp.upd s p.1 (some p.2)) s) v = s v
  | [], _, _ => rfl
  | p :: l, s, h => by
    simp only [List.map_cons, List.mem_cons, not_or] at h
    rw [List.foldl_cons, foldl_upd_not_mem v l _ h.2]
    simp [Interp.upd, h.1]

omit [Zero F] in
theorem foldl_upd_agree (v : Var) : ∀ (vs : List Var) (xs : List (PArr F)) (s : SEnv (PVal F)) (s' : SEnv (PArr F)),
    vs.length = xs.length → (v ∈ vs ∨ s v = (s' v).map PVal.ofPlain) →
    ((vs.zip (asPlain xs)).foldl (fun s p => Interp.upd s p.1 (some p.2)) s) v =
      (((vs.zip xs).foldl (fun s p => Interp.upd s p.1 (some p.2)) s') v).map PVal.ofPlain
  | [], _, s, s', _, h => by simpa using h
  | w :: vs, x :: xs, s, s', hl, h => by
    have ih := foldl_upd_agree v vs xs (Interp.upd s w (some (PVal.ofPlain x))) (Interp.upd s' w (some x))
      (by simpa using hl)
    refine ih ?_
    by_cases hw : v = w
    · right
      simp [Interp.upd, hw]
    · rcases h with h | h
      · left
        simpa [hw] using h
      · right
        simp [Interp.upd, hw, h]

theorem specRun_agree (reg : String → Option (Prim F)) (junk : List (PVal F) → PVal F) (T d : ℕ) :
    ∀ (es : List (Eqn (Op d F) (PArr F))) (D : Var → Prop) (s s1 : SEnv (PVal F)) (s' s1' : SEnv (PArr F)),
      AgreeOff D s s' → specRun (evLapl reg junk T d) s (es.map (Eqn.map PVal.ofPlain)) = .ok s1 →
      specRun (evPlain d) s' es = .ok s1' → AgreeOff (dependents es D) s1 s1'
  | [], D, s, s1, s', s1', h, h1, h2 => by
    obtain rfl := Except.ok.inj h1
    obtain rfl := Except.ok.inj h2
    exact h
  | e :: es, D, s, s1, s', s1', h, h1, h2 => by
    rw [List.map_cons, specRun] at h1
    rw [specRun] at h2
    cases hs : specStep (evLapl reg junk T d) s (e.map PVal.ofPlain) with
    | error err => simp [hs] at h1
    | ok sa =>
    cases hs' : specStep (evPlain d) s' e with
    | error err => simp [hs'] at h2
    | ok sa' =>
    simp only [hs] at h1
    simp only [hs'] at h2
    refine specRun_agree reg junk T d es _ sa s1 sa' s1' ?_ h1 h2
    unfold specStep at hs hs'
    have hin : (e.map (PVal.ofPlain : PArr F → PVal F)).invars = e.invars.map (Atom.map PVal.ofPlain) := rfl
    rw [hin] at hs
    cases hg' : s'.getMany e.invars with
    | error err => simp [hg'] at hs'
    | ok xs' =>
    cases hg : s.getMany (e.invars.map (Atom.map PVal.ofPlain)) with
    | error err => simp [hg] at hs
    | ok xs =>
    simp only [hg'] at hs'
    simp only [hg] at hs
    cases he' : evPlain d e.op xs' with
    | error err => simp [he'] at hs'
    | ok ys' =>
    cases he : evLapl reg junk T d (e.map (PVal.ofPlain : PArr F → PVal F)).op xs with
    | error err => simp [he] at hs
    | ok ys =>
    simp only [he'] at hs'
    simp only [he] at hs
    unfold SEnv.bind at hs hs'
    split at hs
    case isFalse => simp at hs
    split at hs'
    case isFalse => simp at hs'
    rename_i hl hl'
    obtain rfl := Except.ok.inj hs
    obtain rfl := Except.ok.inj hs'
    intro v hv
    beta_reduce at hv
    have hout : (e.map (PVal.ofPlain : PArr F → PVal F)).outvars = e.outvars := rfl
    rw [hout] at hl ⊢
    by_cases hm : v ∈ e.outvars
    · rw [if_pos hm] at hv
      push Not at hv
      have hxs : xs = asPlain xs' := by
        have := agree_getMany h e.invars hv
        rw [hg, hg'] at this
        exact Except.ok.inj this
      have hys : ys = asPlain ys' := by
        have hC := C08_equation reg junk T d e.op xs'
        rw [← hxs] at hC
        have := he.symm.trans hC
        rw [he'] at this
        exact Except.ok.inj this
      subst hys
      exact foldl_upd_agree v e.outvars ys' s s' (by simpa [asPlain] using hl) (Or.inl hm)
    · rw [if_neg hm] at hv
      rw [foldl_upd_not_mem v _ _ (by rw [List.map_fst_zip (by omega)]; exact hm),
        foldl_upd_not_mem v _ _ (by rw [List.map_fst_zip (by omega)]; exact hm)]
      exact h v hv

/-- **C08**, whole programs: an output that does not depend on the arguments comes back as the plain ordinary value
(whatever happens to the other outputs). -/
theorem C08_program (reg : String → Option (Prim F)) (junk : List (PVal F) → PVal F) (T d : ℕ)
    (j : Jaxpr (Op d F) (PArr F)) (consts : List (PArr F)) (args : List (PVal F)) (args' : List (PArr F))
    (ys : List (PVal F)) (ys' : List (PArr F)) (h : evalLapl reg junk T d j consts args = .ok ys)
    (h' : evalPlain d j consts args' = .ok ys')
    (k : ℕ) (v : Var) (hv : j.outvars[k]? = some (.var v)) (hdep : ¬ dependents j.eqns (· ∈ j.invars) v) :
    ∃ a : PArr F, ys'[k]? = some a ∧ ys[k]? = some (PVal.ofPlain a) := by
  have hs := evalRC_safe _ _ _ _ _ h
  unfold evalPlain at h'
  unfold evalSpec at hs h'
  cases hi : specInit (j.map PVal.ofPlain) (consts.map PVal.ofPlain) args with
  | error err => simp [hi] at hs
  | ok s =>
  cases hi' : specInit j consts args' with
  | error err => simp [hi'] at h'
  | ok s' =>
  simp only [hi] at hs
  simp only [hi'] at h'
  cases hr : specRun (evLapl reg junk T d) s (j.map PVal.ofPlain).eqns with
  | error err => simp [hr] at hs
  | ok s1 =>
  cases hr' : specRun (evPlain d) s' j.eqns with
  | error err => simp [hr'] at h'
  | ok s1' =>
  simp only [hr] at hs
  simp only [hr'] at h'
  have h0 : AgreeOff (· ∈ j.invars) s s' := by
    unfold specInit SEnv.bind at hi hi'
    intro u hu
    split at hi
    · simp at hi
    · rename_i s0 hb
      split at hi'
      · simp at hi'
      · rename_i s0' hb'
        split at hb <;> simp only [Except.ok.injEq, reduceCtorEq] at hb
        split at hb' <;> simp only [Except.ok.injEq, reduceCtorEq] at hb'
        split at hi <;> simp only [Except.ok.injEq, reduceCtorEq] at hi
        split at hi' <;> simp only [Except.ok.injEq, reduceCtorEq] at hi'
        rename_i l1 l2 l3 l4
        subst hi hi' hb hb'
        have e1 : j.invars.length = args.length := l3
        have e2 : j.constvars.length = consts.length := l2
        refine (foldl_upd_not_mem u (j.invars.zip args) _ (by rw [List.map_fst_zip (by omega)]; exact hu)).trans ?_
        refine Eq.trans ?_ (congrArg (Option.map PVal.ofPlain)
          (foldl_upd_not_mem u (j.invars.zip args') _ (by rw [List.map_fst_zip (by omega)]; exact hu)).symm)
        exact foldl_upd_agree u j.constvars consts (fun _ => none) (fun _ => none) e2 (Or.inr rfl)
  have h1 := specRun_agree reg junk T d j.eqns _ s s1 s' s1' h0 hr hr' v hdep
  have get : ∀ {V : Type} (s : SEnv V) (as : List (Atom V)) (ys : List V) (k : ℕ), s.getMany as = .ok ys →
      as[k]? = some (.var v) → ∃ y, s v = some y ∧ ys[k]? = some y := by
    intro V s as
    induction as with
    | nil => intro ys k _ hk; simp at hk
    | cons a as ih =>
      intro ys k hg hk
      simp only [SEnv.getMany] at hg
      cases ha : s.get a with
      | error e => simp [ha] at hg
      | ok x =>
        cases hr : s.getMany as with
        | error e => simp [ha, hr] at hg
        | ok xs =>
          simp only [ha, hr, Except.ok.injEq] at hg
          subst hg
          cases k with
          | zero =>
            simp only [List.getElem?_cons_zero, Option.some.injEq] at hk
            subst hk
            simp only [SEnv.get] at ha
            cases hv : s v with
            | none => simp [hv] at ha
            | some y =>
              simp only [hv, Except.ok.injEq] at ha
              exact ⟨y, rfl, by simp [ha]⟩
          | succ k => exact ih xs k hr (by simpa using hk)
  obtain ⟨a, g1, g2⟩ := get s1' j.outvars ys' k h' hv
  have hv2 : (j.map (PVal.ofPlain : PArr F → PVal F)).outvars[k]? = some (.var v) := by
    simp [Jaxpr.map, hv, Atom.map]
  obtain ⟨b, g3, g4⟩ := get s1 _ ys k hs hv2
  rw [g1, g3] at h1
  simp only [Option.map_some, Option.some.injEq] at h1
  exact ⟨a, g2, by rw [g4, h1]⟩

/-- Evaluating a whole program on plain arrays gives the ordinary result, as plain arrays. -/
theorem evalSpec_plain (reg : String → Option (Prim F)) (junk : List (PVal F) → PVal F) (T d : ℕ)
    (j : Jaxpr (Op d F) (PArr F)) (consts args : List (PArr F)) :
    evalSpec (evLapl reg junk T d) (j.map PVal.ofPlain) (consts.map PVal.ofPlain) (asPlain args) =
      (evalPlain d j consts args).map asPlain := by
  have bindEq : ∀ (s : SEnv (PVal F)) (s' : SEnv (PArr F)) (vs : List Var) (xs : List (PArr F)),
      AgreeOff (fun _ => False) s s' →
      (∃ e, s.bind vs (asPlain xs) = .error e ∧ s'.bind vs xs = .error e) ∨
      ∃ t t', s.bind vs (asPlain xs) = .ok t ∧ s'.bind vs xs = .ok t' ∧ AgreeOff (fun _ => False) t t' := by
    intro s s' vs xs hag
    unfold SEnv.bind
    have hlen : (asPlain xs).length = xs.length := by simp [asPlain]
    by_cases hl : vs.length = xs.length
    · right
      refine ⟨_, _, if_pos (hl.trans hlen.symm), if_pos hl, fun v _ => ?_⟩
      exact foldl_upd_agree v vs xs s s' hl (Or.inr (hag v (fun h => h)))
    · left
      exact ⟨_, if_neg (by rw [hlen]; exact hl), if_neg hl⟩
  have runEq : ∀ (es : List (Eqn (Op d F) (PArr F))) (s : SEnv (PVal F)) (s' : SEnv (PArr F)),
      AgreeOff (fun _ => False) s s' →
      (∃ e, specRun (evLapl reg junk T d) s (es.map (Eqn.map PVal.ofPlain)) = .error e ∧
        specRun (evPlain d) s' es = .error e) ∨
      ∃ t t', specRun (evLapl reg junk T d) s (es.map (Eqn.map PVal.ofPlain)) = .ok t ∧
        specRun (evPlain d) s' es = .ok t' ∧ AgreeOff (fun _ => False) t t' := by
    intro es
    induction es with
    | nil => exact fun s s' hag => Or.inr ⟨s, s', rfl, rfl, hag⟩
    | cons e es ih =>
      intro s s' hag
      have hget := agree_getMany hag e.invars (fun _ _ h => h)
      rw [List.map_cons, specRun, specRun]
      have hstep : (∃ err, specStep (evLapl reg junk T d) s (e.map PVal.ofPlain) = .error err ∧
            specStep (evPlain d) s' e = .error err) ∨
          ∃ t t', specStep (evLapl reg junk T d) s (e.map PVal.ofPlain) = .ok t ∧ specStep (evPlain d) s' e = .ok t' ∧
            AgreeOff (fun _ => False) t t' := by
        unfold specStep
        have hin : (e.map (PVal.ofPlain : PArr F → PVal F)).invars = e.invars.map (Atom.map PVal.ofPlain) := rfl
        have hop : (e.map (PVal.ofPlain : PArr F → PVal F)).op = e.op := rfl
        have hout : (e.map (PVal.ofPlain : PArr F → PVal F)).outvars = e.outvars := rfl
        rw [hin, hop, hout, hget]
        cases hg : s'.getMany e.invars with
        | error err => exact Or.inl ⟨err, rfl, rfl⟩
        | ok xs =>
          simp only [Except.map]
          rw [C08_equation]
          cases he : evPlain d e.op xs with
          | error err => exact Or.inl ⟨err, rfl, rfl⟩
          | ok ys =>
            simp only [Except.map]
            exact bindEq s s' e.outvars ys hag
      rcases hstep with ⟨err, h1, h2⟩ | ⟨t, t', h1, h2, h3⟩
      · rw [h1, h2]
        exact Or.inl ⟨err, rfl, rfl⟩
      · rw [h1, h2]
        exact ih t t' h3
  unfold evalPlain evalSpec specInit
  have hc : consts.map PVal.ofPlain = asPlain consts := rfl
  have hcv : (j.map (PVal.ofPlain : PArr F → PVal F)).constvars = j.constvars := rfl
  have hiv : (j.map (PVal.ofPlain : PArr F → PVal F)).invars = j.invars := rfl
  have hev : (j.map (PVal.ofPlain : PArr F → PVal F)).eqns = j.eqns.map (Eqn.map PVal.ofPlain) := rfl
  have hov : (j.map (PVal.ofPlain : PArr F → PVal F)).outvars = j.outvars.map (Atom.map PVal.ofPlain) := rfl
  rw [hc, hcv, hiv, hev, hov]
  rcases bindEq (fun _ => none) (fun _ => none) j.constvars consts (fun _ _ => rfl) with
    ⟨e, h1, h2⟩ | ⟨s1, s1', h1, h2, h3⟩
  · rw [h1, h2]; rfl
  · rw [h1, h2]
    dsimp only
    rcases bindEq s1 s1' j.invars args h3 with ⟨e, h1, h2⟩ | ⟨s2, s2', h4, h5, h6⟩
    · rw [h1, h2]; rfl
    · rw [h4, h5]
      dsimp only
      rcases runEq j.eqns s2 s2' h6 with ⟨e, h1, h2⟩ | ⟨s3, s3', h7, h8, h9⟩
      · rw [h1, h2]; rfl
      · rw [h7, h8]
        exact agree_getMany h9 j.outvars (fun _ _ h => h)

/-- `sin` of a constant next to `sin` of the argument: the first output is plain. -/
example (reg : String → Option (Prim ℝ)) (junk : List (PVal ℝ) → PVal ℝ) (T : ℕ) (c : PArr ℝ) (args : List (PVal ℝ))
    (args' : List (PArr ℝ)) (ys : List (PVal ℝ)) (ys' : List (PArr ℝ)) :
    let j : Jaxpr (Op 1 ℝ) (PArr ℝ) := ⟨[7], [0], [⟨OpStep.prim Demo.sinP, [.var 7], [1]⟩,
      ⟨OpStep.prim Demo.sinP, [.var 0], [2]⟩], [.var 1, .var 2]⟩
    evalLapl reg junk T 1 j [c] args = .ok ys → evalPlain 1 j [c] args' = .ok ys' →
      ∃ a, ys'[0]? = some a ∧ ys[0]? = some (PVal.ofPlain a) := by
  intro j h h'
  exact C08_program reg junk T 1 j [c] args args' ys ys' h h' 0 1 rfl (by simp [j, dependents])

end Plain

/-! ### C27 -/

section Jit
variable {F : Type} [Zero F]

theorem evLapl_pjit (reg : String → Option (Prim F)) (junk : List (PVal F) → PVal F) (T d : ℕ) (name : String)
    (j : Jaxpr (Op d F) (PArr F)) (consts : List (PArr F)) (xs : List (PVal F)) :
    evLapl reg junk T (d + 1) (OpStep.pjit name j consts) xs =
      if xs.all (fun v => !v.2.isLapl) then
        match evalPlain d j consts (xs.map fun v => ⟨v.1, v.2.x⟩) with
        | .error e => .error e
        | .ok ys => .ok (ys.map PVal.ofPlain)
      else match reg name with
        | some p => p.call T xs
        | none => evalLapl reg junk T d j consts xs := rfl

/-- **C27.** An unregistered jitted sub-function is interpreted as if it stood alone: the equation has exactly the
outcome (results or error) of interpreting the sub-program on the operands. -/
theorem C27_inline (reg : String → Option (Prim F)) (junk : List (PVal F) → PVal F) (T d : ℕ) (name : String)
    (j : Jaxpr (Op d F) (PArr F)) (consts : List (PArr F)) (xs : List (PVal F)) (hreg : reg name = none)
    (hbound : ∀ v, Atom.var v ∈ j.outvars → (readsOf j.eqns j.outvars).count v ≤ 2147483647) :
    evLapl reg junk T (d + 1) (OpStep.pjit name j consts) xs = evalLapl reg junk T d j consts xs := by
  rw [evLapl_pjit]
  split
  · rename_i hall
    have hxs : xs = asPlain (xs.map fun v => (⟨v.1, v.2.x⟩ : PArr F)) := by
      unfold asPlain
      rw [List.map_map]
      conv_lhs => rw [← List.map_id xs]
      apply List.map_congr_left
      intro v hv
      have := List.all_eq_true.mp hall v hv
      obtain ⟨m, o⟩ := v
      cases o with
      | plain a => rfl
      | lapl t => simp [Opd.isLapl] at this
    unfold evalLapl
    rw [C06_refcount_never_loses_values _ _ _ _ (fun v hv => by
      rw [readsOf_map]; exact hbound v (mem_map_var _ _ v hv))]
    conv_rhs => rw [hxs]
    rw [evalSpec_plain]
    cases evalPlain d j consts (xs.map fun v => (⟨v.1, v.2.x⟩ : PArr F)) <;> rfl
  · rw [hreg]

/-- The program `jax.jit(f)`: one equation that calls the jitted function. -/
def jitted {d : ℕ} (name : String) (j : Jaxpr (Op d F) (PArr F)) (consts : List (PArr F)) :
    Jaxpr (Op (d + 1) F) (PArr F) where
  constvars := []
  invars := List.range j.invars.length
  eqns := [⟨OpStep.pjit name j consts, (List.range j.invars.length).map Atom.var,
    List.range' j.invars.length j.outvars.length⟩]
  outvars := (List.range' j.invars.length j.outvars.length).map Atom.var

theorem getMany_zip {V : Type} : ∀ (vs : List Var) (xs : List V) (s : SEnv V), vs.Nodup → vs.length = xs.length →
    ((vs.zip xs).foldl (fun s p => Interp.upd s p.1 (some p.2)) s : SEnv V).getMany (vs.map Atom.var) = .ok xs
  | [], [], _, _, _ => rfl
  | v :: vs, x :: xs, s, hn, hl => by
    rw [List.nodup_cons] at hn
    rw [List.zip_cons_cons, List.foldl_cons, List.map_cons]
    have h1 : SEnv.get ((vs.zip xs).foldl (fun s p => Interp.upd s p.1 (some p.2))
        (Interp.upd s v (some x))) (.var v) = .ok x := by
      unfold SEnv.get
      dsimp only
      rw [foldl_upd_not_mem v _ _ (by rw [List.map_fst_zip (by simpa using hl.le)]; exact hn.1)]
      simp [Interp.upd]
    rw [SEnv.getMany, h1, getMany_zip vs xs _ hn.2 (by simpa using hl)]

theorem getMany_length {V : Type} (s : SEnv V) : ∀ (as : List (Atom V)) (ys : List V), s.getMany as = .ok ys →
    ys.length = as.length
  | [], ys, h => by obtain rfl := Except.ok.inj h; rfl
  | a :: as, ys, h => by
    simp only [SEnv.getMany] at h
    cases ha : s.get a with
    | error e => simp [ha] at h
    | ok x =>
      cases hr : s.getMany as with
      | error e => simp [ha, hr] at h
      | ok xs =>
        simp only [ha, hr, Except.ok.injEq] at h
        subst h
        simp [getMany_length s as xs hr]

theorem evalSpec_length {O V : Type} (ev : O → List V → Except Err (List V)) (j : Jaxpr O V) (consts args ys : List V)
    (h : evalSpec ev j consts args = .ok ys) : ys.length = j.outvars.length := by
  unfold evalSpec at h
  split at h
  · simp at h
  · split at h
    · simp at h
    · exact getMany_length _ _ _ h

/-- **C27.** `forward_laplacian(jax.jit(f))` and `forward_laplacian(f)` have the same outcome on all arguments (of the right
number) if nothing is registered under the name of `f`. -/
theorem C27_transparent [One F] (reg : String → Option (Prim F)) (junk : List (PVal F) → PVal F) (t : ℚ) (d : ℕ)
    (name : String) (j : Jaxpr (Op d F) (PArr F)) (consts : List (PArr F)) (weights : Weights F) (args : List (PVal F))
    (hreg : reg name = none) (hargs : ∀ state, initState (decide (0 < threshold t (args.map fun v => v.1).sum)) weights
      args = .ok state → state.length = j.invars.length)
    (hbound : ∀ v, Atom.var v ∈ j.outvars → (readsOf j.eqns j.outvars).count v ≤ 2147483647)
    (hio : j.invars.length + 2 * j.outvars.length ≤ 2147483647) :
    forwardLaplacian reg junk t (d + 1) (jitted name j consts) [] weights args =
      forwardLaplacian reg junk t d j consts weights args := by
  unfold forwardLaplacian
  dsimp only
  cases hi : initState (decide (0 < threshold t (args.map fun v => v.1).sum)) weights args with
  | error e => rfl
  | ok st =>
    dsimp only
    have hlen := hargs st hi
    generalize (threshold t (args.map fun v => v.1).sum).toNat = T
    have hb : ∀ v, Atom.var v ∈ (jitted name j consts).outvars →
        (readsOf (jitted name j consts).eqns (jitted name j consts).outvars).count v ≤ 2147483647 := by
      intro v _
      refine le_trans (List.count_le_length ..) (le_trans ?_ hio)
      have hf : ∀ l : List ℕ, List.filterMap Atom.var? (l.map (Atom.var : Var → Atom (PArr F))) = l := by
        intro l
        rw [List.filterMap_map]
        exact List.filterMap_some
      simp only [readsOf, jitted, List.flatMap_cons, List.flatMap_nil, hf, List.append_nil, List.length_append,
        List.length_range, List.length_range']
      omega
    unfold evalLapl
    rw [C06_refcount_never_loses_values _ ((jitted name j consts).map PVal.ofPlain) _ _ (fun v hv => by
      rw [readsOf_map]; exact hb v (mem_map_var _ _ v hv))]
    have hmapvar : ∀ l : List ℕ, (l.map (Atom.var : Var → Atom (PArr F))).map (Atom.map PVal.ofPlain) =
        l.map (Atom.var : Var → Atom (PVal F)) := fun l => by rw [List.map_map]; rfl
    unfold evalSpec specInit
    simp only [Jaxpr.map, jitted, List.map_nil, List.map_cons, Eqn.map, hmapvar]
    have h0 : SEnv.bind (V := PVal F) (fun _ => none) [] [] = .ok fun _ => none := rfl
    rw [h0]
    dsimp only
    have h1 : SEnv.bind (V := PVal F) (fun _ => none) (List.range j.invars.length) st =
        .ok (((List.range j.invars.length).zip st).foldl (fun s p => Interp.upd s p.1 (some p.2)) fun _ => none) := by
      unfold SEnv.bind
      rw [if_pos (by simp [hlen])]
    rw [h1]
    dsimp only
    rw [specRun, specStep]
    dsimp only
    rw [getMany_zip _ _ _ List.nodup_range (by simp [hlen])]
    dsimp only
    rw [C27_inline reg junk T d name j consts st hreg hbound]
    unfold evalLapl
    cases he : evalRC (evLapl reg junk T d) (j.map PVal.ofPlain) (consts.map PVal.ofPlain) st with
    | error e =>
      have : evalRC (evLapl reg junk T d)
        ⟨j.constvars, j.invars, j.eqns.map (Eqn.map PVal.ofPlain), j.outvars.map (Atom.map PVal.ofPlain)⟩
        (consts.map PVal.ofPlain) st = .error e := he
      simp only [this]
    | ok ys =>
      have : evalRC (evLapl reg junk T d)
        ⟨j.constvars, j.invars, j.eqns.map (Eqn.map PVal.ofPlain), j.outvars.map (Atom.map PVal.ofPlain)⟩
        (consts.map PVal.ofPlain) st = .ok ys := he
      simp only [this]
      have hy : ys.length = j.outvars.length := by
        have := evalSpec_length _ _ _ _ _ (evalRC_safe _ _ _ _ _ he)
        simpa [Jaxpr.map] using this
      unfold SEnv.bind
      rw [if_pos (by simp [hy])]
      dsimp only [specRun]
      exact getMany_zip _ _ _ List.nodup_range' (by simp [hy])

/-- **C27.** A jitted function with a registered name is replaced by the registered rule (when an operand carries
derivatives). -/
theorem C27_registered (reg : String → Option (Prim F)) (junk : List (PVal F) → PVal F) (T d : ℕ) (name : String)
    (j : Jaxpr (Op d F) (PArr F)) (consts : List (PArr F)) (xs : List (PVal F)) (p : Prim F) (hreg : reg name = some p)
    (hl : ∃ v ∈ xs, v.2.isLapl = true) :
    evLapl reg junk T (d + 1) (OpStep.pjit name j consts) xs = p.call T xs := by
  rw [evLapl_pjit, if_neg]
  · rw [hreg]
  · intro hall
    obtain ⟨v, hv, hv'⟩ := hl
    have := List.all_eq_true.mp hall v hv
    simp [hv'] at this

end Jit

namespace Demo

/-- `jax.lax.sign` as registered under the name `sign` (`wrapped_functions.py:435`). -/
noncomputable def signP : Prim ℝ := dropPrim 1 (fun _ => 2) 1 (fun _ => 2) fun x _ q => SignType.sign (x 0 q)

/-- A user's `@jax.jit def sign(a): return a * a`. -/
noncomputable def userSign : Jaxpr (Op 1 ℝ) (PArr ℝ) := ⟨[], [0], [⟨OpStep.prim mulP, [.var 0, .var 0], [1]⟩], [.var 1]⟩

/-- **C27, counterexample.** The registry is consulted by the name of the jitted function only: a user's jitted function
that happens to be called `sign` is replaced by `jax.lax.sign`.  At `a = (2, 3)` the function returns `(4, 9)`, its
forward Laplacian the plain array `(1, 1)`. -/
theorem C27_counterexample (reg : String → Option (Prim ℝ)) (hreg : reg "sign" = some signP)
    (junk : List (PVal ℝ) → PVal ℝ) (T : ℕ) (t : Trip (Fin 2) ℝ) (ht : t.x = ![2, 3]) :
    evLapl reg junk T 2 (OpStep.pjit "sign" userSign []) [⟨2, .lapl t⟩] = .ok [⟨2, .plain ![1, 1]⟩] ∧
    evPlain 2 (OpStep.pjit "sign" userSign []) [⟨2, t.x⟩] = .ok [⟨2, ![4, 9]⟩] := by
  constructor
  · rw [C27_registered reg junk T 1 "sign" userSign [] _ signP hreg ⟨_, List.mem_singleton_self _, rfl⟩]
    unfold Prim.call
    have hu : unpack (β := Opd ℝ) signP.size [⟨2, .lapl t⟩] = .ok fun _ => .lapl t := by
      rw [unpack_eq]
      rfl
    rw [hu]
    show Except.ok [(⟨2, .plain fun q => ((SignType.sign (t.x q) : SignType) : ℝ)⟩ : PVal ℝ)] = _
    congr 4
    funext q
    rw [ht]
    fin_cases q <;> simp
  · show Except.ok [(⟨2, fun q => t.x q * t.x q⟩ : PArr ℝ)] = _
    congr 3
    funext q
    rw [ht]
    fin_cases q <;> norm_num

/-- Transparency applies to the demonstration's jitted sine on every argument. -/
example (junk : List (PVal ℝ) → PVal ℝ) (t : ℚ) (x : Fin 2 → ℝ) :
    forwardLaplacian reg junk t 2 (jitted "wave" sinProg []) [] .absent (plainArgs [2] x) =
      forwardLaplacian reg junk t 1 sinProg [] .absent (plainArgs [2] x) := by
  refine C27_transparent reg junk t 1 "wave" sinProg [] .absent _ rfl (fun st hst => ?_)
    (fun v _ => le_trans (List.count_le_length ..) (by decide)) (by decide)
  have e := initState_eq (F := ℝ) (n := 2) (decide (0 < threshold t
    ((plainArgs [2] x : List (PVal ℝ)).map fun v => v.1).sum)) .absent [2] (by simp) rfl (fun _ => 1) x
    (weights_absent [2] rfl)
  have := Except.ok.inj (e.symm.trans hst)
  rw [← this]
  rfl

end Demo

end Folx

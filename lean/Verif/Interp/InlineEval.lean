import Verif.Interp.Inline
import Verif.Interp.Eval

/-!
# Programs that differ only in what is jitted (specification for C27)

`Inlines reg j j'`: the program `j'` arises from `j` by inlining one call of an unregistered jitted function, anywhere:
at the top level, in the body of another jitted function or in the body of a loop, at any depth.
-/

namespace Folx

open Folx.Interp

/-- Apply a function to all operations of a program. -/
def Interp.Jaxpr.mapOp {O O' V : Type} (f : O → O') (j : Jaxpr O V) : Jaxpr O' V :=
  ⟨j.constvars, j.invars, j.eqns.map fun e => ⟨f e.op, e.invars, e.outvars⟩, j.outvars⟩

/-- An operation of a nested program as operation of the enclosing program. -/
def liftOp {F : Type} : (d : ℕ) → Op d F → Op (d + 1) F
  | 0, op => nomatch op
  | _ + 1, .prim p => OpStep.prim p
  | d + 1, .pjit name j consts => OpStep.pjit name (j.mapOp (liftOp d)) consts
  | d + 1, .scan s => OpStep.scan ⟨s.numConsts, s.numCarry, s.length, s.reverse, s.body.mapOp (liftOp d)⟩

/-- Outputs are read less than `2^31` times (C06). -/
def Interp.Jaxpr.ReadsOk {O V : Type} (j : Jaxpr O V) : Prop :=
  ∀ v, Atom.var v ∈ j.outvars → (readsOf j.eqns j.outvars).count v ≤ 2147483647

/-- `j'` is `j` with one call of an unregistered jitted function inlined. -/
inductive Inlines {F : Type} (reg : String → Option (Prim F)) :
    {d : ℕ} → Jaxpr (Op d F) (PArr F) → Jaxpr (Op d F) (PArr F) → Prop
  /-- the call `os := jit(sub)(as)` of the program itself -/
  | here {d : ℕ} (constvars invars : List Var) (pre : List (Eqn (Op (d + 1) F) (PArr F))) (name : String)
      (sub : Jaxpr (Op d F) (PArr F)) (consts : List (PArr F)) (as : List (Atom (PArr F))) (os : List Var)
      (post : List (Eqn (Op (d + 1) F) (PArr F))) (outs : List (Atom (PArr F))) (N : ℕ)
      (hreg : reg name = none)
      (hval : (⟨constvars, invars, pre ++ ⟨OpStep.pjit name sub consts, as, os⟩ :: post, outs⟩ :
        Jaxpr (Op (d + 1) F) (PArr F)).Valid)
      (hsub : sub.Valid)
      (hN : ∀ v ∈ constvars ++ invars ++ boundBy (pre ++ ⟨OpStep.pjit name sub consts, as, os⟩ :: post), v < N)
      (hlc : consts.length = sub.constvars.length) (hli : as.length = sub.invars.length)
      (hlo : os.length = sub.outvars.length)
      (hr1 : (⟨constvars, invars, pre ++ ⟨OpStep.pjit name sub consts, as, os⟩ :: post, outs⟩ :
        Jaxpr (Op (d + 1) F) (PArr F)).ReadsOk)
      (hr2 : sub.ReadsOk)
      (hr3 : (inlineAt N (liftOp d) constvars invars pre sub consts as os post outs).ReadsOk) :
      Inlines reg (d := d + 1) ⟨constvars, invars, pre ++ ⟨OpStep.pjit name sub consts, as, os⟩ :: post, outs⟩
        (inlineAt N (liftOp d) constvars invars pre sub consts as os post outs)
  /-- a call in the body of another jitted function (registered or not) -/
  | inJit {d : ℕ} (constvars invars : List Var) (pre : List (Eqn (Op (d + 1) F) (PArr F))) (name : String)
      (sub sub' : Jaxpr (Op d F) (PArr F)) (consts : List (PArr F)) (as : List (Atom (PArr F))) (os : List Var)
      (post : List (Eqn (Op (d + 1) F) (PArr F))) (outs : List (Atom (PArr F))) (h : Inlines reg sub sub') :
      Inlines reg (d := d + 1) ⟨constvars, invars, pre ++ ⟨OpStep.pjit name sub consts, as, os⟩ :: post, outs⟩
        ⟨constvars, invars, pre ++ ⟨OpStep.pjit name sub' consts, as, os⟩ :: post, outs⟩
  /-- a call in the body of a loop -/
  | inScan {d : ℕ} (constvars invars : List Var) (pre : List (Eqn (Op (d + 1) F) (PArr F)))
      (nConsts nCarry length : ℕ) (reverse : Bool)
      (body body' : Jaxpr (Op d F) (PArr F)) (as : List (Atom (PArr F))) (os : List Var)
      (post : List (Eqn (Op (d + 1) F) (PArr F))) (outs : List (Atom (PArr F))) (h : Inlines reg body body') :
      Inlines reg (d := d + 1)
        ⟨constvars, invars, pre ++ ⟨OpStep.scan ⟨nConsts, nCarry, length, reverse, body⟩, as, os⟩ :: post, outs⟩
        ⟨constvars, invars, pre ++ ⟨OpStep.scan ⟨nConsts, nCarry, length, reverse, body'⟩, as, os⟩ :: post, outs⟩

/-! ### Proofs -/

section
variable {O O' P V : Type}

theorem specRun_mapOp (ev : O' → List V → Except Err (List V)) (f : O → O') (s : SEnv V) (es : List (Eqn O V)) :
    specRun ev s (es.map fun e => ⟨f e.op, e.invars, e.outvars⟩) = specRun (fun o => ev (f o)) s es := by
  induction es generalizing s with
  | nil => rfl
  | cons e es ih =>
    rw [List.map_cons, specRun, specRun]
    have : specStep ev s ⟨f e.op, e.invars, e.outvars⟩ = specStep (fun o => ev (f o)) s e := rfl
    rw [this]
    cases specStep (fun o => ev (f o)) s e with
    | error e => rfl
    | ok s' => exact ih s'

theorem evalSpec_mapOp (ev : O' → List V → Except Err (List V)) (f : O → O') (j : Jaxpr O V) (cs args : List V) :
    evalSpec ev (j.mapOp f) cs args = evalSpec (fun o => ev (f o)) j cs args := by
  unfold evalSpec
  have h0 : specInit (j.mapOp f) cs args = specInit j cs args := rfl
  have h1 : (j.mapOp f).outvars = j.outvars := rfl
  have h2 : (j.mapOp f).eqns = j.eqns.map fun e => ⟨f e.op, e.invars, e.outvars⟩ := rfl
  rw [h0, h1, h2]
  cases specInit j cs args with
  | error e => rfl
  | ok s => dsimp only; rw [specRun_mapOp]

theorem runRC_mapOp (ev : O' → List V → Except Err (List V)) (f : O → O') (s : EnvState V) (es : List (Eqn O V)) :
    runRC ev s (es.map fun e => ⟨f e.op, e.invars, e.outvars⟩) = runRC (fun o => ev (f o)) s es := by
  induction es generalizing s with
  | nil => rfl
  | cons e es ih =>
    rw [List.map_cons, runRC, runRC]
    have : stepRC ev s ⟨f e.op, e.invars, e.outvars⟩ = stepRC (fun o => ev (f o)) s e := rfl
    rw [this]
    cases stepRC (fun o => ev (f o)) s e with
    | error e => rfl
    | ok s' => exact ih s'

theorem initRC_congr (j : Jaxpr O V) (j' : Jaxpr O' V) (h1 : j.constvars = j'.constvars) (h2 : j.invars = j'.invars)
    (h3 : j.outvars = j'.outvars) (h4 : j.eqns.map Eqn.invars = j'.eqns.map Eqn.invars) : initRC j = initRC j' := by
  have : ∀ (es : List (Eqn O V)) (es' : List (Eqn O' V)) (rc : Var → Int), es.map Eqn.invars = es'.map Eqn.invars →
      es.foldl (fun rc e => (e.invars.filterMap Atom.var?).foldl (fun rc v => upd rc v (rc v + 1)) rc) rc =
      es'.foldl (fun rc e => (e.invars.filterMap Atom.var?).foldl (fun rc v => upd rc v (rc v + 1)) rc) rc := by
    intro es
    induction es with
    | nil =>
      intro es' rc h
      have : es' = [] := by simpa using h.symm
      subst this
      rfl
    | cons e es ih =>
      intro es' rc h
      cases es' with
      | nil => simp at h
      | cons e' es' =>
        rw [List.map_cons, List.map_cons, List.cons.injEq] at h
        rw [List.foldl_cons, List.foldl_cons, h.1]
        exact ih es' _ h.2
  unfold initRC
  dsimp only
  rw [h1, h2, h3, this _ _ _ h4]

theorem evalRC_mapOp (ev : O' → List V → Except Err (List V)) (f : O → O') (j : Jaxpr O V) (cs args : List V) :
    evalRC ev (j.mapOp f) cs args = evalRC (fun o => ev (f o)) j cs args := by
  unfold evalRC
  have h0 : initEnv (j.mapOp f) cs args = initEnv j cs args := by
    unfold initEnv
    rw [initRC_congr (j.mapOp f) j rfl rfl rfl (by simp [Jaxpr.mapOp, Function.comp_def])]
    rfl
  have h1 : (j.mapOp f).outvars = j.outvars := rfl
  have h2 : (j.mapOp f).eqns = j.eqns.map fun e => ⟨f e.op, e.invars, e.outvars⟩ := rfl
  rw [h0, h1, h2]
  cases initEnv j cs args with
  | error e => rfl
  | ok s => dsimp only; rw [runRC_mapOp]

theorem mapOp_map (f : O → O') (g : P → V) (j : Jaxpr O P) : (j.mapOp f).map g = (j.map g).mapOp f := by
  simp [Jaxpr.mapOp, Jaxpr.map, Eqn.map, Function.comp_def]

/-- Replacing an operation by one with the same evaluation. -/
theorem evalRC_replace (ev : O → List V → Except Err (List V)) (constvars invars : List Var) (pre : List (Eqn O V))
    (op op' : O) (as : List (Atom V)) (os : List Var) (post : List (Eqn O V)) (outs : List (Atom V))
    (h : ev op = ev op') (cs args : List V) :
    evalRC ev ⟨constvars, invars, pre ++ ⟨op, as, os⟩ :: post, outs⟩ cs args =
      evalRC ev ⟨constvars, invars, pre ++ ⟨op', as, os⟩ :: post, outs⟩ cs args := by
  unfold evalRC
  have h0 : initEnv (⟨constvars, invars, pre ++ ⟨op, as, os⟩ :: post, outs⟩ : Jaxpr O V) cs args =
      initEnv (⟨constvars, invars, pre ++ ⟨op', as, os⟩ :: post, outs⟩ : Jaxpr O V) cs args := by
    unfold initEnv
    rw [initRC_congr (⟨constvars, invars, pre ++ ⟨op, as, os⟩ :: post, outs⟩ : Jaxpr O V)
      (⟨constvars, invars, pre ++ ⟨op', as, os⟩ :: post, outs⟩ : Jaxpr O V) rfl rfl rfl (by simp)]
  rw [h0]
  cases initEnv (⟨constvars, invars, pre ++ ⟨op', as, os⟩ :: post, outs⟩ : Jaxpr O V) cs args with
  | error e => rfl
  | ok s =>
    dsimp only
    have h1 : runRC ev s (pre ++ ⟨op, as, os⟩ :: post) = runRC ev s (pre ++ ⟨op', as, os⟩ :: post) := by
      rw [runRC_append, runRC_append]
      cases runRC ev s pre with
      | error e => rfl
      | ok s1 =>
        dsimp only
        rw [runRC, runRC]
        have : stepRC ev s1 ⟨op, as, os⟩ = stepRC ev s1 ⟨op', as, os⟩ := by unfold stepRC; dsimp only; rw [h]
        rw [this]
    rw [h1]

theorem evalSpec_replace (ev : O → List V → Except Err (List V)) (constvars invars : List Var) (pre : List (Eqn O V))
    (op op' : O) (as : List (Atom V)) (os : List Var) (post : List (Eqn O V)) (outs : List (Atom V))
    (h : ev op = ev op') (cs args : List V) :
    evalSpec ev ⟨constvars, invars, pre ++ ⟨op, as, os⟩ :: post, outs⟩ cs args =
      evalSpec ev ⟨constvars, invars, pre ++ ⟨op', as, os⟩ :: post, outs⟩ cs args := by
  unfold evalSpec
  have h0 : specInit (⟨constvars, invars, pre ++ ⟨op, as, os⟩ :: post, outs⟩ : Jaxpr O V) cs args =
      specInit (⟨constvars, invars, pre ++ ⟨op', as, os⟩ :: post, outs⟩ : Jaxpr O V) cs args := rfl
  rw [h0]
  cases specInit (⟨constvars, invars, pre ++ ⟨op', as, os⟩ :: post, outs⟩ : Jaxpr O V) cs args with
  | error e => rfl
  | ok s =>
    dsimp only
    have h1 : specRun ev s (pre ++ ⟨op, as, os⟩ :: post) = specRun ev s (pre ++ ⟨op', as, os⟩ :: post) := by
      rw [specRun_append, specRun_append]
      cases specRun ev s pre with
      | error e => rfl
      | ok s1 =>
        dsimp only
        rw [specRun, specRun]
        have : specStep ev s1 ⟨op, as, os⟩ = specStep ev s1 ⟨op', as, os⟩ := by unfold specStep; dsimp only; rw [h]
        rw [this]
    rw [h1]

/-! Literals seen as values of another type. -/

theorem mem_var_map (g : P → V) (l : List (Atom P)) (v : Var) : Atom.var v ∈ l.map (Atom.map g) ↔ Atom.var v ∈ l := by
  rw [List.mem_map]
  constructor
  · rintro ⟨a, ha, he⟩
    cases a with
    | lit x => simp [Atom.map] at he
    | var w => simp only [Atom.map, Atom.var.injEq] at he; exact he ▸ ha
  · exact fun h => ⟨_, h, rfl⟩

theorem scoped_map (g : P → V) (D : List Var) (es : List (Eqn O P)) (outs : List (Atom P)) :
    Scoped D (es.map (Eqn.map g)) (outs.map (Atom.map g)) ↔ Scoped D es outs := by
  induction es generalizing D with
  | nil => exact forall_congr' fun v => by rw [mem_var_map]
  | cons e es ih =>
    rw [List.map_cons]
    show (_ ∧ _ ∧ _ ∧ _) ↔ (_ ∧ _ ∧ _ ∧ _)
    refine and_congr ?_ (and_congr Iff.rfl (and_congr Iff.rfl (ih _)))
    exact forall_congr' fun v => by
      show (Atom.var v ∈ e.invars.map (Atom.map g) → _) ↔ _
      rw [mem_var_map]

theorem valid_map (g : P → V) (j : Jaxpr O P) (h : j.Valid) : (j.map g).Valid :=
  ⟨h.distinct, (scoped_map g _ _ _).mpr h.inScope⟩

theorem bindAtoms_map (g : P → V) (ks : List Var) (as : List (Atom P)) (σ : Var → Atom P) (v : Var) :
    (bindAtoms ks as σ v).map g = bindAtoms ks (as.map (Atom.map g)) (fun w => (σ w).map g) v := by
  induction ks generalizing as with
  | nil => cases as <;> rfl
  | cons k ks ih =>
    cases as with
    | nil => rfl
    | cons a as =>
      simp only [bindAtoms, List.map_cons]
      split
      · rfl
      · exact ih as

theorem bindAtoms_congr (ks : List Var) (as : List (Atom V)) (σ τ : Var → Atom V) (h : ∀ v, σ v = τ v) (v : Var) :
    bindAtoms ks as σ v = bindAtoms ks as τ v := by rw [funext h]

theorem callSubst_map (g : P → V) (N : ℕ) (sub : Jaxpr O P) (consts : List P) (as : List (Atom P)) (v : Var) :
    (callSubst N sub consts as v).map g = callSubst N (sub.map g) (consts.map g) (as.map (Atom.map g)) v := by
  unfold callSubst
  rw [bindAtoms_map]
  have h1 : (consts.map Atom.lit).map (Atom.map g) = (consts.map g).map (Atom.lit : V → Atom V) := by
    rw [List.map_map, List.map_map]; rfl
  rw [h1]
  exact bindAtoms_congr _ _ _ _ (fun w => bindAtoms_map g sub.invars as _ w) v

theorem subst_map (g : P → V) (σ : Var → Atom P) (τ : Var → Atom V) (h : ∀ v, (σ v).map g = τ v) (a : Atom P) :
    (a.subst σ).map g = (a.map g).subst τ := by
  cases a with
  | lit x => rfl
  | var v => exact h v

theorem substs_map (g : P → V) (σ : Var → Atom P) (τ : Var → Atom V) (h : ∀ v, (σ v).map g = τ v) (l : List (Atom P)) :
    (l.map (Atom.subst σ)).map (Atom.map g) = (l.map (Atom.map g)).map (Atom.subst τ) := by
  rw [List.map_map, List.map_map]
  exact List.map_congr_left fun a _ => subst_map g σ τ h a

theorem resultSubst_map (g : P → V) (N : ℕ) (sub : Jaxpr O P) (consts : List P) (as : List (Atom P)) (os : List Var)
    (v : Var) : (resultSubst N sub consts as os v).map g =
      resultSubst N (sub.map g) (consts.map g) (as.map (Atom.map g)) os v := by
  unfold resultSubst
  rw [bindAtoms_map, substs_map g _ _ (callSubst_map g N sub consts as)]
  rfl

theorem inlineAt_map (g : P → V) (N : ℕ) (f : O' → O) (constvars invars : List Var) (pre : List (Eqn O P))
    (sub : Jaxpr O' P) (consts : List P) (as : List (Atom P)) (os : List Var) (post : List (Eqn O P))
    (outs : List (Atom P)) : (inlineAt N f constvars invars pre sub consts as os post outs).map g =
      inlineAt N f constvars invars (pre.map (Eqn.map g)) (sub.map g) (consts.map g) (as.map (Atom.map g)) os
        (post.map (Eqn.map g)) (outs.map (Atom.map g)) := by
  have hc := callSubst_map g N sub consts as
  have hr := resultSubst_map g N sub consts as os
  have e1 : (callEqns N f sub consts as).map (Eqn.map g) =
      callEqns (O := O) N f (sub.map g) (consts.map g) (as.map (Atom.map g)) := by
    unfold callEqns
    rw [List.map_map]
    show _ = (sub.eqns.map (Eqn.map g)).map _
    rw [List.map_map]
    apply List.map_congr_left
    intro e _
    show (⟨f e.op, _, _⟩ : Eqn O V) = ⟨f e.op, _, _⟩
    dsimp only
    rw [substs_map g _ _ hc]
    rfl
  have e2 : (post.map fun e => (⟨e.op, e.invars.map (Atom.subst (resultSubst N sub consts as os)), e.outvars⟩ :
        Eqn O P)).map (Eqn.map g) =
      (post.map (Eqn.map g)).map fun e => (⟨e.op, e.invars.map (Atom.subst (resultSubst N (sub.map g) (consts.map g)
        (as.map (Atom.map g)) os)), e.outvars⟩ : Eqn O V) := by
    rw [List.map_map, List.map_map]
    apply List.map_congr_left
    intro e _
    show (⟨e.op, _, _⟩ : Eqn O V) = ⟨e.op, _, _⟩
    dsimp only
    rw [substs_map g _ _ hr]
    rfl
  unfold inlineAt
  rw [← e1, ← e2, ← substs_map g _ _ hr]
  unfold Jaxpr.map
  dsimp only
  rw [List.map_append, List.map_append]

end

section
variable {F : Type} [Zero F]

theorem evPlain_liftOp : ∀ (d : ℕ) (op : Op d F), evPlain (d + 1) (liftOp d op) = evPlain d op
  | 0, op => nomatch op
  | d + 1, .prim p => rfl
  | d + 1, .pjit name j consts => by
    funext xs
    show evalSpec (evPlain (d + 1)) (j.mapOp (liftOp d)) consts xs = evalSpec (evPlain d) j consts xs
    rw [evalSpec_mapOp]
    have : (fun o => evPlain (d + 1) (liftOp d o)) = evPlain (F := F) d := funext fun o => evPlain_liftOp d o
    rw [this]
  | d + 1, .scan s => by
    funext xs
    have h : (fun args => evalSpec (evPlain (d + 1)) (s.body.mapOp (liftOp d)) [] args) =
        fun args => evalSpec (evPlain d) s.body [] args := by
      funext args
      rw [evalSpec_mapOp]
      have : (fun o => evPlain (d + 1) (liftOp d o)) = evPlain (F := F) d := funext fun o => evPlain_liftOp d o
      rw [this]
    show scanPlain ⟨s.numConsts, s.numCarry, s.length, s.reverse, s.body.mapOp (liftOp d)⟩ _ xs = scanPlain s _ xs
    rw [h]
    rfl

theorem evLapl_liftOp (reg : String → Option (Prim F)) (junk : List (PVal F) → PVal F) (T : ℕ) :
    ∀ (d : ℕ) (op : Op d F), evLapl reg junk T (d + 1) (liftOp d op) = evLapl reg junk T d op
  | 0, op => nomatch op
  | d + 1, op => by
    have hf : (fun o => evLapl reg junk T (d + 1) (liftOp d o)) = evLapl reg junk T d :=
      funext fun o => evLapl_liftOp reg junk T d o
    funext xs
    unfold evLapl
    rw [evPlain_liftOp]
    split
    · rfl
    · cases op with
      | prim p => rfl
      | pjit name j consts =>
        show (match reg name with
          | some p => p.call T xs
          | none => evalRC (evLapl reg junk T (d + 1)) ((j.mapOp (liftOp d)).map PVal.ofPlain)
              (consts.map PVal.ofPlain) xs) = _
        rw [mapOp_map, evalRC_mapOp, hf]
        rfl
      | scan s =>
        have h : (fun args => evalRC (evLapl reg junk T (d + 1)) ((s.body.mapOp (liftOp d)).map PVal.ofPlain) [] args) =
            fun args => evalRC (evLapl reg junk T d) (s.body.map PVal.ofPlain) [] args := by
          funext args
          rw [mapOp_map, evalRC_mapOp, hf]
        show scanLapl junk ⟨s.numConsts, s.numCarry, s.length, s.reverse, s.body.mapOp (liftOp d)⟩ _ xs =
          scanLapl junk s _ xs
        rw [h]
        rfl

end

end Folx

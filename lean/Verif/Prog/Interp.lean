import Verif.Prog.Sound

/-! # Soundness of the forward-Laplacian interpreter -/

namespace Folx

open Filter Topology
open Folx.Interp

variable {F : Type} [RCLike F]

/-- Side conditions on the operands of an equation during the forward-Laplacian run.  Equations without
derivative-carrying operands are unconditional; a primitive must be `good` at the values of its operands; a
jitted function whose name is registered must compute what the registered function computes (else: C27);
nested programs satisfy the conditions along their own run; scans have no per-step outputs (else: C29). -/
def Dom (reg : String → Option (Prim F)) (junk : List (PVal F) → PVal F) (T : ℕ)
    (good : (p : Prim F) → ((i : Fin p.nIn) → Fin (p.size i) → F) → Prop) :
    (d : ℕ) → Op d F → List (PVal F) → Prop
  | 0, op, _ => nomatch op
  | d + 1, op, vals => (∃ v ∈ vals, v.2.isLapl = true) →
    match op with
    | .prim p => ∀ x, unpack (β := fun m => Fin m → F) p.size (vals.map fun v => ⟨v.1, v.2.x⟩) = .ok x → good p x
    | .pjit name j consts =>
      match reg name with
      | some p =>
        (∀ x, unpack (β := fun m => Fin m → F) p.size (vals.map fun v => ⟨v.1, v.2.x⟩) = .ok x → good p x) ∧
        ∀ ys zs, p.bind ys = .ok zs → evalSpec (evPlain d) j consts ys = .ok zs
      | none => DomProg (evLapl reg junk T d) (Dom reg junk T good d) (j.map PVal.ofPlain)
          (consts.map PVal.ofPlain) vals
    | .scan s => s.body.outvars.length = s.numCarry ∧
        ((∀ v ∈ (vals.drop s.numConsts).drop s.numCarry, v.2.isLapl = false) → ScanDom (fun args => evalRC (evLapl reg junk T d) (s.body.map PVal.ofPlain) [] args)
          (fun args => DomProg (evLapl reg junk T d) (Dom reg junk T good d) (s.body.map PVal.ofPlain) [] args)
          (vals.take s.numConsts) s.numCarry
          (fun t => ((vals.drop s.numConsts).drop s.numCarry).map fun v =>
            PVal.ofPlain (timeSlice s.length t ⟨v.1, v.2.x⟩))
          (scanOrder s.length s.reverse) ((vals.drop s.numConsts).take s.numCarry))

section
variable {X : Type} [NormedAddCommGroup X] [NormedSpace ℝ X]

theorem forall2_x (B : Base X) (inv : ∀ m, Jac (Fin m) F → Prop) : ∀ (vals : List (PVal F)) (gs : List (FArr X F)),
    List.Forall₂ (Represents B inv) vals gs →
      (vals.map fun v => (⟨v.1, v.2.x⟩ : PArr F)) = gs.map fun g => g.at B.x0
  | _, _, .nil => rfl
  | v :: _, g :: _, .cons h1 h2 => by
    rw [List.map_cons, List.map_cons, forall2_x B inv _ _ h2]
    obtain ⟨u, rfl, hu⟩ := h1
    rw [opdRep_x B inv _ _ hu]
    rfl

/-- Program induction for the reference-counted evaluation. -/
theorem evalRC_rel {O : Type} (B : Base X) (inv : ∀ m, Jac (Fin m) F → Prop)
    (evP : O → List (PArr F) → Except Err (List (PArr F))) (ev : O → List (PVal F) → Except Err (List (PVal F)))
    (dom : O → List (PVal F) → Prop) (j : Jaxpr O (PArr F))
    (he : ∀ e ∈ j.eqns, EqRel (fun (g : FArr X F) x => g.at x) (Represents B inv) evP ev dom e.op)
    (consts : List (PArr F)) (args : List (PVal F)) (gs : List (FArr X F)) (ys : List (PVal F))
    (hargs : List.Forall₂ (Represents B inv) args gs)
    (hd : DomProg ev dom (j.map PVal.ofPlain) (consts.map PVal.ofPlain) args)
    (hr : evalRC ev (j.map PVal.ofPlain) (consts.map PVal.ofPlain) args = .ok ys) :
    ∃ outs : List (FArr X F), (∀ x, evalSpec evP j consts (gs.map fun g => g.at x) =
      .ok (outs.map fun g => g.at x)) ∧ List.Forall₂ (Represents B inv) ys outs :=
  evalSpec_rel (lit := PVal.ofPlain) (cst := fun a => (⟨a.1, fun _ => a.2⟩ : FArr X F))
    (fun p => represents_const B _ p) (fun _ _ => rfl) evP ev dom j he consts args gs ys hargs hd
    (evalRC_safe _ _ _ _ _ hr)

/-- What a scan makes of the values `col` that one of the per-step outputs takes in the order of time. -/
def stackCol (junk : List (PVal F) → PVal F) (col : List (PVal F)) : PVal F :=
  if col.any (fun v => v.2.isLapl) then junk col else PVal.ofPlain (stackArrs (col.map fun v => ⟨v.1, v.2.x⟩))

/-- The carry of a scan, whatever the per-step outputs are, and the columns of per-step outputs. -/
theorem scanLapl_rel {O : Type} (B : Base X) (inv : ∀ m, Jac (Fin m) F → Prop) (junk : List (PVal F) → PVal F)
    (s : ScanParams O F) (bP : List (PArr F) → Except Err (List (PArr F)))
    (b : List (PVal F) → Except Err (List (PVal F))) (domB : List (PVal F) → Prop)
    (hb : ∀ vals gs ys, List.Forall₂ (Represents B inv) vals gs → domB vals → b vals = .ok ys →
      ∃ outs : List (FArr X F), (∀ x, bP (gs.map fun g => g.at x) = .ok (outs.map fun g => g.at x)) ∧
        List.Forall₂ (Represents B inv) ys outs)
    (vals : List (PVal F)) (gs : List (FArr X F)) (hr : List.Forall₂ (Represents B inv) vals gs)
    (hd : (∀ v ∈ (vals.drop s.numConsts).drop s.numCarry, v.2.isLapl = false) →
      ScanDom b domB (vals.take s.numConsts) s.numCarry
          (fun t => ((vals.drop s.numConsts).drop s.numCarry).map fun v =>
            PVal.ofPlain (timeSlice s.length t ⟨v.1, v.2.x⟩))
          (scanOrder s.length s.reverse) ((vals.drop s.numConsts).take s.numCarry))
    (ys : List (PVal F)) (h : scanLapl junk s b vals = .ok ys) :
    ∃ (carry : List (PVal F)) (gc outs : List (FArr X F)) (rest : List (PVal F)),
      ys = carry ++ rest ∧ rest.length = s.body.outvars.length - s.numCarry ∧
      (∀ x, scanPlain s bP (gs.map fun g => g.at x) = .ok ((gc ++ outs).map fun g => g.at x)) ∧
      List.Forall₂ (Represents B inv) carry gc ∧ outs.length = s.body.outvars.length - s.numCarry ∧
      ∃ cols : List (List (PVal F)), rest = cols.map (stackCol junk) ∧
        List.Forall₂ (fun (col : List (PVal F)) (g : FArr X F) => ∃ gcol : List (FArr X F),
          List.Forall₂ (Represents B inv) col gcol ∧ ∀ x, g.at x = stackArrs (gcol.map fun g => g.at x)) cols outs ∧
        ∀ Q : PVal F → Prop, (∀ args r, domB args → b args = .ok r → ∀ v ∈ r.drop s.numCarry, Q v) →
          ∀ col ∈ cols, ∀ v ∈ col, Q v := by
  unfold scanLapl at h
  dsimp only at h
  split at h
  · simp at h
  · rename_i hinp
    split at h
    · simp at h
    · split at h
      · simp at h
      · split at h
        · simp at h
        · split at h
          · simp at h
          · rename_i c ysl hl
            simp only [Except.ok.injEq] at h
            have hrel : List.Forall₂ (Represents B inv) ((vals.drop s.numConsts).drop s.numCarry)
                ((gs.drop s.numConsts).drop s.numCarry) :=
              List.forall₂_drop s.numCarry (List.forall₂_drop s.numConsts hr)
            have hplain : ∀ v ∈ (vals.drop s.numConsts).drop s.numCarry, v.2.isLapl = false := by
              intro v hv
              by_contra hc
              exact hinp (List.any_eq_true.mpr ⟨v, hv, by simpa using hc⟩)
            have hslice : ∀ t, List.Forall₂ (Represents B inv)
                (((vals.drop s.numConsts).drop s.numCarry).map fun v =>
                  PVal.ofPlain (timeSlice s.length t ⟨v.1, v.2.x⟩))
                (((gs.drop s.numConsts).drop s.numCarry).map (FArr.slice s.length t)) := by
              intro t
              rw [List.forall₂_map_left_iff, List.forall₂_map_right_iff]
              generalize (vals.drop s.numConsts).drop s.numCarry = l at hrel hplain
              generalize (gs.drop s.numConsts).drop s.numCarry = m at hrel
              induction hrel with
              | nil => exact .nil
              | cons h1 _ ih =>
                exact .cons (repConst_slice B s.length t _ _ (repConst_of_represents B inv _ _ h1
                  (hplain _ (by simp)))) (ih fun v hv => hplain v (by simp [hv]))
            obtain ⟨gc', gys, g1, g2, g3⟩ := scanLoop_rel (at' := fun (g : FArr X F) x => g.at x)
              (R := Represents B inv) bP b domB hb (checkCarry ((vals.drop s.numConsts).take s.numCarry))
              (vals.take s.numConsts) (gs.take s.numConsts) (List.forall₂_take _ hr) s.numCarry _ _ hslice
              (scanOrder s.length s.reverse) ((vals.drop s.numConsts).take s.numCarry) c ysl
              ((gs.drop s.numConsts).take s.numCarry) (List.forall₂_take _ (List.forall₂_drop _ hr)) (hd hplain) hl
            obtain ⟨outs, ho, ho2⟩ := stack_exists gys s.numCarry s.body.outvars.length s.length s.reverse B.x0
            refine ⟨c, gc', outs, _, h.symm, by simp, fun x => ?_, g2, ?_,
              (List.range (s.body.outvars.length - s.numCarry)).map fun i =>
                (if s.reverse then ysl.reverse else ysl).filterMap fun r => r[i]?, ?_, ?_, ?_⟩
            · unfold scanPlain
              dsimp only
              have := g1 x
              rw [List.map_take, List.map_take, List.map_drop] at this
              have e2 : (fun t => List.map (fun g => g.at x) (((gs.drop s.numConsts).drop s.numCarry).map
                  (FArr.slice s.length t))) = fun t =>
                  (((gs.map fun g => g.at x).drop s.numConsts).drop s.numCarry).map (timeSlice s.length t) := by
                funext t
                rw [← List.map_drop, ← List.map_drop, List.map_map, List.map_map]
                rfl
              rw [e2] at this
              rw [this]
              simp only [ho x, List.map_append]
            · have := congrArg List.length (ho B.x0)
              rw [List.length_map] at this
              rw [← this]
              simp [stackSteps]
            · rw [List.map_map]
              rfl
            · rw [List.forall₂_map_left_iff]
              refine ho2.imp fun i g hg => ⟨_, ?_, hg⟩
              have g3' : List.Forall₂ (List.Forall₂ (Represents B inv)) (if s.reverse then ysl.reverse else ysl)
                  (if s.reverse then gys.reverse else gys) := by
                cases s.reverse
                · simpa using g3
                · simpa using List.rel_reverse g3
              generalize (if s.reverse then ysl.reverse else ysl) = a at g3'
              generalize (if s.reverse then gys.reverse else gys) = b at g3'
              refine List.rel_filterMap (R := List.Forall₂ (Represents B inv)) ?_ g3'
              intro l l' hl
              dsimp only
              by_cases hi : i < l.length
              · rw [List.getElem?_eq_getElem hi, List.getElem?_eq_getElem (by rw [← hl.length_eq]; exact hi)]
                exact .some (hl.get hi (by rw [← hl.length_eq]; exact hi))
              · rw [List.getElem?_eq_none (by omega), List.getElem?_eq_none (by rw [← hl.length_eq]; omega)]
                exact .none
            · intro Q hQ col hcol v hv
              obtain ⟨i, -, rfl⟩ := List.mem_map.mp hcol
              obtain ⟨r, hr', hv'⟩ := List.mem_filterMap.mp hv
              have hr'' : r ∈ ysl := by
                cases hrev : s.reverse <;> simpa [hrev] using hr'
              exact scanLoop_outs b domB _ _ _ _ Q hQ _ _ _ _ (hd hplain) hl r hr'' v (List.mem_of_getElem? hv')

/-- A stack of plain values represents the stack of what they represent. -/
theorem repConst_stack (B : Base X) (inv : ∀ m, Jac (Fin m) F → Prop) (col : List (PVal F)) (gcol : List (FArr X F))
    (h : List.Forall₂ (Represents B inv) col gcol) (hp : ∀ v ∈ col, v.2.isLapl = false) (g : FArr X F)
    (hg : ∀ x, g.at x = stackArrs (gcol.map fun g => g.at x)) :
    RepConst B (stackArrs (col.map fun v => ⟨v.1, v.2.x⟩)) g := by
  have hc : List.Forall₂ (RepConst B) (col.map fun v => (⟨v.1, v.2.x⟩ : PArr F)) gcol := by
    rw [List.forall₂_map_left_iff]
    clear hg
    induction h with
    | nil => exact .nil
    | cons h1 _ ih =>
      exact .cons (repConst_of_represents B inv _ _ h1 (hp _ (by simp))) (ih fun v hv => hp v (by simp [hv]))
  obtain ⟨h1, h2⟩ := forall2_repConst B _ _ hc
  rw [repConst_iff]
  refine ⟨by rw [hg, h1], ?_⟩
  filter_upwards [h2] with y hy
  rw [hg, hy]

/-- Every operation is sound. -/
theorem evLapl_rel (B : Base X) (inv : ∀ m, Jac (Fin m) F → Prop) (reg : String → Option (Prim F))
    (junk : List (PVal F) → PVal F) (T : ℕ)
    (good : (p : Prim F) → ((i : Fin p.nIn) → Fin (p.size i) → F) → Prop)
    (hgood : ∀ p x, good p x → p.SoundAt inv T B.n x) : ∀ (d : ℕ) (op : Op d F),
    EqRel (fun (g : FArr X F) x => g.at x) (Represents B inv) (evPlain d) (evLapl reg junk T d)
      (Dom reg junk T good d) op
  | 0, op => nomatch op
  | d + 1, op => by
    intro vals gs ys hr hd h
    unfold evLapl at h
    split at h
    · rename_i hall
      split at h
      · simp at h
      · rename_i ys0 hy
        simp only [Except.ok.injEq] at h
        subst h
        have hrc : List.Forall₂ (RepConst B) (vals.map fun v => (⟨v.1, v.2.x⟩ : PArr F)) gs := by
          rw [List.forall₂_map_left_iff]
          rw [List.all_eq_true] at hall
          clear hd hy
          induction hr with
          | nil => exact .nil
          | cons h1 _ ih =>
            exact .cons (repConst_of_represents B inv _ _ h1 (by simpa using hall _ (by simp)))
              (ih fun v hv => hall v (by simp [hv]))
        obtain ⟨outs, g1, g2⟩ := evPlain_rel B (d + 1) op _ gs ys0 hrc trivial hy
        exact ⟨outs, g1, by rw [List.forall₂_map_left_iff]; exact g2⟩
    · rename_i hall
      have hex : ∃ v ∈ vals, v.2.isLapl = true := by
        by_contra hc
        push Not at hc
        apply hall
        rw [List.all_eq_true]
        intro v hv
        simpa using hc v hv
      have hx := forall2_x B inv vals gs hr
      have hdd := hd hex
      cases op with
      | prim p =>
        dsimp only at h hdd
        exact p.call_rel inv T B vals gs ys hr hex (fun x hu => hgood p x (hdd x (by rw [hx]; exact hu))) h
      | pjit name j consts =>
        dsimp only at h hdd
        cases hreg : reg name with
        | some p =>
          simp only [hreg] at h hdd
          obtain ⟨outs, g1, g2⟩ := p.call_rel inv T B vals gs ys hr hex
            (fun x hu => hgood p x (hdd.1 x (by rw [hx]; exact hu))) h
          exact ⟨outs, fun x => hdd.2 _ _ (g1 x), g2⟩
        | none =>
          simp only [hreg] at h hdd
          exact evalRC_rel B inv (evPlain d) (evLapl reg junk T d) _ j
            (fun e _ => evLapl_rel B inv reg junk T good hgood d e.op) consts vals gs ys hr hdd h
      | scan s =>
        dsimp only at h hdd
        obtain ⟨carry, gc, outs, rest, e1, e2, e3, e4, e5, -⟩ := scanLapl_rel B inv junk s
          (fun args => evalSpec (evPlain d) s.body [] args) _ _
          (fun vals gs ys hr hd h => evalRC_rel B inv (evPlain d) (evLapl reg junk T d) _ s.body
            (fun e _ => evLapl_rel B inv reg junk T good hgood d e.op) [] vals gs ys hr hd h)
          vals gs hr hdd.2 ys h
        rw [hdd.1, Nat.sub_self] at e2 e5
        obtain rfl := List.length_eq_zero_iff.mp e2
        obtain rfl := List.length_eq_zero_iff.mp e5
        rw [List.append_nil] at e1
        subst e1
        exact ⟨gc, fun x => by rw [evPlain, e3 x, List.append_nil], e4⟩

/-- **Soundness of the interpreter.** -/
theorem evalLapl_sound (B : Base X) (inv : ∀ m, Jac (Fin m) F → Prop) (reg : String → Option (Prim F))
    (junk : List (PVal F) → PVal F) (T : ℕ)
    (good : (p : Prim F) → ((i : Fin p.nIn) → Fin (p.size i) → F) → Prop)
    (hgood : ∀ p x, good p x → p.SoundAt inv T B.n x) (d : ℕ) (j : Jaxpr (Op d F) (PArr F))
    (consts : List (PArr F)) (args : List (PVal F)) (gs : List (FArr X F)) (ys : List (PVal F))
    (hargs : List.Forall₂ (Represents B inv) args gs)
    (hd : DomProg (evLapl reg junk T d) (Dom reg junk T good d) (j.map PVal.ofPlain) (consts.map PVal.ofPlain) args)
    (h : evalLapl reg junk T d j consts args = .ok ys) :
    ∃ outs : List (FArr X F), (∀ x, evalPlain d j consts (gs.map fun g => g.at x) =
      .ok (outs.map fun g => g.at x)) ∧ List.Forall₂ (Represents B inv) ys outs :=
  evalRC_rel B inv (evPlain d) (evLapl reg junk T d) _ j
    (fun e _ => evLapl_rel B inv reg junk T good hgood d e.op) consts args gs ys hargs hd h

end

end Folx

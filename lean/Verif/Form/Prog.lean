import Verif.Form.Core

/-!
# Two runs of one program on values of the same form: the environment

`S` is "same form".  A flag says of a value that it is literally the same in both runs.
-/

namespace Folx

open Folx.Interp

section
variable {O V : Type} {S : V → V → Prop}

/-- Same form, and equal if the flag is set. -/
def RelB (S : V → V → Prop) (b : Bool) (v v' : V) : Prop := S v v' ∧ (b = true → v = v')

/-- Two lists of values of the same form, equal where the flags are set. -/
inductive Match (S : V → V → Prop) : List Bool → List V → List V → Prop
  | nil : Match S [] [] []
  | cons {b v v' bs vs vs'} (h : RelB S b v v') (t : Match S bs vs vs') : Match S (b :: bs) (v :: vs) (v' :: vs')

theorem Match.same {bs : List Bool} {vs vs' : List V} (h : Match S bs vs vs') : List.Forall₂ S vs vs' := by
  induction h with
  | nil => exact .nil
  | cons h _ ih => exact .cons h.1 ih

theorem Match.eq_of {bs : List Bool} {vs vs' : List V} (h : Match S bs vs vs') (hb : ∀ b ∈ bs, b = true) : vs = vs' := by
  induction h with
  | nil => rfl
  | cons h _ ih =>
    rw [h.2 (hb _ (List.mem_cons_self ..)), ih fun b hb' => hb b (List.mem_cons_of_mem _ hb')]

theorem Match.length {bs : List Bool} {vs vs' : List V} (h : Match S bs vs vs') :
    bs.length = vs.length ∧ bs.length = vs'.length := by
  induction h with
  | nil => exact ⟨rfl, rfl⟩
  | cons _ _ ih => simp [ih.1, ← ih.2]

theorem Match.take {bs : List Bool} {vs vs' : List V} (h : Match S bs vs vs') (n : ℕ) :
    Match S (bs.take n) (vs.take n) (vs'.take n) := by
  induction h generalizing n with
  | nil => simpa using Match.nil
  | cons h _ ih =>
    cases n with
    | zero => exact .nil
    | succ n => exact .cons h (ih n)

theorem Match.drop {bs : List Bool} {vs vs' : List V} (h : Match S bs vs vs') (n : ℕ) :
    Match S (bs.drop n) (vs.drop n) (vs'.drop n) := by
  induction h generalizing n with
  | nil => simpa using Match.nil
  | cons h t ih =>
    cases n with
    | zero => exact .cons h t
    | succ n => exact ih n

theorem Match.append {bs cs : List Bool} {vs vs' ws ws' : List V} (h : Match S bs vs vs') (h' : Match S cs ws ws') :
    Match S (bs ++ cs) (vs ++ ws) (vs' ++ ws') := by
  induction h with
  | nil => exact h'
  | cons h _ ih => exact .cons h ih

theorem Match.map {W : Type} {S' : W → W → Prop} {f : V → W} (hf : ∀ a b, S a b → S' (f a) (f b)) {bs : List Bool}
    {vs vs' : List V} (h : Match S bs vs vs') : Match S' bs (vs.map f) (vs'.map f) := by
  induction h with
  | nil => exact .nil
  | cons h _ ih => exact .cons ⟨hf _ _ h.1, fun hb => by rw [h.2 hb]⟩ ih

theorem Match.loose {vs vs' : List V} (h : List.Forall₂ S vs vs') : Match S (vs.map fun _ => false) vs vs' := by
  induction h with
  | nil => exact .nil
  | cons h _ ih => exact .cons ⟨h, fun hb => by cases hb⟩ ih

theorem Match.refl (hS : ∀ v, S v v) : ∀ (bs : List Bool) (vs : List V), bs.length = vs.length → Match S bs vs vs
  | [], [], _ => .nil
  | _ :: bs, _ :: vs, h => .cons ⟨hS _, fun _ => rfl⟩ (Match.refl hS bs vs (by simpa using h))

/-! ### Marked programs -/

/-- Whether an operand is the same in both runs: literals are. -/
def Atom.flag (fx : Var → Bool) : Atom V → Bool
  | .lit _ => true
  | .var v => fx v

/-- `fx` marks variables that do not depend on the unmarked inputs: an input is marked only if its flag is set, and a result
of an equation only if all operands of the equation are marked. -/
structure Marked (fx : Var → Bool) (invars : List Var) (eqns : List (Eqn O V)) (bs : List Bool) : Prop where
  inputs : ∀ p ∈ invars.zip bs, fx p.1 = true → p.2 = true
  eqns : ∀ e ∈ eqns, ∀ v ∈ e.outvars, fx v = true → ∀ a ∈ e.invars, Atom.flag fx a = true

/-- The state of an environment in two runs. -/
def EnvSame (S : V → V → Prop) (fx : Var → Bool) (s s' : Var → Option V) : Prop :=
  ∀ v, Option.Rel (RelB S (fx v)) (s v) (s' v)

theorem EnvSame.upd {fx : Var → Bool} {s s' : Var → Option V} (h : EnvSame S fx s s') (v : Var) {a a' : V}
    (ha : RelB S (fx v) a a') : EnvSame S fx (Interp.upd s v (some a)) (Interp.upd s' v (some a')) := by
  intro w
  unfold Interp.upd
  by_cases hw : w = v
  · subst hw
    simp only [if_true]
    exact .some ha
  · simp only [hw, if_false]
    exact h w

theorem EnvSame.clear {fx : Var → Bool} {s s' : Var → Option V} (h : EnvSame S fx s s') (v : Var) :
    EnvSame S fx (Interp.upd s v none) (Interp.upd s' v none) := by
  intro w
  unfold Interp.upd
  by_cases hw : w = v
  · subst hw
    simp only [if_true]
    exact .none
  · simp only [hw, if_false]
    exact h w

/-! ### The never-forgetting environment -/

theorem EnvSame.getMany (hS : ∀ v, S v v) {fx : Var → Bool} {s s' : SEnv V} (h : EnvSame S fx s s') :
    ∀ as : List (Atom V), ExRel (Match S (as.map (Atom.flag fx))) (SEnv.getMany s as) (SEnv.getMany s' as)
  | [] => .ok .nil
  | a :: as => by
    have ha : ExRel (RelB S (Atom.flag fx a)) (SEnv.get s a) (SEnv.get s' a) := by
      cases a with
      | lit x => exact .ok ⟨hS x, fun _ => rfl⟩
      | var v =>
        unfold SEnv.get
        dsimp only
        have := h v
        revert this
        generalize s v = x
        generalize s' v = y
        intro hxy
        cases hxy with
        | none => exact .error _
        | some h => exact .ok h
    unfold SEnv.getMany
    obtain ⟨e, h1, h2⟩ | ⟨x, y, h1, h2, hxy⟩ := ha.elim
    · rw [h1, h2]; exact .error e
    rw [h1, h2]
    dsimp only
    obtain ⟨e, h1, h2⟩ | ⟨xs, ys, h1, h2, hxys⟩ := (EnvSame.getMany hS h as).elim
    · rw [h1, h2]; exact .error e
    rw [h1, h2]
    exact .ok (.cons hxy hxys)

/-- The flags of the results of an equation may be lowered to those of the variables they are bound to. -/
theorem EnvSame.bind {fx : Var → Bool} {s s' : SEnv V} (h : EnvSame S fx s s') (vs : List Var) {bs : List Bool}
    {xs xs' : List V} (hx : Match S bs xs xs') (hf : ∀ p ∈ vs.zip bs, fx p.1 = true → p.2 = true) :
    ExRel (EnvSame S fx) (SEnv.bind s vs xs) (SEnv.bind s' vs xs') := by
  unfold SEnv.bind
  obtain ⟨l1, l2⟩ := hx.length
  by_cases hl : vs.length = xs.length
  · rw [if_pos hl, if_pos (by omega)]
    refine .ok ?_
    clear hl l1 l2
    induction hx generalizing vs s s' with
    | nil => simpa using h
    | cons h1 t ih =>
      cases vs with
      | nil => exact h
      | cons v vs =>
        rw [List.zip_cons_cons, List.zip_cons_cons, List.foldl_cons, List.foldl_cons]
        exact ih (h.upd v ⟨h1.1, fun hv => h1.2 (hf (v, _) (by simp) hv)⟩) vs
          fun p hp => hf p (by rw [List.zip_cons_cons]; exact List.mem_cons_of_mem _ hp)
  · rw [if_neg hl, if_neg (by omega)]
    exact .error _

/-- The evaluation of an equation maps operands of the same form to results of the same form. -/
def EqSame (S : V → V → Prop) (ev : O → List V → Except Err (List V)) (op : O) (bs : List Bool) : Prop :=
  ∀ vs vs', Match S bs vs vs' → ExRel (List.Forall₂ S) (ev op vs) (ev op vs')

/-- The results of an equation, with flags: all set if all operands are the same. -/
theorem EqSame.flags {ev : O → List V → Except Err (List V)} (hS : ∀ v, S v v) {op : O} {bs : List Bool} (h : EqSame S ev op bs)
    {vs vs' : List V} (hv : Match S bs vs vs') :
    ExRel (fun r r' => ∃ cs, Match S cs r r' ∧ ((∀ b ∈ bs, b = true) → ∀ c ∈ cs, c = true)) (ev op vs) (ev op vs') := by
  by_cases hb : ∀ b ∈ bs, b = true
  · rw [hv.eq_of hb]
    cases ev op vs' with
    | error e => exact .error e
    | ok r =>
      refine .ok ⟨r.map fun _ => true, Match.refl hS _ _ (by simp), fun _ c hc => ?_⟩
      obtain ⟨_, -, rfl⟩ := List.mem_map.mp hc
      rfl
  · refine (h vs vs' hv).mono fun r r' hr => ⟨_, Match.loose hr, fun h => absurd h hb⟩

theorem EnvSame.specRun (hS : ∀ v, S v v) {ev : O → List V → Except Err (List V)} {fx : Var → Bool} :
    ∀ (es : List (Eqn O V)) {s s' : SEnv V}, EnvSame S fx s s' →
      (∀ e ∈ es, EqSame S ev e.op (e.invars.map (Atom.flag fx))) →
      (∀ e ∈ es, ∀ v ∈ e.outvars, fx v = true → ∀ a ∈ e.invars, Atom.flag fx a = true) →
      ExRel (EnvSame S fx) (Interp.specRun ev s es) (Interp.specRun ev s' es)
  | [], _, _, h, _, _ => .ok h
  | e :: es, s, s', h, he, hm => by
    unfold Interp.specRun Interp.specStep
    obtain ⟨er, h1, h2⟩ | ⟨xs, xs', h1, h2, hx⟩ := (h.getMany hS e.invars).elim
    · rw [h1, h2]; exact .error er
    rw [h1, h2]
    dsimp only
    obtain ⟨er, h1, h2⟩ | ⟨r, r', h1, h2, cs, hc, hcs⟩ := ((he e (by simp)).flags hS hx).elim
    · rw [h1, h2]; exact .error er
    rw [h1, h2]
    dsimp only
    obtain ⟨er, h1, h2⟩ | ⟨t, t', h1, h2, ht⟩ := (h.bind e.outvars hc fun p hp hfp => by
      have hv := hm e (by simp) p.1 (List.of_mem_zip hp).1 hfp
      refine hcs (fun b hb => ?_) p.2 (List.of_mem_zip hp).2
      obtain ⟨a, ha, rfl⟩ := List.mem_map.mp hb
      exact hv a ha).elim
    · rw [h1, h2]; exact .error er
    rw [h1, h2]
    exact EnvSame.specRun hS es ht (fun e' h' => he e' (List.mem_cons_of_mem _ h'))
      fun e' h' => hm e' (List.mem_cons_of_mem _ h')

/-- **Two runs** of a program in the never-forgetting environment. -/
theorem evalSpec_same (hS : ∀ v, S v v) {ev : O → List V → Except Err (List V)} (j : Jaxpr O V) (fx : Var → Bool)
    (bs : List Bool) (hm : Marked fx j.invars j.eqns bs)
    (he : ∀ e ∈ j.eqns, EqSame S ev e.op (e.invars.map (Atom.flag fx))) {consts consts' args args' : List V}
    (hc : Match S (consts.map fun _ => true) consts consts') (ha : Match S bs args args') :
    ExRel (List.Forall₂ S) (evalSpec ev j consts args) (evalSpec ev j consts' args') := by
  unfold evalSpec specInit
  have h0 : EnvSame S fx (fun _ => none) fun _ => none := fun _ => .none
  obtain ⟨er, h1, h2⟩ | ⟨s, s', h1, h2, hs⟩ := (h0.bind j.constvars hc fun p hp _ => by
    obtain ⟨_, -, h⟩ := List.mem_map.mp (List.of_mem_zip hp).2
    exact h.symm).elim
  · rw [h1, h2]; exact .error er
  rw [h1, h2]
  dsimp only
  obtain ⟨er, h1, h2⟩ | ⟨s, s', h1, h2, hs⟩ := (hs.bind j.invars ha hm.inputs).elim
  · rw [h1, h2]; exact .error er
  rw [h1, h2]
  dsimp only
  obtain ⟨er, h1, h2⟩ | ⟨s, s', h1, h2, hs⟩ := (hs.specRun hS j.eqns he hm.eqns).elim
  · rw [h1, h2]; exact .error er
  rw [h1, h2]
  exact (hs.getMany hS j.outvars).mono fun _ _ h => h.same

/-! ### The reference-counted environment -/

/-- Two states: same counters, dictionaries with the same keys. -/
def StateSame (S : V → V → Prop) (fx : Var → Bool) (s s' : EnvState V) : Prop :=
  s.rc = s'.rc ∧ EnvSame S fx s.env s'.env

theorem StateSame.read (hS : ∀ v, S v v) {fx : Var → Bool} {s s' : EnvState V} (h : StateSame S fx s s') (a : Atom V) :
    ExRel (fun r r' => RelB S (Atom.flag fx a) r.1 r'.1 ∧ StateSame S fx r.2 r'.2) (s.read a) (s'.read a) := by
  cases a with
  | lit x => exact .ok ⟨⟨hS x, fun _ => rfl⟩, h⟩
  | var v =>
    unfold EnvState.read
    dsimp only
    rw [← h.1]
    have hv := h.2 v
    revert hv
    generalize s.env v = x
    generalize s'.env v = y
    intro hxy
    cases hxy with
    | none => exact .error _
    | some hab =>
      dsimp only
      split
      · exact .ok ⟨hab, rfl, h.2.clear v⟩
      · exact .ok ⟨hab, rfl, h.2⟩

theorem StateSame.readMany (hS : ∀ v, S v v) {fx : Var → Bool} : ∀ (as : List (Atom V)) {s s' : EnvState V},
    StateSame S fx s s' → ExRel (fun r r' => Match S (as.map (Atom.flag fx)) r.1 r'.1 ∧ StateSame S fx r.2 r'.2)
      (s.readMany as) (s'.readMany as)
  | [], _, _, h => .ok ⟨.nil, h⟩
  | a :: as, s, s', h => by
    unfold EnvState.readMany
    obtain ⟨e, h1, h2⟩ | ⟨x, y, h1, h2, hxy, hs⟩ := (h.read hS a).elim
    · rw [h1, h2]; exact .error e
    rw [h1, h2]
    dsimp only
    obtain ⟨e, h1, h2⟩ | ⟨xs, ys, h1, h2, hxys, hs'⟩ := (StateSame.readMany hS as hs).elim
    · rw [h1, h2]; exact .error e
    rw [h1, h2]
    exact .ok ⟨.cons hxy hxys, hs'⟩

theorem StateSame.write {fx : Var → Bool} {s s' : EnvState V} (h : StateSame S fx s s') (v : Var) {a a' : V}
    (ha : RelB S (fx v) a a') : StateSame S fx (s.write v a) (s'.write v a') := by
  unfold EnvState.write
  rw [← h.1]
  split
  · exact ⟨rfl, h.2.upd v ha⟩
  · exact h

theorem StateSame.writeMany {fx : Var → Bool} {s s' : EnvState V} (h : StateSame S fx s s') (vs : List Var) {bs : List Bool}
    {xs xs' : List V} (hx : Match S bs xs xs') (hf : ∀ p ∈ vs.zip bs, fx p.1 = true → p.2 = true) :
    ExRel (StateSame S fx) (s.writeMany vs xs) (s'.writeMany vs xs') := by
  unfold EnvState.writeMany
  obtain ⟨l1, l2⟩ := hx.length
  by_cases hl : vs.length = xs.length
  · rw [if_pos hl, if_pos (by omega)]
    refine .ok ?_
    clear hl l1 l2
    induction hx generalizing vs s s' with
    | nil => simpa using h
    | cons h1 t ih =>
      cases vs with
      | nil => exact h
      | cons v vs =>
        rw [List.zip_cons_cons, List.zip_cons_cons, List.foldl_cons, List.foldl_cons]
        exact ih (h.write v ⟨h1.1, fun hv => h1.2 (hf (v, _) (by simp) hv)⟩) vs
          fun p hp => hf p (by rw [List.zip_cons_cons]; exact List.mem_cons_of_mem _ hp)
  · rw [if_neg hl, if_neg (by omega)]
    exact .error _

theorem StateSame.runRC (hS : ∀ v, S v v) {ev : O → List V → Except Err (List V)} {fx : Var → Bool} :
    ∀ (es : List (Eqn O V)) {s s' : EnvState V}, StateSame S fx s s' →
      (∀ e ∈ es, EqSame S ev e.op (e.invars.map (Atom.flag fx))) →
      (∀ e ∈ es, ∀ v ∈ e.outvars, fx v = true → ∀ a ∈ e.invars, Atom.flag fx a = true) →
      ExRel (StateSame S fx) (Interp.runRC ev s es) (Interp.runRC ev s' es)
  | [], _, _, h, _, _ => .ok h
  | e :: es, s, s', h, he, hm => by
    unfold Interp.runRC Interp.stepRC
    obtain ⟨er, h1, h2⟩ | ⟨⟨xs, s1⟩, ⟨xs', s1'⟩, h1, h2, hx, hs⟩ := (h.readMany hS e.invars).elim
    · rw [h1, h2]; exact .error er
    rw [h1, h2]
    dsimp only at hx hs ⊢
    obtain ⟨er, h1, h2⟩ | ⟨r, r', h1, h2, cs, hc, hcs⟩ := ((he e (by simp)).flags hS hx).elim
    · rw [h1, h2]; exact .error er
    rw [h1, h2]
    dsimp only
    obtain ⟨er, h1, h2⟩ | ⟨t, t', h1, h2, ht⟩ := (hs.writeMany e.outvars hc fun p hp hfp => by
      have hv := hm e (by simp) p.1 (List.of_mem_zip hp).1 hfp
      refine hcs (fun b hb => ?_) p.2 (List.of_mem_zip hp).2
      obtain ⟨a, ha, rfl⟩ := List.mem_map.mp hb
      exact hv a ha).elim
    · rw [h1, h2]; exact .error er
    rw [h1, h2]
    exact StateSame.runRC hS es ht (fun e' h' => he e' (List.mem_cons_of_mem _ h'))
      fun e' h' => hm e' (List.mem_cons_of_mem _ h')

/-- **Two runs** of a program in the reference-counted environment. -/
theorem evalRC_same (hS : ∀ v, S v v) {ev : O → List V → Except Err (List V)} (j : Jaxpr O V) (fx : Var → Bool)
    (bs : List Bool) (hm : Marked fx j.invars j.eqns bs)
    (he : ∀ e ∈ j.eqns, EqSame S ev e.op (e.invars.map (Atom.flag fx))) {consts args args' : List V}
    (ha : Match S bs args args') :
    ExRel (List.Forall₂ S) (evalRC ev j consts args) (evalRC ev j consts args') := by
  unfold evalRC initEnv
  have h0 : StateSame S fx (⟨fun _ => none, initRC j⟩ : EnvState V) ⟨fun _ => none, initRC j⟩ := ⟨rfl, fun _ => .none⟩
  obtain ⟨er, h1, h2⟩ | ⟨s, s', h1, h2, hs⟩ := (h0.writeMany j.constvars
    (Match.refl hS (consts.map fun _ => true) consts (by simp)) fun p hp _ => by
    obtain ⟨_, -, h⟩ := List.mem_map.mp (List.of_mem_zip hp).2
    exact h.symm).elim
  · rw [h1]; exact .error er
  rw [h1]
  have hss : s = s' := Except.ok.inj (h1.symm.trans h2)
  subst hss
  dsimp only
  obtain ⟨er, h1, h2⟩ | ⟨s, s', h1, h2, hs⟩ := (hs.writeMany j.invars ha hm.inputs).elim
  · rw [h1, h2]; exact .error er
  rw [h1, h2]
  dsimp only
  obtain ⟨er, h1, h2⟩ | ⟨s, s', h1, h2, hs⟩ := (hs.runRC hS j.eqns he hm.eqns).elim
  · rw [h1, h2]; exact .error er
  rw [h1, h2]
  dsimp only
  obtain ⟨er, h1, h2⟩ | ⟨⟨r, _⟩, ⟨r', _⟩, h1, h2, hr, -⟩ := (hs.readMany hS j.outvars).elim
  · rw [h1, h2]; exact .error er
  rw [h1, h2]
  exact .ok hr.same

end

end Folx

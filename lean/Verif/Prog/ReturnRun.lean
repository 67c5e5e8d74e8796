import Verif.Prog.Returns
import Verif.Prog.Run
import Verif.Prog.Total

/-!
# Runs that return with sparse Jacobians
-/

namespace Folx

open Filter Topology
open Folx.Interp

section Env
variable {O V P : Type}

/-- The environment `t` holds the values of the environment `s`, which satisfy `Q`. -/
def ValEnv (val : V → P) (Q : V → Prop) (s : SEnv V) (t : SEnv P) : Prop :=
  ∀ v, t v = (s v).map val ∧ ∀ a, s v = some a → Q a

variable {val : V → P} {Q : V → Prop} {lit : P → V}

theorem ValEnv.getMany {s : SEnv V} {t : SEnv P} (h : ValEnv val Q s t) (hlit : ∀ p, val (lit p) = p ∧ Q (lit p)) :
    ∀ (as : List (Atom P)) (ps : List P), t.getMany as = .ok ps →
      ∃ vals, s.getMany (as.map (Atom.map lit)) = .ok vals ∧ vals.map val = ps ∧ ∀ a ∈ vals, Q a
  | [], ps, hp => ⟨[], rfl, by simpa [SEnv.getMany] using hp, by simp⟩
  | a :: as, ps, hp => by
    simp only [SEnv.getMany] at hp
    cases h1 : t.get a with
    | error e => simp [h1] at hp
    | ok p =>
      simp only [h1] at hp
      cases h2 : t.getMany as with
      | error e => simp [h2] at hp
      | ok ps' =>
        simp only [h2, Except.ok.injEq] at hp
        subst hp
        obtain ⟨vals, g1, g2, g3⟩ := ValEnv.getMany h hlit as ps' h2
        have : ∃ b, s.get (a.map lit) = .ok b ∧ val b = p ∧ Q b := by
          cases a with
          | lit q =>
            have : q = p := by simpa [SEnv.get] using h1
            subst this
            exact ⟨lit q, rfl, (hlit q).1, (hlit q).2⟩
          | var v =>
            simp only [SEnv.get] at h1
            rw [(h v).1] at h1
            cases hs : s v with
            | none => simp [hs] at h1
            | some b =>
              simp only [hs, Option.map_some, Except.ok.injEq] at h1
              exact ⟨b, by simp [Atom.map, SEnv.get, hs], h1, (h v).2 b hs⟩
        obtain ⟨b, e1, e2, e3⟩ := this
        refine ⟨b :: vals, by simp [SEnv.getMany, e1, g1], by simp [e2, g2], ?_⟩
        intro c hc
        rcases List.mem_cons.mp hc with rfl | hc
        · exact e3
        · exact g3 c hc

theorem ValEnv.bind {s : SEnv V} {t : SEnv P} (h : ValEnv val Q s t) (vs : List Var) (ys : List V) (hQ : ∀ a ∈ ys, Q a)
    (t' : SEnv P) (ht : t.bind vs (ys.map val) = .ok t') : ∃ s', s.bind vs ys = .ok s' ∧ ValEnv val Q s' t' := by
  have hl := (bind_ok_iff _ _ _).mp ⟨t', ht⟩
  rw [List.length_map] at hl
  have key : ∀ (l : List (Var × V)) (s : SEnv V) (t : SEnv P), (∀ a ∈ l, Q a.2) → ValEnv val Q s t →
      ValEnv val Q (l.foldl (fun s p => upd s p.1 (some p.2)) s)
        ((l.map fun p => (p.1, val p.2)).foldl (fun s p => upd s p.1 (some p.2)) t) := by
    intro l
    induction l with
    | nil => exact fun _ _ _ h => h
    | cons a l ih =>
      intro s t hq h
      rw [List.map_cons, List.foldl_cons, List.foldl_cons]
      refine ih _ _ (fun b hb => hq b (by simp [hb])) fun v => ?_
      by_cases hv : v = a.1
      · subst hv
        simp only [upd, if_true, Option.map_some, Option.some.injEq]
        exact ⟨trivial, fun b hb => hb ▸ hq a (by simp)⟩
      · simp only [upd, hv, if_false]
        exact h v
  unfold SEnv.bind at ht ⊢
  rw [if_pos (by rw [List.length_map]; exact hl)] at ht
  rw [if_pos hl]
  obtain rfl := Except.ok.inj ht
  refine ⟨_, rfl, ?_⟩
  have := key (vs.zip ys) s t (fun a ha => hQ _ (List.of_mem_zip ha).2) h
  rw [List.zip_map_right]
  exact this

/-- If the ordinary run succeeds, so does the other. -/
theorem run_returns (hlit : ∀ p, val (lit p) = p ∧ Q (lit p)) (evP : O → List P → Except Err (List P))
    (ev : O → List V → Except Err (List V)) (dom : O → List V → Prop) :
    ∀ (es : List (Eqn O P)) (s : SEnv V) (t t' : SEnv P), ValEnv val Q s t →
      (∀ e ∈ es, ∀ vals zs, (∀ a ∈ vals, Q a) → dom e.op vals → evP e.op (vals.map val) = .ok zs →
        ∃ ys, ev e.op vals = .ok ys ∧ ys.map val = zs ∧ ∀ a ∈ ys, Q a) →
      DomRun ev dom s (es.map (Eqn.map lit)) → specRun evP t es = .ok t' →
      ∃ s', specRun ev s (es.map (Eqn.map lit)) = .ok s' ∧ ValEnv val Q s' t'
  | [], s, t, t', h, _, _, hr => ⟨s, rfl, by
      obtain rfl : t = t' := by simpa [specRun] using hr
      exact h⟩
  | e :: es, s, t, t', h, he, hd, hr => by
    simp only [specRun, specStep] at hr
    cases h1 : t.getMany e.invars with
    | error err => simp [h1] at hr
    | ok ps =>
      simp only [h1] at hr
      obtain ⟨vals, g1, rfl, g3⟩ := h.getMany hlit e.invars ps h1
      have g1' : s.getMany (e.map lit).invars = .ok vals := g1
      cases h2 : evP e.op (vals.map val) with
      | error err => simp [h2] at hr
      | ok zs =>
        simp only [h2] at hr
        obtain ⟨d1, d2⟩ := hd vals g1'
        obtain ⟨ys, k1, rfl, k3⟩ := he e (by simp) vals zs g3 d1 h2
        have k1' : ev (e.map lit).op vals = .ok ys := k1
        cases h3 : t.bind e.outvars (ys.map val) with
        | error err => simp [h3] at hr
        | ok t1 =>
          simp only [h3] at hr
          obtain ⟨s1, m1, m2⟩ := h.bind e.outvars ys k3 t1 h3
          have hs : specStep ev s (e.map lit) = .ok s1 := by
            unfold specStep
            simp only [g1', k1']
            exact m1
          obtain ⟨s', n1, n2⟩ := run_returns hlit evP ev dom es s1 t1 t' m2 (fun e' h' => he e' (by simp [h'])) (d2 s1 hs) hr
          exact ⟨s', by simp [specRun, hs, n1], n2⟩

theorem prog_returns (hlit : ∀ p, val (lit p) = p ∧ Q (lit p)) (evP : O → List P → Except Err (List P))
    (ev : O → List V → Except Err (List V)) (dom : O → List V → Prop) (j : Jaxpr O P)
    (he : ∀ e ∈ j.eqns, ∀ vals zs, (∀ a ∈ vals, Q a) → dom e.op vals → evP e.op (vals.map val) = .ok zs →
        ∃ ys, ev e.op vals = .ok ys ∧ ys.map val = zs ∧ ∀ a ∈ ys, Q a)
    (consts : List P) (args : List V) (hargs : ∀ a ∈ args, Q a)
    (hd : DomProg ev dom (j.map lit) (consts.map lit) args) (zs : List P)
    (hr : evalSpec evP j consts (args.map val) = .ok zs) :
    ∃ ys, evalSpec ev (j.map lit) (consts.map lit) args = .ok ys ∧ ys.map val = zs ∧ ∀ a ∈ ys, Q a := by
  have h0 : ValEnv val Q (fun _ => none) (fun _ => none) := fun v => ⟨rfl, fun a h => by simp at h⟩
  unfold evalSpec at hr
  cases hi : specInit j consts (args.map val) with
  | error err => simp [hi] at hr
  | ok tP =>
    simp only [hi] at hr
    have hi' := hi
    unfold specInit at hi'
    cases h1 : SEnv.bind (fun _ => none) j.constvars consts with
    | error err => simp [h1] at hi'
    | ok t1 =>
      simp only [h1] at hi'
      have hcv : (consts.map lit).map val = consts := by
        rw [List.map_map]
        conv_rhs => rw [← List.map_id consts]
        exact List.map_congr_left fun p _ => (hlit p).1
      obtain ⟨s1, m1, m2⟩ := h0.bind j.constvars (consts.map lit) (fun a ha => by
        obtain ⟨p, _, rfl⟩ := List.mem_map.mp ha
        exact (hlit p).2) t1 (by rw [hcv]; exact h1)
      obtain ⟨s2, m3, m4⟩ := m2.bind j.invars args hargs tP hi'
      have hinit : specInit (j.map lit) (consts.map lit) args = .ok s2 := by
        unfold specInit
        have m1' : SEnv.bind (fun _ => none) (j.map lit).constvars (consts.map lit) = .ok s1 := m1
        rw [m1']
        exact m3
      cases h3 : specRun evP tP j.eqns with
      | error err => simp [h3] at hr
      | ok t3 =>
        simp only [h3] at hr
        obtain ⟨s3, n1, n2⟩ := run_returns hlit evP ev dom j.eqns s2 tP t3 m4 he (hd _ hinit) h3
        obtain ⟨ys, k1, k2, k3⟩ := n2.getMany hlit j.outvars zs hr
        refine ⟨ys, ?_, k2, k3⟩
        unfold evalSpec
        rw [hinit]
        have n1' : specRun ev s2 (j.map lit).eqns = .ok s3 := n1
        simp only [n1']
        exact k1

end Env

variable {F : Type} [RCLike F]

/-- The array of a value. -/
def PVal.val (v : PVal F) : PArr F := ⟨v.1, v.2.x⟩

/-- The rule of `p` returns the values of the function, and keeps `Q`. -/
def Prim.ReturnsFor (Q : ∀ m, Opd F m → Prop) (p : Prim F) (T : ℕ) (o : (i : Fin p.nIn) → Opd F (p.size i)) : Prop :=
  (∀ i, Q _ (o i)) → (∃ i, (o i).isLapl = true) →
    ∃ r, p.rule T o = .ok r ∧ ∀ j, (r j).x = p.fwd (fun i => (o i).x) j ∧ Q _ (r j)

/-- A list of values can be unpacked if the list of their arrays can. -/
theorem unpack_val {k : ℕ} (size : Fin k → ℕ) (vals : List (PVal F)) (x : (i : Fin k) → Fin (size i) → F)
    (hx : unpack (β := fun m => Fin m → F) size (vals.map PVal.val) = .ok x) :
    ∃ o, unpack (β := Opd F) size vals = .ok o ∧ ∀ i, (o i).x = x i := by
  rw [unpack_eq] at hx
  have hlen : vals.length = k := by
    have := congrArg List.length hx
    simpa using this
  have hget : ∀ i : Fin k, ∃ o : Opd F (size i), vals.get (i.cast hlen.symm) = ⟨size i, o⟩ ∧ o.x = x i := by
    intro i
    have h1 : (vals.map PVal.val).get (i.cast (by rw [List.length_map, hlen])) = ⟨size i, x i⟩ := by
      rw [List.get_of_eq hx, List.get_ofFn]
      rfl
    rw [List.get_eq_getElem, List.getElem_map] at h1
    have e1 : vals.get (i.cast hlen.symm) = vals[(i : ℕ)]'(by rw [hlen]; exact i.2) := rfl
    rw [e1]
    have h1' : PVal.val (vals[(i : ℕ)]'(by rw [hlen]; exact i.2)) = ⟨size i, x i⟩ := h1
    generalize vals[(i : ℕ)]'(by rw [hlen]; exact i.2) = v at h1'
    obtain ⟨m, w⟩ := v
    obtain rfl : m = size i := congrArg Sigma.fst h1'
    exact ⟨w, rfl, eq_of_heq (Sigma.mk.inj h1').2⟩
  choose o ho1 ho2 using hget
  refine ⟨o, ?_, ho2⟩
  rw [unpack_eq]
  apply List.ext_get (by simp [hlen])
  intro i h1 h2
  rw [List.get_ofFn]
  exact ho1 ⟨i, by omega⟩

theorem Prim.call_returns (Q : ∀ m, Opd F m → Prop) (p : Prim F) (T : ℕ) (vals : List (PVal F))
    (hQ : ∀ v ∈ vals, Q v.1 v.2) (hex : ∃ v ∈ vals, v.2.isLapl = true)
    (hg : ∀ o, unpack (β := Opd F) p.size vals = .ok o → p.ReturnsFor Q T o) (zs : List (PArr F))
    (hb : p.bind (vals.map PVal.val) = .ok zs) :
    ∃ ys, p.call T vals = .ok ys ∧ ys.map PVal.val = zs ∧ ∀ v ∈ ys, Q v.1 v.2 := by
  unfold Prim.bind at hb
  split at hb
  · simp at hb
  · rename_i x hux
    obtain rfl := Except.ok.inj hb
    obtain ⟨o, h1, h2⟩ := unpack_val p.size vals x hux
    have hmem : ∀ i, (⟨p.size i, o i⟩ : PVal F) ∈ vals := fun i => by
      rw [(unpack_eq _ _ _).mp h1, List.mem_ofFn]
      exact ⟨i, rfl⟩
    have hexo : ∃ i, (o i).isLapl = true := by
      obtain ⟨v, hv, hvl⟩ := hex
      rw [(unpack_eq _ _ _).mp h1, List.mem_ofFn] at hv
      obtain ⟨i, rfl⟩ := hv
      exact ⟨i, hvl⟩
    obtain ⟨r, hr, hrx⟩ := hg o h1 (fun i => hQ _ (hmem i)) hexo
    have hox : (fun i => (o i).x) = x := funext h2
    refine ⟨List.ofFn fun j => ⟨p.outSize j, r j⟩, ?_, ?_, ?_⟩
    · unfold Prim.call
      rw [h1]
      simp only [hr]
    · rw [List.map_ofFn]
      congr 1
      funext j
      show PVal.val ⟨p.outSize j, r j⟩ = _
      unfold PVal.val
      dsimp only
      rw [(hrx j).1, hox]
    · intro v hv
      rw [List.mem_ofFn] at hv
      obtain ⟨j, rfl⟩ := hv
      exact (hrx j).2

/-- Every equation returns. -/
theorem evLapl_returns (Q : ∀ m, Opd F m → Prop) (hQ : ∀ m a, Q m (.plain a)) (reg : String → Option (Prim F))
    (junk : List (PVal F) → PVal F) (T : ℕ) (good : (p : Prim F) → ((i : Fin p.nIn) → Opd F (p.size i)) → Prop)
    (hgood : ∀ p o, good p o → p.ReturnsFor Q T o) :
    ∀ (d : ℕ) (op : Op d F) (vals : List (PVal F)) (zs : List (PArr F)), NoScan reg d op → (∀ v ∈ vals, Q v.1 v.2) →
      DomR reg junk T good d op vals → evPlain d op (vals.map PVal.val) = .ok zs →
      ∃ ys, evLapl reg junk T d op vals = .ok ys ∧ ys.map PVal.val = zs ∧ ∀ v ∈ ys, Q v.1 v.2 := by
  intro d
  induction d with
  | zero => intro op; exact nomatch op
  | succ d ih =>
    intro op vals zs hns hv hd he
    have hlit : ∀ a : PArr F, PVal.val (PVal.ofPlain a) = a ∧ Q (PVal.ofPlain a).1 (PVal.ofPlain a).2 := fun a => ⟨rfl, hQ _ _⟩
    unfold evLapl
    split
    · have he' : evPlain (d + 1) op (vals.map fun v => (⟨v.1, v.2.x⟩ : PArr F)) = .ok zs := he
      rw [he']
      refine ⟨_, rfl, ?_, ?_⟩
      · rw [List.map_map]
        conv_rhs => rw [← List.map_id zs]
        exact List.map_congr_left fun p _ => (hlit p).1
      · intro v hv
        obtain ⟨a, _, rfl⟩ := List.mem_map.mp hv
        exact (hlit a).2
    · rename_i hall
      have hex : ∃ v ∈ vals, v.2.isLapl = true := by
        by_contra hc
        push Not at hc
        apply hall
        rw [List.all_eq_true]
        intro v hv
        simpa using hc v hv
      have hdd := hd hex
      cases op with
      | prim p =>
        dsimp only at hdd ⊢
        exact p.call_returns Q T vals hv hex (fun o ho => hgood p o (hdd o ho)) zs he
      | pjit name j consts =>
        simp only [NoScan] at hns
        dsimp only at hdd ⊢
        cases hreg : reg name with
        | some p =>
          simp only [hreg] at hdd hns ⊢
          have he' : evalSpec (evPlain d) j consts (vals.map PVal.val) = .ok zs := he
          obtain ⟨zs', hz'⟩ := hns _ zs he'
          obtain rfl : zs = zs' := Except.ok.inj (he'.symm.trans (hdd.2 _ _ hz'))
          exact p.call_returns Q T vals hv hex (fun o ho => hgood p o (hdd.1 o ho)) zs hz'
        | none =>
          simp only [hreg] at hdd hns ⊢
          rw [C06_refcount_never_loses_values _ _ _ _ (fun v hv => by
            rw [readsOf_map]; exact hns.2 v (mem_map_var _ _ v hv))]
          exact prog_returns (Q := fun v : PVal F => Q v.1 v.2) hlit (evPlain d) (evLapl reg junk T d) (DomR reg junk T good d) j
            (fun e hme vals zs hv hd he => ih e.op vals zs (hns.1 e hme) hv hd he) consts vals hv hdd zs he
      | scan s => exact hns.elim

/-- The interpreter returns if the ordinary run does and no call raises. -/
theorem evalLapl_returns (Q : ∀ m, Opd F m → Prop) (hQ : ∀ m a, Q m (.plain a)) (reg : String → Option (Prim F))
    (junk : List (PVal F) → PVal F) (T : ℕ) (good : (p : Prim F) → ((i : Fin p.nIn) → Opd F (p.size i)) → Prop)
    (hgood : ∀ p o, good p o → p.ReturnsFor Q T o) (d : ℕ) (j : Jaxpr (Op d F) (PArr F))
    (hns : ∀ e ∈ j.eqns, NoScan reg d e.op)
    (hbound : ∀ v, Atom.var v ∈ j.outvars → (readsOf j.eqns j.outvars).count v ≤ 2147483647)
    (consts : List (PArr F)) (args : List (PVal F)) (hargs : ∀ v ∈ args, Q v.1 v.2)
    (hd : DomProg (evLapl reg junk T d) (DomR reg junk T good d) (j.map PVal.ofPlain) (consts.map PVal.ofPlain) args)
    (zs : List (PArr F)) (he : evalPlain d j consts (args.map PVal.val) = .ok zs) :
    ∃ ys, evalLapl reg junk T d j consts args = .ok ys ∧ ys.map PVal.val = zs ∧ ∀ v ∈ ys, Q v.1 v.2 := by
  unfold evalLapl
  rw [C06_refcount_never_loses_values _ _ _ _ (fun v hv => by
    rw [readsOf_map]; exact hbound v (mem_map_var _ _ v hv))]
  exact prog_returns (Q := fun v : PVal F => Q v.1 v.2) (fun a => ⟨rfl, hQ _ _⟩) (evPlain d) (evLapl reg junk T d)
    (DomR reg junk T good d) j
    (fun e hme vals zs hv hd he => evLapl_returns Q hQ reg junk T good hgood d e.op vals zs (hns e hme) hv hd he)
    consts args hargs hd zs he

end Folx

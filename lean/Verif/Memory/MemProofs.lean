import Verif.Memory.MemSpec
import Verif.Interp.EnvProofs
import Mathlib.Tactic.Ring
import Mathlib.Tactic.Positivity

namespace Folx.Mem

open Folx.Interp

variable {O : Type}

/-- First binding of a variable. -/
def look (b : Binds) (v : Var) : Option AVal := (b.find? (fun p => p.1 == v)).map Prod.snd

theorem look_none_iff {b : Binds} {v : Var} : look b v = none ↔ v ∉ b.map Prod.fst := by
  simp only [look, Option.map_eq_none_iff, List.find?_eq_none, List.mem_map, beq_iff_eq]
  constructor
  · rintro h ⟨p, hp, e⟩; exact h p hp e
  · intro h p hp e; exact h ⟨p, hp, e⟩

theorem get_var (b : Binds) (v : Var) :
    b.get (.var v) = match look b v with | none => .error .key | some x => .ok x := by
  simp only [Binds.get, look]
  cases b.find? (fun p => p.1 == v) <;> rfl

theorem look_snoc {b : Binds} {v w : Var} {x : AVal} (hv : v ∉ b.map Prod.fst) :
    look (b ++ [(v, x)]) w = if w = v then some x else look b w := by
  by_cases h : w = v
  · subst h
    rw [if_pos rfl]
    have := look_none_iff.mpr hv
    simp only [look, Option.map_eq_none_iff] at this
    simp [look, List.find?_append, this]
  · rw [if_neg h]
    have h' : ¬ v = w := fun e => h e.symm
    simp [look, List.find?_append, h']

/-- Coupling of the environment with the list of all bindings. -/
structure EInv (io outs rem : List Var) (s : EnvState AVal) (b : Binds) : Prop where
  env : ∀ v, s.env v = if v ∈ io ∨ v ∈ outs ∨ v ∈ rem then look b v else none
  rc : ∀ v, v ∉ outs → s.rc v = io.count v + rem.count v
  rcOut : ∀ v, v ∈ outs → ((rem ++ outs).count v : ℤ) ≤ s.rc v
  nodup : (b.map Prod.fst).Nodup

theorem EInv.pos_iff {io outs rem : List Var} {s : EnvState AVal} {b : Binds} (h : EInv io outs rem s b) (v : Var) :
    0 < s.rc v ↔ (v ∈ io ∨ v ∈ outs ∨ v ∈ rem) := by
  by_cases ho : v ∈ outs
  · have h1 := h.rcOut v ho
    have h2 : 0 < outs.count v := List.count_pos_iff.mpr ho
    rw [List.count_append] at h1
    constructor
    · intro _; exact Or.inr (Or.inl ho)
    · intro _; omega
  · rw [h.rc v ho]
    have h1 : 0 < io.count v ↔ v ∈ io := List.count_pos_iff
    have h2 : 0 < rem.count v ↔ v ∈ rem := List.count_pos_iff
    constructor
    · intro h3
      by_cases hi : v ∈ io
      · exact Or.inl hi
      · have : io.count v = 0 := List.count_eq_zero_of_not_mem hi
        exact Or.inr (Or.inr (h2.mp (by omega)))
    · rintro (hi | ho' | hr)
      · have := h1.mpr hi; omega
      · exact absurd ho' ho
      · have := h2.mpr hr; omega

theorem EInv.read {io outs rem : List Var} {s : EnvState AVal} {b : Binds} {a : Atom AVal}
    (h : EInv io outs ((a.var?).toList ++ rem) s b) :
    (∃ x s', s.read a = .ok (x, s') ∧ b.get a = .ok x ∧ EInv io outs rem s' b) ∨
    (∃ e, s.read a = .error e ∧ b.get a = .error e) := by
  cases a with
  | lit x => exact Or.inl ⟨x, s, rfl, rfl, by simpa [Atom.var?] using h⟩
  | var v =>
    simp only [Atom.var?, Option.toList_some, List.singleton_append] at h
    have hv : s.env v = look b v := by rw [h.env v, if_pos]; simp
    rw [get_var]
    simp only [EnvState.read, upd_self, hv]
    cases hx : look b v with
    | none => exact Or.inr ⟨_, rfl, rfl⟩
    | some x =>
      left
      dsimp only
      have hrcne : ∀ w, w ≠ v → (v :: rem).count w = rem.count w := fun w hw =>
        List.count_cons_of_ne (Ne.symm hw)
      have hrcv : (v :: rem).count v = rem.count v + 1 := List.count_cons_self
      split
      · rename_i h0
        have hno : v ∉ outs := by
          intro ho
          have h1 := h.rcOut v ho
          have h2 : 0 < outs.count v := List.count_pos_iff.mpr ho
          rw [List.count_append, hrcv] at h1
          omega
        have h1 := h.rc v hno
        rw [hrcv] at h1
        have hio : v ∉ io := by
          intro hi
          have : 0 < io.count v := List.count_pos_iff.mpr hi
          omega
        have hrm : v ∉ rem := by
          intro hi
          have : 0 < rem.count v := List.count_pos_iff.mpr hi
          omega
        refine ⟨x, _, rfl, rfl, ⟨?_, ?_, ?_, h.nodup⟩⟩
        · intro w
          by_cases hw : w = v
          · subst hw; simp [hio, hno, hrm]
          · dsimp only; rw [upd_ne _ _ hw, h.env w]; simp [hw]
        · intro w hwo
          dsimp only
          by_cases hw : w = v
          · subst hw
            have := List.count_eq_zero_of_not_mem hio
            have := List.count_eq_zero_of_not_mem hrm
            simp only [upd_self]; omega
          · rw [upd_ne _ _ hw, upd_ne _ _ hw, h.rc w hwo, hrcne w hw]
        · intro w hwo
          by_cases hw : w = v
          · subst hw; exact absurd hwo hno
          · dsimp only; rw [upd_ne _ _ hw, upd_ne _ _ hw]
            have := h.rcOut w hwo
            rwa [List.count_append, hrcne w hw, ← List.count_append] at this
      · rename_i h0
        refine ⟨x, _, rfl, rfl, ⟨?_, ?_, ?_, h.nodup⟩⟩
        · intro w
          show s.env w = _
          by_cases hw : w = v
          · subst hw
            rw [hv]
            split
            · rfl
            · rename_i hneg
              simp only [not_or] at hneg
              have h1 := h.rc w hneg.2.1
              rw [hrcv] at h1
              have := List.count_eq_zero_of_not_mem hneg.1
              have := List.count_eq_zero_of_not_mem hneg.2.2
              omega
          · rw [h.env w]; simp [hw]
        · intro w hwo
          by_cases hw : w = v
          · subst hw
            have h1 := h.rc w hwo
            rw [hrcv] at h1
            simp only [upd_self]; omega
          · simp only [upd_ne _ _ hw]
            rw [h.rc w hwo, hrcne w hw]
        · intro w hwo
          have h1 := h.rcOut w hwo
          by_cases hw : w = v
          · subst hw
            rw [List.count_append, hrcv] at h1
            simp only [upd_self, List.count_append]; omega
          · simp only [upd_ne _ _ hw]
            rwa [List.count_append, hrcne w hw, ← List.count_append] at h1

theorem EInv.readMany {io outs rem : List Var} {s : EnvState AVal} {b : Binds} {as : List (Atom AVal)}
    (h : EInv io outs (as.filterMap Atom.var? ++ rem) s b) :
    (∃ xs s', s.readMany as = .ok (xs, s') ∧ b.getMany as = .ok xs ∧ EInv io outs rem s' b) ∨
    (∃ e, s.readMany as = .error e ∧ b.getMany as = .error e) := by
  induction as generalizing s with
  | nil => exact Or.inl ⟨[], s, rfl, rfl, by simpa using h⟩
  | cons a as ih =>
    have h' : EInv io outs ((a.var?).toList ++ (as.filterMap Atom.var? ++ rem)) s b := by
      have : (a :: as).filterMap Atom.var? = (a.var?).toList ++ as.filterMap Atom.var? := by
        cases ha : a.var? <;> simp [ha]
      rw [this, List.append_assoc] at h
      exact h
    rcases h'.read with ⟨x, s', h1, h2, h3⟩ | ⟨e, h1, h2⟩
    · rcases ih h3 with ⟨xs, s'', h4, h5, h6⟩ | ⟨e, h4, h5⟩
      · exact Or.inl ⟨x :: xs, s'', by simp [EnvState.readMany, h1, h4],
          by simp [Binds.getMany, h2, h5], h6⟩
      · exact Or.inr ⟨e, by simp [EnvState.readMany, h1, h4], by simp [Binds.getMany, h2, h5]⟩
    · exact Or.inr ⟨e, by simp [EnvState.readMany, h1], by simp [Binds.getMany, h2]⟩

theorem liveBytes_append (keep later : List Var) (b c : Binds) :
    liveBytes keep later (b ++ c) = liveBytes keep later b + liveBytes keep later c := by
  simp [liveBytes]

theorem liveBytes_cons (keep later : List Var) (p : Var × AVal) (b : Binds) :
    liveBytes keep later (p :: b) =
      (if p.1 ∈ keep ∨ p.1 ∈ later then p.2.bytes else 0) + liveBytes keep later b := by
  unfold liveBytes
  by_cases h : p.1 ∈ keep ∨ p.1 ∈ later <;> simp [List.filter_cons, h]

theorem EInv.write {io outs rem : List Var} {m : MState} {b : Binds} {v : Var} {x : AVal}
    (h : EInv io outs rem m.s b) (hv : v ∉ b.map Prod.fst) :
    EInv io outs rem (m.write v x).s (b ++ [(v, x)]) ∧
    (m.write v x).memory = m.memory + liveBytes (io ++ outs) rem [(v, x)] := by
  have hp := h.pos_iff v
  have hnd : ((b ++ [(v, x)]).map Prod.fst).Nodup := by
    rw [List.map_append, List.nodup_append]
    refine ⟨h.nodup, by simp, ?_⟩
    intro a ha c hc
    simp only [List.map_cons, List.map_nil, List.mem_singleton] at hc
    subst hc
    rintro rfl
    exact hv ha
  unfold MState.write
  split
  · rename_i hpos
    have hmem := hp.mp hpos
    refine ⟨⟨?_, ?_, ?_, hnd⟩, ?_⟩
    · intro w
      simp only [EnvState.write, if_pos hpos]
      rw [look_snoc hv]
      by_cases hw : w = v
      · subst hw; simp [hmem]
      · rw [upd_ne _ _ hw, h.env w]; simp [hw]
    · intro w hw
      simp only [EnvState.write, if_pos hpos]
      exact h.rc w hw
    · intro w hw
      simp only [EnvState.write, if_pos hpos]
      exact h.rcOut w hw
    · rw [liveBytes_cons]
      rw [if_pos (by simpa [or_assoc] using hmem)]
      simp [liveBytes]
  · rename_i hpos
    have hmem := fun hh => hpos (hp.mpr hh)
    refine ⟨⟨?_, h.rc, h.rcOut, hnd⟩, ?_⟩
    · intro w
      rw [look_snoc hv]
      by_cases hw : w = v
      · subst hw; rw [h.env w, if_neg hmem, if_neg hmem]
      · rw [h.env w]; simp [hw]
    · rw [liveBytes_cons, if_neg (by simpa [or_assoc] using hmem)]
      simp [liveBytes]

theorem EInv.writeFold {io outs rem : List Var} (ps : List (Var × AVal)) {m : MState} {b : Binds}
    (h : EInv io outs rem m.s b) (hnd : ((b ++ ps).map Prod.fst).Nodup) :
    EInv io outs rem (ps.foldl (fun m p => m.write p.1 p.2) m).s (b ++ ps) ∧
    (ps.foldl (fun m p => m.write p.1 p.2) m).memory = m.memory + liveBytes (io ++ outs) rem ps := by
  induction ps generalizing m b with
  | nil => simpa [liveBytes] using h
  | cons p ps ih =>
    have hp : p.1 ∉ b.map Prod.fst := by
      rw [List.map_append, List.nodup_append] at hnd
      intro hm
      exact hnd.2.2 _ hm p.1 (by simp) rfl
    obtain ⟨h1, h2⟩ := h.write (x := p.2) hp
    have e : b ++ p :: ps = (b ++ [(p.1, p.2)]) ++ ps := by simp
    rw [e] at hnd ⊢
    obtain ⟨h3, h4⟩ := ih h1 hnd
    refine ⟨h3, ?_⟩
    rw [List.foldl_cons, h4, h2]
    have : p :: ps = [(p.1, p.2)] ++ ps := rfl
    rw [this, liveBytes_append]
    push_cast
    ring

/-- Bytes subtracted by `free_memory`. -/
def freedBytes (rc : Var → ℤ) (ps : List (Atom AVal × AVal)) : ℕ :=
  (ps.map fun p => match p.1 with
    | .lit _ => 0
    | .var v => if rc v = 0 then p.2.bytes else 0).sum

theorem free_eq (ps : List (Atom AVal × AVal)) (m : MState) :
    (ps.foldl (fun m p => m.free1 p.1 p.2) m).s = m.s ∧
    (ps.foldl (fun m p => m.free1 p.1 p.2) m).memory = m.memory - freedBytes m.s.rc ps := by
  induction ps generalizing m with
  | nil => simp [freedBytes]
  | cons p ps ih =>
    have hs : (m.free1 p.1 p.2).s = m.s := by
      unfold MState.free1
      split
      · rfl
      · split <;> rfl
    obtain ⟨h1, h2⟩ := ih (m.free1 p.1 p.2)
    rw [List.foldl_cons]
    refine ⟨h1.trans hs, ?_⟩
    rw [h2, hs]
    obtain ⟨a, x⟩ := p
    cases a with
    | lit y => simp [MState.free1, freedBytes]
    | var v =>
      simp only [MState.free1, freedBytes, List.map_cons, List.sum_cons]
      split
      · push_cast; ring
      · simp

theorem liveBytes_cons_later {keep later : List Var} {b : Binds} {v : Var} {x : AVal}
    (hnd : (b.map Prod.fst).Nodup) (hx : look b v = some x) :
    liveBytes keep (v :: later) b =
      liveBytes keep later b + (if v ∈ keep ∨ v ∈ later then 0 else x.bytes) := by
  induction b with
  | nil => simp [look] at hx
  | cons p b ih =>
    rw [List.map_cons, List.nodup_cons] at hnd
    rw [liveBytes_cons, liveBytes_cons]
    by_cases hp : p.1 = v
    · have hxp : p.2 = x := by simpa [look, hp] using hx
      have hout : liveBytes keep (v :: later) b = liveBytes keep later b := by
        unfold liveBytes
        congr 2
        apply List.filter_congr
        intro q hq
        have : q.1 ≠ v := by
          rintro e
          exact hnd.1 (by rw [hp, ← e]; exact List.mem_map_of_mem hq)
        simp [this]
      rw [hout, hp, hxp]
      by_cases hk : v ∈ keep ∨ v ∈ later
      · simp only [if_pos hk]
        rw [if_pos]
        · omega
        · rcases hk with hk | hk
          · exact Or.inl hk
          · exact Or.inr (List.mem_cons_of_mem _ hk)
      · simp only [if_neg hk]
        rw [if_pos (Or.inr List.mem_cons_self)]
        omega
    · have hx' : look b v = some x := by simpa [look, hp] using hx
      rw [ih hnd.2 hx']
      simp only [List.mem_cons, hp, false_or]
      omega

/-- What is live before an equation is at most what is live after it plus what is freed; equality if no operand is
repeated. -/
theorem live_freed {keep later : List Var} {b : Binds} (hnd : (b.map Prod.fst).Nodup) {rc : Var → ℤ}
    (hrc : ∀ v, rc v = 0 ↔ ¬ (v ∈ keep ∨ v ∈ later)) (as : List (Atom AVal)) (xs : List AVal)
    (hg : b.getMany as = .ok xs) :
    liveBytes keep (as.filterMap Atom.var? ++ later) b ≤ liveBytes keep later b + freedBytes rc (as.zip xs) ∧
    ((as.filterMap Atom.var?).Nodup →
      liveBytes keep (as.filterMap Atom.var? ++ later) b = liveBytes keep later b + freedBytes rc (as.zip xs)) := by
  induction as generalizing xs with
  | nil => simp [freedBytes]
  | cons a as ih =>
    simp only [Binds.getMany] at hg
    cases h1 : b.get a with
    | error e => simp [h1] at hg
    | ok x =>
      simp only [h1] at hg
      cases h2 : b.getMany as with
      | error e => simp [h2] at hg
      | ok ys =>
        simp only [h2, Except.ok.injEq] at hg
        subst hg
        obtain ⟨ih1, ih2⟩ := ih ys h2
        cases a with
        | lit y =>
          have hz : freedBytes rc ((Atom.lit y :: as).zip (x :: ys)) = freedBytes rc (as.zip ys) := by
            simp [freedBytes]
          rw [hz]
          simpa [Atom.var?] using ⟨ih1, ih2⟩
        | var v =>
          have hx : look b v = some x := by
            rw [get_var] at h1
            cases hl : look b v with
            | none => simp [hl] at h1
            | some z => simp only [hl, Except.ok.injEq] at h1; rw [h1]
          have hf : (Atom.var v :: as).filterMap Atom.var? = v :: as.filterMap Atom.var? := by
            simp [Atom.var?]
          have hz : freedBytes rc ((Atom.var v :: as).zip (x :: ys)) =
              (if rc v = 0 then x.bytes else 0) + freedBytes rc (as.zip ys) := by
            simp [freedBytes]
          rw [hf, hz, List.cons_append, liveBytes_cons_later hnd hx]
          constructor
          · by_cases hk : v ∈ keep ∨ v ∈ later
            · rw [if_neg (fun h => (hrc v).mp h hk), if_pos]
              · omega
              · rcases hk with hk | hk
                · exact Or.inl hk
                · exact Or.inr (List.mem_append_right _ hk)
            · rw [if_pos ((hrc v).mpr hk)]
              split <;> omega
          · intro hn
            rw [List.nodup_cons] at hn
            have := ih2 hn.2
            by_cases hk : v ∈ keep ∨ v ∈ later
            · rw [if_neg (fun h => (hrc v).mp h hk), if_pos]
              · omega
              · rcases hk with hk | hk
                · exact Or.inl hk
                · exact Or.inr (List.mem_append_right _ hk)
            · rw [if_pos ((hrc v).mpr hk), if_neg]
              · omega
              · simp only [List.mem_append, not_or] at hk ⊢
                exact ⟨hk.1, hn.1, hk.2⟩

/-- Two outcomes agree: same exception, or same results with the first number at most the second (and equal if `nr`). -/
def Agree {α : Type} (nr : Prop) (a c : Except Err (α × ℤ)) : Prop :=
  (∃ y p q, a = .ok (y, p) ∧ c = .ok (y, q) ∧ p ≤ q ∧ (nr → p = q)) ∨ (∃ e, a = .error e ∧ c = .error e)

theorem rc_nonneg_zero {io outs rem : List Var} {s : EnvState AVal} {b : Binds} (h : EInv io outs rem s b) (v : Var) :
    s.rc v = 0 ↔ ¬ (v ∈ io ++ outs ∨ v ∈ rem) := by
  have hp := h.pos_iff v
  have : 0 ≤ s.rc v := by
    by_cases ho : v ∈ outs
    · have := h.rcOut v ho; omega
    · rw [h.rc v ho]; positivity
  rw [List.mem_append, or_assoc, ← hp]
  omega

theorem run_agree {evM evS : O → List AVal → Except Err (List AVal × ℤ)} {nr : Prop} {io outs : List Var}
    (es : List (Eqn O AVal))
    (hev : ∀ e ∈ es, ∀ xs, Agree nr (evM e.op xs) (evS e.op xs))
    (hnr : nr → ∀ e ∈ es, (e.invars.filterMap Atom.var?).Nodup)
    (m : MState) (peak : ℤ) (b : Binds) (h : EInv io outs (eqnReads es) m.s b)
    (hnd : (b.map Prod.fst ++ es.flatMap Eqn.outvars).Nodup)
    (hle : m.memory ≤ liveBytes (io ++ outs) (eqnReads es) b)
    (heq : nr → m.memory = liveBytes (io ++ outs) (eqnReads es) b) :
    (∃ m' peak' b' p, runMem evM m peak es = .ok (m', peak') ∧ specRun evS (io ++ outs) b es = .ok (b', p) ∧
      EInv io outs [] m'.s b' ∧ peak' ≤ max peak p ∧ (nr → 0 ≤ peak → peak' = max peak p) ∧
      m'.memory ≤ liveBytes (io ++ outs) [] b' ∧ (nr → m'.memory = liveBytes (io ++ outs) [] b')) ∨
    (∃ e, runMem evM m peak es = .error e ∧ specRun evS (io ++ outs) b es = .error e) := by
  induction es generalizing m peak b with
  | nil =>
    refine Or.inl ⟨m, peak, b, 0, rfl, rfl, by simpa [eqnReads] using h, le_max_left _ _, ?_, hle, heq⟩
    intro _ h0
    rw [max_eq_left h0]
  | cons e es ih =>
    have hr : eqnReads (e :: es) = e.invars.filterMap Atom.var? ++ eqnReads es := by
      simp [eqnReads]
    rw [hr] at h hle heq
    simp only [runMem, stepMem, MState.readMany, specRun]
    rcases h.readMany with ⟨xs, s1, h1, h2, h3⟩ | ⟨err, h1, h2⟩
    · rw [h1, h2]
      dsimp only
      rcases hev e (by simp) xs with ⟨ys, p, q, h4, h5, h6, h7⟩ | ⟨err, h4, h5⟩
      · rw [h4, h5]
        dsimp only
        unfold MState.writeMany
        by_cases hl : e.outvars.length = ys.length
        · rw [if_pos hl, if_pos hl]
          dsimp only
          have hnd2 : ((b ++ e.outvars.zip ys).map Prod.fst).Nodup := by
            rw [List.map_append, List.map_fst_zip (le_of_eq hl)]
            rw [List.flatMap_cons, ← List.append_assoc, List.nodup_append] at hnd
            exact hnd.1
          obtain ⟨h8, h9⟩ := EInv.writeFold (m := ⟨s1, m.memory⟩) (e.outvars.zip ys) h3 hnd2
          generalize hm2 : List.foldl (fun (m : MState) (p : Var × AVal) => m.write p.1 p.2) (⟨s1, m.memory⟩ : MState)
            (e.outvars.zip ys) = m2 at h8 h9 ⊢
          dsimp only at h9
          obtain ⟨h10, h11⟩ := free_eq (e.invars.zip xs) m2
          have hlf := live_freed (keep := io ++ outs) (later := eqnReads es) h.nodup
            (rc_nonneg_zero h8) e.invars xs h2
          have hih := ih (fun e' he' => hev e' (List.mem_cons_of_mem _ he'))
            (fun hn e' he' => hnr hn e' (List.mem_cons_of_mem _ he'))
            (m2.free e.invars xs)
            (if m2.memory + p > peak then m2.memory + p else peak)
            (b ++ e.outvars.zip ys)
            (by rw [MState.free, h10]; exact h8)
            (by
              rw [List.map_append, List.map_fst_zip (le_of_eq hl), List.append_assoc]
              rwa [List.flatMap_cons] at hnd)
            (by
              rw [MState.free, h11, h9, liveBytes_append]
              have := hlf.1
              push_cast
              omega)
            (by
              intro hn
              rw [MState.free, h11, h9, liveBytes_append, heq hn, hlf.2 (hnr hn e (by simp))]
              push_cast
              ring)
          rcases hih with ⟨m', peak', b', p', h12, h13, h14, h15, h16, h17⟩ | ⟨err, h12, h13⟩
          · left
            refine ⟨m', peak', b', _, h12, by rw [h13], h14, ?_, ?_, h17⟩
            · refine h15.trans ?_
              have hm : m2.memory ≤ liveBytes (io ++ outs) (eqnReads (e :: es)) b +
                  liveBytes (io ++ outs) (eqnReads es) (e.outvars.zip ys) := by
                rw [h9, hr]; omega
              split
              · have : m2.memory + p ≤ liveBytes (io ++ outs) (eqnReads (e :: es)) b +
                  liveBytes (io ++ outs) (eqnReads es) (e.outvars.zip ys) + q := by omega
                omega
              · omega
            · intro hn h0
              have hm : m2.memory = liveBytes (io ++ outs) (eqnReads (e :: es)) b +
                  liveBytes (io ++ outs) (eqnReads es) (e.outvars.zip ys) := by
                rw [h9, hr]; rw [heq hn]
              rw [h16 hn (by split <;> omega), hm, h7 hn]
              split <;> omega
          · exact Or.inr ⟨err, h12, by rw [h13]⟩
        · rw [if_neg hl, if_neg hl]
          exact Or.inr ⟨_, rfl, rfl⟩
      · rw [h4, h5]; exact Or.inr ⟨err, rfl, rfl⟩
    · rw [h1, h2]; exact Or.inr ⟨err, rfl, rfl⟩

theorem keepVars_mem (j : Jaxpr O AVal) (v : Var) :
    v ∈ keepVars j ↔ v ∈ (j.invars ++ j.constvars) ++ j.outvars.filterMap Atom.var? := by
  simp only [keepVars, List.mem_append]
  tauto

theorem liveBytes_congr {k k' later : List Var} (h : ∀ v, v ∈ k ↔ v ∈ k') (b : Binds) :
    liveBytes k later b = liveBytes k' later b := by
  unfold liveBytes
  congr 2
  apply List.filter_congr
  intro p _
  simp [h]

theorem specRun_congr (ev : O → List AVal → Except Err (List AVal × ℤ)) {k k' : List Var}
    (h : ∀ v, v ∈ k ↔ v ∈ k') (b : Binds) (es : List (Eqn O AVal)) :
    specRun ev k b es = specRun ev k' b es := by
  induction es generalizing b with
  | nil => rfl
  | cons e es ih =>
    simp only [specRun]
    simp only [ih, liveBytes_congr h]

/-- The initial environment. -/
theorem init_einv (j : Jaxpr O AVal) (hssa : SSA j) (consts args : List AVal)
    (hc : j.constvars.length = consts.length) (ha : j.invars.length = args.length) :
    ∃ m, initMem j consts args = .ok m ∧
      EInv (j.invars ++ j.constvars) (j.outvars.filterMap Atom.var?) (eqnReads j.eqns) m.s
        (j.constvars.zip consts ++ j.invars.zip args) ∧
      m.memory = liveBytes (keepVars j) (eqnReads j.eqns) (j.constvars.zip consts ++ j.invars.zip args) := by
  have h0 : EInv (j.invars ++ j.constvars) (j.outvars.filterMap Atom.var?) (eqnReads j.eqns)
      (⟨fun _ => none, initRC j⟩ : EnvState AVal) [] := by
    refine ⟨fun v => by simp [look], ?_, ?_, by simp⟩
    · intro v hv
      show initRC j v = _
      rw [initRC_apply, if_neg hv]; rfl
    · intro v hv
      show _ ≤ initRC j v
      rw [initRC_apply, if_pos hv]
      have := hssa.2 v
      unfold int32Max
      omega
  have hnd := hssa.1
  rw [List.append_assoc] at hnd
  have hnd1 : (([] ++ j.constvars.zip consts).map Prod.fst).Nodup := by
    rw [List.nil_append, List.map_fst_zip (le_of_eq hc)]
    exact (List.nodup_append.mp hnd).1
  obtain ⟨h1, h2⟩ := EInv.writeFold (m := ⟨⟨fun _ => none, initRC j⟩, 0⟩) (j.constvars.zip consts) h0 hnd1
  rw [List.nil_append] at h1
  have hnd2 : ((j.constvars.zip consts ++ j.invars.zip args).map Prod.fst).Nodup := by
    rw [List.map_append, List.map_fst_zip (le_of_eq hc), List.map_fst_zip (le_of_eq ha)]
    have := hssa.1
    exact (List.nodup_append.mp this).1
  obtain ⟨h3, h4⟩ := EInv.writeFold (j.invars.zip args) h1 hnd2
  refine ⟨_, ?_, h3, ?_⟩
  · unfold initMem MState.writeMany
    rw [if_pos hc]
    dsimp only
    rw [if_pos ha]
  · rw [h4, h2, liveBytes_congr (keepVars_mem j), liveBytes_append]
    push_cast
    ring

theorem specRun_nonneg {ev : O → List AVal → Except Err (List AVal × ℤ)} {keep : List Var} {b b' : Binds}
    {es : List (Eqn O AVal)} {p : ℤ} (h : specRun ev keep b es = .ok (b', p)) : 0 ≤ p := by
  induction es generalizing b b' p with
  | nil => simp only [specRun, Except.ok.injEq, Prod.mk.injEq] at h; omega
  | cons e es ih =>
    simp only [specRun] at h
    split at h
    · simp at h
    · split at h
      · simp at h
      · split at h
        · split at h
          · simp at h
          · rename_i _ _ _ _ _ _ _ _ _ _ hh
            have := ih hh
            simp only [Except.ok.injEq, Prod.mk.injEq] at h
            omega
        · simp at h

theorem getMany_look (b : Binds) (as : List (Atom AVal)) : SEnv.getMany (look b) as = b.getMany as := by
  induction as with
  | nil => rfl
  | cons a as ih =>
    have : SEnv.get (look b) a = b.get a := by
      cases a with
      | lit x => rfl
      | var v => rw [get_var]; simp only [SEnv.get]; cases look b v <;> rfl
    simp only [SEnv.getMany, Binds.getMany, this, ih]
    cases b.get a with
    | error e => rfl
    | ok x => cases b.getMany as <;> rfl

theorem readOuts {io : List Var} {s : EnvState AVal} {b : Binds} (as : List (Atom AVal))
    (h : EInv io (as.filterMap Atom.var?) [] s b) :
    (∃ xs s', s.readMany as = .ok (xs, s') ∧ b.getMany as = .ok xs) ∨
    (∃ e, s.readMany as = .error e ∧ b.getMany as = .error e) := by
  have hc : Coupled (as.filterMap Atom.var? ++ []) s (look b) := by
    intro v hv
    rw [List.append_nil] at hv ⊢
    refine ⟨?_, by simpa using h.rcOut v hv⟩
    rw [h.env v, if_pos (Or.inr (Or.inl hv))]
  rcases readMany_coupled hc with ⟨xs, s', h1, h2, _⟩ | ⟨e, h1, h2⟩
  · exact Or.inl ⟨xs, s', h1, by rw [← getMany_look]; exact h2⟩
  · exact Or.inr ⟨e, h1, by rw [← getMany_look]; exact h2⟩

theorem jaxpr_agree {evM evS : O → List AVal → Except Err (List AVal × ℤ)} {nr : Prop} (j : Jaxpr O AVal)
    (hssa : SSA j) (hnr : nr → NoRepeat j)
    (hev : ∀ e ∈ j.eqns, ∀ xs, Agree nr (evM e.op xs) (evS e.op xs)) (consts args : List AVal) :
    Agree nr (jaxprMem evM j consts args) (specJaxpr evS j consts args) := by
  unfold jaxprMem specJaxpr
  by_cases hc : j.constvars.length = consts.length
  · rw [if_pos hc]
    by_cases ha : j.invars.length = args.length
    · rw [if_pos ha]
      obtain ⟨m, h1, h2, h3⟩ := init_einv j hssa consts args hc ha
      rw [h1]
      dsimp only
      have hk := liveBytes_congr (later := eqnReads j.eqns) (keepVars_mem j)
        (j.constvars.zip consts ++ j.invars.zip args)
      have hnd : ((j.constvars.zip consts ++ j.invars.zip args).map Prod.fst ++
          j.eqns.flatMap Eqn.outvars).Nodup := by
        rw [List.map_append, List.map_fst_zip (le_of_eq hc), List.map_fst_zip (le_of_eq ha)]
        exact hssa.1
      rcases run_agree j.eqns hev (fun hn => hnr hn) m 0 _ h2 hnd (by rw [h3, hk])
        (fun _ => by rw [h3, hk]) with ⟨m', pk, b', p, h4, h5, h6, h7, h8, _⟩ | ⟨e, h4, h5⟩
      · rw [h4, specRun_congr evS (keepVars_mem j), h5]
        dsimp only [MState.readMany]
        have h6' : EInv (j.invars ++ j.constvars) (j.outvars.filterMap Atom.var?) [] m'.s b' := h6
        have hout := readOuts j.outvars h6'
        rcases hout with ⟨xs, s', h9, h10⟩ | ⟨e, h9, h10⟩
        · rw [h9, h10]
          have hp : 0 ≤ p := specRun_nonneg h5
          exact Or.inl ⟨xs, pk, p, rfl, rfl, by omega, fun hn => by rw [h8 hn le_rfl]; omega⟩
        · rw [h9, h10]; exact Or.inr ⟨e, rfl, rfl⟩
      · rw [h4, specRun_congr evS (keepVars_mem j), h5]; exact Or.inr ⟨e, rfl, rfl⟩
    · rw [if_neg ha]
      refine Or.inr ⟨.length, ?_, rfl⟩
      unfold initMem MState.writeMany
      rw [if_pos hc]
      dsimp only
      rw [if_neg ha]
  · rw [if_neg hc]
    refine Or.inr ⟨.length, ?_, rfl⟩
    unfold initMem MState.writeMany
    rw [if_neg hc]

theorem evStep_agree {nr : Prop} (sM sS : Jaxpr O AVal → List AVal → List AVal → Except Err (List AVal × ℤ))
    (op : MOpStep O)
    (hp : ∀ j c, op = .pjit j c → ∀ xs, Agree nr (sM j c xs) (sS j c xs))
    (hs : ∀ n k j, op = .scan n k j → ∀ xs, Agree nr (sM j [] xs) (sS j [] xs)) (xs : List AVal) :
    Agree nr (evStep sM op xs) (evStep sS op xs) := by
  cases op with
  | prim f =>
    simp only [evStep]
    cases f xs with
    | error e => exact Or.inr ⟨e, rfl, rfl⟩
    | ok ys => exact Or.inl ⟨ys, 0, 0, rfl, rfl, le_rfl, fun _ => rfl⟩
  | pjit j c => exact hp j c rfl xs
  | scan n k j =>
    simp only [evStep]
    cases heads (xs.drop (n + k)) with
    | error e => exact Or.inr ⟨e, rfl, rfl⟩
    | ok ys =>
      dsimp only
      rcases hs n k j rfl (xs.take n ++ (xs.take (k + n)).drop n ++ ys) with ⟨ans, p, q, h1, h2, h3, h4⟩ | ⟨e, h1, h2⟩
      · rw [h1, h2]
        dsimp only
        cases repeatYs k (xs.drop (n + k)) ans with
        | error e => exact Or.inr ⟨e, rfl, rfl⟩
        | ok a => exact Or.inl ⟨a, p, q, rfl, rfl, h3, h4⟩
      · rw [h1, h2]; exact Or.inr ⟨e, rfl, rfl⟩

theorem ev_agree {nr : Prop} (d : ℕ) (op : MOp d) (hssa : MOp.All (fun _ j => SSA j) d op)
    (hnr : nr → MOp.All (fun _ j => NoRepeat j) d op) (xs : List AVal) :
    Agree nr (evMem d op xs) (evSpecMem d op xs) := by
  induction d generalizing xs with
  | zero => exact nomatch op
  | succ d ih =>
    refine evStep_agree (O := MOp d) _ _ op ?_ ?_ xs
    · rintro j c rfl ys
      exact jaxpr_agree j hssa.1 (fun hn => (hnr hn).1)
        (fun e he zs => ih e.op (hssa.2 e he) (fun hn => (hnr hn).2 e he) zs) c ys
    · rintro n k j rfl ys
      exact jaxpr_agree j hssa.1 (fun hn => (hnr hn).1)
        (fun e he zs => ih e.op (hssa.2 e he) (fun hn => (hnr hn).2 e he) zs) [] ys

/-! ### The counter after any number of equations -/

theorem step_mem {ev : O → List AVal → Except Err (List AVal × ℤ)} {io outs rem : List Var} {e : Eqn O AVal}
    {m m' : MState} {peak peak' : ℤ} {b : Binds}
    (h : EInv io outs (e.invars.filterMap Atom.var? ++ rem) m.s b)
    (hnd : (b.map Prod.fst ++ e.outvars).Nodup)
    (hle : m.memory ≤ liveBytes (io ++ outs) (e.invars.filterMap Atom.var? ++ rem) b)
    (hs : stepMem ev m peak e = .ok (m', peak')) :
    ∃ b', b'.map Prod.fst = b.map Prod.fst ++ e.outvars ∧ EInv io outs rem m'.s b' ∧
      m'.memory ≤ liveBytes (io ++ outs) rem b' ∧
      ((e.invars.filterMap Atom.var?).Nodup →
        m.memory = liveBytes (io ++ outs) (e.invars.filterMap Atom.var? ++ rem) b →
        m'.memory = liveBytes (io ++ outs) rem b') := by
  simp only [stepMem, MState.readMany] at hs
  rcases h.readMany with ⟨xs, s1, h1, h2, h3⟩ | ⟨err, h1, h2⟩
  · rw [h1] at hs
    dsimp only at hs
    cases h4 : ev e.op xs with
    | error err => rw [h4] at hs; simp at hs
    | ok r =>
      obtain ⟨ys, p⟩ := r
      rw [h4] at hs
      dsimp only at hs
      unfold MState.writeMany at hs
      by_cases hl : e.outvars.length = ys.length
      · rw [if_pos hl] at hs
        dsimp only at hs
        have hfst : (e.outvars.zip ys).map Prod.fst = e.outvars := List.map_fst_zip (le_of_eq hl)
        have hnd2 : ((b ++ e.outvars.zip ys).map Prod.fst).Nodup := by
          rw [List.map_append, hfst]; exact hnd
        obtain ⟨h8, h9⟩ := EInv.writeFold (m := ⟨s1, m.memory⟩) (e.outvars.zip ys) h3 hnd2
        generalize hm2 : List.foldl (fun (m : MState) (p : Var × AVal) => m.write p.1 p.2) (⟨s1, m.memory⟩ : MState)
            (e.outvars.zip ys) = m2 at h8 h9 hs
        dsimp only at h9
        obtain ⟨h10, h11⟩ := free_eq (e.invars.zip xs) m2
        have hlf := live_freed (keep := io ++ outs) (later := rem) h.nodup (rc_nonneg_zero h8) e.invars xs h2
        simp only [Except.ok.injEq, Prod.mk.injEq] at hs
        obtain ⟨hs1, _⟩ := hs
        refine ⟨b ++ e.outvars.zip ys, by rw [List.map_append, hfst], ?_, ?_, ?_⟩
        · rw [← hs1, MState.free, h10]; exact h8
        · rw [← hs1, MState.free, h11, h9, liveBytes_append]
          have := hlf.1
          push_cast
          omega
        · intro hn hm
          rw [← hs1, MState.free, h11, h9, liveBytes_append, hm, hlf.2 hn]
          push_cast
          ring
      · rw [if_neg hl] at hs; simp at hs
  · rw [h1] at hs; simp at hs

theorem prefix_mem {ev : O → List AVal → Except Err (List AVal × ℤ)} {io outs rem : List Var}
    (pre : List (Eqn O AVal)) {m m' : MState} {peak peak' : ℤ} {b : Binds}
    (h : EInv io outs (eqnReads pre ++ rem) m.s b)
    (hnd : (b.map Prod.fst ++ pre.flatMap Eqn.outvars).Nodup)
    (hle : m.memory ≤ liveBytes (io ++ outs) (eqnReads pre ++ rem) b)
    (hs : runMem ev m peak pre = .ok (m', peak')) :
    ∃ b', EInv io outs rem m'.s b' ∧ m'.memory ≤ liveBytes (io ++ outs) rem b' ∧
      ((∀ e ∈ pre, (e.invars.filterMap Atom.var?).Nodup) →
        m.memory = liveBytes (io ++ outs) (eqnReads pre ++ rem) b →
        m'.memory = liveBytes (io ++ outs) rem b') := by
  induction pre generalizing m peak b with
  | nil =>
    simp only [runMem, Except.ok.injEq, Prod.mk.injEq] at hs
    obtain ⟨rfl, _⟩ := hs
    exact ⟨b, by simpa [eqnReads] using h, by simpa [eqnReads] using hle, fun _ hm => by simpa [eqnReads] using hm⟩
  | cons e es ih =>
    have hr : eqnReads (e :: es) ++ rem = e.invars.filterMap Atom.var? ++ (eqnReads es ++ rem) := by
      simp [eqnReads]
    rw [hr] at h hle
    simp only [runMem] at hs
    cases h1 : stepMem ev m peak e with
    | error err => rw [h1] at hs; simp at hs
    | ok r =>
      obtain ⟨m1, peak1⟩ := r
      rw [h1] at hs
      dsimp only at hs
      rw [List.flatMap_cons] at hnd
      have hnd1 : (b.map Prod.fst ++ e.outvars).Nodup := by
        rw [← List.append_assoc] at hnd
        exact (List.nodup_append.mp hnd).1
      obtain ⟨b1, hb1, h2, h3, h4⟩ := step_mem h hnd1 hle h1
      obtain ⟨b', h5, h6, h7⟩ := ih h2 (by rw [hb1, List.append_assoc]; exact hnd) h3 hs
      refine ⟨b', h5, h6, fun hn hm => h7 (fun e' he' => hn e' (List.mem_cons_of_mem _ he')) ?_⟩
      rw [hr] at hm
      exact h4 (hn e (by simp)) hm

/-- Bytes of the value stored for a variable. -/
def storedBytes (s : EnvState AVal) (v : Var) : ℕ := ((s.env v).map AVal.bytes).getD 0

theorem live_eq_stored {io outs rem : List Var} {s : EnvState AVal} {b : Binds} (h : EInv io outs rem s b)
    (l : List Var) (hl : l.Nodup) (hcov : ∀ v, s.env v ≠ none → v ∈ l) :
    liveBytes (io ++ outs) rem b = (l.map (storedBytes s)).sum := by
  have hlook : ∀ p ∈ b, look b p.1 = some p.2 := by
    have := h.nodup
    intro p hp
    generalize hb : b = c at *
    clear hb h hcov
    induction c with
    | nil => simp at hp
    | cons q c ih =>
      rw [List.map_cons, List.nodup_cons] at this
      rcases List.mem_cons.mp hp with rfl | hp'
      · simp [look]
      · have hne : q.1 ≠ p.1 := fun e => this.1 (by rw [e]; exact List.mem_map_of_mem hp')
        have := ih this.2 hp'
        simpa [look, hne] using this
  have e1 : liveBytes (io ++ outs) rem b =
      (((b.filter fun p => decide (p.1 ∈ io ++ outs ∨ p.1 ∈ rem)).map Prod.fst).map (storedBytes s)).sum := by
    unfold liveBytes
    rw [List.map_map]
    congr 1
    apply List.map_congr_left
    intro p hp
    rw [List.mem_filter] at hp
    have hlive : p.1 ∈ io ∨ p.1 ∈ outs ∨ p.1 ∈ rem := by simpa [or_assoc] using hp.2
    simp only [Function.comp, storedBytes, h.env p.1, if_pos hlive, hlook p hp.1]
    rfl
  have e2 : (l.map (storedBytes s)).sum =
      ((l.filter fun v => decide (s.env v ≠ none)).map (storedBytes s)).sum := by
    clear hl hcov
    induction l with
    | nil => rfl
    | cons v l ih =>
      rw [List.filter_cons]
      by_cases hv : s.env v = none
      · simp only [hv, ne_eq, not_true_eq_false, decide_false, List.map_cons, List.sum_cons, ih]
        simp [storedBytes, hv]
      · simp [hv, ih]
  rw [e1, e2]
  apply List.Perm.sum_eq
  apply List.Perm.map
  rw [List.perm_ext_iff_of_nodup]
  · intro v
    simp only [List.mem_map, List.mem_filter, decide_eq_true_eq]
    constructor
    · rintro ⟨p, ⟨hp, hlv⟩, rfl⟩
      have hlive : p.1 ∈ io ∨ p.1 ∈ outs ∨ p.1 ∈ rem := by simpa [or_assoc] using hlv
      have hne : s.env p.1 ≠ none := by rw [h.env, if_pos hlive, hlook p hp]; simp
      exact ⟨hcov _ hne, hne⟩
    · rintro ⟨_, hne⟩
      rw [h.env] at hne
      split at hne
      · rename_i hlive
        have : v ∈ b.map Prod.fst := by
          by_contra hc
          exact hne (look_none_iff.mpr hc)
        obtain ⟨p, hp, rfl⟩ := List.mem_map.mp this
        exact ⟨p, ⟨hp, by simpa [or_assoc] using hlive⟩, rfl⟩
      · exact absurd rfl hne
  · exact (List.filter_sublist.map _).nodup h.nodup
  · exact hl.filter _

theorem runMem_append (ev : O → List AVal → Except Err (List AVal × ℤ)) (m : MState) (peak : ℤ)
    (pre post : List (Eqn O AVal)) :
    runMem ev m peak (pre ++ post) =
      match runMem ev m peak pre with
      | .error e => .error e
      | .ok (m', peak') => runMem ev m' peak' post := by
  induction pre generalizing m peak with
  | nil => rfl
  | cons e es ih =>
    simp only [List.cons_append, runMem]
    cases stepMem ev m peak e with
    | error err => rfl
    | ok r => exact ih r.1 r.2

theorem stepMem_peak {ev : O → List AVal → Except Err (List AVal × ℤ)}
    (hsub : ∀ o xs ys p, ev o xs = .ok (ys, p) → 0 ≤ p) {m m' : MState} {peak peak' : ℤ} {e : Eqn O AVal}
    (hs : stepMem ev m peak e = .ok (m', peak')) : peak ≤ peak' ∧ m'.memory ≤ peak' := by
  simp only [stepMem] at hs
  split at hs
  · simp at hs
  · split at hs
    · simp at hs
    · rename_i h1
      have := hsub _ _ _ _ h1
      split at hs
      · simp at hs
      · rename_i m2 _
        simp only [Except.ok.injEq, Prod.mk.injEq] at hs
        obtain ⟨h2, h3⟩ := hs
        rw [← h2, ← h3, MState.free, (free_eq _ _).2]
        split <;> constructor <;> omega

theorem runMem_peak {ev : O → List AVal → Except Err (List AVal × ℤ)}
    (hsub : ∀ o xs ys p, ev o xs = .ok (ys, p) → 0 ≤ p) (es : List (Eqn O AVal)) {m m' : MState} {peak peak' : ℤ}
    (hs : runMem ev m peak es = .ok (m', peak')) :
    peak ≤ peak' ∧ (es ≠ [] → m'.memory ≤ peak') := by
  induction es generalizing m peak with
  | nil =>
    simp only [runMem, Except.ok.injEq, Prod.mk.injEq] at hs
    exact ⟨le_of_eq hs.2, fun h => absurd rfl h⟩
  | cons e es ih =>
    simp only [runMem] at hs
    cases h1 : stepMem ev m peak e with
    | error err => rw [h1] at hs; simp at hs
    | ok r =>
      obtain ⟨m1, p1⟩ := r
      rw [h1] at hs
      dsimp only at hs
      obtain ⟨h2, h3⟩ := ih hs
      obtain ⟨h4, h5⟩ := stepMem_peak hsub h1
      refine ⟨h4.trans h2, fun _ => ?_⟩
      cases es with
      | nil =>
        simp only [runMem, Except.ok.injEq, Prod.mk.injEq] at hs
        obtain ⟨rfl, rfl⟩ := hs
        exact h5
      | cons e' es' => exact h3 (by simp)

theorem evMem_nonneg (d : ℕ) (op : MOp d) (xs ys : List AVal) (p : ℤ) (h : evMem d op xs = .ok (ys, p)) : 0 ≤ p := by
  induction d generalizing xs ys p with
  | zero => exact nomatch op
  | succ d ih =>
    have hj : ∀ (j : Jaxpr (MOp d) AVal) c a ys p, jaxprMem (evMem d) j c a = .ok (ys, p) → 0 ≤ p := by
      intro j c a ys p hh
      unfold jaxprMem at hh
      split at hh
      · simp at hh
      · split at hh
        · simp at hh
        · rename_i hr
          split at hh
          · simp at hh
          · simp only [Except.ok.injEq, Prod.mk.injEq] at hh
            rw [← hh.2]
            exact (runMem_peak (fun o xs ys p => ih o xs ys p) _ hr).1
    cases op with
    | prim f =>
      simp only [evMem, evStep] at h
      split at h
      · simp at h
      · simp only [Except.ok.injEq, Prod.mk.injEq] at h
        omega
    | pjit j c => exact hj j c xs ys p h
    | scan n k j =>
      simp only [evMem, evStep] at h
      split at h
      · simp at h
      · split at h
        · simp at h
        · rename_i hjj
          split at h
          · simp at h
          · simp only [Except.ok.injEq, Prod.mk.injEq] at h
            rw [← h.2]
            exact hj _ _ _ _ _ hjj

end Folx.Mem

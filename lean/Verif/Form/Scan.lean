import Verif.Form.Run
import Verif.Interp.ScanTraced

/-!
# `eval_scan` as written equals the scan that checks every iteration
-/

namespace Folx

open Folx.Interp

variable {F : Type}

/-- Two values that differ at most in the mask. -/
inductive SameData : PVal F → PVal F → Prop
  | plain (m : ℕ) (x : Fin m → F) : SameData ⟨m, .plain x⟩ ⟨m, .plain x⟩
  | lapl (m : ℕ) (x l : Fin m → F) (J J' : Jac (Fin m) F) (h : J.values = J'.values) :
      SameData ⟨m, .lapl ⟨x, J, l⟩⟩ ⟨m, .lapl ⟨x, J', l⟩⟩

theorem SameData.refl (v : PVal F) : SameData v v := by
  obtain ⟨m, o⟩ := v
  cases o with
  | plain x => exact .plain m x
  | lapl t => exact .lapl m t.x t.lapl t.jac t.jac rfl

theorem sig_mask (m : ℕ) (t : Trip (Fin m) F) : (PVal.sig (⟨m, .lapl t⟩ : PVal F)).mask = t.jac.x0 := by
  obtain ⟨x, J, l⟩ := t
  cases J <;> rfl

theorem replaceMask_self {m : ℕ} (J J' : Jac (Fin m) F) (h : J.values = J'.values) : J.replaceMask J'.x0 = J' := by
  cases J' with
  | dense rows =>
    unfold Jac.x0 Jac.replaceMask
    rw [h]
    rfl
  | sparse rows =>
    unfold Jac.x0 Jac.replaceMask
    rw [h]
    dsimp only [Jac.values]
    congr 1
    rw [List.zipWith_map, List.zipWith_self]
    conv_rhs => rw [← List.map_id rows]
    refine List.map_congr_left fun r _ => ?_
    obtain ⟨i, v⟩ := r
    simp

theorem x0_of_same {m : ℕ} {J J' : Jac (Fin m) F} (h : J.Same J') : J.x0 = J'.x0 := by
  rcases h.cases with ⟨r, r', rfl, rfl, hl⟩ | ⟨r, r', rfl, rfl, hl⟩
  · rfl
  · have := congrArg (List.map List.ofFn) hl
    unfold Jac.x0
    simpa [List.map_map, Function.comp_def] using this

/-- The masks of the initial carry restore a carry of the same form. -/
theorem restoreMasks_restore : ∀ {carry c d : List (PVal F)}, List.Forall₂ PVal.Same carry c → List.Forall₂ SameData d c →
    restoreMasks (masksOf carry) d = .ok c
  | _, _, _, .nil, .nil => rfl
  | _, _, _, .cons (a := a) (b := b) h1 t1, .cons (a := e) h2 t2 => by
    obtain ⟨m, o, o', rfl, rfl, ho⟩ := PVal.same_iff.mp h1
    obtain ⟨x, y, rfl, rfl⟩ | ⟨t, t', rfl, rfl, ht⟩ := ho.both
    · cases h2 with
      | plain m x =>
        simp only [masksOf, restoreMasks, restoreMasks_restore t1 t2]
    · cases h2 with
      | lapl m x l J J' hJ =>
        simp only [masksOf, restoreMasks, restoreMasks_restore t1 t2]
        rw [x0_of_same ht, replaceMask_self J J' hJ]

/-- The masks of a carry of the same form restore a carry. -/
theorem maskLike_restore : ∀ {first c d : List (PVal F)}, List.Forall₂ PVal.Same first c → List.Forall₂ SameData d c →
    List.zipWith maskLike d first = c
  | _, _, _, .nil, .nil => rfl
  | _, _, _, .cons (a := a) (b := b) h1 t1, .cons (a := e) h2 t2 => by
    rw [List.zipWith_cons_cons, maskLike_restore t1 t2]
    obtain ⟨m, o, o', rfl, rfl, ho⟩ := PVal.same_iff.mp h1
    obtain ⟨x, y, rfl, rfl⟩ | ⟨t, t', rfl, rfl, ht⟩ := ho.both
    · cases h2 with
      | plain m x => rfl
    · cases h2 with
      | lapl m x l J J' hJ =>
        unfold maskLike
        dsimp only
        rw [sig_mask, x0_of_same ht, replaceMask_self J J' hJ]

/-- What happens to the carry between the iterations keeps the arrays. -/
def KeepsData (σ : List (PVal F) → List (PVal F)) : Prop := ∀ c, List.Forall₂ SameData (σ c) c

theorem same_of_check {c0 c : List (PVal F)} (h : checkCarry c0 c = .ok ()) : List.Forall₂ PVal.Same c0 c := by
  have := checkCarry_sigs h
  clear h
  induction c0 generalizing c with
  | nil =>
    cases c with
    | nil => exact .nil
    | cons a c => simp at this
  | cons a0 c0 ih =>
    cases c with
    | nil => simp at this
    | cons a c =>
      simp only [List.map_cons, List.cons.injEq] at this
      exact .cons this.1 (ih this.2)

theorem PVal.Same.symm {v v' : PVal F} (h : v.Same v') : v'.Same v := Eq.symm h

theorem forall₂_same_trans {a b c : List (PVal F)} (h : List.Forall₂ PVal.Same a b) (h' : List.Forall₂ PVal.Same b c) :
    List.Forall₂ PVal.Same a c := by
  induction h generalizing c with
  | nil => exact h'
  | cons h1 _ ih =>
    cases h' with
    | cons h2 t2 => exact .cons (Eq.trans h1 h2) (ih t2)

theorem forall₂_same_symm {a b : List (PVal F)} (h : List.Forall₂ PVal.Same a b) : List.Forall₂ PVal.Same b a := by
  induction h with
  | nil => exact .nil
  | cons h1 _ ih => exact .cons h1.symm ih

/-- The two loops. -/
theorem scanTraced_eq {σ : List (PVal F) → List (PVal F)} (hσ : KeepsData σ) {b : List (PVal F) → Except Err (List (PVal F))}
    {consts carry : List (PVal F)} {nc : ℕ} {xsAt : ℕ → List (PVal F)}
    (hb : ∀ t c, List.Forall₂ PVal.Same carry c → ∃ r, b (consts ++ c ++ xsAt t) = .ok r ∧ checkCarry carry (r.take nc) = .ok ())
    {wrapped : List (PVal F) → List (PVal F) → Except Err (List (PVal F))}
    (hw : ∀ c x c', restoreMasks (masksOf carry) c = .ok c' → wrapped c x = b (consts ++ c' ++ x)) :
    ∀ (ts : List ℕ) (c d : List (PVal F)), List.Forall₂ PVal.Same carry c → List.Forall₂ SameData d c →
      ∃ c' d' ys, scanLoop b (checkCarry carry) consts nc xsAt ts c = .ok (c', ys) ∧
        scanTraced σ wrapped nc xsAt ts d = .ok (d', ys) ∧
        List.Forall₂ PVal.Same carry c' ∧ List.Forall₂ SameData d' c'
  | [], c, d, hc, hd => ⟨c, d, [], rfl, rfl, hc, hd⟩
  | t :: ts, c, d, hc, hd => by
    obtain ⟨r, h1, h2⟩ := hb t c hc
    obtain ⟨c', d', ys, g1, g2, g3, g4⟩ := scanTraced_eq hσ hb hw ts (r.take nc) (σ (r.take nc)) (same_of_check h2) (hσ _)
    refine ⟨c', d', r.drop nc :: ys, ?_, ?_, g3, g4⟩
    · unfold scanLoop
      rw [h1]
      dsimp only
      rw [h2]
      dsimp only
      rw [g1]
    · unfold scanTraced
      rw [hw _ _ _ (restoreMasks_restore hc hd), h1]
      dsimp only
      rw [g2]

variable [Zero F]

/-- **One scan.**  If the form of the body's results does not depend on the values of the carry and of the slices, `eval_scan`
as written is the scan that checks every iteration. -/
theorem scanOnce_eq {O : Type} {σ : List (PVal F) → List (PVal F)} (hσ : KeepsData σ) (junk : List (PVal F) → PVal F)
    (s : ScanParams O F) (b : List (PVal F) → Except Err (List (PVal F))) (xs : List (PVal F))
    (hb : ∀ c c' i i' : List (PVal F), List.Forall₂ PVal.Same c c' → List.Forall₂ PVal.Same i i' →
      c.length = ((xs.drop s.numConsts).take s.numCarry).length → i.length = ((xs.drop s.numConsts).drop s.numCarry).length →
      ExRel (List.Forall₂ PVal.Same) (b (xs.take s.numConsts ++ c ++ i)) (b (xs.take s.numConsts ++ c' ++ i'))) :
    scanOnce σ junk s b xs = scanLapl junk s b xs := by
  unfold scanOnce scanLapl
  dsimp only
  split
  · rfl
  split
  · rfl
  have hm : restoreMasks (masksOf ((xs.drop s.numConsts).take s.numCarry)) ((xs.drop s.numConsts).take s.numCarry) =
      .ok ((xs.drop s.numConsts).take s.numCarry) :=
    restoreMasks_restore (List.forall₂_same.mpr fun _ _ => PVal.Same.refl _) (List.forall₂_same.mpr fun _ _ => SameData.refl _)
  rw [hm]
  dsimp only
  cases hf : b (xs.take s.numConsts ++ (xs.drop s.numConsts).take s.numCarry ++
      ((xs.drop s.numConsts).drop s.numCarry).map fun v => PVal.ofPlain (timeSlice s.length 0 ⟨v.1, v.2.x⟩)) with
  | error e => rfl
  | ok first =>
    dsimp only
    cases hk : checkCarry ((xs.drop s.numConsts).take s.numCarry) (first.take s.numCarry) with
    | error e => rfl
    | ok u =>
      dsimp only
      have hfs := same_of_check hk
      have hstep : ∀ t c, List.Forall₂ PVal.Same ((xs.drop s.numConsts).take s.numCarry) c →
          ∃ r, b (xs.take s.numConsts ++ c ++ ((xs.drop s.numConsts).drop s.numCarry).map fun v =>
            PVal.ofPlain (timeSlice s.length t ⟨v.1, v.2.x⟩)) = .ok r ∧
            checkCarry ((xs.drop s.numConsts).take s.numCarry) (r.take s.numCarry) = .ok () := by
        intro t c hc
        have hrel := hb _ c (((xs.drop s.numConsts).drop s.numCarry).map fun v => PVal.ofPlain (timeSlice s.length 0 ⟨v.1, v.2.x⟩))
          (((xs.drop s.numConsts).drop s.numCarry).map fun v => PVal.ofPlain (timeSlice s.length t ⟨v.1, v.2.x⟩)) hc
          (by
            rw [List.forall₂_map_left_iff, List.forall₂_map_right_iff]
            exact List.forall₂_same.mpr fun v _ => PVal.same_ofPlain rfl) rfl (by simp)
        obtain ⟨e, h1, h2⟩ | ⟨r, r', h1, h2, hr⟩ := hrel.elim
        · rw [hf] at h1; cases h1
        · rw [hf] at h1
          cases h1
          refine ⟨r', h2, ?_⟩
          obtain ⟨e, h3, h4⟩ | ⟨u, u', h3, h4, -⟩ := (checkCarry_same (c0 := (xs.drop s.numConsts).take s.numCarry)
            (List.forall₂_same.mpr fun _ _ => PVal.Same.refl _) (List.forall₂_take s.numCarry hr)).elim
          · rw [hk] at h3; cases h3
          · exact h4
      obtain ⟨c', d', ys, g1, g2, g3, g4⟩ := scanTraced_eq hσ hstep (wrapped := fun c x =>
        match restoreMasks (masksOf ((xs.drop s.numConsts).take s.numCarry)) c with
        | .error e => .error e
        | .ok c' => b (xs.take s.numConsts ++ c' ++ x)) (fun c x c' h => by rw [h]) (scanOrder s.length s.reverse)
        ((xs.drop s.numConsts).take s.numCarry) (σ ((xs.drop s.numConsts).take s.numCarry))
        (List.forall₂_same.mpr fun _ _ => PVal.Same.refl _) (hσ _)
      rw [g1]
      erw [g2]
      dsimp only
      rw [maskLike_restore (forall₂_same_trans (forall₂_same_symm hfs) g3) g4]

/-- Programs whose scans have bodies whose form does not depend on the values of the carry and of the slices. -/
def ScansStable (reg : String → Option (Prim F)) (T : ℕ) : (d : ℕ) → Op d F → Prop
  | 0, op => nomatch op
  | _ + 1, .prim _ => True
  | d + 1, .pjit name j _ =>
    match reg name with
    | some _ => True
    | none => ∀ e ∈ j.eqns, ScansStable reg T d e.op
  | d + 1, .scan s => JaxprStable (OpStable reg T d) s.body
      (s.body.invars.mapIdx fun i _ => decide (i < s.numConsts)) ∧ ∀ e ∈ s.body.eqns, ScansStable reg T d e.op

theorem runRC_congr {O V : Type} {ev ev' : O → List V → Except Err (List V)} : ∀ (es : List (Eqn O V)) (s : EnvState V),
    (∀ e ∈ es, ev e.op = ev' e.op) → runRC ev s es = runRC ev' s es
  | [], _, _ => rfl
  | e :: es, s, h => by
    unfold runRC stepRC
    rw [h e (by simp)]
    split
    · rfl
    · exact runRC_congr es _ fun e' he' => h e' (List.mem_cons_of_mem _ he')

theorem evalRC_congr {O V : Type} {ev ev' : O → List V → Except Err (List V)} (j : Jaxpr O V)
    (h : ∀ e ∈ j.eqns, ev e.op = ev' e.op) (consts args : List V) : evalRC ev j consts args = evalRC ev' j consts args := by
  unfold evalRC
  split
  · rfl
  · rw [runRC_congr _ _ h]

theorem mem_zip_range {α : Type} (l : List α) (m : ℕ) (f : ℕ → Bool) (p : α × Bool) (h : p ∈ l.zip ((List.range m).map f)) :
    ∃ i, ∃ h : i < l.length, p = (l[i], f i) := by
  obtain ⟨i, hi, rfl⟩ := List.mem_iff_getElem.mp h
  refine ⟨i, by simp at hi; omega, ?_⟩
  simp

omit [Zero F] in
theorem JaxprStable.flags {O : Type} {P : O → List Bool → Prop} {j : Jaxpr O (PArr F)} {k : ℕ}
    (h : JaxprStable P j (j.invars.mapIdx fun i _ => decide (i < k))) (m : ℕ) :
    JaxprStable P j ((List.range m).map fun i => decide (i < k)) := by
  obtain ⟨fx, hm, he⟩ := h
  refine ⟨fx, ⟨fun p hp hfx => ?_, hm.eqns⟩, he⟩
  obtain ⟨i, hi, rfl⟩ := mem_zip_range _ _ _ _ hp
  have := hm.inputs (j.invars[i], decide (i < k)) (List.mem_iff_getElem.mpr ⟨i, by simpa using hi, by simp⟩) hfx
  exact this

omit [Zero F] in
theorem match_range {S : PVal F → PVal F → Prop} (hS : ∀ v, S v v) {k : ℕ} (consts : List (PVal F)) {c c' : List (PVal F)}
    (hc : List.Forall₂ S c c') (hl : consts.length = k ∨ c = []) (hle : consts.length ≤ k) :
    Match S ((List.range (consts.length + c.length)).map fun i => decide (i < k)) (consts ++ c) (consts ++ c') := by
  rw [List.range_add, List.map_append]
  refine (Match.refl hS _ _ (by simp)).append ?_
  rw [List.map_map]
  rcases hl with hl | rfl
  · have : ((fun i => decide (i < k)) ∘ fun x => consts.length + x) = fun _ => false := by
      funext i
      simp [hl]
    rw [this]
    have := Match.loose hc
    rw [List.map_const'] at this
    rwa [List.map_const', List.length_range]
  · cases hc
    exact .nil

/-- **Programs.**  With `eval_scan` as written the interpreter does what it does with the scan that checks every iteration. -/
theorem evOnce_eq {σ : List (PVal F) → List (PVal F)} (hσ : KeepsData σ) (reg : String → Option (Prim F))
    {junk : List (PVal F) → PVal F} (hj : JunkStable junk) (T : ℕ) : ∀ (d : ℕ) (op : Op d F), ScansStable reg T d op →
      evOnce σ reg junk T d op = evLapl reg junk T d op
  | 0, op, _ => nomatch op
  | d + 1, op, h => by
    funext xs
    unfold evOnce evLapl
    split
    · rfl
    · cases op with
      | prim p => rfl
      | pjit name j consts =>
        replace h : match reg name with
          | some _ => True
          | none => ∀ e ∈ j.eqns, ScansStable reg T d e.op := h
        dsimp only
        cases hr : reg name with
        | some p => rfl
        | none =>
          rw [hr] at h
          dsimp only at h ⊢
          refine evalRC_congr _ (fun e he => ?_) _ _
          obtain ⟨e0, he0, rfl⟩ := List.mem_map.mp he
          exact evOnce_eq hσ reg hj T d e0.op (h e0 he0)
      | scan s =>
        replace h : JaxprStable (OpStable reg T d) s.body (s.body.invars.mapIdx fun i _ => decide (i < s.numConsts)) ∧
          ∀ e ∈ s.body.eqns, ScansStable reg T d e.op := h
        dsimp only
        have hbody : (fun args => evalRC (evOnce σ reg junk T d) (s.body.map PVal.ofPlain) [] args) =
            fun args => evalRC (evLapl reg junk T d) (s.body.map PVal.ofPlain) [] args := by
          funext args
          refine evalRC_congr _ (fun e he => ?_) _ _
          obtain ⟨e0, he0, rfl⟩ := List.mem_map.mp he
          exact evOnce_eq hσ reg hj T d e0.op (h.2 e0 he0)
        rw [hbody]
        refine scanOnce_eq hσ junk s _ xs fun c c' i i' hc hi hlc hli => ?_
        rw [List.append_assoc, List.append_assoc]
        refine JaxprStable.evalRC (fun op bs => evLapl_same reg hj T d op bs) (h.1.flags _) _
          (match_range PVal.Same.refl _ (List.rel_append hc hi) ?_ (by simp))
        by_cases hn : s.numConsts ≤ xs.length
        · left; simp [hn]
        · right
          have : xs.drop s.numConsts = [] := List.drop_eq_nil_of_le (by omega)
          rw [this] at hlc hli
          simp at hlc hli
          simp [hlc, hli]

end Folx

import Verif.Form.Prog
import Verif.Form.Prims

/-!
# The form of results is static: programs
-/

namespace Folx

open Folx.Interp

variable {F : Type}

/-- The form of an operand of known size. -/
theorem PVal.same_iff {v v' : PVal F} : v.Same v' ↔ ∃ m, ∃ o o' : Opd F m, v = ⟨m, o⟩ ∧ v' = ⟨m, o'⟩ ∧ o.Same o' := by
  obtain ⟨m, o⟩ := v
  obtain ⟨m', o'⟩ := v'
  constructor
  · intro h
    unfold PVal.Same PVal.sig at h
    cases o with
    | plain x =>
      cases o' with
      | plain y =>
        dsimp only at h
        obtain rfl : m = m' := congrArg Sig.size h
        exact ⟨m, _, _, rfl, rfl, trivial⟩
      | lapl t => simp at h
    | lapl t =>
      cases o' with
      | plain y => simp at h
      | lapl t' =>
        dsimp only at h
        obtain rfl : m = m' := congrArg Sig.size h
        refine ⟨m, _, _, rfl, rfl, ?_⟩
        have h1 := congrArg Sig.rows h
        have h2 := congrArg Sig.mask h
        dsimp only at h1 h2
        show t.jac.Same t'.jac
        revert h1 h2
        generalize t.jac = J
        generalize t'.jac = J'
        intro h1 h2
        cases J with
        | dense r =>
          cases J' with
          | dense r' => exact Jac.same_dense.mpr h1
          | sparse r' => simp at h2
        | sparse r =>
          cases J' with
          | dense r' => simp at h2
          | sparse r' =>
            refine Jac.same_sparse.mpr ?_
            simp only [Option.some.injEq] at h2
            have := congrArg (List.map fun l : List ℤ => fun i : Fin m => l.getD i.1 0) h2
            simpa [List.map_map, Function.comp_def] using this
  · rintro ⟨k, p, p', h1, h2, h⟩
    cases h1
    cases h2
    obtain ⟨x, y, rfl, rfl⟩ | ⟨t, t', rfl, rfl, ht⟩ := h.both
    · rfl
    · unfold PVal.Same PVal.sig
      dsimp only
      rcases ht.cases with ⟨r, r', e, e', hl⟩ | ⟨r, r', e, e', hl⟩
      · rw [e, e']
        simp only [Jac.nrows, hl]
      · rw [e, e']
        have : r.map (fun r => List.ofFn r.idx) = r'.map fun r => List.ofFn r.idx := by
          have := congrArg (List.map List.ofFn) hl
          simpa [List.map_map, Function.comp_def] using this
        have hlen : r.length = r'.length := by simpa using congrArg List.length hl
        simp only [Jac.nrows, hlen, this]

theorem PVal.Same.refl (v : PVal F) : v.Same v := rfl

theorem PVal.Same.isLapl {v v' : PVal F} (h : v.Same v') : v.2.isLapl = v'.2.isLapl := by
  obtain ⟨m, o, o', rfl, rfl, ho⟩ := PVal.same_iff.mp h
  exact ho.isLapl

theorem PVal.Same.size {v v' : PVal F} (h : v.Same v') : v.1 = v'.1 := by
  obtain ⟨m, o, o', rfl, rfl, ho⟩ := PVal.same_iff.mp h
  rfl

/-- Plain arrays of the same size. -/
def PArr.Same (a a' : PArr F) : Prop := a.1 = a'.1

theorem PVal.same_ofPlain {a a' : PArr F} (h : PArr.Same a a') : (PVal.ofPlain a).Same (PVal.ofPlain a') := by
  obtain ⟨m, x⟩ := a
  obtain ⟨m', x'⟩ := a'
  obtain rfl : m = m' := h
  rfl

/-! ### Calls -/

theorem castTo_same {v v' : PVal F} (h : v.Same v') (m : ℕ) :
    ExRel Opd.Same (castTo (β := Opd F) m v) (castTo (β := Opd F) m v') := by
  obtain ⟨k, o, o', rfl, rfl, ho⟩ := PVal.same_iff.mp h
  unfold castTo
  dsimp only
  split
  · rename_i hk
    subst hk
    exact .ok ho
  · exact .error _

theorem unpack_same {k : ℕ} (size : Fin k → ℕ) {bs : List Bool} {vs vs' : List (PVal F)} (h : Match PVal.Same bs vs vs') :
    ExRel (fun (o o' : (i : Fin k) → Opd F (size i)) => (∀ i, (o i).Same (o' i)) ∧ ∀ i : Fin k, bs.getD i.1 false = true → o i = o' i)
      (unpack (β := Opd F) size vs) (unpack (β := Opd F) size vs') := by
  obtain ⟨l1, l2⟩ := h.length
  unfold unpack
  by_cases hl : vs.length = k
  · have hl' : vs'.length = k := by omega
    rw [dif_pos hl, dif_pos hl']
    have key : ∀ i : Fin k, RelB PVal.Same (bs.getD i.1 false) (vs.get (i.cast hl.symm)) (vs'.get (i.cast hl'.symm)) := by
      have : ∀ i (h1 : i < vs.length) (h2 : i < vs'.length), RelB PVal.Same (bs.getD i false) vs[i] vs'[i] := by
        clear l1 l2 hl hl'
        induction h with
        | nil => intro i h1; simp at h1
        | cons h _ ih =>
          intro i h1 h2
          cases i with
          | zero => simpa using h
          | succ i => simpa using ih i (by simpa using h1) (by simpa using h2)
      exact fun i => this i.1 (by have := i.2; omega) (by have := i.2; omega)
    have hs : ExRel (fun (o o' : (i : Fin k) → Opd F (size i)) => ∀ i, (o i).Same (o' i) ∧ (bs.getD i.1 false = true → o i = o' i))
        (seqFin fun i => castTo (β := Opd F) (size i) (vs.get (i.cast hl.symm)))
        (seqFin fun i => castTo (β := Opd F) (size i) (vs'.get (i.cast hl'.symm))) := by
      refine seqFin_rel (R := fun i (o o' : Opd F (size i)) => o.Same o' ∧ (bs.getD i.1 false = true → o = o')) _ _ fun i => ?_
      by_cases hb : bs.getD i.1 false = true
      · rw [(key i).2 hb]
        generalize vs'.get (i.cast hl'.symm) = v
        have := castTo_same (PVal.Same.refl v) (size i)
        revert this
        generalize castTo (β := Opd F) (size i) v = r
        intro hr
        cases r with
        | error e => exact .error e
        | ok o =>
          obtain ⟨e, h1, h2⟩ | ⟨x, y, h1, h2, hxy⟩ := hr.elim
          · cases h1
          · cases h1; cases h2
            exact .ok ⟨hxy, fun _ => rfl⟩
      · exact (castTo_same (key i).1 (size i)).mono fun _ _ h => ⟨h, fun h' => absurd h' hb⟩
    exact hs.mono fun _ _ h => ⟨fun i => (h i).1, fun i => (h i).2⟩
  · rw [dif_neg hl, dif_neg (by omega)]
    exact .error _

/-- The flags of a call as flags of the operands of a primitive. -/
def flagsAt {k : ℕ} (bs : List Bool) (i : Fin k) : Bool := bs.getD i.1 false

theorem Prim.call_same (p : Prim F) (T : ℕ) {bs : List Bool} (h : p.FormStable T (flagsAt bs)) {vs vs' : List (PVal F)}
    (hv : Match PVal.Same bs vs vs') : ExRel (List.Forall₂ PVal.Same) (p.call T vs) (p.call T vs') := by
  unfold Prim.call
  obtain ⟨e, h1, h2⟩ | ⟨o, o', h1, h2, ho, hf⟩ := (unpack_same p.size hv).elim
  · rw [h1, h2]; exact .error e
  rw [h1, h2]
  dsimp only
  obtain ⟨e, h1, h2⟩ | ⟨r, r', h1, h2, hr⟩ := (h o o' ho hf).elim
  · rw [h1, h2]; exact .error e
  rw [h1, h2]
  refine .ok ?_
  rw [List.forall₂_iff_get]
  refine ⟨by simp, fun i h1 h2 => ?_⟩
  simp only [List.get_ofFn]
  exact PVal.same_iff.mpr ⟨_, _, _, rfl, rfl, hr _⟩

theorem Prim.bind_same (p : Prim F) {vs vs' : List (PArr F)} (hv : List.Forall₂ PArr.Same vs vs') :
    ExRel (List.Forall₂ PArr.Same) (p.bind vs) (p.bind vs') := by
  unfold Prim.bind
  have hu : ExRel (fun _ _ => True) (unpack (β := fun m => Fin m → F) p.size vs)
      (unpack (β := fun m => Fin m → F) p.size vs') := by
    unfold unpack
    have hle := hv.length_eq
    by_cases hl : vs.length = p.nIn
    · have hl' : vs'.length = p.nIn := by omega
      rw [dif_pos hl, dif_pos hl']
      refine (seqFin_rel (fun _ _ _ => True) _ _ fun i => ?_).mono fun _ _ _ => trivial
      have : (vs.get (i.cast hl.symm)).1 = (vs'.get (i.cast hl'.symm)).1 := hv.get _ _
      unfold castTo
      by_cases hs : (vs.get (i.cast hl.symm)).1 = p.size i
      · rw [dif_pos hs, dif_pos (this.symm.trans hs)]
        exact .ok trivial
      · rw [dif_neg hs, dif_neg (fun h => hs (this.trans h))]
        exact .error _
    · rw [dif_neg hl, dif_neg (by omega)]
      exact .error _
  obtain ⟨e, h1, h2⟩ | ⟨r, r', h1, h2, hr⟩ := hu.elim
  · rw [h1, h2]; exact .error e
  rw [h1, h2]
  refine .ok ?_
  rw [List.forall₂_iff_get]
  refine ⟨by simp, fun i h1 h2 => ?_⟩
  simp only [List.get_ofFn]
  rfl

/-! ### Scans -/

theorem timeSlice_same [Zero F] (L t : ℕ) {a a' : PArr F} (h : PArr.Same a a') :
    PArr.Same (timeSlice L t a) (timeSlice L t a') := congrArg (· / L) h

theorem stackArrs_same {l l' : List (PArr F)} (h : List.Forall₂ PArr.Same l l') : PArr.Same (stackArrs l) (stackArrs l') := by
  unfold PArr.Same stackArrs
  dsimp only
  induction h with
  | nil => rfl
  | cons h1 _ ih =>
    rw [List.flatMap_cons, List.flatMap_cons, List.length_append, List.length_append, ih, List.length_ofFn, List.length_ofFn]
    rw [show _ = _ from h1]

section
variable {V : Type} {S : V → V → Prop}

theorem scanLoop_same {b b' : List V → Except Err (List V)} {chk chk' : List V → Except Err Unit} {nc : ℕ}
    {consts consts' : List V} {xsAt xsAt' : ℕ → List V} (Ok : List V → Prop)
    (hb : ∀ t c c', Ok c → List.Forall₂ S c c' →
      ExRel (List.Forall₂ S) (b (consts ++ c ++ xsAt t)) (b' (consts' ++ c' ++ xsAt' t)))
    (hk : ∀ c c', List.Forall₂ S c c' → ExRel (fun _ _ => True) (chk c) (chk' c'))
    (hlen : ∀ c, chk c = .ok () → Ok c) :
    ∀ (ts : List ℕ) {c c' : List V}, Ok c → List.Forall₂ S c c' →
      ExRel (fun r r' => List.Forall₂ S r.1 r'.1 ∧ List.Forall₂ (List.Forall₂ S) r.2 r'.2)
        (scanLoop b chk consts nc xsAt ts c) (scanLoop b' chk' consts' nc xsAt' ts c')
  | [], _, _, _, h => .ok ⟨h, .nil⟩
  | t :: ts, c, c', hl, h => by
    unfold scanLoop
    obtain ⟨e, h1, h2⟩ | ⟨r, r', h1, h2, hr⟩ := (hb t c c' hl h).elim
    · rw [h1, h2]; exact .error e
    rw [h1, h2]
    dsimp only
    have hr' : List.Forall₂ S (r.take nc) (r'.take nc) := List.forall₂_take nc hr
    obtain ⟨e, h1, h2⟩ | ⟨u, u', h1, h2, -⟩ := (hk _ _ hr').elim
    · rw [h1, h2]; exact .error e
    rw [h1, h2]
    dsimp only
    obtain ⟨e, h3, h4⟩ | ⟨q, q', h3, h4, hq⟩ := (scanLoop_same Ok hb hk hlen ts (hlen _ h1) hr').elim
    · rw [h3, h4]; exact .error e
    rw [h3, h4]
    exact .ok ⟨hq.1, .cons (List.forall₂_drop nc hr) hq.2⟩

end

theorem checkCarry_sigs {c0 c : List (PVal F)} (h : checkCarry c0 c = .ok ()) : c0.map PVal.sig = c.map PVal.sig := by
  unfold checkCarry at h
  split at h
  · simp at h
  · split at h
    · assumption
    · simp at h

theorem checkCarry_same {c0 c0' c c' : List (PVal F)} (h0 : List.Forall₂ PVal.Same c0 c0') (h : List.Forall₂ PVal.Same c c') :
    ExRel (fun _ _ => True) (checkCarry c0 c) (checkCarry c0' c') := by
  have key : ∀ {l l' : List (PVal F)}, List.Forall₂ PVal.Same l l' → l.map PVal.sig = l'.map PVal.sig := by
    intro l l' h
    induction h with
    | nil => rfl
    | cons h _ ih => rw [List.map_cons, List.map_cons, ih, show _ = _ from h]
  unfold checkCarry
  rw [key h0, key h]
  split
  · exact .error _
  · split
    · exact .ok trivial
    · exact .error _

theorem forall₂_col {V : Type} {S : V → V → Prop} {l l' : List (List V)} (h : List.Forall₂ (List.Forall₂ S) l l') (i : ℕ) :
    List.Forall₂ S (l.filterMap fun r => r[i]?) (l'.filterMap fun r => r[i]?) := by
  refine List.rel_filterMap (R := List.Forall₂ S) ?_ h
  intro a b hab
  dsimp only
  by_cases hi : i < a.length
  · rw [List.getElem?_eq_getElem hi, List.getElem?_eq_getElem (by rw [← hab.length_eq]; exact hi)]
    exact .some (hab.get hi (by rw [← hab.length_eq]; exact hi))
  · rw [List.getElem?_eq_none (by omega), List.getElem?_eq_none (by rw [← hab.length_eq]; omega)]
    exact .none

theorem forall₂_rev {V : Type} {S : V → V → Prop} {l l' : List V} (h : List.Forall₂ S l l') (b : Bool) :
    List.Forall₂ S (if b then l.reverse else l) (if b then l'.reverse else l') := by
  cases b
  · exact h
  · exact List.rel_reverse h

theorem forall₂_map_same {V W : Type} {S : V → V → Prop} {S' : W → W → Prop} {f : V → W} (hf : ∀ a b, S a b → S' (f a) (f b))
    {l l' : List V} (h : List.Forall₂ S l l') : List.Forall₂ S' (l.map f) (l'.map f) := by
  induction h with
  | nil => exact .nil
  | cons h _ ih => exact .cons (hf _ _ h) ih

theorem any_same {l l' : List (PVal F)} (h : List.Forall₂ PVal.Same l l') :
    l.any (fun v => v.2.isLapl) = l'.any fun v => v.2.isLapl := by
  induction h with
  | nil => rfl
  | cons h _ ih => rw [List.any_cons, List.any_cons, ih, h.isLapl]

theorem all_same {l l' : List (PVal F)} (h : List.Forall₂ PVal.Same l l') :
    l.all (fun v => !v.2.isLapl) = l'.all fun v => !v.2.isLapl := by
  induction h with
  | nil => rfl
  | cons h _ ih => rw [List.all_cons, List.all_cons, ih, h.isLapl]

theorem val_same {v v' : PVal F} (h : v.Same v') : PArr.Same (⟨v.1, v.2.x⟩ : PArr F) ⟨v'.1, v'.2.x⟩ := h.size

/-- What `jax.lax.scan` makes of per-step outputs with derivatives has a form that depends only on theirs. -/
def JunkStable (junk : List (PVal F) → PVal F) : Prop :=
  ∀ l l', List.Forall₂ PVal.Same l l' → (junk l).Same (junk l')

variable [Zero F]

theorem scanPlain_same {O : Type} (s : ScanParams O F) {b : List (PArr F) → Except Err (List (PArr F))}
    (hb : ∀ vs vs', List.Forall₂ PArr.Same vs vs' → ExRel (List.Forall₂ PArr.Same) (b vs) (b vs')) {xs xs' : List (PArr F)}
    (h : List.Forall₂ PArr.Same xs xs') : ExRel (List.Forall₂ PArr.Same) (scanPlain s b xs) (scanPlain s b xs') := by
  unfold scanPlain
  dsimp only
  have hc := List.forall₂_take s.numConsts h
  have hk := List.forall₂_take s.numCarry (List.forall₂_drop s.numConsts h)
  have hi := List.forall₂_drop s.numCarry (List.forall₂_drop s.numConsts h)
  obtain ⟨e, h1, h2⟩ | ⟨⟨c, ys⟩, ⟨c', ys'⟩, h1, h2, hq1, hq2⟩ := (scanLoop_same (S := PArr.Same) (b := b) (b' := b)
    (chk := fun _ => .ok ()) (chk' := fun _ => .ok ()) (nc := s.numCarry)
    (xsAt := fun t => ((xs.drop s.numConsts).drop s.numCarry).map (timeSlice s.length t))
    (xsAt' := fun t => ((xs'.drop s.numConsts).drop s.numCarry).map (timeSlice s.length t))
    (fun _ => True) (fun t c c' _ hcc => hb _ _ (List.rel_append (List.rel_append hc hcc)
      (forall₂_map_same (f := timeSlice s.length t) (fun _ _ h => timeSlice_same _ _ h) hi))) (fun _ _ _ => .ok trivial) (fun _ _ => trivial)
    (scanOrder s.length s.reverse) trivial hk).elim
  · rw [h1, h2]; exact .error e
  rw [h1, h2]
  refine .ok (List.rel_append hq1 ?_)
  unfold stackSteps
  dsimp only at hq2 ⊢
  rw [List.forall₂_map_left_iff, List.forall₂_map_right_iff]
  exact List.forall₂_same.mpr fun i _ => stackArrs_same (forall₂_col (forall₂_rev hq2 s.reverse) i)

theorem scanLapl_same {O : Type} {junk : List (PVal F) → PVal F} (hj : JunkStable junk) (s : ScanParams O F)
    {b : List (PVal F) → Except Err (List (PVal F))} {bs : List Bool}
    (hb : ∀ vs vs', Match PVal.Same (bs.take s.numConsts ++ ((bs.drop s.numConsts).take s.numCarry).map (fun _ => false) ++
      (bs.drop s.numConsts).drop s.numCarry) vs vs' → ExRel (List.Forall₂ PVal.Same) (b vs) (b vs')) {xs xs' : List (PVal F)}
    (h : Match PVal.Same bs xs xs') : ExRel (List.Forall₂ PVal.Same) (scanLapl junk s b xs) (scanLapl junk s b xs') := by
  unfold scanLapl
  dsimp only
  have hc := h.take s.numConsts
  have hk := (h.drop s.numConsts).take s.numCarry
  have hi := (h.drop s.numConsts).drop s.numCarry
  have hbt : ∀ t c c', c.length = ((xs.drop s.numConsts).take s.numCarry).length → List.Forall₂ PVal.Same c c' →
      ExRel (List.Forall₂ PVal.Same)
        (b (xs.take s.numConsts ++ c ++ ((xs.drop s.numConsts).drop s.numCarry).map fun v =>
          PVal.ofPlain (timeSlice s.length t ⟨v.1, v.2.x⟩)))
        (b (xs'.take s.numConsts ++ c' ++ ((xs'.drop s.numConsts).drop s.numCarry).map fun v =>
          PVal.ofPlain (timeSlice s.length t ⟨v.1, v.2.x⟩))) := by
    intro t c c' hl hcc
    refine hb _ _ ((hc.append ?_).append (hi.map fun _ _ h => PVal.same_ofPlain (timeSlice_same _ _ (val_same h))))
    have := Match.loose hcc
    rwa [List.map_const', hl, ← hk.length.1, ← List.map_const'] at this
  have hany := any_same hi.same
  rw [hany]
  split
  · exact .error _
  · have hnil : ((xs.drop s.numConsts).drop s.numCarry = []) = ((xs'.drop s.numConsts).drop s.numCarry = []) := by
      have := hi.length
      rw [← List.length_eq_zero_iff, ← List.length_eq_zero_iff, ← this.1, ← this.2]
    simp only [ne_eq, hnil]
    split
    · exact .error _
    · obtain ⟨e, h1, h2⟩ | ⟨f, f', h1, h2, hf⟩ := (hbt 0 _ _ rfl hk.same).elim
      · rw [h1, h2]; exact .error e
      rw [h1, h2]
      dsimp only
      obtain ⟨e, h1, h2⟩ | ⟨u, u', h1, h2, -⟩ := (checkCarry_same hk.same (List.forall₂_take s.numCarry hf)).elim
      · rw [h1, h2]; exact .error e
      rw [h1, h2]
      dsimp only
      obtain ⟨e, h1, h2⟩ | ⟨⟨c, ys⟩, ⟨c', ys'⟩, h1, h2, hq1, hq2⟩ := (scanLoop_same (S := PVal.Same) (nc := s.numCarry)
        (fun c => c.length = ((xs.drop s.numConsts).take s.numCarry).length) hbt
        (fun c c' hcc => checkCarry_same hk.same hcc)
        (fun c hcc => by simpa using (congrArg List.length (checkCarry_sigs hcc)).symm)
        (scanOrder s.length s.reverse) rfl hk.same).elim
      · rw [h1, h2]; exact .error e
      rw [h1, h2]
      refine .ok (List.rel_append hq1 ?_)
      dsimp only at hq2 ⊢
      rw [List.forall₂_map_left_iff, List.forall₂_map_right_iff]
      refine List.forall₂_same.mpr fun i _ => ?_
      have hcol := forall₂_col (forall₂_rev hq2 s.reverse) i
      revert hcol
      generalize List.filterMap (fun r : List (PVal F) => r[i]?) (if s.reverse = true then ys.reverse else ys) = l
      generalize List.filterMap (fun r : List (PVal F) => r[i]?) (if s.reverse = true then ys'.reverse else ys') = l'
      intro hcol
      rw [any_same hcol]
      split
      · exact hj _ _ hcol
      · exact PVal.same_ofPlain (stackArrs_same (forall₂_map_same (f := fun v : PVal F => (⟨v.1, v.2.x⟩ : PArr F))
          (fun _ _ h => val_same h) hcol))

/-! ### Equations and programs -/

theorem evPlain_same : ∀ (d : ℕ) (op : Op d F) {xs xs' : List (PArr F)}, List.Forall₂ PArr.Same xs xs' →
    ExRel (List.Forall₂ PArr.Same) (evPlain d op xs) (evPlain d op xs')
  | 0, op, _, _, _ => nomatch op
  | d + 1, .prim p, _, _, h => p.bind_same h
  | d + 1, .pjit _ j consts, xs, xs', h =>
    evalSpec_same (S := PArr.Same) (fun _ => rfl) j (fun _ => false) (xs.map fun _ => false)
      ⟨fun _ _ h => by simp at h, fun _ _ _ _ h => by simp at h⟩
      (fun _ _ _ _ hv => evPlain_same d _ hv.same) (Match.refl (S := PArr.Same) (fun _ => rfl) (consts.map fun _ => true) consts (by simp)) (Match.loose h)
  | d + 1, .scan s, xs, xs', h =>
    scanPlain_same s (fun vs vs' hv => evalSpec_same (S := PArr.Same) (fun _ => rfl) s.body (fun _ => false) (vs.map fun _ => false)
      ⟨fun _ _ h => by simp at h, fun _ _ _ _ h => by simp at h⟩
      (fun _ _ _ _ hv => evPlain_same d _ hv.same) .nil (Match.loose hv)) h

/-- A program whose equations satisfy `P`, given which inputs do not change: there is a marking of variables that do not
depend on the inputs that change. -/
def JaxprStable {O : Type} (P : O → List Bool → Prop) (j : Jaxpr O (PArr F)) (bs : List Bool) : Prop :=
  ∃ fx : Var → Bool, Marked fx j.invars j.eqns bs ∧ ∀ e ∈ j.eqns, P e.op (e.invars.map (Atom.flag fx))

/-- An operation whose primitives are form-stable with respect to the operands that do not change (`bs`); in nested programs
with respect to what does not change there.  The carry of a scan changes. -/
def OpStable (reg : String → Option (Prim F)) (T : ℕ) : (d : ℕ) → Op d F → List Bool → Prop
  | 0, op, _ => nomatch op
  | _ + 1, .prim p, bs => p.FormStable T (flagsAt bs)
  | d + 1, .pjit name j _, bs =>
    match reg name with
    | some p => p.FormStable T (flagsAt bs)
    | none => JaxprStable (OpStable reg T d) j bs
  | d + 1, .scan s, bs => JaxprStable (OpStable reg T d) s.body (bs.take s.numConsts ++
      ((bs.drop s.numConsts).take s.numCarry).map (fun _ => false) ++ (bs.drop s.numConsts).drop s.numCarry)

omit [Zero F] in
theorem OpStable.pjit_some {reg : String → Option (Prim F)} {T d : ℕ} {name : String} {p : Prim F} (hr : reg name = some p)
    (j : Jaxpr (Op d F) (PArr F)) (c : List (PArr F)) (bs : List Bool) :
    OpStable reg T (d + 1) (.pjit name j c) bs = p.FormStable T (flagsAt bs) := by
  rw [OpStable, hr]

omit [Zero F] in
theorem OpStable.pjit_none {reg : String → Option (Prim F)} {T d : ℕ} {name : String} (hr : reg name = none)
    (j : Jaxpr (Op d F) (PArr F)) (c : List (PArr F)) (bs : List Bool) :
    OpStable reg T (d + 1) (.pjit name j c) bs = JaxprStable (OpStable reg T d) j bs := by
  rw [OpStable, hr]

theorem Marked.map {O V W : Type} {fx : Var → Bool} {j : Jaxpr O V} {bs : List Bool} (f : V → W)
    (h : Marked fx j.invars j.eqns bs) : Marked fx (j.map f).invars (j.map f).eqns bs := by
  refine ⟨h.inputs, fun e he v hv hfv a ha => ?_⟩
  obtain ⟨e0, he0, rfl⟩ := List.mem_map.mp he
  obtain ⟨a0, ha0, rfl⟩ := List.mem_map.mp ha
  have := h.eqns e0 he0 v hv hfv a0 ha0
  cases a0 <;> exact this

theorem flag_map {O V W : Type} (fx : Var → Bool) (f : V → W) (e : Eqn O V) :
    (e.map f).invars.map (Atom.flag fx) = e.invars.map (Atom.flag fx) := by
  unfold Eqn.map
  rw [List.map_map]
  refine List.map_congr_left fun a _ => ?_
  cases a <;> rfl

omit [Zero F] in
theorem JaxprStable.evalRC {O : Type} {P : O → List Bool → Prop} {ev : O → List (PVal F) → Except Err (List (PVal F))}
    (hP : ∀ op bs, P op bs → EqSame PVal.Same ev op bs) {j : Jaxpr O (PArr F)} {bs : List Bool} (h : JaxprStable P j bs)
    (consts : List (PVal F)) {args args' : List (PVal F)} (ha : Match PVal.Same bs args args') :
    ExRel (List.Forall₂ PVal.Same) (evalRC ev (j.map PVal.ofPlain) consts args) (evalRC ev (j.map PVal.ofPlain) consts args') := by
  obtain ⟨fx, hm, he⟩ := h
  refine evalRC_same PVal.Same.refl _ fx bs (hm.map _) (fun e he' => ?_) ha
  obtain ⟨e0, he0, rfl⟩ := List.mem_map.mp he'
  rw [flag_map]
  exact hP _ _ (he e0 he0)

theorem evLapl_same (reg : String → Option (Prim F)) {junk : List (PVal F) → PVal F} (hj : JunkStable junk) (T : ℕ) :
    ∀ (d : ℕ) (op : Op d F) (bs : List Bool), OpStable reg T d op bs → EqSame PVal.Same (evLapl reg junk T d) op bs
  | 0, op, _, _ => nomatch op
  | d + 1, op, bs, h => by
    intro vs vs' hv
    unfold evLapl
    rw [all_same hv.same]
    split
    · obtain ⟨e, h1, h2⟩ | ⟨ys, ys', h1, h2, hy⟩ := (evPlain_same (d + 1) op
        (forall₂_map_same (f := fun v : PVal F => (⟨v.1, v.2.x⟩ : PArr F)) (fun _ _ => val_same) hv.same)).elim
      · rw [h1, h2]; exact .error e
      rw [h1, h2]
      exact .ok (forall₂_map_same (f := PVal.ofPlain) (fun _ _ h => PVal.same_ofPlain h) hy)
    · cases op with
      | prim p => exact p.call_same T h hv
      | pjit name j consts =>
        replace h : match reg name with
          | some p => p.FormStable T (flagsAt bs)
          | none => JaxprStable (OpStable reg T d) j bs := h
        dsimp only
        cases hr : reg name with
        | some p =>
          rw [hr] at h
          exact p.call_same T h hv
        | none =>
          rw [hr] at h
          exact JaxprStable.evalRC (fun op bs => evLapl_same reg hj T d op bs) h _ hv
      | scan s =>
        exact scanLapl_same hj s (fun vs vs' hvv => JaxprStable.evalRC (fun op bs => evLapl_same reg hj T d op bs) h _ hvv) hv

end Folx

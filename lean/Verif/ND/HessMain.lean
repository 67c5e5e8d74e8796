import Verif.ND.HessVmap
import Verif.Props.LayoutProps

/-!
# Proofs: the second-order term on arrays
-/

namespace Folx.Layout
open Vmap Dot

variable {F : Type} [Inhabited F] [AddCommMonoid F]

omit [AddCommMonoid F] in
/-- Restoring the axes of size 1. -/
theorem reshape_sqz {R : ND F} {b o : List ℕ} {G : List ℕ → F} (hs : R.shape = sqz b b ++ o)
    (hd : R.data = (ND.ofFn (b ++ o) G).data) : R.reshape? (b ++ o) = some (ND.ofFn (b ++ o) G) := by
  rw [ND.reshape?_eq _ _ (by rw [hs, prod_sqz])]
  unfold ND.reshape
  congr 1
  obtain ⟨s, d, w⟩ := R
  dsimp only at hd
  subst hd
  rfl

omit [AddCommMonoid F] in
theorem idxListAt_length (inter : Bool) (args : List (ArrTrip F × List ℕ)) {b v : List ℕ} (hv : InB v b) :
    (idxListAt inter args b v).length = mergedWidth inter args b := by
  unfold idxListAt
  rw [List.length_append, Finset.length_sort, List.length_replicate]
  have : (mergedAt inter args b v).card ≤ mergedWidth inter args b :=
    foldr_max_le (List.mem_map.mpr ⟨v, mem_allIdx.mpr hv, rfl⟩)
  omega

/-- Densifying one argument. -/
theorem denseTrip_spec {a : ArrTrip F × List ℕ} (h : TripOk a) (h0 : a.1.jac.idx ≠ none → 0 ∉ a.1.jac.data.shape) :
    ∃ t, denseTrip a.1 = some t ∧ DenseOf a (t, a.2) ∧ TripOk (t, a.2) := by
  unfold denseTrip
  cases hm : a.1.jac.idx with
  | none =>
    refine ⟨a.1, rfl, ⟨rfl, rfl, rfl, hm, fun _ => rfl, fun m h' => ?_⟩, h⟩
    rw [hm] at h'; cases h'
  | some m =>
    have hms := (h.idx m hm).trans h.data
    have h0 := h0 (by rw [hm]; simp)
    rw [h.data] at h0
    obtain ⟨r, N, h1, h2, h3, -, h4⟩ := C35_dense_array h.data hms
      (Nat.pos_of_ne_zero fun e => h0 (by rw [e]; simp)) (fun hc => h0 (by simp [hc]))
    have hK : m.shape.getD 0 0 = a.1.jac.data.shape.getD 0 0 := by rw [hms]; rfl
    refine ⟨⟨a.1.x, ⟨r, none⟩, a.1.lapl⟩, by dsimp only; rw [h1]; rfl, ⟨rfl, rfl, rfl, rfl, fun h' => ?_, fun m' h' => ?_⟩,
      ⟨?_, fun m' h' => ?_, fun m' h' => ?_, h.lapl, h.nodup, h.lt⟩⟩
    · rw [hm] at h'; cases h'
    · rw [hm, Option.some.injEq] at h'
      subst h'
      exact ⟨N, h2, fun k p hk hp => h3 k p (by rw [← hK]; exact hk) hp, fun i p hi hp => by rw [hK]; exact h4 i p hi hp⟩
    · show r.shape = r.shape.getD 0 0 :: a.1.x.shape
      rw [h2]; rfl
    · cases h'
    · cases h'

theorem dense_all {args : List (ArrTrip F × List ℕ)} (hok : ∀ a ∈ args, TripOk a) (h0 : ∀ a ∈ args, a.1.jac.idx ≠ none → 0 ∉ a.1.jac.data.shape) :
    ∃ args', (args.mapM fun a => (denseTrip a.1).map fun t => (t, a.2)) = some args' ∧ List.Forall₂ DenseOf args args' ∧
      ∀ a ∈ args', TripOk a := by
  induction args with
  | nil => exact ⟨[], rfl, List.Forall₂.nil, by simp⟩
  | cons a as ih =>
    obtain ⟨args', h1, h2, h3⟩ := ih (fun x hx => hok x (by simp [hx])) fun x hx => h0 x (by simp [hx])
    obtain ⟨t, g1, g2, g3⟩ := denseTrip_spec (hok a (by simp)) (h0 a (by simp))
    refine ⟨(t, a.2) :: args', ?_, List.Forall₂.cons g2 h2, ?_⟩
    · rw [List.mapM_cons, g1, h1]; rfl
    · intro x hx
      rcases List.mem_cons.mp hx with rfl | hx
      · exact g3
      · exact h3 x hx

omit [Inhabited F] in
theorem dense_shapes [Inhabited F] {args args' : List (ArrTrip F × List ℕ)} (h : List.Forall₂ DenseOf args args') :
    (args'.map fun a => otherShape a.1.x.shape a.2) = args.map fun a => otherShape a.1.x.shape a.2 := by
  induction h with
  | nil => rfl
  | cons h _ ih => rw [List.map_cons, List.map_cons, ih, h.ax, h.x]

section
variable {g : SliceFn F} (hg : TracedSlice g) (inter sparseJHJ dot : Bool) (T : ℕ) {args : List (ArrTrip F × List ℕ)}
  (hok : ∀ a ∈ args, TripOk a) {extras : List (ND F × List ℕ)} (hext : ∀ e ∈ extras, ValidSkip e.1.shape e.2) {b : List ℕ}
  (hb : Broadcasts ((args.map fun a => otherShape a.1.x.shape a.2) ++ extras.map fun e => otherShape e.1.shape e.2) b)
  (h0 : 0 ∉ b)

theorem dense_self {args : List (ArrTrip F × List ℕ)} (hd : ∀ a ∈ args, a.1.jac.idx = none) : List.Forall₂ DenseOf args args := by
  rw [List.forall₂_same]
  intro a ha
  refine ⟨rfl, rfl, rfl, hd a ha, fun _ => rfl, fun m h' => ?_⟩
  rw [hd a ha] at h'; cases h'

theorem dense_len {args args' : List (ArrTrip F × List ℕ)} (h : List.Forall₂ DenseOf args args') :
    (∀ a ∈ args', a.2.length = 1) ↔ ∀ a ∈ args, a.2.length = 1 := by
  induction h with
  | nil => simp
  | cons h _ ih => simp only [List.mem_cons, forall_eq_or_imp, ih, h.ax]

theorem dense_last {args args' : List (ArrTrip F × List ℕ)} (h : List.Forall₂ DenseOf args args')
    (hl : ∀ a ∈ args, a.2 = [a.1.x.shape.length - 1]) : args'.map lastAxis = args' := by
  induction h with
  | nil => rfl
  | @cons a a' _ _ h _ ih =>
    rw [List.map_cons, ih fun x hx => hl x (by simp [hx])]
    congr 1
    unfold lastAxis
    rw [h.x, ← hl a (by simp), ← h.ax]

include hg hok hext hb h0 in
/-- Dense arguments, or dense output without `SPARSE_JHJ`: the term of every slice of the dense arguments. -/
theorem hessArr_dense (hne : args ≠ []) (hnd : dot = false ∨ (∃ a ∈ args, a.2.length ≠ 1) ∨
      ∀ a ∈ args, a.2 = [a.1.x.shape.length - 1]) {b0 : List ℕ}
    (hb0 : Broadcasts (args.map fun a => otherShape a.1.x.shape a.2) b0) (he : ∀ a ∈ args, a.1.jac.idx ≠ none → 0 ∉ a.1.jac.data.shape)
    (hd : (∀ a ∈ args, a.1.jac.idx = none) ∨
      (sparseJHJ = false ∧ (mergedWidth inter args b0 ≥ maxSizeArr args ∨ mergedWidth inter args b0 > T))) :
    ∃ args', List.Forall₂ DenseOf args args' ∧ ∀ o, (∀ v, InB v b → (termAt g args' extras none b v).shape = o) →
      hessArr g inter sparseJHJ dot T args extras (b ++ o) = some (ND.ofFn (b ++ o) fun w =>
        (termAt g args' extras none b (w.take b.length)).get (w.drop b.length)) := by
  obtain ⟨args', hfo, hD, hok'⟩ : ∃ args', (∃ fo, findOutIdxArr inter T args = some fo ∧
      densifyArgs (fo.2 && !sparseJHJ) args = some args' ∧
      (if fo.2 && !sparseJHJ then none else fo.1) = none) ∧ List.Forall₂ DenseOf args args' ∧ ∀ a ∈ args', TripOk a := by
    obtain ⟨args', k1, k2, k3⟩ := dense_all hok he
    by_cases hs : ∀ a ∈ args, a.1.jac.idx = none
    · have hf : findOutIdxArr inter T args = some (none, true) := by
        unfold findOutIdxArr
        rw [if_pos (by rw [List.any_eq_false]; intro a ha; rw [hs a ha]; simp)]
      cases hsj : sparseJHJ with
      | true => exact ⟨args, ⟨_, hf, rfl, rfl⟩, dense_self hs, hok⟩
      | false => exact ⟨args', ⟨_, hf, k1, rfl⟩, k2, k3⟩
    · obtain ⟨hsj, hw⟩ := hd.resolve_left hs
      obtain ⟨idx, hf, _, _⟩ := findOutIdxArr_spec inter T hne hok hb0 (by
        by_contra hc
        refine hs fun a ha => ?_
        rw [Bool.not_eq_true, List.any_eq_false] at hc
        have := hc a ha
        cases hi : a.1.jac.idx with
        | none => rfl
        | some m => rw [hi] at this; simp at this)
      rw [decide_eq_true hw] at hf
      refine ⟨args', ⟨_, hf, ?_, ?_⟩, k2, k3⟩
      · rw [hsj]; exact k1
      · rw [hsj]; rfl
  refine ⟨args', hD, fun o ho => ?_⟩
  obtain ⟨fo, f1, f2, f3⟩ := hfo
  obtain ⟨R, h1, h2, h3⟩ := vmapHess_none hg hok' hext (by rw [dense_shapes hD]; exact hb) ho h0
  have hcases : ¬ (dot = true ∧ ∀ a ∈ args', a.2.length = 1) ∨ ((dot = true ∧ ∀ a ∈ args', a.2.length = 1) ∧ args'.map lastAxis = args') := by
    by_cases hc : dot = true ∧ ∀ a ∈ args', a.2.length = 1
    · right
      refine ⟨hc, dense_last hD ?_⟩
      rw [dense_len hD] at hc
      rcases hnd with h | ⟨a, ha, h⟩ | h
      · rw [h] at hc; simp at hc
      · exact absurd (hc.2 a ha) h
      · exact h
    · exact Or.inl hc
  unfold hessArr hessRest
  rcases hcases with hc | ⟨hc, hla⟩
  · simp only [Option.bind_eq_bind, Option.bind_some, f1, f2, f3, Option.map_none, reduceCtorEq, if_false, if_neg hc, h1]
    exact reshape_sqz h2 h3
  · have hrem : ∀ d, removeZero args' none d = some (args', none, none) := by intro d; cases d <;> rfl
    simp only [Option.bind_eq_bind, Option.bind_some, f1, f2, f3, Option.map_none, reduceCtorEq, if_false, if_pos hc, hrem, hla, h1,
      applyMask]
    exact reshape_sqz h2 h3

include hok in
/-- No input matters at more than one argument (or none at all): zero. -/
theorem hessArr_empty (out : List ℕ) (hne : args ≠ []) {b0 : List ℕ} (hb0 : Broadcasts (args.map fun a => otherShape a.1.x.shape a.2) b0)
    (hsp : ∃ a ∈ args, a.1.jac.idx ≠ none) (hw : mergedWidth inter args b0 = 0)
    (hj : sparseJHJ = true ∨ 0 < maxSizeArr args) :
    hessArr g inter sparseJHJ dot T args extras out = some (ND.ofFn [] fun _ => 0) := by
  obtain ⟨idx, hf, hs, _⟩ := findOutIdxArr_spec inter T hne hok hb0 (by
    obtain ⟨a, ha, h⟩ := hsp
    rw [List.any_eq_true]
    refine ⟨a, ha, ?_⟩
    cases hi : a.1.jac.idx with
    | none => exact absurd hi h
    | some m => rfl)
  have hd : (decide (mergedWidth inter args b0 ≥ maxSizeArr args ∨ mergedWidth inter args b0 > T) && !sparseJHJ) = false := by
    rcases hj with h | h
    · rw [h]; simp
    · rw [decide_eq_false (by omega)]; rfl
  unfold hessArr hessRest densifyArgs
  simp only [Option.bind_eq_bind, Option.bind_some, hf, hd, Bool.false_eq_true, if_false, Option.map_some, hs]
  rw [if_pos (by rw [hw]; rfl)]

end

section
variable {g : SliceFn F} (hg : TracedSlice g) (inter sparseJHJ dot : Bool) (T : ℕ) {args : List (ArrTrip F × List ℕ)}
  (hok : ∀ a ∈ args, TripOk a) {extras : List (ND F × List ℕ)} (hext : ∀ e ∈ extras, ValidSkip e.1.shape e.2) {b : List ℕ}
  (hba : Broadcasts (args.map fun a => otherShape a.1.x.shape a.2) b) {j : ℕ}
  (hb : Broadcasts ((args.map fun a => otherShape a.1.x.shape a.2) ++ extras.map fun e => otherShape e.1.shape e.2)
    (List.replicate j 1 ++ b)) (h0 : 0 ∉ b)

theorem sqz_ones (j : ℕ) (b v : List ℕ) (hv : v.length = j + b.length) : sqz (List.replicate j 1 ++ b) v = sqz b (v.drop j) := by
  induction j generalizing v with
  | zero => rfl
  | succ j ih =>
    cases v with
    | nil => simp at hv; omega
    | cons i v =>
      rw [List.replicate_succ, List.cons_append, List.drop_succ_cons, ← ih v (by simp at hv; omega)]
      rfl

theorem any_sparse (hsp : ∃ a ∈ args, a.1.jac.idx ≠ none) : (args.any fun a => a.1.jac.idx.isSome) = true := by
  obtain ⟨a, ha, h⟩ := hsp
  rw [List.any_eq_true]
  refine ⟨a, ha, ?_⟩
  cases hi : a.1.jac.idx with
  | none => exact absurd hi h
  | some m => rfl

include hg hok hext hba hb h0 in
/-- Sparse arguments: the term of every slice with the index list of its position.  (The other arguments may add axes of
size 1 in front.) -/
theorem hessArr_sparse (hne : args ≠ []) (hnd : dot = false ∨ ∃ a ∈ args, a.2.length ≠ 1)
    (hsp : ∃ a ∈ args, a.1.jac.idx ≠ none) (hw : 0 < mergedWidth inter args b)
    (hj : sparseJHJ = true ∨ (mergedWidth inter args b < maxSizeArr args ∧ mergedWidth inter args b ≤ T)) {o : List ℕ}
    (ho : ∀ v, InB v (List.replicate j 1 ++ b) →
      (termAt g args extras (some (idxListAt inter args b (v.drop j))) (List.replicate j 1 ++ b) v).shape = o) :
    hessArr g inter sparseJHJ dot T args extras (List.replicate j 1 ++ b ++ o) =
      some (ND.ofFn (List.replicate j 1 ++ b ++ o) fun w =>
        (termAt g args extras (some (idxListAt inter args b ((w.take (List.replicate j 1 ++ b).length).drop j)))
          (List.replicate j 1 ++ b) (w.take (List.replicate j 1 ++ b).length)).get (w.drop (List.replicate j 1 ++ b).length)) := by
  obtain ⟨idx, hf, hs, hi⟩ := findOutIdxArr_spec inter T hne hok hba (any_sparse hsp)
  have hd : (decide (mergedWidth inter args b ≥ maxSizeArr args ∨ mergedWidth inter args b > T) && !sparseJHJ) = false := by
    rcases hj with h | h
    · rw [h]; simp
    · rw [decide_eq_false (by omega)]; rfl
  have hdrop : ∀ v, InB v (List.replicate j 1 ++ b) → InB (v.drop j) b := by
    intro v hv
    have := List.forall₂_drop j hv
    rwa [List.drop_left' (by simp)] at this
  obtain ⟨R, h1, h2, h3⟩ := vmapHess_some (W := mergedWidth inter args b) (il := fun v => idxListAt inter args b (v.drop j))
    hg hok hext hb (by rw [hs, sqz_ones _ _ _ (by simp), List.drop_left' (by simp)]) hw
    (fun v hv => ⟨idxListAt_length inter args (hdrop v hv), fun k hk => by
      rw [sqz_ones _ _ _ (by rw [hv.length_eq]; simp)]
      exact hi _ (hdrop v hv) k hk⟩) ho (by simp [h0])
  have hc : ¬ (dot = true ∧ ∀ a ∈ args, a.2.length = 1) := by
    rintro ⟨e1, e2⟩
    rcases hnd with h | ⟨a, ha, h⟩
    · rw [h] at e1; simp at e1
    · exact h (e2 a ha)
  have hz : ¬ (some (idx.shape.getD 0 0) = some 0) := by
    rw [hs, Option.some.injEq]
    exact Nat.pos_iff_ne_zero.mp hw
  unfold hessArr hessRest densifyArgs
  simp only [Option.bind_eq_bind, Option.bind_some, hf, hd, Bool.false_eq_true, if_false, Option.map_some, if_neg hc, if_neg hz, h1]
  exact reshape_sqz h2 h3

end

end Folx.Layout

import Verif.ND.CallProofs
import Verif.ND.Realize

/-! # Calls of array-level functions: the interpreter's view -/

namespace Folx.Layout
open Vmap Dot Filter Topology

section
variable {F : Type} [CommRing F] [Inhabited F] {s : List ℕ}

theorem weak_rep (j : ArrJac F) : (j.rep s).weak = true ↔ j.idx ≠ none := by
  unfold ArrJac.rep
  cases j.idx <;> simp [Jac.weak]

theorem nrows_rep (j : ArrJac F) : (j.rep s).nrows = j.data.shape.getD 0 0 := by
  unfold ArrJac.rep
  cases j.idx <;> simp [Jac.nrows]

theorem big_rep {T n : ℕ} {j : ArrJac F} (h : j.Big T n) : (j.rep s).Big T n := by
  unfold ArrJac.rep ArrJac.Big at *
  cases hi : j.idx with
  | none =>
    have := h hi
    unfold hd at this
    simpa [Jac.Big] using this
  | some x0 => trivial

theorem big_jacArr {T n : ℕ} {J : Jac (Fin s.prod) F} (h : J.Big T n) : (jacArr s J).Big T n := by
  cases J with
  | dense rows => exact fun _ => h
  | sparse rows => exact fun h => by cases h

theorem idx_jacArr {J : Jac (Fin s.prod) F} (h : J.weak = false) : (jacArr s J).idx = none := by
  cases J with
  | dense rows => rfl
  | sparse rows => simp [Jac.weak] at h

end

section
variable {X : Type} [NormedAddCommGroup X] [NormedSpace ℝ X] {F : Type} [RCLike F] [Inhabited F] {m : ℕ} {shape : Fin (m + 1) → List ℕ} {out : List ℕ}
variable {B : Base X} {T : ℕ} {A : ArrFn F shape out} {ifwd : (acts : List (Fin (m + 1))) → Option ((Fin acts.length → ND ℤ) → ND ℤ)} {b : List ℕ}
  {φ : List (ND F) → ((i : Fin (m + 1)) → Fin (A.inAxes.slice (shape i)).prod → F) → List ℕ → F} {x : (i : Fin (m + 1)) → Fin (shape i).prod → F}
  {o : (i : Fin (m + 1)) → Opd F (shape i).prod} {uo : (i : Fin (m + 1)) → X → Fin (shape i).prod → F}

theorem actsOf_sorted {n : ℕ} {size : Fin n → ℕ} (o : (i : Fin n) → Opd F (size i)) : (actsOf o).Pairwise (· < ·) :=
  List.Pairwise.filter _ (List.pairwise_lt_finRange n)

theorem mem_actsOf {n : ℕ} {size : Fin n → ℕ} (o : (i : Fin n) → Opd F (size i)) (i : Fin n) : i ∈ actsOf o ↔ (o i).isLapl = true := by
  simp [actsOf]

/-- What the operands are: constants near the base point, or triples. -/
structure CallOk (B : Base X) (o : (i : Fin (m + 1)) → Opd F (shape i).prod) (uo : (i : Fin (m + 1)) → X → Fin (shape i).prod → F)
    (x : (i : Fin (m + 1)) → Fin (shape i).prod → F) : Prop where
  val : ∀ i, uo i B.x0 = x i
  plain : ∀ i a, o i = .plain a → a = uo i B.x0 ∧ uo i =ᶠ[𝓝 B.x0] fun _ => a
  lapl : ∀ i t, o i = .lapl t → TripRep B t (uo i) ∧ (t.jac.weak = true → 0 < t.jac.nrows)
  some : ∃ i, (o i).isLapl = true

/-- The parts of a call. -/
theorem call_parts (hn : 0 < B.n) (hT : A.Truthful ifwd b φ x) (hc : CallOk B o uo x) :
    ∃ a0 rest, actsOf o = a0 :: rest ∧ (∀ i, (o i).x = x i) ∧ (a0 :: rest).Pairwise (· < ·) ∧
      ∀ a : Fin (rest.length + 1), ∃ t, o ((a0 :: rest).get a) = .lapl t ∧
        ArrRep B (shape ((a0 :: rest).get a)) (tripArr (shape ((a0 :: rest).get a)) (o ((a0 :: rest).get a)).trip) (uo ((a0 :: rest).get a)) := by
  cases ha : actsOf o with
  | nil =>
    obtain ⟨i, hi⟩ := hc.some
    have := (mem_actsOf o i).mpr hi
    rw [ha] at this
    simp at this
  | cons a0 rest =>
    refine ⟨a0, rest, rfl, fun i => ?_, ha ▸ actsOf_sorted o, fun a => ?_⟩
    · cases ho : o i with
      | plain a => exact (hc.plain i a ho).1.trans (hc.val i)
      | lapl t => exact (hc.lapl i t ho).1.x.trans (hc.val i)
    · have hl : (o ((a0 :: rest).get a)).isLapl = true := (mem_actsOf o _).mp (by rw [ha]; exact List.get_mem _ _)
      cases ho : o ((a0 :: rest).get a) with
      | plain a => rw [ho] at hl; simp [Opd.isLapl] at hl
      | lapl t => exact ⟨t, rfl, arrRep_of_tripRep (hT.argSize _) (hc.lapl _ t ho).2 (hc.lapl _ t ho).1⟩

theorem call_eq {a0 : Fin (m + 1)} {rest : List (Fin (m + 1))} (ha : actsOf o = a0 :: rest) (hx : ∀ i, (o i).x = x i) :
    A.call ifwd T o = ((A.restrict ifwd (a0 :: rest) x).wrapped (k := rest.length) T (fun a => tripArr (shape ((a0 :: rest).get a)) (o ((a0 :: rest).get a)).trip)
      (A.extrasOf (a0 :: rest) x)).map fun t => .lapl (arrTrip out t) := by
  obtain rfl : x = fun i => (o i).x := funext fun i => (hx i).symm
  unfold ArrFn.call
  rw [ha]

theorem tripRep_congr {k : ℕ} {t : Trip (Fin k) F} {u u' : X → Fin k → F} (h : TripRep B t u) (he : u' =ᶠ[𝓝 B.x0] u) : TripRep B t u' := by
  obtain ⟨h1, h2, D, H, h3, h4⟩ := h
  exact ⟨h1.trans he.self_of_nhds.symm, h2, D, H, h3.of_eventuallyEq he, h4⟩

/-- The function of the operands with derivatives is the function of all operands near the base point. -/
theorem merge_eventually (hc : CallOk B o uo x) {a0 : Fin (m + 1)} {rest : List (Fin (m + 1))} (ha : actsOf o = a0 :: rest) :
    (fun y => A.fwd fun i => uo i y) =ᶠ[𝓝 B.x0] fun y => (A.restrict ifwd (a0 :: rest) x).fwd fun a => uo ((a0 :: rest).get a) y := by
  have hev : ∀ᶠ y in 𝓝 B.x0, ∀ i, i ∉ a0 :: rest → uo i y = x i := by
    rw [eventually_all]
    intro i
    by_cases hi : i ∈ a0 :: rest
    · exact Eventually.of_forall fun y h => absurd hi h
    · cases ho : o i with
      | plain a =>
        obtain ⟨h1, h2⟩ := hc.plain i a ho
        filter_upwards [h2] with y hy _
        rw [hy, h1, hc.val]
      | lapl t =>
        refine absurd ?_ hi
        rw [← ha, mem_actsOf, ho]
        rfl
  have hi : Function.Injective (a0 :: rest).get := acts_inj ((ha ▸ actsOf_sorted o).imp fun h => ne_of_lt h)
  filter_upwards [hev] with y hy
  show A.fwd _ = A.fwd (mergeAt (a0 :: rest).get x _)
  congr 1
  funext i
  by_cases h : ∃ a, (a0 :: rest).get a = i
  · obtain ⟨a, rfl⟩ := h
    exact (mergeAt_act hi x (fun a => uo ((a0 :: rest).get a) y) a).symm
  · rw [mergeAt_other _ _ h]
    exact hy i fun h' => h (acts_range.mpr h')

section
variable {a0 : Fin (m + 1)} {rest : List (Fin (m + 1))}

theorem restrict_deriv (hc : CallOk B o uo x) (hnd : (a0 :: rest).Nodup) :
    (A.restrict ifwd (a0 :: rest) x).deriv (fun a => uo ((a0 :: rest).get a) B.x0) = A.deriv x ∘ₗ extendBy (P := fun i => Fin (shape i).prod) (a0 :: rest).get := by
  have h2 : mergeAt (a0 :: rest).get x (fun a => uo ((a0 :: rest).get a) B.x0) = x := by
    rw [show (fun a => uo ((a0 :: rest).get a) B.x0) = fun a => x ((a0 :: rest).get a) from funext fun a => hc.val _, mergeAt_self (acts_inj hnd)]
  show A.deriv (mergeAt (a0 :: rest).get x fun a => uo ((a0 :: rest).get a) B.x0) ∘ₗ extendBy (P := fun i => Fin (shape i).prod) (a0 :: rest).get = _
  rw [h2]

theorem restrict_axes (hT : A.Truthful ifwd b φ x) (hc : CallOk B o uo x) (hnd : (a0 :: rest).Nodup) :
    AxesOk (ss := fun a : Fin (rest.length + 1) => shape ((a0 :: rest).get a)) (A.inAxes.first (A.flags.has Flags.SUMMATION))
      ((A.restrict ifwd (a0 :: rest) x).deriv fun a => uo ((a0 :: rest).get a) B.x0) := by
  have h1 := axesOk_extend (act := ((a0 :: rest).get : Fin (rest.length + 1) → Fin (m + 1))) (acts_inj hnd) hT.axes
  exact (congrArg (AxesOk (ss := fun a : Fin (rest.length + 1) => shape ((a0 :: rest).get a)) (A.inAxes.first (A.flags.has Flags.SUMMATION)))
    (restrict_deriv hc hnd)).mpr h1

theorem restrict_index (hT : A.Truthful ifwd b φ x) (hc : CallOk B o uo x) (hnd : (a0 :: rest).Nodup) :
    A.flags.has Flags.INDEXING = true → ∀ f, (A.restrict ifwd (a0 :: rest) x).ifwd = some f →
      Indexing (k := rest.length) (ss := fun a => shape ((a0 :: rest).get a)) ((A.restrict ifwd (a0 :: rest) x).deriv fun a => uo ((a0 :: rest).get a) B.x0) f := by
  intro hi f hf
  have h1 := hT.index hi a0 rest f hnd hf
  exact (congrArg (fun D => Indexing (k := rest.length) (ss := fun a => shape ((a0 :: rest).get a)) D f) (restrict_deriv hc hnd)).mpr h1

theorem restrict_computes' (hT : A.Truthful ifwd b φ x) (hc : CallOk B o uo x) (hs : (a0 :: rest).Pairwise (· < ·)) :
    (A.restrict ifwd (a0 :: rest) x).Computes (A.extrasOf (a0 :: rest) x) b (sliceRestrict A (a0 :: rest) φ) fun a => uo ((a0 :: rest).get a) B.x0 :=
  (congrArg (fun y => (A.restrict ifwd (a0 :: rest) x).Computes (A.extrasOf (a0 :: rest) x) b (sliceRestrict A (a0 :: rest) φ) y) (funext fun a => hc.val _)).mpr
    (restrict_computes (hs.imp fun h => ne_of_lt h) hT.computes fun h g => hT.custom _ g (by simp) hs fun hl he => h ⟨hl, by rw [he]; rfl, by rw [he]; rfl⟩)

end

/-- A call with dense Jacobians only. -/
theorem call_dense (hn : 0 < B.n) (hT : A.Truthful ifwd b φ x) (hc : CallOk B o uo x) (hd : ∀ i t, o i = .lapl t → denseInv B.n _ t.jac) :
    ∃ t, A.call ifwd T o = some (.lapl t) ∧ TripRep B t (fun y => A.fwd fun i => uo i y) ∧ denseInv B.n _ t.jac := by
  obtain ⟨a0, rest, ha, hx, hs, hrep⟩ := call_parts hn hT hc
  have hnd : (a0 :: rest).Nodup := hs.imp fun h => ne_of_lt h
  rw [call_eq ha hx]
  choose tt ht hrep using hrep
  have hidx : ∀ a, (tripArr (shape ((a0 :: rest).get a)) (o ((a0 :: rest).get a)).trip).jac.idx = none := fun a =>
    idx_jacArr (by rw [ht a]; exact (hd _ _ (ht a)).1)
  have hS := (restrict_second (T := T) hT hs hrep fun a => hc.val _).1 hidx
  have hA' := restrict_computes' hT hc hs
  obtain ⟨b', hb'⟩ := restrict_batch (ifwd := ifwd) (acts := a0 :: rest) (x := x) hT.batch hT.argSize
  have hax := restrict_axes hT hc hnd
  obtain ⟨r, hr, hr1, hr2⟩ := C57_dense (k := rest.length) (ifwd := (A.restrict ifwd (a0 :: rest) x).ifwd) T hn (A.flags.has Flags.INDEXING) (A.flags.has Flags.JOIN_JVP)
    (fun a => (hrep a).arg) hax hidx
  have hp : ∀ r', jvpArr T (A.flags.has Flags.INDEXING) (A.flags.has Flags.JOIN_JVP) (A.inAxes.first (A.flags.has Flags.SUMMATION))
      ((A.restrict ifwd (a0 :: rest) x).deriv fun a => uo ((a0 :: rest).get a) B.x0) (A.restrict ifwd (a0 :: rest) x).ifwd
      (fun a => tripArr (shape ((a0 :: rest).get a)) (o ((a0 :: rest).get a)).trip) = some r' →
      IsPush (k := rest.length) B.n ((A.restrict ifwd (a0 :: rest) x).deriv fun a => uo ((a0 :: rest).get a) B.x0)
        (fun a => tripArr (shape ((a0 :: rest).get a)) (o ((a0 :: rest).get a)).trip) r' := by
    intro r' hr'
    have : r' = r := Option.some.inj (hr'.symm.trans hr)
    rw [this]
    exact hr2
  have hw := wrapped_iff (k := rest.length) hrep hA' hT.outSize (fits_batch (k := rest.length) hb') hS hp
  cases hwt : (A.restrict ifwd (a0 :: rest) x).wrapped (k := rest.length) T (fun a => tripArr (shape ((a0 :: rest).get a)) (o ((a0 :: rest).get a)).trip)
      (A.extrasOf (a0 :: rest) x) with
  | none =>
    have := hw.1.mp hwt
    exact absurd (hr.symm.trans this) (by simp)
  | some t =>
    obtain ⟨h1, r', h2, h3⟩ := wrapped_sound (k := rest.length) hrep hA' hT.outSize (fits_batch (k := rest.length) hb') hS.sound hp hwt
    have : r' = r := Option.some.inj (h2.symm.trans hr)
    subst this
    refine ⟨arrTrip out t, rfl, tripRep_congr (tripRep_of_arrRep h1) (merge_eventually hc ha), ?_, ?_⟩
    · show (t.jac.rep out).weak = false
      rw [← Bool.not_eq_true, weak_rep, h3, hr1]
      simp
    · show (t.jac.rep out).nrows = B.n
      rw [nrows_rep, h3]
      have hle : r'.1.data.shape.getD 0 0 ≤ B.n := by
        have := hr2.ok.2
        rw [hr1] at this
        exact this
      have hge : r'.1.Big B.n B.n := by
        refine denseJvp_big ((if_pos hidx).symm.trans hr) (hidx 0) (big_jacArr ?_)
        have h5 := (hd _ _ (ht 0))
        rw [ht 0]
        show (tt 0).jac.Big B.n B.n
        revert h5
        cases (tt 0).jac with
        | dense rows => exact fun h5 => Or.inl (le_of_eq h5.2.symm)
        | sparse rows => exact fun _ => trivial
      have h6 : B.n ≤ r'.1.data.shape.getD 0 0 ∨ B.n ≤ r'.1.data.shape.getD 0 0 := hge hr1
      omega

/-- The Jacobians that occur with sparsity enabled. -/
def arrInv (T n : ℕ) : ∀ m, Jac (Fin m) F → Prop := fun _ J => (J.weak = true → 0 < J.nrows) ∧ J.Big T n

/-- A call with any Jacobians: whatever is returned is right; for functions that are not linear in each operand, dense Jacobians must have all rows (or `T`). -/
theorem call_any (hn : 0 < B.n) (hT : A.Truthful ifwd b φ x) (hsafe : A.SparseSafe ifwd b) (hc : CallOk B o uo x)
    (hd : A.flags.has Flags.LINEAR_IN_ONE = true ∨ ∀ i t, o i = .lapl t → t.jac.Big T B.n) {r : Opd F out.prod} (h : A.call ifwd T o = some r) :
    ∃ t, r = .lapl t ∧ TripRep B t (fun y => A.fwd fun i => uo i y) ∧ (t.jac.weak = true → 0 < t.jac.nrows) ∧ ((∀ i t, o i = .lapl t → t.jac.Big T B.n) → t.jac.Big T B.n) := by
  obtain ⟨a0, rest, ha, hx, hs, hrep⟩ := call_parts hn hT hc
  have hnd : (a0 :: rest).Nodup := hs.imp fun h => ne_of_lt h
  rw [call_eq ha hx] at h
  choose tt ht hrep using hrep
  have hbig : (∀ i t, o i = .lapl t → t.jac.Big T B.n) → ∀ a, (tripArr (shape ((a0 :: rest).get a)) (o ((a0 :: rest).get a)).trip).jac.Big T B.n := fun hd a =>
    big_jacArr (by rw [ht a]; exact hd _ _ (ht a))
  have hS := (restrict_second (T := T) hT hs hrep fun a => hc.val _).2.1 hsafe (hd.imp id hbig)
  have hA' := restrict_computes' hT hc hs
  obtain ⟨b', hb'⟩ := restrict_batch (ifwd := ifwd) (acts := a0 :: rest) (x := x) hT.batch hT.argSize
  have hax := restrict_axes hT hc hnd
  have hlen : rest.length ≤ m := by
    have := hnd.length_le_card
    simp at this
    omega
  have hp := C57_sound (k := rest.length) (ifwd := (A.restrict ifwd (a0 :: rest) x).ifwd) T hn hT.outSize (A.flags.has Flags.INDEXING) (A.flags.has Flags.JOIN_JVP)
    (fun a => (hrep a).arg) hax (restrict_index hT hc hnd) (by
      rcases hsafe.sums with h1 | h1 | ⟨h1, h2⟩
      · exact Or.inr (Or.inr (Or.inr fun a _ => h1 _))
      · have h0 : rest.length = 0 := by omega
        by_cases h3 : (tripArr (shape ((a0 :: rest).get (0 : Fin (rest.length + 1)))) (o ((a0 :: rest).get (0 : Fin (rest.length + 1)))).trip).jac.idx = none
        · exact Or.inr (Or.inr (Or.inl (Or.inl h3)))
        · refine Or.inr (Or.inl ⟨fun a => ?_, Or.inr (Or.inr h0)⟩)
          obtain rfl : a = 0 := Fin.ext (by have := a.2; show a.val = 0; omega)
          exact h3
      · by_cases h3 : (tripArr (shape ((a0 :: rest).get (0 : Fin (rest.length + 1)))) (o ((a0 :: rest).get (0 : Fin (rest.length + 1)))).trip).jac.idx = none
        · exact Or.inr (Or.inr (Or.inl (Or.inl h3)))
        · by_cases h4 : ∃ h : 1 < rest.length + 1, (tripArr (shape ((a0 :: rest).get (⟨1, h⟩ : Fin (rest.length + 1)))) (o ((a0 :: rest).get (⟨1, h⟩ : Fin (rest.length + 1)))).trip).jac.idx = none
          · exact Or.inr (Or.inr (Or.inl (Or.inr h4)))
          · refine Or.inr (Or.inl ⟨fun a => ?_, h2.imp id fun h => Or.inl (by rw [h]; rfl)⟩)
            by_cases ha0 : a.val = 0
            · obtain rfl : a = 0 := Fin.ext ha0
              exact h3
            · have ha1 : a.val = 1 := by have := a.2; omega
              intro h5
              refine h4 ⟨by have := a.2; omega, ?_⟩
              have : a = ⟨1, by have := a.2; omega⟩ := Fin.ext ha1
              rw [← this]
              exact h5)
  rw [Option.map_eq_some_iff] at h
  obtain ⟨t, hwt, rfl⟩ := h
  obtain ⟨h1, r', h2, h3⟩ := wrapped_sound (k := rest.length) hrep hA' hT.outSize (fits_batch (k := rest.length) hb') hS hp hwt
  refine ⟨arrTrip out t, rfl, tripRep_congr (tripRep_of_arrRep h1) (merge_eventually hc ha), fun h => ?_, fun hd => ?_⟩
  · show 0 < (t.jac.rep out).nrows
    have h : (t.jac.rep out).weak = true := h
    rw [weak_rep] at h
    rw [nrows_rep]
    exact h1.arg.rows h
  · refine big_rep ?_
    rw [h3]
    exact jvpArr_big (k := rest.length) hn hT.outSize _ _ (fun a => (hrep a).arg) hax (fun hi => hsafe.index hi a0 rest) (hbig hd) h2

/-- A call with any Jacobians: whatever is returned is right. -/
theorem call_sparse (hn : 0 < B.n) (hT : A.Truthful ifwd b φ x) (hsafe : A.SparseSafe ifwd b) (hc : CallOk B o uo x)
    (hd : ∀ i t, o i = .lapl t → arrInv T B.n _ t.jac) {r : Opd F out.prod} (h : A.call ifwd T o = some r) :
    ∃ t, r = .lapl t ∧ TripRep B t (fun y => A.fwd fun i => uo i y) ∧ arrInv T B.n _ t.jac := by
  obtain ⟨t, h1, h2, h3, h4⟩ := call_any (T := T) hn hT hsafe hc (Or.inr fun i t ht => (hd i t ht).2) h
  exact ⟨t, h1, h2, h3, h4 fun i t ht => (hd i t ht).2⟩

end

end Folx.Layout

import Verif.ND.CallSpec
import Verif.ND.WrapSound
import Verif.ND.WrapProduct
import Verif.ND.HessRaise
import Verif.Props.FirstProps

/-! # Calls of array-level functions with some operands without derivatives -/

namespace Folx.Layout
open Vmap Dot

section
variable {X : Type} [NormedAddCommGroup X] [NormedSpace ℝ X] {F : Type} [RCLike F] [Inhabited F] {ss : Fin 2 → List ℕ} {out : List ℕ}
variable {B : Base X} {T : ℕ} {A : ArrFn F ss out} {b : List ℕ}
  {args : Fin 2 → ArrTrip F} {u : (a : Fin 2) → X → Fin (ss a).prod → F}
  {φ : List (ND F) → ((a : Fin 2) → Fin (A.inAxes.slice (ss a)).prod → F) → List ℕ → F}

/-- The second-order term of a dot product without batch axes of size 1 is right if there is one. -/
theorem second_dot_sound (hrep : ∀ a, ArrRep B (ss a) (args a) (u a)) (hA : A.Computes [] b φ fun a => u a B.x0) (hb : A.Batch [] b b)
    (hm : A.flags.has Flags.DOT_PRODUCT = true) (hl : A.flags.has Flags.LINEAR = false) (hax : A.inAxes = .axes [-1])
    (hrank : ∀ a, (ss a).length = b.length + 1) {s : List ℕ} (hs : ∀ a, A.inAxes.slice (ss a) = s) (hφ : ∀ es z q, φ es z q = sliceDot hs z) (h1 : 1 ∉ b) :
    SecondSound B T A [] b args u := by
  by_cases hmix : (∀ a, (args a).jac.idx = none) ∨ denseCall true T (List.ofFn (A.trips args)) b ∨ mergedWidth true (List.ofFn (A.trips args)) b = 0 ∨
      2 * (activeAt true (List.ofFn (A.trips args)) b).length > b.prod ∨ (1 ∉ b ∧ 2 ≤ (activeAt true (List.ofFn (A.trips args)) b).length)
  · exact (second_dot_ok hrep hA hb hm hl hax hrank hs hφ hmix).sound
  · push Not at hmix
    obtain ⟨⟨a, ha⟩, hdc, hw, hlt, hact⟩ := hmix
    have hact := hact h1
    have hx : ∀ a, (args a).x.shape = ss a := fun a => (hrep a).arg.x
    have hC := hessCall_of hrep hb
    have hne : (activeAt true (List.ofFn (A.trips args)) b).length ≠ 0 := by
      intro h
      refine hw ?_
      have h' := List.length_eq_zero_iff.mp h
      unfold mergedWidth
      rcases foldr_max_mem ((Dot.allIdx b).map fun v => (mergedAt true (List.ofFn (A.trips args)) b v).card) with h2 | h2
      · exact h2
      · obtain ⟨v, hv, hc⟩ := List.mem_map.mp h2
        rw [← hc, Finset.card_eq_zero]
        by_contra hne
        have : v ∈ activeAt true (List.ofFn (A.trips args)) b := List.mem_filter.mpr ⟨hv, decide_eq_true (Finset.nonempty_iff_ne_empty.mpr hne)⟩
        rw [h'] at this
        simp at this
    intro R hR
    rw [second_product_def hA (has_of_has (by decide) hm) hl, hm] at hR
    have := hessArr_dot_one (g := productSlice (A.inAxes.slice (ss 0)) A.sliceOut A.junk) true (A.flags.has Flags.SPARSE_JHJ) T (args := List.ofFn (A.trips args)) (b := b)
      hC.argShape (by simp) ⟨_, List.mem_ofFn.mpr ⟨a, rfl⟩, ha⟩ (Nat.pos_of_ne_zero hw) (fun t ht => by
        obtain ⟨a, rfl⟩ := List.mem_ofFn.mp ht
        exact ⟨hC.ok a, by
          show A.inAxes.second (args a).x.shape.length = [b.length]
          rw [hx a, hax, hrank a]
          show [axisOf (b.length + 1) (-1)] = _
          unfold axisOf
          rw [if_pos (by decide)]
          congr 1
          omega, by
          show (args a).x.shape.length = _
          rw [hx a]
          exact hrank a⟩) h1 (by unfold denseCall at hdc; push Not at hdc; exact hdc) (by omega) (by omega) out
    rw [this] at hR
    simp at hR

end

section
variable {X : Type} [NormedAddCommGroup X] [NormedSpace ℝ X] {F : Type} [RCLike F] [Inhabited F] {m : ℕ} {shape : Fin (m + 1) → List ℕ} {out : List ℕ}
variable {B : Base X} {T : ℕ} {A : ArrFn F shape out} {ifwd : (acts : List (Fin (m + 1))) → Option ((Fin acts.length → ND ℤ) → ND ℤ)} {b : List ℕ}
  {φ : List (ND F) → ((i : Fin (m + 1)) → Fin (A.inAxes.slice (shape i)).prod → F) → List ℕ → F} {x : (i : Fin (m + 1)) → Fin (shape i).prod → F}

/-- The second derivative of the function of the operands with derivatives. -/
theorem restrict_hess {acts : List (Fin (m + 1))} (hd : acts.Nodup) (v : List ℕ) (s t : (a : Fin acts.length) → Fin (A.inAxes.slice (shape (acts.get a))).prod → F) (q : List ℕ) :
    (A.restrict ifwd acts x).hess ((A.extrasOf acts x).map fun e => bslice e.1 e.2 b v)
      (fun a => sliceVec (shape (acts.get a)) (A.inAxes.second (shape (acts.get a)).length) b v (x (acts.get a))) s t q =
    A.hess [] (A.slices b v x) (extendBy (P := fun i => Fin (A.inAxes.slice (shape i)).prod) acts.get s)
      (extendBy (P := fun i => Fin (A.inAxes.slice (shape i)).prod) acts.get t) q := by
  have hi := acts_inj hd
  have e : mergeAt (P := fun i => Fin (A.inAxes.slice (shape i)).prod) acts.get (A.extraSlices acts ((A.extrasOf acts x).map fun e => bslice e.1 e.2 b v))
      (fun a => sliceVec (shape (acts.get a)) (A.inAxes.second (shape (acts.get a)).length) b v (x (acts.get a))) = A.slices b v x := by
    have h1 := mergeAt_map (Q := fun i => Fin (A.inAxes.slice (shape i)).prod) hi (fun i => sliceVec (shape i) (A.inAxes.second (shape i).length) b v) x fun a => x (acts.get a)
    rw [mergeAt_self hi] at h1
    refine Eq.trans ?_ h1.symm
    exact mergeAt_congr (fun i h => extraSlices_eq v fun h' => h (acts_range.mpr h')) _
  show A.hess [] (mergeAt (P := fun i => Fin (A.inAxes.slice (shape i)).prod) acts.get (A.extraSlices acts ((A.extrasOf acts x).map fun e => bslice e.1 e.2 b v)) _) _ _ q = _
  rw [e]

variable {a0 : Fin (m + 1)} {rest : List (Fin (m + 1))} {args : Fin (rest.length + 1) → ArrTrip F}
  {u : (a : Fin (rest.length + 1)) → X → Fin (shape ((a0 :: rest).get a)).prod → F}

/-- Two operands of a product, both with derivatives. -/
theorem restrict_product {shape : Fin 2 → List ℕ} {A : ArrFn F shape out} {ifwd : (acts : List (Fin 2)) → Option ((Fin acts.length → ND ℤ) → ND ℤ)}
    {φ : List (ND F) → ((i : Fin 2) → Fin (A.inAxes.slice (shape i)).prod → F) → List ℕ → F} {x : (i : Fin 2) → Fin (shape i).prod → F} {args : Fin 2 → ArrTrip F}
    {u : (a : Fin 2) → X → Fin (shape (([0, 1] : List (Fin 2)).get a)).prod → F}
    (hA : A.Computes [] b φ x) (hc : ∀ g, A.customFor [0, 1] = some g → A.flags.has Flags.LINEAR_IN_ONE = false ∧
      TraceRule (fun a : Fin 2 => A.inAxes.slice (shape (([0, 1] : List (Fin 2)).get a))) A.sliceOut (A.restrict ifwd [0, 1] x).hess g)
    (hb : A.Batch [] b b) (hl : A.flags.has Flags.LINEAR = false) (hm : A.flags.has Flags.MULTIPLICATION = true)
    {s : List ℕ} (hs : ∀ i, A.inAxes.slice (shape i) = s) (hφ : ∀ es z q, φ es z q = sliceDot hs z)
    (hdot : A.flags.has Flags.DOT_PRODUCT = true → A.inAxes = .axes [-1] ∧ ∀ i, (shape i).length = b.length + 1)
    (hrep : ∀ a : Fin 2, ArrRep B (shape (([0, 1] : List (Fin 2)).get a)) (args a) (u a)) (hu : ∀ a, u a B.x0 = x (([0, 1] : List (Fin 2)).get a)) :
    ((∀ a, (args a).jac.idx = none) → SecondOk (k := 1) B T (A.restrict ifwd [0, 1] x) (A.extrasOf [0, 1] x) b args u) ∧
    ((A.flags.has Flags.DOT_PRODUCT = true → 1 ∉ b) → SecondSound (k := 1) B T (A.restrict ifwd [0, 1] x) (A.extrasOf [0, 1] x) b args u) ∧
    (A.flags.has Flags.DOT_PRODUCT = false → SecondOk (k := 1) B T (A.restrict ifwd [0, 1] x) (A.extrasOf [0, 1] x) b args u) := by
  have hA' := restrict_computes (ifwd := ifwd) (acts := ([0, 1] : List (Fin 2))) (by decide) hA fun _ => hc
  have he : A.extrasOf [0, 1] x = [] := rfl
  have hb' : (A.restrict ifwd [0, 1] x).Batch [] b b := by
    refine ⟨fun l hl a i hi => hb.range l hl (([0, 1] : List (Fin 2)).get a) i hi, fun a => hb.nodup (([0, 1] : List (Fin 2)).get a), by simp, by simp, ?_, ?_⟩
    · exact hb.argShape
    · exact hb.allShape
  have hA2 : (A.restrict ifwd [0, 1] x).Computes [] b (sliceRestrict A [0, 1] φ) fun a => u a B.x0 :=
    (congrArg (fun y => (A.restrict ifwd [0, 1] x).Computes [] b (sliceRestrict A [0, 1] φ) y) (funext hu)).mpr hA'
  have hs' : ∀ a : Fin 2, (A.restrict ifwd [0, 1] x).inAxes.slice (shape (([0, 1] : List (Fin 2)).get a)) = s := fun a => hs _
  have hφ' : ∀ es z q, sliceRestrict A [0, 1] φ es z q = sliceDot hs' z := by
    intro es z q
    refine (hφ [] _ q).trans ?_
    unfold sliceDot
    refine Finset.sum_congr rfl fun c _ => ?_
    have h1 := mergeAt_act (P := fun i => Fin (A.inAxes.slice (shape i)).prod) (acts_inj (acts := ([0, 1] : List (Fin 2))) (by decide)) (A.extraSlices [0, 1] es) z 0
    have h2 := mergeAt_act (P := fun i => Fin (A.inAxes.slice (shape i)).prod) (acts_inj (acts := ([0, 1] : List (Fin 2))) (by decide)) (A.extraSlices [0, 1] es) z 1
    exact congrArg₂ (· * ·) (congrFun h1 _) (congrFun h2 _)
  by_cases hd : A.flags.has Flags.DOT_PRODUCT = true
  · obtain ⟨hax, hrank⟩ := hdot hd
    exact ⟨fun h => second_dot_ok hrep hA2 hb' hd hl hax (fun a => hrank _) hs' hφ' (Or.inl h),
      fun h1 => second_dot_sound hrep hA2 hb' hd hl hax (fun a => hrank _) hs' hφ' (h1 hd), fun h => absurd (hd.symm.trans h) (by decide)⟩
  · have h1 : SecondOk (k := 1) B T (A.restrict ifwd [0, 1] x) (A.extrasOf [0, 1] x) b args u :=
      second_product_ok hrep hA2 hb' hm hl hs' hφ' (Or.inl (eq_false_of_ne_true hd)) (Or.inr (Or.inr ⟨0, rfl⟩))
    exact ⟨fun _ => h1, fun _ => h1.sound, fun _ => h1⟩

/-- The second-order term of a call: right if all Jacobians are dense; with sparse Jacobians right if there is one. -/
theorem restrict_second (hT : A.Truthful ifwd b φ x) (hd : (a0 :: rest).Pairwise (· < ·))
    (hrep : ∀ a : Fin (rest.length + 1), ArrRep B (shape ((a0 :: rest).get a)) (args a) (u a)) (hu : ∀ a, u a B.x0 = x ((a0 :: rest).get a)) :
    ((∀ a, (args a).jac.idx = none) → SecondOk (k := rest.length) B T (A.restrict ifwd (a0 :: rest) x) (A.extrasOf (a0 :: rest) x) b args u) ∧
    (A.SparseSafe ifwd b → (A.flags.has Flags.LINEAR_IN_ONE = true ∨ ∀ a, (args a).jac.Big T B.n) →
      SecondSound (k := rest.length) B T (A.restrict ifwd (a0 :: rest) x) (A.extrasOf (a0 :: rest) x) b args u) ∧
    (A.flags.has Flags.DOT_PRODUCT = false → A.flags.has Flags.SPARSE_JHJ = false ∨ A.flags.has Flags.LINEAR_IN_ONE = true → (∀ a, (args a).jac.Big T B.n) →
      (A.flags.has Flags.LINEAR_IN_ONE = true ∨ ∀ b', (A.restrict ifwd (a0 :: rest) x).Batch (A.extrasOf (a0 :: rest) x) b' b → ∃ j, b = List.replicate j 1 ++ b') →
      SecondOk (k := rest.length) B T (A.restrict ifwd (a0 :: rest) x) (A.extrasOf (a0 :: rest) x) b args u) := by
  have hnd : (a0 :: rest).Nodup := hd.imp fun h => ne_of_lt h
  -- from a second derivative that vanishes
  have hzero : ((A.restrict ifwd (a0 :: rest) x).flags.has Flags.LINEAR = true ∨ ((A.restrict ifwd (a0 :: rest) x).flags.has Flags.LINEAR_IN_ONE = true ∧ rest.length = 0) ∨
        ((A.restrict ifwd (a0 :: rest) x).flags.has Flags.LINEAR_IN_FIRST = true ∧ (A.restrict ifwd (a0 :: rest) x).firstIsLapl = true ∧ rest.length = 0)) →
      (∀ v q, InB v b → InB q A.sliceOut → ∀ s : (a : Fin (a0 :: rest).length) → Fin (A.inAxes.slice (shape ((a0 :: rest).get a))).prod → F,
        A.hess [] (A.slices b v x) (extendBy (P := fun i => Fin (A.inAxes.slice (shape i)).prod) (a0 :: rest).get s)
          (extendBy (P := fun i => Fin (A.inAxes.slice (shape i)).prod) (a0 :: rest).get s) q = 0) →
      SecondOk (k := rest.length) B T (A.restrict ifwd (a0 :: rest) x) (A.extrasOf (a0 :: rest) x) b args u := by
    intro hf hz
    refine second_zero_ok (second_linear hf) fun v q hv hq s => ?_
    refine Eq.trans ?_ ((restrict_hess (ifwd := ifwd) (b := b) (x := x) hnd v s s q).trans (hz v q hv hq s))
    refine congrArg (fun y => (A.restrict ifwd (a0 :: rest) x).hess ((A.extrasOf (a0 :: rest) x).map fun e => bslice e.1 e.2 b v) y s s q) ?_
    funext a
    exact congrArg (sliceVec _ _ b v) (hu a)
  have hA' : (A.restrict ifwd (a0 :: rest) x).Computes (A.extrasOf (a0 :: rest) x) b (sliceRestrict A (a0 :: rest) φ) fun a => u a B.x0 :=
    (congrArg (fun y => (A.restrict ifwd (a0 :: rest) x).Computes (A.extrasOf (a0 :: rest) x) b (sliceRestrict A (a0 :: rest) φ) y) (funext hu)).mpr
      (restrict_computes hnd hT.computes fun h g => hT.custom _ g (by simp) hd fun hl he => h ⟨hl, by rw [he]; rfl, by rw [he]; rfl⟩)
  obtain ⟨b', hb'⟩ := restrict_batch (ifwd := ifwd) (acts := a0 :: rest) (x := x) hT.batch hT.argSize
  have hC := hessCall_of (k := rest.length) hrep hb'
  rcases hT.second with ⟨h1, h2⟩ | ⟨h1, h2, ⟨h3, s, hs, hφ⟩, h4⟩ | ⟨h1, h2⟩
  · have := hzero (Or.inl h1) fun v q hv hq s => h2 v q hv hq _ _
    exact ⟨fun _ => this, fun _ _ => this.sound, fun _ _ _ _ => this⟩
  · subst h3
    have hφ' : ∀ es z q, φ es z q = sliceDot hs z := hφ
    cases rest with
    | nil =>
      have := hzero (Or.inr (Or.inl ⟨has_of_has (by decide) h2, rfl⟩)) fun v q hv hq s => by
        refine (hess_product hT.computes hs hφ' hv hq _).trans ?_
        unfold sliceDot
        rw [Finset.sum_eq_zero fun c _ => ?_, mul_zero]
        have ha : (¬ ∃ a, ([a0] : List (Fin 2)).get a = 0) ∨ (¬ ∃ a, ([a0] : List (Fin 2)).get a = 1) := by
          rw [acts_range, acts_range]
          fin_cases a0 <;> decide
        rcases ha with ha | ha
        · rw [extendBy_other _ ha]
          exact zero_mul _
        · rw [extendBy_other _ ha]
          exact mul_zero _
      exact ⟨fun _ => this, fun _ _ => this.sound, fun _ _ _ _ => this⟩
    | cons a1 rest =>
      have h5 : a0 < a1 := (List.pairwise_cons.mp hd).1 a1 (by simp)
      have h5' : a0.val < a1.val := h5
      obtain rfl : a0 = (0 : Fin 2) := Fin.ext (by show a0.val = 0; omega)
      obtain rfl : a1 = (1 : Fin 2) := Fin.ext (by show a1.val = 1; omega)
      have h6 : rest = [] := by
        rw [List.eq_nil_iff_forall_not_mem]
        intro i hi
        have : 1 < i.val := (List.pairwise_cons.mp (List.pairwise_cons.mp hd).2).1 i hi
        omega
      subst h6
      obtain ⟨h6, h7, h8⟩ := restrict_product (T := T) (ifwd := ifwd) (args := args) (u := u) hT.computes (fun g => hT.custom [0, 1] g (by simp) hd fun _ => by simp) hT.batch h1 h2 hs hφ' h4 hrep hu
      exact ⟨h6, fun hS _ => h7 fun h => hS.dot h h1, fun hd _ _ _ => h8 hd⟩
  · by_cases h3 : A.flags.has Flags.LINEAR_IN_FIRST = true ∧ (A.restrict ifwd (a0 :: rest) x).firstIsLapl = true ∧ rest.length = 0
    · obtain ⟨h3, h4, h5⟩ := h3
      have h6 := List.length_eq_zero_iff.mp h5
      subst h6
      have h7 : a0 = 0 := by
        have : (([a0] : List (Fin (m + 1))).any fun i => decide (i.val = 0)) = true := h4
        simp only [List.any_cons, List.any_nil, Bool.or_false, decide_eq_true_eq] at this
        exact Fin.ext this
      subst h7
      have hx : ∀ s : (a : Fin ([0] : List (Fin (m + 1))).length) → Fin (A.inAxes.slice (shape (([0] : List (Fin (m + 1))).get a))).prod → F,
          extendBy (P := fun i => Fin (A.inAxes.slice (shape i)).prod) ([0] : List (Fin (m + 1))).get s = Pi.single 0 (s 0) := by
        intro s
        funext i
        by_cases hi : i = 0
        · subst hi
          have e1 := extendBy_act (P := fun i => Fin (A.inAxes.slice (shape i)).prod) (acts_inj hnd) s 0
          exact e1.trans (Pi.single_eq_same (M := fun i => Fin (A.inAxes.slice (shape i)).prod → F) 0 (s 0)).symm
        · exact (extendBy_other _ fun ⟨a, ha⟩ => hi (by rw [← ha]; simp)).trans (Pi.single_eq_of_ne (M := fun i => Fin (A.inAxes.slice (shape i)).prod → F) hi (s 0)).symm
      have := hzero (Or.inr (Or.inr ⟨h3, h4, rfl⟩)) fun v q hv hq s => by
        rw [hx]
        exact h2 h3 v q hv hq _ _
      exact ⟨fun _ => this, fun _ _ => this.sound, fun _ _ _ _ => this⟩
    · exact ⟨fun h => second_general_ok (k := rest.length) hrep hC hA'.shape (hA'.custom fun h => h3 ⟨h.1, h.2.1, Nat.succ_injective h.2.2⟩) h1 h3 (Or.inl h),
        fun hS hbig => second_general_sound' (k := rest.length) hrep hC hA'.shape (hA'.custom fun h => h3 ⟨h.1, h.2.1, Nat.succ_injective h.2.2⟩) h1 h3 (hS.jhj.resolve_right (by rw [h1]; decide)) (hbig.resolve_left (by rw [h1]; decide)), fun _ hj hbig hmix => by
          refine second_general_ok (k := rest.length) hrep hC hA'.shape (hA'.custom fun h => h3 ⟨h.1, h.2.1, Nat.succ_injective h.2.2⟩) h1 h3 ?_
          by_cases hd : ∃ a, (args a).jac.idx = none
          · obtain ⟨a, ha⟩ := hd
            exact Or.inr (Or.inr (Or.inl ⟨hj.resolve_right (by rw [h1]; decide), denseCall_big hC T (a := a) ha fun a ha => hbig a ha⟩))
          · push Not at hd
            exact Or.inr (Or.inr (Or.inr ⟨hd, hmix.resolve_left (by rw [h1]; decide) b' hb'⟩))⟩

end

end Folx.Layout

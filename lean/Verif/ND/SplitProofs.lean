import Verif.ND.Split
import Verif.ND.WrapCase

/-! # The function of the operands with derivatives -/

namespace Folx.Layout
open Vmap Dot

section
variable {F : Type} [CommRing F] {n m : ℕ} {P : Fin n → Type} {act : Fin m → Fin n}

theorem extendBy_act (hi : Function.Injective act) (y : (a : Fin m) → P (act a) → F) (a : Fin m) : extendBy act y (act a) = y a := by
  unfold extendBy
  rw [LinearMap.sum_apply, Finset.sum_apply, Finset.sum_eq_single a]
  · exact Pi.single_eq_same (M := fun i => P i → F) _ _
  · intro b _ hb
    exact Pi.single_eq_of_ne (M := fun i => P i → F) (fun h => hb (hi h).symm) _
  · intro h
    exact absurd (Finset.mem_univ _) h

theorem extendBy_other (y : (a : Fin m) → P (act a) → F) {i : Fin n} (h : ¬ ∃ a, act a = i) : extendBy act y i = 0 := by
  unfold extendBy
  rw [LinearMap.sum_apply, Finset.sum_apply]
  refine Finset.sum_eq_zero fun a _ => ?_
  exact Pi.single_eq_of_ne (M := fun i => P i → F) (fun e => h ⟨a, e.symm⟩) _

theorem mergeAt_act (hi : Function.Injective act) (c : (i : Fin n) → P i → F) (y : (a : Fin m) → P (act a) → F) (a : Fin m) : mergeAt act c y (act a) = y a := by
  unfold mergeAt
  rw [if_pos ⟨a, rfl⟩, extendBy_act hi]

theorem mergeAt_other (c : (i : Fin n) → P i → F) (y : (a : Fin m) → P (act a) → F) {i : Fin n} (h : ¬ ∃ a, act a = i) : mergeAt act c y i = c i := by
  unfold mergeAt
  rw [if_neg h]

theorem mergeAt_self (hi : Function.Injective act) (x : (i : Fin n) → P i → F) : mergeAt act x (fun a => x (act a)) = x := by
  funext i
  by_cases h : ∃ a, act a = i
  · obtain ⟨a, rfl⟩ := h
    exact mergeAt_act hi _ _ a
  · exact mergeAt_other _ _ h

theorem mergeAt_add (c : (i : Fin n) → P i → F) (y : (a : Fin m) → P (act a) → F) : mergeAt act c y = mergeAt act c 0 + extendBy act y := by
  funext i
  show _ = mergeAt act c 0 i + extendBy act y i
  by_cases h : ∃ a, act a = i
  · unfold mergeAt
    rw [if_pos h, if_pos h, map_zero]
    exact (zero_add _).symm
  · rw [mergeAt_other _ _ h, mergeAt_other _ _ h, extendBy_other _ h, add_zero]

/-- Merging and a map of each operand commute. -/
theorem mergeAt_map {Q : Fin n → Type} (hi : Function.Injective act) (f : (i : Fin n) → (P i → F) → (Q i → F)) (c : (i : Fin n) → P i → F) (y : (a : Fin m) → P (act a) → F) :
    (fun i => f i (mergeAt act c y i)) = mergeAt (P := Q) act (fun i => f i (c i)) fun a => f (act a) (y a) := by
  funext i
  by_cases h : ∃ a, act a = i
  · obtain ⟨a, rfl⟩ := h
    rw [mergeAt_act hi, mergeAt_act hi]
  · rw [mergeAt_other _ _ h, mergeAt_other _ _ h]

theorem mergeAt_congr {c c' : (i : Fin n) → P i → F} (h : ∀ i, (¬ ∃ a, act a = i) → c i = c' i) (y : (a : Fin m) → P (act a) → F) : mergeAt act c y = mergeAt act c' y := by
  funext i
  by_cases hi : ∃ a, act a = i
  · unfold mergeAt
    rw [if_pos hi, if_pos hi]
  · rw [mergeAt_other _ _ hi, mergeAt_other _ _ hi, h i hi]

end

section
variable {F : Type} [RCLike F] {n m : ℕ} {P : Fin n → Type} [∀ i, Fintype (P i)] (act : Fin m → Fin n)

/-- `extendBy` as a continuous map. -/
noncomputable def extendL : ((a : Fin m) → P (act a) → F) →L[ℝ] ((i : Fin n) → P i → F) :=
  ∑ a, (ContinuousLinearMap.single ℝ (fun i => P i → F) (act a)).comp (ContinuousLinearMap.proj (R := ℝ) (φ := fun a => P (act a) → F) a)

theorem extendL_apply (y : (a : Fin m) → P (act a) → F) : extendL act y = extendBy act y := by
  unfold extendL extendBy
  rw [ContinuousLinearMap.sum_apply, LinearMap.sum_apply]
  rfl

end

section Calculus
variable {E E' G : Type} [NormedAddCommGroup E] [NormedSpace ℝ E] [NormedAddCommGroup E'] [NormedSpace ℝ E'] [NormedAddCommGroup G] [NormedSpace ℝ G]

theorem first_affine {f : E → G} {D : E →L[ℝ] G} {M : E' → E} {L : E' →L[ℝ] E} {c : E} (hM : ∀ y, M y = c + L y) {y : E'} (h : HasFDerivAt f D (M y)) :
    HasFDerivAt (fun y => f (M y)) (D.comp L) y := by
  have h1 : HasFDerivAt M L y := by
    rw [show M = fun y => c + L y from funext hM]
    exact L.hasFDerivAt.const_add c
  exact h.comp y h1

theorem second_affine {f : E → G} {D : E →L[ℝ] G} {H : E →L[ℝ] E →L[ℝ] G} {M : E' → E} {L : E' →L[ℝ] E} {c : E} (hM : ∀ y, M y = c + L y) {y : E'}
    (h : HasFDeriv2At f D H (M y)) : ∃ H', HasFDeriv2At (fun y => f (M y)) (D.comp L) H' y ∧ ∀ s t, H' s t = H (L s) (L t) := by
  have h1 : HasFDeriv2At M L 0 y := by
    rw [show M = fun y => c + L y from funext hM]
    exact ⟨fun _ => L, Filter.Eventually.of_forall fun y => L.hasFDerivAt.const_add c, rfl, hasFDerivAt_const _ _⟩
  obtain ⟨H', h2, h3⟩ := HasFDeriv2At.comp h h1
  exact ⟨H', h2, fun s t => by rw [h3]; simp⟩

end Calculus

section
variable {n : ℕ}

theorem mem_otherOps {acts : List (Fin n)} {i : Fin n} : i ∈ otherOps acts ↔ i ∉ acts := by
  simp [otherOps]

theorem acts_range {acts : List (Fin n)} {i : Fin n} : (∃ a, acts.get a = i) ↔ i ∈ acts := List.mem_iff_get.symm

theorem acts_inj {acts : List (Fin n)} (h : acts.Nodup) : Function.Injective acts.get := List.nodup_iff_injective_get.mp h

variable {F : Type} [RCLike F] [Inhabited F] {shape : Fin n → List ℕ} {out : List ℕ} {A : ArrFn F shape out} {acts : List (Fin n)}
  {ifwd : (acts : List (Fin n)) → Option ((Fin acts.length → ND ℤ) → ND ℤ)} {x : (i : Fin n) → Fin (shape i).prod → F} {b : List ℕ}
  {φ : List (ND F) → ((a : Fin n) → Fin (A.inAxes.slice (shape a)).prod → F) → List ℕ → F}

/-- The slices of the other arguments are slices of the operands. -/
theorem extraSlices_eq (v : List ℕ) {i : Fin n} (hi : i ∉ acts) :
    A.extraSlices acts ((A.extrasOf acts x).map fun e => bslice e.1 e.2 b v) i = sliceVec (shape i) (A.inAxes.second (shape i).length) b v (x i) := by
  have hm : i ∈ otherOps acts := mem_otherOps.mpr hi
  have hl : (otherOps acts).idxOf i < (otherOps acts).length := List.idxOf_lt_length_iff.mpr hm
  unfold ArrFn.extraSlices ArrFn.extrasOf
  rw [List.map_map, List.getD_eq_getElem _ _ (by rw [List.length_map]; exact hl), List.getElem_map, List.getElem_idxOf]
  funext c
  show vecOf (bslice (toND (shape i) (x i)) (A.inAxes.second (shape i).length) b v) _ c = _
  rw [vecOf_get _ (A.inAxes.slice (shape i)) rfl]
  exact ND.get_ofFn _ (inB_unravelIdx c.2)

/-- The function of slices for the operands with derivatives. -/
noncomputable def sliceRestrict (A : ArrFn F shape out) (acts : List (Fin n)) (φ : List (ND F) → ((a : Fin n) → Fin (A.inAxes.slice (shape a)).prod → F) → List ℕ → F) :
    List (ND F) → ((a : Fin acts.length) → Fin (A.inAxes.slice (shape (acts.get a))).prod → F) → List ℕ → F :=
  fun es z q => φ [] (mergeAt (P := fun i => Fin (A.inAxes.slice (shape i)).prod) acts.get (A.extraSlices acts es) z) q

theorem restrict_computes (hd : acts.Nodup) (hA : A.Computes [] b φ x) (hc : ¬ (A.flags.has Flags.LINEAR_IN_FIRST = true ∧ (acts.any fun i => decide (i.val = 0)) = true ∧ acts.length = 1) →
      ∀ g, A.customFor (acts.map Fin.val) = some g → A.flags.has Flags.LINEAR_IN_ONE = false ∧
      TraceRule (fun a : Fin acts.length => A.inAxes.slice (shape (acts.get a))) A.sliceOut (A.restrict ifwd acts x).hess g) :
    (A.restrict ifwd acts x).Computes (A.extrasOf acts x) b (sliceRestrict A acts φ) fun a => x (acts.get a) := by
  have hi := acts_inj hd
  have hsl : ∀ v (y : (a : Fin acts.length) → Fin (shape (acts.get a)).prod → F),
      (fun i => sliceVec (shape i) (A.inAxes.second (shape i).length) b v (mergeAt acts.get x y i)) =
      mergeAt (P := fun i => Fin (A.inAxes.slice (shape i)).prod) acts.get (A.extraSlices acts ((A.extrasOf acts x).map fun e => bslice e.1 e.2 b v))
        fun a => sliceVec (shape (acts.get a)) (A.inAxes.second (shape (acts.get a)).length) b v (y a) := by
    intro v y
    rw [mergeAt_map (Q := fun i => Fin (A.inAxes.slice (shape i)).prod) hi (fun i => sliceVec (shape i) (A.inAxes.second (shape i).length) b v) x y]
    exact mergeAt_congr (fun i h => (extraSlices_eq v fun h' => h (acts_range.mpr h')).symm) _
  refine ⟨hA.shape, fun y v q hv hq => ?_, ?_, fun v q hv hq => ?_, fun h2 g hg => hc h2 g ?_⟩
  rotate_right
  · refine (congrArg A.customFor ?_).trans hg
    refine List.ext_getElem (by simp) fun j h1 h2 => ?_
    rw [List.length_map] at h1
    simp [h1]
  · refine (hA.value (mergeAt acts.get x y) v q hv hq).trans ?_
    rw [hsl]
    rfl
  · obtain ⟨D, h1, h2⟩ := hA.fst
    refine ⟨D.comp (extendL (P := fun i => Fin (shape i).prod) acts.get), ?_, fun t => ?_⟩
    · refine first_affine (M := mergeAt acts.get x) (L := extendL (P := fun i => Fin (shape i).prod) acts.get) (c := mergeAt acts.get x 0) (fun y => ?_) ?_
      · rw [extendL_apply]
        exact mergeAt_add _ _
      · rw [mergeAt_self hi]
        exact h1
    · show D (extendL (P := fun i => Fin (shape i).prod) acts.get t) = A.deriv (mergeAt acts.get x fun a => x (acts.get a)) (extendBy (P := fun i => Fin (shape i).prod) acts.get t)
      rw [mergeAt_self hi, h2, extendL_apply]
  · obtain ⟨D, H, h1, h2⟩ := hA.snd v q hv hq
    have e : mergeAt (P := fun i => Fin (A.inAxes.slice (shape i)).prod) acts.get (A.extraSlices acts ((A.extrasOf acts x).map fun e => bslice e.1 e.2 b v))
        (fun a => sliceVec (shape (acts.get a)) (A.inAxes.second (shape (acts.get a)).length) b v (x (acts.get a))) =
        fun i => sliceVec (shape i) (A.inAxes.second (shape i).length) b v (x i) := by
      rw [← hsl, mergeAt_self hi]
    obtain ⟨H', h3, h4⟩ := second_affine (f := fun z => φ [] z q) (D := D) (H := H)
      (M := mergeAt (P := fun i => Fin (A.inAxes.slice (shape i)).prod) acts.get (A.extraSlices acts ((A.extrasOf acts x).map fun e => bslice e.1 e.2 b v)))
      (L := extendL (P := fun i => Fin (A.inAxes.slice (shape i)).prod) acts.get)
      (c := mergeAt (P := fun i => Fin (A.inAxes.slice (shape i)).prod) acts.get (A.extraSlices acts ((A.extrasOf acts x).map fun e => bslice e.1 e.2 b v)) 0)
      (y := fun a => sliceVec (shape (acts.get a)) (A.inAxes.second (shape (acts.get a)).length) b v (x (acts.get a)))
      (fun y => by rw [extendL_apply]; exact mergeAt_add _ _) (by rw [e]; exact h1)
    refine ⟨_, H', h3, fun s t => (h4 s t).trans ((h2 _ _).trans ?_)⟩
    show A.hess [] (fun i => sliceVec (shape i) (A.inAxes.second (shape i).length) b v (x i)) (extendL (P := fun i => Fin (A.inAxes.slice (shape i)).prod) acts.get s)
        (extendL (P := fun i => Fin (A.inAxes.slice (shape i)).prod) acts.get t) q =
      A.hess [] (mergeAt (P := fun i => Fin (A.inAxes.slice (shape i)).prod) acts.get (A.extraSlices acts ((A.extrasOf acts x).map fun e => bslice e.1 e.2 b v))
        (fun a => sliceVec (shape (acts.get a)) (A.inAxes.second (shape (acts.get a)).length) b v (x (acts.get a))))
        (extendBy (P := fun i => Fin (A.inAxes.slice (shape i)).prod) acts.get s) (extendBy (P := fun i => Fin (A.inAxes.slice (shape i)).prod) acts.get t) q
    rw [e]
    exact congrArg₂ (fun s t => A.hess [] (fun i => sliceVec (shape i) (A.inAxes.second (shape i).length) b v (x i)) s t q) (extendL_apply (P := fun i => Fin (A.inAxes.slice (shape i)).prod) acts.get s) (extendL_apply (P := fun i => Fin (A.inAxes.slice (shape i)).prod) acts.get t)

/-- A part of a list of shapes that broadcast together broadcasts. -/
theorem broadcasts_sub {S S' : List (List ℕ)} {b : List ℕ} (h : Broadcasts S b) (hs : ∀ s ∈ S', s ∈ S) : ∃ b', Broadcasts S' b' := by
  classical
  set L := (S'.map List.length).foldr max 0 with hL
  set d : ℕ → ℕ := fun j => if ∃ s ∈ S', dimBack s j ≠ 1 then dimBack b j else 1 with hd
  have hle : ∀ s ∈ S', s.length ≤ L := fun s h => foldr_max_le (List.mem_map_of_mem h)
  have hb : ∀ j, dimBack ((List.range L).map d).reverse j = d j := by
    intro j
    unfold dimBack
    rw [List.reverse_reverse]
    by_cases hj : j < L
    · rw [List.getD_eq_getElem _ _ (by simpa using hj)]
      simp
    · rw [List.getD_eq_default _ _ (by simpa using hj)]
      refine (if_neg ?_).symm
      rintro ⟨s, h1, h2⟩
      exact h2 (dimBack_of_le ((hle s h1).trans (Nat.le_of_not_lt hj)))
  refine ⟨((List.range L).map d).reverse, fun s h1 => by simpa using hle s h1, ?_, fun s h1 j => ?_, fun j => ?_⟩
  · rcases foldr_max_mem (S'.map List.length) with h1 | h1
    · left
      rw [← hL] at h1
      rw [h1]
      rfl
    · right
      rw [← hL] at h1
      obtain ⟨s, h2, h3⟩ := List.mem_map.mp h1
      exact ⟨s, h2, by simpa using h3⟩
  · rw [hb]
    by_cases h2 : dimBack s j = 1
    · exact Or.inl h2
    · right
      have e : d j = dimBack b j := if_pos ⟨s, h1, h2⟩
      rw [e]
      exact (h.compat s (hs s h1) j).resolve_left h2
  · rw [hb]
    by_cases h1 : ∃ s ∈ S', dimBack s j ≠ 1
    · have e : d j = dimBack b j := if_pos h1
      rw [e]
      obtain ⟨s, h2, h3⟩ := h1
      exact Or.inr ⟨s, h2, (h.compat s (hs s h2) j).resolve_left h3⟩
    · exact Or.inl (if_neg h1)

theorem restrict_batch (hb : A.Batch [] b b) (h0 : ∀ i, 0 ∉ shape i) : ∃ b', (A.restrict ifwd acts x).Batch (A.extrasOf acts x) b' b := by
  have hlt : ∀ i, ∀ d ∈ A.inAxes.second (shape i).length, d < (shape i).length := by
    intro i d hd
    cases hax : A.inAxes with
    | unset kw =>
      rw [hax] at hd
      exact List.mem_range.mp hd
    | axes l =>
      rw [hax] at hd
      obtain ⟨j, hj, rfl⟩ := List.mem_map.mp hd
      exact axisOf_lt (hb.range l hax i j hj)
  obtain ⟨b', hb'⟩ := broadcasts_sub (S' := List.ofFn fun a : Fin acts.length => otherShape (shape (acts.get a)) (A.inAxes.second (shape (acts.get a)).length)) hb.argShape
    fun s hs => by
      obtain ⟨a, rfl⟩ := (List.mem_ofFn' _ _).mp hs
      exact (List.mem_ofFn' _ _).mpr ⟨acts.get a, rfl⟩
  refine ⟨b', fun l hl a => hb.range l hl (acts.get a), fun a => hb.nodup (acts.get a), fun e he => ?_, fun e he => ?_, hb', hb.argShape.congr fun s => ?_⟩
  · obtain ⟨i, -, rfl⟩ := List.mem_map.mp he
    exact ⟨hb.nodup i, hlt i⟩
  · obtain ⟨i, -, rfl⟩ := List.mem_map.mp he
    exact h0 i
  · show _ ↔ s ∈ (List.ofFn fun a : Fin acts.length => otherShape (shape (acts.get a)) (A.inAxes.second (shape (acts.get a)).length)) ++ (A.extrasOf acts x).map _
    rw [List.mem_append]
    constructor
    · intro h
      obtain ⟨i, rfl⟩ := (List.mem_ofFn' _ _).mp h
      by_cases hi : i ∈ acts
      · obtain ⟨a, rfl⟩ := acts_range.mpr hi
        exact Or.inl ((List.mem_ofFn' _ _).mpr ⟨a, rfl⟩)
      · refine Or.inr ?_
        unfold ArrFn.extrasOf
        rw [List.map_map]
        exact List.mem_map.mpr ⟨i, mem_otherOps.mpr hi, rfl⟩
    · rintro (h | h)
      · obtain ⟨a, rfl⟩ := (List.mem_ofFn' _ _).mp h
        exact (List.mem_ofFn' _ _).mpr ⟨acts.get a, rfl⟩
      · unfold ArrFn.extrasOf at h
        rw [List.map_map] at h
        obtain ⟨i, -, rfl⟩ := List.mem_map.mp h
        exact (List.mem_ofFn' _ _).mpr ⟨i, rfl⟩

end

end Folx.Layout

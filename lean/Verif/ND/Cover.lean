import Verif.ND.HessExact
import Verif.ND.HessRaise

/-!
# The second-order rule when other arguments enlarge the batch or dense and sparse arguments are mixed
-/

namespace Folx.Vmap

theorem weave_surj {l : List (Bool × ℕ)} {b p : List ℕ} (ha : Aligned (falses l) b) (h0 : 0 ∉ b) (hp : InB p (l.map Prod.snd)) :
    ∃ v c, InB v b ∧ InB c (trues l) ∧ weave l v c = p := by
  induction l generalizing b p with
  | nil =>
    obtain rfl : b = [] := by
      have := ha.length_eq
      exact List.eq_nil_of_length_eq_zero this.symm
    obtain rfl := InB.nil_right.mp hp
    exact ⟨[], [], List.Forall₂.nil, List.Forall₂.nil, rfl⟩
  | cons q l ih =>
    obtain ⟨t, d⟩ := q
    obtain ⟨i, is, rfl, hi, his⟩ := InB.cons_right hp
    cases t with
    | true =>
      obtain ⟨v, c, hv, hc, rfl⟩ := ih ha h0 his
      exact ⟨v, i :: c, hv, List.Forall₂.cons hi hc, rfl⟩
    | false =>
      obtain ⟨e, bs, h1, h2, rfl⟩ := List.forall₂_cons_left_iff.mp ha
      obtain ⟨v, c, hv, hc, rfl⟩ := ih h2 (fun h => h0 (by simp [h])) his
      have he : e ≠ 0 := fun e0 => h0 (by simp [e0])
      have hi' : i < d := hi
      refine ⟨(if d = 1 then 0 else i) :: v, c, List.Forall₂.cons ?_ hv, hc, ?_⟩
      · split
        · omega
        · rcases h1 with h1 | h1 <;> omega
      · show (if d = 1 then 0 else if d = 1 then 0 else i) :: _ = _
        congr 1
        split
        · omega
        · rfl

theorem inB_zeros {b : List ℕ} (h0 : 0 ∉ b) : InB (List.replicate b.length 0) b := by
  induction b with
  | nil => exact List.Forall₂.nil
  | cons d b ih => exact List.Forall₂.cons (Nat.pos_of_ne_zero fun e => h0 (by simp [e])) (ih fun h => h0 (by simp [h]))

end Folx.Vmap

namespace Folx.Layout
open Vmap Dot

/-- Every element of an array belongs to the slice of some position. -/
theorem bindex_surj {s sk b p : List ℕ} (hf : Fits s sk b) (h0 : 0 ∉ b) (hp : InB p s) : ∃ v c, InB v b ∧ InB c (skipShape s sk) ∧ bindex s sk b v c = p := by
  obtain ⟨hs, hl, ha⟩ := hf
  rw [removeAxes_eq] at hl ha
  obtain ⟨v, c, hv, hc, e⟩ := weave_surj (l := lab sk 0 s) ha (fun h => h0 (List.mem_of_mem_drop h)) (by rw [lab_snd]; exact hp)
  set r := b.length - (falses (lab sk 0 s)).length with hr
  refine ⟨List.replicate r 0 ++ v, c, ?_, by rw [skipShape_eq]; exact hc, ?_⟩
  · rw [← List.take_append_drop r b]
    refine inB_append ?_ hv
    have h1 : r = (b.take r).length := by rw [List.length_take]; omega
    conv_lhs => rw [h1]
    exact inB_zeros fun h => h0 (List.mem_of_mem_take h)
  · rw [bindex_eq, ← falses_length hs, List.drop_left' (by simp [hr])]
    exact e

variable {F : Type} [CommRing F] [Inhabited F] {k : ℕ}

/-- Every index of a sparse argument is among the inputs on which some slice depends. -/
theorem mask_deps {a : ArrTrip F × List ℕ} {b : List ℕ} (hok : TripOk a) (hf : Fits a.1.x.shape a.2 b) (h0 : 0 ∉ b) {m : ND ℤ} (hm : a.1.jac.idx = some m)
    {z : ℤ} (hz : z ∈ m.data) (h : 0 ≤ z) : ∃ v, InB v b ∧ z ∈ depsAt b v a := by
  obtain ⟨w, hw, rfl⟩ := mem_get m hz
  rw [hok.idx m hm, hok.data] at hw
  obtain ⟨r, p, rfl, hr, hp⟩ := hw.cons_right
  obtain ⟨v, c, hv, hc, rfl⟩ := bindex_surj hf h0 hp
  refine ⟨v, hv, ?_⟩
  have hms : a.1.jac.mask = m := by unfold ArrJac.mask; rw [hm]
  unfold depsAt
  rw [Finset.mem_filter, List.mem_toFinset, mem_bslice, hms, hok.idx m hm, hok.data]
  refine ⟨⟨r :: c, ?_, ?_⟩, h⟩
  · rw [skipShape_jac]; exact List.Forall₂.cons hr hc
  · rw [bindex_jac]

theorem foldr_max_bound {l : List ℕ} {n : ℕ} (h : ∀ x ∈ l, x ≤ n) : l.foldr max 0 ≤ n := by
  induction l with
  | nil => simp
  | cons x l ih => exact max_le (h x (by simp)) (ih fun y hy => h y (by simp [hy]))

section
variable {n : ℕ} {args : Fin k → ArrTrip F × List ℕ} {extras : List (ND F × List ℕ)} {b B : List ℕ} (hC : HessCall n args extras b B)
include hC

/-- With a dense argument that has at least `T` or at least `n` rows, the call is treated as dense. -/
theorem denseCall_big (T : ℕ) {a : Fin k} (hm : (args a).1.jac.idx = none)
    (hn : ∀ a, (args a).1.jac.idx = none → T ≤ (args a).1.jac.data.shape.getD 0 0 ∨ n ≤ (args a).1.jac.data.shape.getD 0 0) :
    denseCall false T (List.ofFn args) b := by
  by_contra hd
  unfold denseCall at hd
  push Not at hd
  obtain ⟨hd1, hd2⟩ := hd
  have hle : ∀ a, (args a).1.jac.idx = none → (args a).1.jac.data.shape.getD 0 0 ≤ mergedWidth false (List.ofFn args) b := by
    intro a hm
    obtain ⟨v, hv⟩ : ∃ v, InB v b := ⟨_, inB_zeros hC.posb⟩
    have h2 : (args a).1.jac.data.shape.getD 0 0 ≤ (mergedAt false (List.ofFn args) b v).card := by
      have hsub : (Finset.range ((args a).1.jac.data.shape.getD 0 0)).map ⟨((↑) : ℕ → ℤ), Nat.cast_injective⟩ ⊆ mergedAt false (List.ofFn args) b v := by
        intro z hz
        obtain ⟨r, hr, rfl⟩ := Finset.mem_map.mp hz
        rw [mem_merged_false]
        exact ⟨_, List.mem_ofFn.mpr ⟨a, rfl⟩, deps_full (hC.ok a) (hC.fitsb a) hv (hC.sizeX a) hm (Finset.mem_range.mp hr)⟩
      have := Finset.card_le_card hsub
      rwa [Finset.card_map, Finset.card_range] at this
    exact h2.trans (foldr_max_le (List.mem_map.mpr ⟨v, mem_allIdx.mpr hv, rfl⟩))
  have hmax : ∀ w, (∀ a, (args a).1.jac.nUnique ≤ w) → maxSizeArr (List.ofFn args) ≤ w := by
    intro w h
    refine foldr_max_bound fun x hx => ?_
    obtain ⟨c, hc, rfl⟩ := List.mem_map.mp hx
    obtain ⟨i, rfl⟩ := List.mem_ofFn.mp hc
    exact h i
  rcases hn a hm with h | h
  · -- exactly `T` inputs matter everywhere, namely the first `T`
    have hT : mergedWidth false (List.ofFn args) b = T := le_antisymm hd2 (h.trans (hle a hm))
    have hrows : (args a).1.jac.data.shape.getD 0 0 = T := le_antisymm (by rw [← hT]; exact hle a hm) h
    have hall : ∀ v, InB v b → mergedAt false (List.ofFn args) b v = (Finset.range T).map ⟨((↑) : ℕ → ℤ), Nat.cast_injective⟩ := by
      intro v hv
      have hsub : (Finset.range T).map ⟨((↑) : ℕ → ℤ), Nat.cast_injective⟩ ⊆ mergedAt false (List.ofFn args) b v := by
        intro z hz
        obtain ⟨r, hr, rfl⟩ := Finset.mem_map.mp hz
        rw [mem_merged_false]
        exact ⟨_, List.mem_ofFn.mpr ⟨a, rfl⟩, deps_full (hC.ok a) (hC.fitsb a) hv (hC.sizeX a) hm (by rw [hrows]; exact Finset.mem_range.mp hr)⟩
      refine (Finset.eq_of_subset_of_card_le hsub ?_).symm
      rw [Finset.card_map, Finset.card_range, ← hT]
      exact foldr_max_le (List.mem_map.mpr ⟨v, mem_allIdx.mpr hv, rfl⟩)
    refine absurd (hmax T fun c => ?_) (by omega)
    cases hc : (args c).1.jac.idx with
    | none =>
      have := hle c hc
      unfold ArrJac.nUnique
      rw [hc]
      dsimp only
      omega
    | some m =>
      have hsub : m.data.toFinset.filter (0 ≤ ·) ⊆ (Finset.range T).map ⟨((↑) : ℕ → ℤ), Nat.cast_injective⟩ := by
        intro z hz
        rw [Finset.mem_filter, List.mem_toFinset] at hz
        obtain ⟨v, hv, hz'⟩ := mask_deps (hC.ok c) (hC.fitsb c) hC.posb hc hz.1 hz.2
        rw [← hall v hv, mem_merged_false]
        exact ⟨_, List.mem_ofFn.mpr ⟨c, rfl⟩, hz'⟩
      have := Finset.card_le_card hsub
      rw [Finset.card_map, Finset.card_range] at this
      unfold ArrJac.nUnique
      rw [hc]
      exact this
  · have h1 := hmax n fun c => nUnique_le (hC.jac c)
    have h2 := hle a hm
    omega

/-- The general rule returns the right term, or raises. -/
theorem second_general_sound {o : List ℕ} {hess : SliceHess F fun a => sliceSize (args a)} {g : SliceFn F}
    (hg : TraceRule (fun a => skipShape (args a).1.x.shape (args a).2) o hess g) (T : ℕ)
    (hn : ∀ a, (args a).1.jac.idx = none → T ≤ (args a).1.jac.data.shape.getD 0 0 ∨ n ≤ (args a).1.jac.data.shape.getD 0 0) {R : ND F}
    (hR : hessArr g false false false T (List.ofFn args) extras (B ++ o) = some R) :
    IsSecondOrder n args (fun v d q => hess (extras.map fun e => bslice e.1 e.2 B v) (pointAt args B v) d d q) B o R := by
  have key : ((∀ a, (args a).1.jac.idx = none) ∨ (false = false ∧ denseCall false T (List.ofFn args) b) ∨
      ((∀ a, (args a).1.jac.idx ≠ none) ∧ ∃ j, B = List.replicate j 1 ++ b)) → IsSecondOrder n args (fun v d q => hess (extras.map fun e => bslice e.1 e.2 B v) (pointAt args B v) d d q) B o R := by
    intro h
    obtain ⟨R', h1, h2⟩ := second_general hC hg false T h
    rw [hR] at h1
    cases h1
    exact h2
  by_cases hd : ∀ a, (args a).1.jac.idx = none
  · exact key (Or.inl hd)
  by_cases hde : ∃ a, (args a).1.jac.idx = none
  · obtain ⟨a, ha⟩ := hde
    exact key (Or.inr (Or.inl ⟨rfl, denseCall_big hC T ha hn⟩))
  · have hs : ∀ a, (args a).1.jac.idx ≠ none := fun a h => hde ⟨a, h⟩
    have hsp' : ∃ a ∈ List.ofFn args, a.1.jac.idx ≠ none := ⟨_, List.mem_ofFn.mpr ⟨⟨0, hC.pos⟩, rfl⟩, hs _⟩
    by_cases hdc : denseCall false T (List.ofFn args) b
    · exact key (Or.inr (Or.inl ⟨rfl, hdc⟩))
    have hdc' := hdc
    unfold denseCall at hdc'
    push Not at hdc'
    rcases joint_shape hC.argShape hC.allShape with hj | hj
    · exact key (Or.inr (Or.inr ⟨hs, hj⟩))
    · by_cases hw : mergedWidth false (List.ofFn args) b = 0
      · rw [hessArr_empty false false false T hC.okL _ hC.ne hC.argShape hsp' hw (Or.inr (by omega))] at hR
        cases hR
        refine second_zero fun v i q hv => ?_
        have : derivAt args B v i = 0 := by
          funext a c
          by_contra hne
          have hne : (args a).1.jac.entry i (bindex (args a).1.x.shape (args a).2 B v (unravelIdx _ c)) ≠ 0 := hne
          have hin := bindex_inB (hC.fitsB a).valid (hC.fitsB a).len (hC.fitsB a).al hv (inB_unravelIdx c.2)
          obtain ⟨v', c', hv', hc', e⟩ := bindex_surj (hC.fitsb a) hC.posb hin
          unfold sliceSize at hne
          erw [← e] at hne
          have h1 := entry_deps (hC.ok a) (hC.fitsb a) hv' hc' hne
          have h2 : (i : ℤ) ∈ mergedAt false (List.ofFn args) b v' := by
            rw [mem_merged_false]
            exact ⟨_, List.mem_ofFn.mpr ⟨a, rfl⟩, h1⟩
          rw [merged_empty hv' hw] at h2
          simp at h2
        rw [this]; simp
      · rw [hessArr_raises false false false T hC.okL hC.ext hC.argShape hC.allShape hC.posb hC.ne (Or.inl rfl) hsp' (by omega) (Or.inr ⟨hdc'.1, hdc'.2⟩) hj] at hR
        cases hR

end

end Folx.Layout

import Verif.Prog.LinearOps
import Verif.Props.RunProps
import Verif.Props.LibProps

/-!
# C49, C50: the array operations of the registry at every rank and shape

C49: operations that move elements.  C50: `cumsum`, `scatter_add`, `scatter_max`, `scatter_min` and reductions along axes.
Each theorem says two things: the forward-Laplacian rule is exact (`Prim.ExactCall`), and the function it differentiates is the
documented one, written with array indices.
-/

namespace Folx

open Filter Topology Vmap Dot

variable {F : Type} [RCLike F]

attribute [local instance] instInhabitedScalar

/-- The call of `p` with operands `o` is exact: whatever functions `u` of the inputs the operands describe, if the rule returns
then the results describe `p ∘ u` (value, Jacobian and Laplacian; `Holds`). -/
def Prim.ExactCall (p : Prim F) (T n : ℕ) (o : (i : Fin p.nIn) → Opd F (p.size i)) : Prop :=
  ∀ (w x : Fin n → ℝ) (u : (i : Fin p.nIn) → (Fin n → ℝ) → Fin (p.size i) → F)
    (r : (j : Fin p.nOut) → Opd F (p.outSize j)),
    (∀ i, Holds (fun _ _ => True) w x (o i) (u i)) → (∃ i, (o i).isLapl = true) → p.rule T o = .ok r →
    ∀ j, Holds (fun _ _ => True) w x (r j) fun z => p.fwd (fun i => u i z) j

theorem GoodCall.exactCall {T n : ℕ} (hn : 0 < n) {p : Prim F} {o : (i : Fin p.nIn) → Opd F (p.size i)}
    (h : GoodCall T n p o) : p.ExactCall T n o := by
  intro w x u r ho hl hr j
  rw [holds_iff]
  exact h.sound hn p o (Fin n → ℝ) (inputBase w x) u r rfl (fun i => (holds_iff _ w x _ _).mp (ho i)) hl hr j

theorem data_eq_of_rowMajor {s t : List ℕ} (h : s.prod = t.prod) (f : Fin t.prod → F) (g : Fin s.prod → F)
    (hm : ∀ w, InB w t → (toND t f).get w = (toND s g).get (unravelIdx s (ravelIdx t w))) :
    (toND t f).data = (toND s g).data := by
  refine List.ext_getElem (by simp [toND, h]) fun i h1 h2 => ?_
  have hi : i < t.prod := by simpa [toND] using h1
  have := hm _ (inB_unravelIdx hi)
  unfold ND.get at this
  dsimp only [toND_shape] at this
  rw [ravelIdx_unravelIdx hi, ravelIdx_unravelIdx (by rw [h]; exact hi), List.getD_eq_getElem _ _ (by simpa [toND] using hi),
    List.getD_eq_getElem _ _ (by simpa [toND, h] using hi)] at this
  exact this

/-! ### C49 -/

section C49
variable (static oneAxis : Bool) (T n : ℕ) (hn : 0 < n)
include hn

/-- **C49, reshape.** The rule is exact and the elements keep their row-major order. -/
theorem C49_reshape {s t : List ℕ} (hs : 0 < s.prod) (h : s.prod = t.prod) (o : (i : Fin 1) → Opd F s.prod) :
    ((reshapeOp s t hs).prim F static oneAxis).ExactCall T n o ∧
    ∀ x : (i : Fin 1) → Fin s.prod → F, (toND t (((reshapeOp s t hs).prim F static oneAxis).fwd x (0 : Fin 1))).data =
      (toND s (x 0)).data := by
  refine ⟨((reshapeOp s t hs).goodCall static oneAxis T n (Or.inr fun i j k _ _ _ => Or.inl (Subsingleton.elim (α := Fin 1) _ _)) o
    (fun _ hd => by simp [reshapeOp] at hd) (reshape_valid hs h _)).exactCall hn, fun x => ?_⟩
  exact data_eq_of_rowMajor h _ _ fun w hw => (reshapeOp s t hs).meaning static oneAxis (reshape_valid hs h x) hw rfl

/-- **C49, broadcast_in_dim.** -/
theorem C49_broadcast_in_dim {s t dims : List ℕ} (hs : 0 < s.prod) (h : BroadcastOk s t dims)
    (o : (i : Fin 1) → Opd F s.prod) :
    ((broadcastInDimOp s t dims hs).prim F static oneAxis).ExactCall T n o ∧
    ∀ (x : (i : Fin 1) → Fin s.prod → F) (w : List ℕ), InB w t →
      (toND t (((broadcastInDimOp s t dims hs).prim F static oneAxis).fwd x (0 : Fin 1))).get w =
        (toND s (x 0)).get ((List.range s.length).map fun d => if s.getD d 0 = 1 then 0 else w.getD (dims.getD d 0) 0) :=
  ⟨((broadcastInDimOp s t dims hs).goodCall static oneAxis T n
    (Or.inr fun i j k _ _ _ => Or.inl (Subsingleton.elim (α := Fin 1) _ _)) o
    (fun _ hd => by simp [broadcastInDimOp] at hd) (broadcast_valid hs h _)).exactCall hn,
   fun x _ hw => (broadcastInDimOp s t dims hs).meaning static oneAxis (broadcast_valid hs h x) hw rfl⟩

/-- **C49, slice.** `x[start:limit:stride]` in every dimension. -/
theorem C49_slice {s start limit stride : List ℕ} (hs : 0 < s.prod) (h : SliceOk s start limit stride)
    (o : (i : Fin 1) → Opd F s.prod) :
    ((sliceOp s start limit stride hs).prim F static oneAxis).ExactCall T n o ∧
    ∀ (x : (i : Fin 1) → Fin s.prod → F) (w : List ℕ), InB w (sliceOp s start limit stride hs).out →
      (toND (sliceOp s start limit stride hs).out
        (((sliceOp s start limit stride hs).prim F static oneAxis).fwd x (0 : Fin 1))).get w =
        (toND s (x 0)).get ((List.range s.length).map fun d => start.getD d 0 + stride.getD d 1 * w.getD d 0) :=
  ⟨((sliceOp s start limit stride hs).goodCall static oneAxis T n
    (Or.inr fun i j k _ _ _ => Or.inl (Subsingleton.elim (α := Fin 1) _ _)) o
    (fun _ hd => by simp [sliceOp] at hd) (slice_valid hs h _)).exactCall hn,
   fun x _ hw => (sliceOp s start limit stride hs).meaning static oneAxis (slice_valid hs h x) hw rfl⟩

/-- **C49, transpose.** -/
theorem C49_transpose {s perm : List ℕ} (hs : 0 < s.prod) (h : perm.Perm (List.range s.length))
    (o : (i : Fin 1) → Opd F s.prod) :
    ((transposeOp s perm hs).prim F static oneAxis).ExactCall T n o ∧
    ∀ (x : (i : Fin 1) → Fin s.prod → F) (w : List ℕ), InB w (transposeOp s perm hs).out →
      (toND (transposeOp s perm hs).out (((transposeOp s perm hs).prim F static oneAxis).fwd x (0 : Fin 1))).get w =
        ((toND s (x 0)).transpose perm).get w := by
  refine ⟨((transposeOp s perm hs).goodCall static oneAxis T n
    (Or.inr fun i j k _ _ _ => Or.inl (Subsingleton.elim (α := Fin 1) _ _)) o
    (fun _ hd => by simp [transposeOp] at hd) (transpose_valid hs h _)).exactCall hn,
   fun x w hw => ((transposeOp s perm hs).meaning static oneAxis (transpose_valid hs h x) hw rfl).trans ?_⟩
  exact (ND.get_ofFn (α := F) (shape := perm.map fun a => s.getD a 0) (fun idx => (toND s (x 0)).get
    ((List.range s.length).map fun j => idx.getD (perm.idxOf j) 0)) hw).symm

/-- **C49, squeeze.** The removed dimensions have size 1, all other coordinates keep their order. -/
theorem C49_squeeze {s dims : List ℕ} (hs : 0 < s.prod) (o : (i : Fin 1) → Opd F s.prod) :
    ((squeezeOp s dims hs).prim F static oneAxis).ExactCall T n o ∧
    ∀ (x : (i : Fin 1) → Fin s.prod → F) (w : List ℕ), InB w (squeezeOp s dims hs).out →
      (toND (squeezeOp s dims hs).out (((squeezeOp s dims hs).prim F static oneAxis).fwd x (0 : Fin 1))).get w =
        (toND s (x 0)).get ((List.range s.length).map fun d =>
          if d ∈ dims then 0 else w.getD ((keptOf s.length dims).idxOf d) 0) :=
  ⟨((squeezeOp s dims hs).goodCall static oneAxis T n
    (Or.inr fun i j k _ _ _ => Or.inl (Subsingleton.elim (α := Fin 1) _ _)) o
    (fun _ hd => by simp [squeezeOp] at hd) (squeeze_valid hs _)).exactCall hn,
   fun x _ hw => (squeezeOp s dims hs).meaning static oneAxis (squeeze_valid hs x) hw rfl⟩

/-- **C49, rev.** -/
theorem C49_rev {s dims : List ℕ} (hs : 0 < s.prod) (o : (i : Fin 1) → Opd F s.prod) :
    ((revOp s dims hs).prim F static oneAxis).ExactCall T n o ∧
    ∀ (x : (i : Fin 1) → Fin s.prod → F) (w : List ℕ), InB w s →
      (toND s (((revOp s dims hs).prim F static oneAxis).fwd x (0 : Fin 1))).get w =
        (toND s (x 0)).get ((List.range s.length).map fun d =>
          if d ∈ dims then s.getD d 0 - 1 - w.getD d 0 else w.getD d 0) :=
  ⟨((revOp s dims hs).goodCall static oneAxis T n
    (Or.inr fun i j k _ _ _ => Or.inl (Subsingleton.elim (α := Fin 1) _ _)) o
    (fun _ hd => by simp [revOp] at hd) (rev_valid hs _)).exactCall hn,
   fun x _ hw => (revOp s dims hs).meaning static oneAxis (rev_valid hs x) hw rfl⟩

/-- **C49, concatenate.** Any number of operands, sparse or dense Jacobians mixed in any way, some operands plain: element `v`
of operand `i` lands behind the earlier operands along the axis. -/
theorem C49_concatenate {k : ℕ} {shapes : Fin k → List ℕ} {axis : ℕ} {out : List ℕ} (hs : ∀ i, 0 < (shapes i).prod)
    (h : CatOk shapes axis out) (o : (i : Fin k) → Opd F (shapes i).prod) :
    ((concatenateOp shapes axis out hs).prim F static oneAxis).ExactCall T n o ∧
    ∀ (x : (i : Fin k) → Fin (shapes i).prod → F) (i : Fin k) (v : List ℕ), InB v (shapes i) →
      (toND out (((concatenateOp shapes axis out hs).prim F static oneAxis).fwd x (0 : Fin 1))).get
        (v.set axis (catOffset shapes axis i + v.getD axis 0)) = (toND (shapes i) (x i)).get v := by
  refine ⟨((concatenateOp shapes axis out hs).goodCall static oneAxis T n (Or.inl fun i _ hc => ?_) o
    (fun _ hd => by simp [concatenateOp] at hd) (concatenate_valid hs h _)).exactCall hn, fun x i v hv => ?_⟩
  · have h1 := (h.rest i).1
    have hc : shapes i = [] := hc
    rw [hc] at h1
    have h2 := h.lt
    rw [← h1] at h2
    simp at h2
  · have hlen := (h.rest i).1
    have hvl := hv.length_eq
    have hax : axis < v.length := by rw [hvl, hlen]; exact h.lt
    have hget : (v.set axis (catOffset shapes axis i + v.getD axis 0)).getD axis 0 =
        catOffset shapes axis i + v.getD axis 0 := by
      rw [List.getD_eq_getElem _ _ (by simpa using hax)]
      simp
    have hva : v.getD axis 0 < (shapes i).getD axis 0 := InB.getD_lt hv (by rw [hlen]; exact h.lt)
    have hw : InB (v.set axis (catOffset shapes axis i + v.getD axis 0)) out := by
      unfold InB
      rw [List.forall₂_iff_get]
      refine ⟨by rw [List.length_set, hvl, hlen], fun d h3 h4 => ?_⟩
      simp only [List.get_eq_getElem, List.getElem_set]
      split
      · rename_i ha
        subst ha
        have htot := h.total
        rw [List.getD_eq_getElem _ _ h4] at htot
        rw [htot]
        calc catOffset shapes axis i + v.getD axis 0 < catOffset shapes axis i + (shapes i).getD axis 0 := by omega
          _ = ∑ j ∈ insert i (Finset.univ.filter fun j => j < i), (shapes j).getD axis 0 := by
            rw [Finset.sum_insert (by simp)]
            unfold catOffset
            rw [Nat.add_comm]
          _ ≤ ∑ j, (shapes j).getD axis 0 := Finset.sum_le_sum_of_subset (Finset.subset_univ _)
      · rename_i ha
        have h5 := (h.rest i).2 d h4 (fun hh => ha hh.symm)
        have h6 := InB.getD_lt hv (k := d) (by rw [hlen]; exact h4)
        rw [h5, List.getD_eq_getElem _ _ h4, List.getD_eq_getElem _ _ (by rw [hvl, hlen]; exact h4)] at h6
        exact h6
    refine (concatenateOp shapes axis out hs).meaning static oneAxis (concatenate_valid hs h x) hw (i := i) (v := v) ?_
    show Option.map _ (List.find? _ _) = _
    have huniq : ∀ j : Fin k, catOffset shapes axis j ≤ catOffset shapes axis i + v.getD axis 0 →
        catOffset shapes axis i + v.getD axis 0 < catOffset shapes axis j + (shapes j).getD axis 0 → j = i := by
      have mono : ∀ a b : Fin k, a < b → catOffset shapes axis a + (shapes a).getD axis 0 ≤ catOffset shapes axis b := by
        intro a b hab
        calc catOffset shapes axis a + (shapes a).getD axis 0
            = ∑ j ∈ insert a (Finset.univ.filter fun j => j < a), (shapes j).getD axis 0 := by
              rw [Finset.sum_insert (by simp)]
              unfold catOffset
              rw [Nat.add_comm]
          _ ≤ catOffset shapes axis b := by
              unfold catOffset
              refine Finset.sum_le_sum_of_subset fun j hj => ?_
              simp only [Finset.mem_insert, Finset.mem_filter, Finset.mem_univ, true_and] at hj ⊢
              rcases hj with rfl | hj
              · exact hab
              · exact hj.trans hab
      intro j h1 h2
      rcases lt_trichotomy j i with hji | hji | hji
      · have := mono j i hji; omega
      · exact hji
      · have := mono i j hji; omega
    have hfind : (List.finRange k).find? (fun j => decide (catOffset shapes axis j ≤
        (v.set axis (catOffset shapes axis i + v.getD axis 0)).getD axis 0 ∧
        (v.set axis (catOffset shapes axis i + v.getD axis 0)).getD axis 0 <
          catOffset shapes axis j + (shapes j).getD axis 0)) = some i := by
      rw [hget]
      have hsome : ((List.finRange k).find? (fun j => decide (catOffset shapes axis j ≤
        catOffset shapes axis i + v.getD axis 0 ∧
        catOffset shapes axis i + v.getD axis 0 <
          catOffset shapes axis j + (shapes j).getD axis 0))).isSome := by
        rw [List.find?_isSome]
        exact ⟨i, List.mem_finRange i, by simp only [decide_eq_true_eq]; omega⟩
      obtain ⟨j, hj⟩ := Option.isSome_iff_exists.mp hsome
      have hj' := List.find?_some hj
      simp only [decide_eq_true_eq] at hj'
      rw [hj, huniq j hj'.1 hj'.2]
    rw [hfind, Option.map_some]
    congr 2
    rw [hget, Nat.add_sub_cancel_left, List.set_set]
    refine List.ext_getElem (by simp) fun d h1 h2 => ?_
    rw [List.getElem_set]
    split
    · rename_i h; subst h; rw [List.getD_eq_getElem _ _ h2]
    · rfl

/-- **C49, dynamic_slice.** The start indices are plain integers; they are clamped so that the window fits. -/
theorem C49_dynamic_slice {s sizes : List ℕ} (hs : 0 < s.prod) (hl : sizes.length = s.length)
    (h : ∀ d < s.length, sizes.getD d 0 ≤ s.getD d 0)
    (o : (i : Fin (s.length + 1)) → Opd F ((dynamicSliceOp s sizes hs).shapes i).prod) (start : Fin s.length → ℤ)
    (ho : ∀ d, o (Fin.succ d) = .plain fun _ => (start d : F)) :
    ((dynamicSliceOp s sizes hs).prim F static oneAxis).ExactCall T n o ∧
    ∀ (x : Fin s.prod → F) (w : List ℕ), InB w sizes →
      (toND sizes (((dynamicSliceOp s sizes hs).prim F static oneAxis).fwd
        (Fin.cons (α := fun i => Fin ((dynamicSliceOp s sizes hs).shapes i).prod → F) x fun d _ => (start d : F))
        (0 : Fin 1))).get w =
        (toND s x).get (List.ofFn fun d : Fin s.length =>
          (max 0 (min (start d) (s.getD d 0 - sizes.getD d 0 : ℕ))).toNat + w.getD d 0) := by
  refine ⟨((dynamicSliceOp s sizes hs).goodCall static oneAxis T n (Or.inr ?_) o ?_ ?_).exactCall hn, fun x w hw => ?_⟩
  · intro i j k hi hj hk
    have key : ∀ i : Fin (s.length + 1), (dynamicSliceOp s sizes hs).data i = true → i = 0 := by
      intro i
      refine Fin.cases (fun _ => rfl) (fun d hd => ?_) i
      exact absurd (show false = true from hd) (by simp)
    left
    exact (key i hi).trans (key j hj).symm
  · intro i
    refine Fin.cases (fun hd => ?_) (fun d _ => ?_) i
    · exact absurd (show true = false from hd) (by simp)
    · exact (congrArg Opd.isLapl (ho d)).trans rfl
  · refine dynamicSlice_valid hs hl h _ fun d p => ⟨start d, ?_⟩
    exact congrFun (congrArg Opd.x (ho d)) p
  · set X := Fin.cons (α := fun i => Fin ((dynamicSliceOp s sizes hs).shapes i).prod → F) x fun d _ => (start d : F) with hX
    have hv : (dynamicSliceOp s sizes hs).Valid X := dynamicSlice_valid hs hl h X fun d p => ⟨start d, rfl⟩
    refine ((dynamicSliceOp s sizes hs).meaning static oneAxis hv hw (i := (0 : Fin (s.length + 1)))
      (v := List.ofFn fun d : Fin s.length =>
          (max 0 (min (start d) (s.getD d 0 - sizes.getD d 0 : ℕ))).toNat + w.getD d 0) ?_)
    show some _ = some _
    congr 2
    refine List.ext_getElem (by simp) fun d h1 h2 => ?_
    have hd : d < s.length := by simpa using h2
    rw [List.getElem_map, List.getElem_range, List.getElem_ofFn, dif_pos hd]
    congr 5
    show (toND [] fun p => if false then (0 : ℤ) else asInt (start ⟨d, hd⟩ : F)).get [] = _
    rw [toND_get _ _ List.Forall₂.nil, if_neg (by simp), asInt_intCast]

/-- **C49, select_n.** The selector holds case numbers; any number of cases with sparse, dense or no derivatives, except three
or more scalar cases (`FewScalars`: there C15 fails). -/
theorem C49_select_n {s : List ℕ} {k : ℕ} {scalar : Bool} (hs : 0 < s.prod) (hk : s ≠ [] ∨ k ≤ 2)
    (o : (i : Fin (k + 1)) → Opd F ((selectNOp s k scalar hs).shapes i).prod)
    (which : Fin ((selectNOp s k scalar hs).shapes (0 : Fin (k + 1))).prod → Fin k)
    (ho : o (0 : Fin (k + 1)) = .plain fun p => (((which p : ℕ) : ℤ) : F)) :
    ((selectNOp s k scalar hs).prim F static oneAxis).ExactCall T n o ∧
    ∀ (x : Fin k → Fin s.prod → F) (w : List ℕ) (hw : InB w s),
      (toND s (((selectNOp s k scalar hs).prim F static oneAxis).fwd
        (Fin.cons (α := fun i => Fin ((selectNOp s k scalar hs).shapes i).prod → F) (fun p => (((which p : ℕ) : ℤ) : F)) x)
        (0 : Fin 1))).get w =
        (toND s (x (which (if h : scalar = true then ⟨0, by subst h; exact Nat.one_pos⟩ else
          ⟨ravelIdx s w, by
            have : scalar = false := by simpa using h
            subst this; exact ravelIdx_lt hw⟩)))).get w := by
  refine ⟨((selectNOp s k scalar hs).goodCall static oneAxis T n ?_ o ?_ ?_).exactCall hn, fun x w hw => ?_⟩
  · rcases hk with hk | hk
    · left
      intro i
      refine Fin.cases (fun hd => absurd (show false = true from hd) (by simp)) (fun d _ => hk) i
    · right
      intro i j l hi hj hl
      have key : ∀ i : Fin (k + 1), (selectNOp s k scalar hs).data i = true → i ≠ 0 := by
        intro i
        refine Fin.cases (fun hd => absurd (show false = true from hd) (by simp)) (fun d _ => Fin.succ_ne_zero d) i
      have h1 : (i : Fin (k + 1)).val ≠ 0 := fun h => key i hi (Fin.ext h)
      have h2 : (j : Fin (k + 1)).val ≠ 0 := fun h => key j hj (Fin.ext h)
      have h3 : (l : Fin (k + 1)).val ≠ 0 := fun h => key l hl (Fin.ext h)
      have b1 : (i : Fin (k + 1)).val < k + 1 := i.2
      have b2 : (j : Fin (k + 1)).val < k + 1 := j.2
      have b3 : (l : Fin (k + 1)).val < k + 1 := l.2
      have : (i : Fin (k + 1)).val = j.val ∨ j.val = l.val ∨ i.val = l.val := by omega
      rcases this with h | h | h
      · exact Or.inl (Fin.ext h)
      · exact Or.inr (Or.inl (Fin.ext h))
      · exact Or.inr (Or.inr (Fin.ext h))
  · intro i
    refine Fin.cases (fun _ => ?_) (fun d hd => ?_) i
    · exact (congrArg Opd.isLapl ho).trans rfl
    · exact absurd (show true = false from hd) (by simp)
  · refine selectN_valid hs _ fun p => ⟨which p, ?_⟩
    exact congrFun (congrArg Opd.x ho) p
  · set X := Fin.cons (α := fun i => Fin ((selectNOp s k scalar hs).shapes i).prod → F)
      (fun p => (((which p : ℕ) : ℤ) : F)) x with hX
    have hv : (selectNOp s k scalar hs).Valid X := selectN_valid hs X fun p => ⟨which p, rfl⟩
    set p₀ : Fin ((selectNOp s k scalar hs).shapes (0 : Fin (k + 1))).prod :=
      if h : scalar = true then ⟨0, by subst h; exact Nat.one_pos⟩ else ⟨ravelIdx s w, by
            have : scalar = false := by simpa using h
            subst this; exact ravelIdx_lt hw⟩ with hp
    refine ((selectNOp s k scalar hs).meaning static oneAxis hv hw (i := (which p₀).succ) (v := w) ?_)
    have hget : ((selectNOp s k scalar hs).ints X (0 : Fin (k + 1))).get (if scalar then [] else w) = (which p₀ : ℕ) := by
      have hw' : InB (if scalar then [] else w) ((selectNOp s k scalar hs).shapes (0 : Fin (k + 1))) := by
        show InB _ (if scalar then [] else s)
        cases scalar
        · exact hw
        · exact List.Forall₂.nil
      unfold IndexOp.ints
      rw [toND_get _ _ hw']
      show (if false then (0 : ℤ) else asInt (((which _ : ℕ) : ℤ) : F)) = _
      rw [if_neg (by simp), asInt_intCast]
      congr 2
      have : (⟨ravelIdx ((selectNOp s k scalar hs).shapes (0 : Fin (k + 1))) (if scalar then [] else w), ravelIdx_lt hw'⟩ :
          Fin ((selectNOp s k scalar hs).shapes (0 : Fin (k + 1))).prod) = p₀ := by
        rw [hp]
        apply Fin.ext
        cases scalar
        · rfl
        · rfl
      exact congrArg which this
    show (if h : 0 ≤ _ ∧ _ then some _ else none) = _
    rw [dif_pos (by rw [hget]; exact ⟨Int.natCast_nonneg _, (which p₀).2⟩)]
    simp only [hget, Int.toNat_natCast]
    rfl

/-- **C49, gather.** The start indices are plain integers, clamped so that the slices fit (mode `clip`; the other modes agree when
all slices fit). -/
theorem C49_gather {s ids out sliceSizes : List ℕ} {g : GatherDims} (hs : 0 < s.prod) (hi : 0 < ids.prod)
    (h : GatherOk s ids out sliceSizes g)
    (o : (i : Fin 2) → Opd F ((gatherOp s ids out sliceSizes g hs hi).shapes i).prod) (start : Fin ids.prod → ℤ)
    (ho : o (1 : Fin 2) = .plain fun p => (start p : F)) :
    ((gatherOp s ids out sliceSizes g hs hi).prim F static oneAxis).ExactCall T n o ∧
    ∀ (x : Fin s.prod → F) (w : List ℕ), InB w out →
      (toND out (((gatherOp s ids out sliceSizes g hs hi).prim F static oneAxis).fwd
        (Fin.cons (α := fun i : Fin 2 => Fin ((gatherOp s ids out sliceSizes g hs hi).shapes i).prod → F) x
          (Fin.cons (fun p => (start p : F)) fun i => i.elim0)) (0 : Fin 1))).get w =
        (toND s x).get ((List.range s.length).map fun d =>
          (if d ∈ g.startMap then
            (max 0 (min ((toND ids start).get (g.batchOf w ++ [g.startMap.idxOf d]))
              (s.getD d 0 - sliceSizes.getD d 0 : ℕ))).toNat
           else 0) +
          (if d ∈ g.opBatch then (g.batchOf w).getD (g.idxBatch.getD (g.opBatch.idxOf d) 0) 0 else 0) +
          (if d ∈ g.window s.length then w.getD (g.offset.getD ((g.window s.length).idxOf d) 0) 0 else 0)) := by
  refine ⟨((gatherOp s ids out sliceSizes g hs hi).goodCall static oneAxis T n (Or.inr ?_) o ?_ ?_).exactCall hn,
    fun x w hw => ?_⟩
  · intro i j k hi' hj hk
    have key : ∀ i : Fin 2, (gatherOp s ids out sliceSizes g hs hi).data i = true → i = 0 := by
      intro i
      refine Fin.cases (fun _ => rfl) (fun d hd => ?_) i
      obtain rfl : d = 0 := Subsingleton.elim _ _
      exact absurd (show false = true from hd) (by simp)
    left
    exact (key i hi').trans (key j hj).symm
  · intro i
    refine Fin.cases (fun hd => ?_) (fun d _ => ?_) i
    · exact absurd (show true = false from hd) (by simp)
    · obtain rfl : d = 0 := Subsingleton.elim _ _
      exact (congrArg Opd.isLapl ho).trans rfl
  · refine gather_valid hs hi h _ fun p => ⟨start p, ?_⟩
    exact congrFun (congrArg Opd.x ho) p
  · set X := Fin.cons (α := fun i : Fin 2 => Fin ((gatherOp s ids out sliceSizes g hs hi).shapes i).prod → F) x
          (Fin.cons (fun p => (start p : F)) fun i => i.elim0) with hX
    have hv : (gatherOp s ids out sliceSizes g hs hi).Valid X := gather_valid hs hi h X fun p => ⟨start p, rfl⟩
    have hint : (gatherOp s ids out sliceSizes g hs hi).ints X (1 : Fin 2) = toND ids start := by
      show toND ids (fun p => if false then (0 : ℤ) else asInt (start p : F)) = _
      congr 1
      funext p
      rw [if_neg (by simp), asInt_intCast]
    refine ((gatherOp s ids out sliceSizes g hs hi).meaning static oneAxis hv hw (i := (0 : Fin 2)) ?_)
    rw [← hint]
    rfl

end C49

/-- **C49, the rules return** whenever all Jacobians are dense with one row per input, or all are sparse and the index operands are
known at trace time. -/
theorem C49_returns (op : IndexOp) (static oneAxis : Bool) (T n : ℕ) (o : (i : Fin op.nIn) → Opd F ((op.shapes i).prod))
    (hl : ∃ i, (o i).isLapl = true) (hv : op.Valid fun i => (o i).x)
    (hd : static = true ∧ (∀ i t, o i = .lapl t → t.jac.weak = true) ∨
      ∀ i t, o i = .lapl t → t.jac.weak = false ∧ t.jac.nrows = n) :
    ∃ r, (op.prim F static oneAxis).rule T o = .ok r := op.returns static oneAxis T n o hl hv hd

/-! ### C50 -/

section C50

/-- The elements reduced to output index `w`: the coordinates along `dims` run through `k`, the other coordinates are `w`. -/
noncomputable def along (s dims : List ℕ) (x : Fin s.prod → F) (w k : List ℕ) : F :=
  (toND s x).get (place s.length (keptDims s.length dims ++ dims) (w ++ k))

theorem reduce_along {s dims : List ℕ} (hp : (keptDims s.length dims ++ dims).Perm (List.range s.length))
    (x : Fin s.prod → F) (q : Fin (sizes s (keptDims s.length dims)).prod) (c : Fin (sizes s dims).prod) :
    x ((axesSplit s _ dims hp).symm (q, c)) =
      along s dims x (unravelIdx (sizes s (keptDims s.length dims)) q) (unravelIdx (sizes s dims) c) := by
  have hin : InB (unravelIdx (sizes s (keptDims s.length dims)) q ++ unravelIdx (sizes s dims) c)
      (sizes s (keptDims s.length dims ++ dims)) := by
    rw [sizes_append]; exact inB_append (inB_unravelIdx q.2) (inB_unravelIdx c.2)
  exact (toND_get s x (place_inB hp hin)).symm

variable (T n : ℕ) (hn : 0 < n) {s dims : List ℕ} (hs : 0 < s.prod)
  (hp : (keptDims s.length dims ++ dims).Perm (List.range s.length))

include hn

/-- **C50, reduce_sum** along any set of axes: exact, and it sums the elements along those axes. -/
theorem C50_reduce_sum (o : (i : Fin 1) → Opd F s.prod) :
    (reduceSumOp F s dims hs hp).toWPrim.toPrim.ExactCall T n o ∧
    ∀ (x : (i : Fin 1) → Fin s.prod → F) (w : List ℕ), InB w (sizes s (keptDims s.length dims)) →
      (toND (sizes s (keptDims s.length dims)) ((reduceSumOp F s dims hs hp).toWPrim.toPrim.fwd x (0 : Fin 1))).get w =
        ((allIdx (sizes s dims)).map (along s dims (x 0) w)).sum := by
  refine ⟨(goodCall_single (reduceSumOp F s dims hs hp) rfl T n o (sumStd_true n s dims hs hp _)).exactCall hn, fun x w hw => ?_⟩
  refine (reduce_meaning s dims hp (fun v => ∑ c, v c) x hw).trans ?_
  rw [sum_allIdx, sum_range_fin]
  rfl

/-- **C50, reduce_prod.** -/
theorem C50_reduce_prod (o : (i : Fin 1) → Opd F s.prod) :
    (reduceProdOp F s dims hs hp).toWPrim.toPrim.ExactCall T n o ∧
    ∀ (x : (i : Fin 1) → Fin s.prod → F) (w : List ℕ), InB w (sizes s (keptDims s.length dims)) →
      (toND (sizes s (keptDims s.length dims)) ((reduceProdOp F s dims hs hp).toWPrim.toPrim.fwd x (0 : Fin 1))).get w =
        ((allIdx (sizes s dims)).map (along s dims (x 0) w)).prod := by
  refine ⟨(goodCall_single (reduceProdOp F s dims hs hp) rfl T n o (axesRed_general n hs hp _ _ fun q => ?_)).exactCall hn,
    fun x w hw => ?_⟩
  · have : ContDiff F 2 fun v : Fin (sizes s dims).prod → F => ∏ c, v c := contDiff_prod fun c _ => contDiff_apply F F c
    exact this.contDiffAt
  · refine (reduce_meaning s dims hp (fun v => ∏ c, v c) x hw).trans ?_
    unfold allIdx
    rw [List.map_map, ← List.prod_ofFn, List.ofFn_eq_map, ← List.map_coe_finRange_eq_range, List.map_map]
    rfl

/-- **C50, reduce_max**, exact where the maximum is attained once. -/
theorem C50_reduce_max (o : (i : Fin 1) → Opd ℝ s.prod)
    (ht : ∀ w, InB w (sizes s (keptDims s.length dims)) → ∃ k, InB k (sizes s dims) ∧ ∀ k', InB k' (sizes s dims) → k' ≠ k →
      along s dims (o 0).x w k' < along s dims (o 0).x w k) :
    (reduceMaxOp s dims hs hp).toWPrim.toPrim.ExactCall T n o ∧
    ∀ (x : (i : Fin 1) → Fin s.prod → ℝ) (w : List ℕ), InB w (sizes s (keptDims s.length dims)) →
      IsGreatest {v | ∃ k, InB k (sizes s dims) ∧ v = along s dims (x 0) w k}
        ((toND (sizes s (keptDims s.length dims)) ((reduceMaxOp s dims hs hp).toWPrim.toPrim.fwd x (0 : Fin 1))).get w) := by
  have : Nonempty (Fin (sizes s dims).prod) := ⟨⟨0, reduced_pos hs hp⟩⟩
  refine ⟨(goodCall_single (reduceMaxOp s dims hs hp) rfl T n o (axesRed_linear n hs hp _ _ fun q => ?_)).exactCall hn,
    fun x w hw => ?_⟩
  · obtain ⟨k, hk, hmax⟩ := ht _ (inB_unravelIdx (s := sizes s (keptDims s.length dims)) q.2)
    refine maxFn_affine _ ⟨ravelIdx _ k, ravelIdx_lt hk⟩ fun c' hc' => ?_
    have e1 := reduce_along hp (o 0).x q c'
    have e2 := reduce_along hp (o 0).x q ⟨ravelIdx _ k, ravelIdx_lt hk⟩
    refine (e1.trans_lt ?_).trans_eq e2.symm
    rw [unravelIdx_ravelIdx hk]
    refine hmax _ (inB_unravelIdx c'.2) fun hh => hc' (Fin.ext ?_)
    show (c' : ℕ) = ravelIdx _ k
    rw [← hh, ravelIdx_unravelIdx c'.2]
  · have hm := reduce_meaning s dims hp maxFn x hw
    refine (show _ = _ from hm) ▸ ⟨?_, ?_⟩
    · obtain ⟨c, -, hc⟩ := Finset.exists_mem_eq_sup' (Finset.univ_nonempty (α := Fin (sizes s dims).prod))
        fun c => along s dims (x 0) w (unravelIdx (sizes s dims) c)
      exact ⟨_, inB_unravelIdx c.2, hc⟩
    · rintro v ⟨k, hk, rfl⟩
      have := Finset.le_sup' (f := fun c : Fin (sizes s dims).prod => along s dims (x 0) w (unravelIdx (sizes s dims) c))
        (Finset.mem_univ (⟨ravelIdx _ k, ravelIdx_lt hk⟩ : Fin (sizes s dims).prod))
      simp only [unravelIdx_ravelIdx hk] at this
      exact this

/-- **C50, reduce_min**, exact where the minimum is attained once. -/
theorem C50_reduce_min (o : (i : Fin 1) → Opd ℝ s.prod)
    (ht : ∀ w, InB w (sizes s (keptDims s.length dims)) → ∃ k, InB k (sizes s dims) ∧ ∀ k', InB k' (sizes s dims) → k' ≠ k →
      along s dims (o 0).x w k < along s dims (o 0).x w k') :
    (reduceMinOp s dims hs hp).toWPrim.toPrim.ExactCall T n o ∧
    ∀ (x : (i : Fin 1) → Fin s.prod → ℝ) (w : List ℕ), InB w (sizes s (keptDims s.length dims)) →
      IsLeast {v | ∃ k, InB k (sizes s dims) ∧ v = along s dims (x 0) w k}
        ((toND (sizes s (keptDims s.length dims)) ((reduceMinOp s dims hs hp).toWPrim.toPrim.fwd x (0 : Fin 1))).get w) := by
  have : Nonempty (Fin (sizes s dims).prod) := ⟨⟨0, reduced_pos hs hp⟩⟩
  refine ⟨(goodCall_single (reduceMinOp s dims hs hp) rfl T n o (axesRed_linear n hs hp _ _ fun q => ?_)).exactCall hn,
    fun x w hw => ?_⟩
  · obtain ⟨k, hk, hmax⟩ := ht _ (inB_unravelIdx (s := sizes s (keptDims s.length dims)) q.2)
    refine minFn_affine _ ⟨ravelIdx _ k, ravelIdx_lt hk⟩ fun c' hc' => ?_
    have e1 := reduce_along hp (o 0).x q c'
    have e2 := reduce_along hp (o 0).x q ⟨ravelIdx _ k, ravelIdx_lt hk⟩
    refine (e2.trans_lt ?_).trans_eq e1.symm
    rw [unravelIdx_ravelIdx hk]
    refine hmax _ (inB_unravelIdx c'.2) fun hh => hc' (Fin.ext ?_)
    show (c' : ℕ) = ravelIdx _ k
    rw [← hh, ravelIdx_unravelIdx c'.2]
  · have hm := reduce_meaning s dims hp minFn x hw
    refine (show _ = _ from hm) ▸ ⟨?_, ?_⟩
    · obtain ⟨c, -, hc⟩ := Finset.exists_mem_eq_inf' (Finset.univ_nonempty (α := Fin (sizes s dims).prod))
        fun c => along s dims (x 0) w (unravelIdx (sizes s dims) c)
      exact ⟨_, inB_unravelIdx c.2, hc⟩
    · rintro v ⟨k, hk, rfl⟩
      have := Finset.inf'_le (f := fun c : Fin (sizes s dims).prod => along s dims (x 0) w (unravelIdx (sizes s dims) c))
        (Finset.mem_univ (⟨ravelIdx _ k, ravelIdx_lt hk⟩ : Fin (sizes s dims).prod))
      simp only [unravelIdx_ravelIdx hk] at this
      exact this

/-- **C50, cumsum** along an axis, forwards or backwards. -/
theorem C50_cumsum (axis : ℕ) (reverse oneAxis : Bool) (o : (i : Fin 1) → Opd F s.prod) :
    ((cumsumOp s axis reverse hs).prim List.sum oneAxis).ExactCall T n o ∧
    ∀ (x : (i : Fin 1) → Fin s.prod → F) (w : List ℕ), InB w s →
      (toND s (((cumsumOp s axis reverse hs).prim List.sum oneAxis).fwd x (0 : Fin 1))).get w =
        (((List.range (s.getD axis 0)).filter fun j => decide (if reverse then w.getD axis 0 ≤ j else j ≤ w.getD axis 0)).map
          fun j => (toND s (x 0)).get (w.set axis j)).sum := by
  refine ⟨((cumsumOp s axis reverse hs).goodCall List.sum oneAxis T n
    (Or.inr fun i j _ _ => Subsingleton.elim (α := Fin 1) _ _) o (fun _ hd => by simp [cumsumOp] at hd)
    ((cumsumOp s axis reverse hs).sum_affine (cumsum_valid hs _))).exactCall hn, fun x w hw => ?_⟩
  refine ((cumsumOp s axis reverse hs).meaning List.sum oneAxis (cumsum_valid hs x) hw).trans ?_
  exact congrArg List.sum List.map_map

end C50

section Scatter

variable (oneAxis : Bool) (T n : ℕ) (hn : 0 < n) {s ids upd : List ℕ} {g : ScatterDims} (hs : 0 < s.prod) (hi : 0 < ids.prod)
  (hu : 0 < upd.prod)

/-- The updates that go to index `w` of the operand. -/
def hitsAt (s upd : List ℕ) (g : ScatterDims) (at_ : ND ℤ) (w : List ℕ) : List (List ℕ) :=
  (allIdx upd).filter fun u => g.hits s.length at_ u w

/-- The values combined at index `w` of the operand: its old value and the updates that go there. -/
noncomputable def scatterTerms (s upd : List ℕ) (g : ScatterDims) (at_ : ND ℤ) (x : Fin s.prod → F) (y : Fin upd.prod → F)
    (w : List ℕ) : List F :=
  (toND s x).get w :: (hitsAt s upd g at_ w).map fun u => (toND upd y).get u

/-- The three operands. -/
def scatterArgs (x : Fin s.prod → F) (at_ : Fin ids.prod → ℤ) (y : Fin upd.prod → F) :
    (i : Fin 3) → Fin ((scatterCombineOp s ids upd g hs hi hu).shapes i).prod → F :=
  Fin.cons (α := fun i => Fin ((scatterCombineOp s ids upd g hs hi hu).shapes i).prod → F) x
    (Fin.cons (α := fun i : Fin 2 => Fin ((scatterCombineOp s ids upd g hs hi hu).shapes i.succ).prod → F)
      (fun p => (at_ p : F)) (Fin.cons (α := fun i : Fin 1 => Fin ((scatterCombineOp s ids upd g hs hi hu).shapes i.succ.succ).prod → F)
        y fun i => i.elim0))

theorem scatter_fewScalars (h : s ≠ [] ∧ upd ≠ []) : (scatterCombineOp s ids upd g hs hi hu).FewScalars := by
  left
  intro i
  refine Fin.cases (fun _ => h.1) (Fin.cases (fun hd => ?_) (Fin.cases (fun _ => h.2) fun i => i.elim0)) i
  have hd : ![true, false, true] (1 : Fin 3) = true := hd
  simp at hd

omit [RCLike F] in
theorem scatter_plain (o : (i : Fin 3) → Opd F ((scatterCombineOp s ids upd g hs hi hu).shapes i).prod)
    {a : Fin ids.prod → F} (ho : o (1 : Fin 3) = .plain a) (i : Fin 3)
    (hd : (scatterCombineOp s ids upd g hs hi hu).data i = false) : (o i).isLapl = false := by
  revert hd
  refine Fin.cases ?_ (Fin.cases ?_ (Fin.cases ?_ fun i => i.elim0)) i
  · intro hd
    have hd : ![true, false, true] (0 : Fin 3) = false := hd
    simp at hd
  · intro _
    exact (congrArg Opd.isLapl ho).trans rfl
  · intro hd
    have hd : ![true, false, true] (2 : Fin 3) = false := hd
    simp at hd

theorem scatter_ints (x : (i : Fin 3) → Fin ((scatterCombineOp s ids upd g hs hi hu).shapes i).prod → F)
    (at_ : Fin ids.prod → ℤ) (hx : ∀ p, x (1 : Fin 3) p = (at_ p : F)) :
    (scatterCombineOp s ids upd g hs hi hu).ints x (1 : Fin 3) = toND ids at_ := by
  show toND ids (fun p => if ![true, false, true] (1 : Fin 3) then (0 : ℤ) else asInt (x (1 : Fin 3) p)) = _
  congr 1
  funext p
  have := hx p
  rw [if_neg (by simp)]
  exact (congrArg asInt this).trans (asInt_intCast _)

theorem scatter_meaning (comb : List F → F) (x : Fin s.prod → F) (at_ : Fin ids.prod → ℤ) (y : Fin upd.prod → F)
    {w : List ℕ} (hw : InB w s) :
    (toND s (((scatterCombineOp s ids upd g hs hi hu).prim comb oneAxis).fwd (scatterArgs hs hi hu x at_ y) (0 : Fin 1))).get w =
      comb (scatterTerms s upd g (toND ids at_) x y w) := by
  have hv : (scatterCombineOp s ids upd g hs hi hu).Valid (scatterArgs hs hi hu x at_ y) :=
    scatterCombine_valid hs hi hu _ fun p => ⟨at_ p, rfl⟩
  refine ((scatterCombineOp s ids upd g hs hi hu).meaning comb oneAxis hv hw).trans ?_
  congr 1
  have hint := scatter_ints (F := F) (g := g) hs hi hu (scatterArgs hs hi hu x at_ y) at_ fun p => rfl
  unfold scatterTerms hitsAt
  rw [← hint]
  exact congrArg₂ List.cons rfl List.map_map

include hn

/-- **C50, scatter_add.** -/
theorem C50_scatter_add (hne : s ≠ [] ∧ upd ≠ [])
    (o : (i : Fin 3) → Opd F ((scatterCombineOp s ids upd g hs hi hu).shapes i).prod) (at_ : Fin ids.prod → ℤ)
    (ho : o (1 : Fin 3) = .plain fun p => (at_ p : F)) :
    ((scatterCombineOp s ids upd g hs hi hu).prim List.sum oneAxis).ExactCall T n o ∧
    ∀ (x : Fin s.prod → F) (y : Fin upd.prod → F) (w : List ℕ), InB w s →
      (toND s (((scatterCombineOp s ids upd g hs hi hu).prim List.sum oneAxis).fwd (scatterArgs hs hi hu x at_ y)
        (0 : Fin 1))).get w = (scatterTerms s upd g (toND ids at_) x y w).sum := by
  refine ⟨((scatterCombineOp s ids upd g hs hi hu).goodCall List.sum oneAxis T n (scatter_fewScalars hs hi hu hne) o
    (scatter_plain hs hi hu o ho) (CombineOp.sum_affine _ (scatterCombine_valid hs hi hu _ fun p => ⟨at_ p, ?_⟩))).exactCall hn,
    fun x y w hw => scatter_meaning oneAxis hs hi hu List.sum x at_ y hw⟩
  exact congrFun (congrArg Opd.x ho) p

/-- **C50, scatter_max** (`sgn = 1`) **and scatter_min** (`sgn = -1`), exact where no two of the values combined at an index tie. -/
theorem C50_scatter_extremal (sgn : ℝ) (comb : List ℝ → ℝ)
    (hc : sgn = 1 ∧ comb = listMax ∨ sgn = -1 ∧ comb = listMin) (hne : s ≠ [] ∧ upd ≠ [])
    (o : (i : Fin 3) → Opd ℝ ((scatterCombineOp s ids upd g hs hi hu).shapes i).prod) (at_ : Fin ids.prod → ℤ)
    (ho : o (1 : Fin 3) = .plain fun p => (at_ p : ℝ))
    (ht : ∀ w, InB w s → (∀ u ∈ hitsAt s upd g (toND ids at_) w, sgn * (toND upd (o (2 : Fin 3)).x).get u < sgn * (toND s (o (0 : Fin 3)).x).get w) ∨
      ∃ u ∈ hitsAt s upd g (toND ids at_) w, sgn * (toND s (o (0 : Fin 3)).x).get w < sgn * (toND upd (o (2 : Fin 3)).x).get u ∧
        ∀ u' ∈ hitsAt s upd g (toND ids at_) w, u' ≠ u →
          sgn * (toND upd (o (2 : Fin 3)).x).get u' < sgn * (toND upd (o (2 : Fin 3)).x).get u) :
    ((scatterCombineOp s ids upd g hs hi hu).prim comb oneAxis).ExactCall T n o ∧
    ∀ (x : Fin s.prod → ℝ) (y : Fin upd.prod → ℝ) (w : List ℕ), InB w s →
      (toND s (((scatterCombineOp s ids upd g hs hi hu).prim comb oneAxis).fwd (scatterArgs hs hi hu x at_ y)
        (0 : Fin 1))).get w ∈ scatterTerms s upd g (toND ids at_) x y w ∧
      ∀ v ∈ scatterTerms s upd g (toND ids at_) x y w, sgn * v ≤ sgn *
        (toND s (((scatterCombineOp s ids upd g hs hi hu).prim comb oneAxis).fwd (scatterArgs hs hi hu x at_ y)
        (0 : Fin 1))).get w := by
  have hcomb : ∀ (l : List ℝ) (m : ℝ), m ∈ l → (∀ a ∈ l, sgn * a ≤ sgn * m) → comb l = m := by
    intro l m hm h
    rcases hc with ⟨rfl, rfl⟩ | ⟨rfl, rfl⟩
    · exact listMax_eq l m hm fun a ha => by simpa using h a ha
    · exact listMin_eq l m hm fun a ha => by simpa using h a ha
  have hx : ∀ p, (o (1 : Fin 3)).x p = (at_ p : ℝ) := fun p => congrFun (congrArg Opd.x ho) p
  have hv : (scatterCombineOp s ids upd g hs hi hu).Valid fun i => (o i).x :=
    scatterCombine_valid hs hi hu _ fun p => ⟨at_ p, hx p⟩
  refine ⟨((scatterCombineOp s ids upd g hs hi hu).goodCall comb oneAxis T n (scatter_fewScalars hs hi hu hne) o
    (scatter_plain hs hi hu o ho) (CombineOp.extremal_affine _ sgn comb hcomb hv ?_)).exactCall hn, fun x y w hw => ?_⟩
  · intro w hw
    have hint := scatter_ints (g := g) hs hi hu (fun i => (o i).x) at_ hx
    have hterms : (scatterCombineOp s ids upd g hs hi hu).terms ((scatterCombineOp s ids upd g hs hi hu).ints fun i => (o i).x) w =
        ((0 : Fin 3), w) :: (hitsAt s upd g (toND ids at_) w).map fun u => ((2 : Fin 3), u) := by
      rw [← hint]; rfl
    rw [hterms]
    rcases ht w hw with h | ⟨u, hu1, hu2, hu3⟩
    · refine ⟨((0 : Fin 3), w), List.mem_cons_self, fun r hr hne => ?_⟩
      rcases List.mem_cons.mp hr with rfl | hr
      · exact absurd rfl hne
      · obtain ⟨u, hu, rfl⟩ := List.mem_map.mp hr
        exact h u hu
    · refine ⟨((2 : Fin 3), u), List.mem_cons_of_mem _ (List.mem_map_of_mem hu1), fun r hr hne => ?_⟩
      rcases List.mem_cons.mp hr with rfl | hr
      · exact hu2
      · obtain ⟨u', hu', rfl⟩ := List.mem_map.mp hr
        exact hu3 u' hu' fun hh => hne (congrArg (Prod.mk (2 : Fin 3)) hh)
  · rw [scatter_meaning oneAxis hs hi hu comb x at_ y hw]
    obtain ⟨m, hm, hmax⟩ : ∃ m ∈ scatterTerms s upd g (toND ids at_) x y w,
        ∀ a ∈ scatterTerms s upd g (toND ids at_) x y w, sgn * a ≤ sgn * m := by
      have hne : (scatterTerms s upd g (toND ids at_) x y w).toFinset.Nonempty := by
        refine ⟨(toND s x).get w, ?_⟩
        simp [scatterTerms]
      obtain ⟨m, hm, h⟩ := Finset.exists_max_image _ (fun a => sgn * a) hne
      exact ⟨m, by simpa using hm, fun a ha => h a (by simpa using ha)⟩
    rw [hcomb _ m hm hmax]
    exact ⟨hm, hmax⟩

end Scatter

/-! ### Concrete cases -/

example : SliceOk [4, 6] [1, 0] [3, 6] [1, 2] := by unfold SliceOk; decide
example : BroadcastOk [3, 1] [2, 3, 4] [1, 2] := by unfold BroadcastOk; decide
example : CatOk ![[2, 3], [2, 1], [2, 2]] 1 [2, 6] := ⟨by decide, by decide, by decide⟩
/-- `x[:, idx]` for `x : (3, 4)` and two indices. -/
example : GatherOk [3, 4] [2, 1] [3, 2] [3, 1] ⟨[0], [1], [1], [], []⟩ :=
  ⟨by decide, by decide, by decide, by decide, by decide⟩
example : ([2, 0, 1] : List ℕ).Perm (List.range [4, 5, 6].length) := by decide
example : (keptDims [2, 3, 4].length [0, 2] ++ [0, 2]).Perm (List.range [2, 3, 4].length) := by decide

/-- The input as first operand of a one-operand operation: a case with derivatives. -/
theorem idOpd_dense {n : ℕ} (x : Fin n → ℝ) (t : Trip (Fin n) ℝ) (h : Demo.idOpd x = .lapl t) :
    t.jac.weak = false ∧ t.jac.nrows = n := by
  unfold Demo.idOpd at h
  injection h with h
  subst h
  exact ⟨rfl, List.length_ofFn⟩

theorem holds_any {n m : ℕ} {inv : ∀ m, Jac (Fin m) F → Prop} {w x : Fin n → ℝ} {o : Opd F m} {g : (Fin n → ℝ) → Fin m → F}
    (h : Holds inv w x o g) : Holds (fun _ _ => True) w x o g := by
  cases o with
  | plain _ => exact h
  | lapl _ => exact ⟨h.1, h.2.1, trivial⟩

/-- Reversing any number of inputs: the rule returns, and what it returns is exact. -/
example (s : List ℕ) (hs : 0 < s.prod) (x : Fin s.prod → ℝ) :
    ∃ r : (j : Fin 1) → Opd ℝ s.prod, ((revOp s [0] hs).prim ℝ true false).rule 0 (fun _ => Demo.idOpd x) = .ok r ∧
    Holds (fun _ _ => True) (fun _ => 1) x (r 0) fun (z : Fin s.prod → ℝ) =>
      ((revOp s [0] hs).prim ℝ true false).fwd (fun _ => z) (0 : Fin 1) := by
  obtain ⟨r, hr⟩ := C49_returns (revOp s [0] hs) true false 0 s.prod (fun _ => Demo.idOpd x) ⟨(0 : Fin 1), rfl⟩
    (rev_valid _ _) (Or.inr fun _ t ht => idOpd_dense x t ht)
  exact ⟨r, hr, (C49_rev (s := s) (dims := [0]) true false 0 s.prod hs hs fun _ => Demo.idOpd x).1 (fun _ => 1) x (fun _ z => z) r
    (fun _ => holds_any (Demo.idOpd_holds 0 x)) ⟨(0 : Fin 1), rfl⟩ hr (0 : Fin 1)⟩

/-- The maximum of each row of `((1, 2), (4, 3))` is attained once. -/
example : ∀ w, InB w (sizes [2, 2] (keptDims [2, 2].length [1])) → ∃ k, InB k (sizes [2, 2] [1]) ∧
    ∀ k', InB k' (sizes [2, 2] [1]) → k' ≠ k →
      along [2, 2] [1] (![1, 2, 4, 3] : Fin 4 → ℝ) w k' < along [2, 2] [1] (![1, 2, 4, 3] : Fin 4 → ℝ) w k := by
  intro w hw
  have hw : InB w [2] := hw
  have key : ∀ {k : List ℕ}, InB k [2] → k = [0] ∨ k = [1] := by
    intro k hk
    obtain ⟨a, l, ha, hl, rfl⟩ := List.forall₂_cons_right_iff.mp hk
    obtain rfl := List.forall₂_nil_right_iff.mp hl
    have : a = 0 ∨ a = 1 := by omega
    rcases this with rfl | rfl <;> simp
  have v : ∀ a b : Fin 2, along [2, 2] [1] (![1, 2, 4, 3] : Fin 4 → ℝ) [a] [b] = ![![1, 2], ![4, 3]] a b := by
    intro a b
    fin_cases a <;> fin_cases b <;> rfl
  have v00 := v 0 0
  have v01 := v 0 1
  have v10 := v 1 0
  have v11 := v 1 1
  simp at v00 v01 v10 v11
  rcases key hw with rfl | rfl
  · refine ⟨[1], by simp [InB, sizes], fun k' hk' hne => ?_⟩
    rcases key hk' with rfl | rfl
    · rw [v00, v01]; norm_num
    · exact absurd rfl hne
  · refine ⟨[0], by simp [InB, sizes], fun k' hk' hne => ?_⟩
    rcases key hk' with rfl | rfl
    · exact absurd rfl hne
    · rw [v11, v10]; norm_num

/-- `x.at[1].add(y)` for three elements: the update goes to index 1 and nowhere else. -/
example : hitsAt [3] [1] ⟨[], [0], [0], [], []⟩ (toND [1, 1] fun _ => 1) [1] = [[0]] ∧
    hitsAt [3] [1] ⟨[], [0], [0], [], []⟩ (toND [1, 1] fun _ => 1) [2] = [] := by
  constructor <;> decide

end Folx

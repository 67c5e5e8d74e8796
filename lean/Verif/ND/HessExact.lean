import Verif.ND.HessSliceProofs

/-!
# The second-order term on arrays is exact
-/

namespace Folx.Layout
open Vmap Dot

variable {F : Type} [CommRing F] [Inhabited F] {k : ℕ}

theorem tripAt_ofFn (args : Fin k → ArrTrip F × List ℕ) (f : ArrTrip F × List ℕ → ArrTrip F) (a : Fin k) :
    tripAt ((List.ofFn args).map f) a = f (args a) := by
  unfold tripAt
  rw [List.getD_eq_getElem _ _ (by simp), List.getElem_map, List.getElem_ofFn]

theorem ofFn_ne (args : Fin k → ArrTrip F × List ℕ) (hk : 0 < k) : List.ofFn args ≠ [] := by
  intro h
  have := congrArg List.length h
  simp at this
  omega

theorem mem_ofFn' {args : Fin k → ArrTrip F × List ℕ} {p : ArrTrip F × List ℕ → Prop} :
    (∀ a ∈ List.ofFn args, p a) ↔ ∀ a, p (args a) := by
  simp [List.mem_ofFn]

/-- A list related to a family, as a family. -/
theorem family_of {R : ArrTrip F × List ℕ → ArrTrip F × List ℕ → Prop} {args : Fin k → ArrTrip F × List ℕ}
    {l : List (ArrTrip F × List ℕ)} (h : List.Forall₂ R (List.ofFn args) l) :
    ∃ args' : Fin k → ArrTrip F × List ℕ, l = List.ofFn args' ∧ ∀ a, R (args a) (args' a) := by
  have hl : l.length = k := by rw [← h.length_eq]; simp
  refine ⟨fun a => l.get (a.cast hl.symm), ?_, fun a => ?_⟩
  · refine List.ext_getElem (by simp [hl]) fun i h1 h2 => ?_
    simp
  · have := h.get (i := a) (by simp) (by rw [hl]; exact a.2)
    simpa using this

/-- The family `args` has the values and derivatives of `args0` (for instance its dense copy). -/
structure SameDerivs (args args0 : Fin k → ArrTrip F × List ℕ) : Prop where
  x : ∀ a, (args a).1.x = (args0 a).1.x
  ax : ∀ a, (args a).2 = (args0 a).2
  entry : ∀ a i p, InB p (args0 a).1.x.shape → (args a).1.jac.entry i p = (args0 a).1.jac.entry i p

theorem SameDerivs.rfl' (args : Fin k → ArrTrip F × List ℕ) : SameDerivs args args := ⟨fun _ => rfl, fun _ => rfl, fun _ _ _ _ => rfl⟩

section
variable {args args0 : Fin k → ArrTrip F × List ℕ} (hsd : SameDerivs args args0) (hok : ∀ a, TripOk (args a)) {B v : List ℕ}
  (hf : ∀ a, Fits (args0 a).1.x.shape (args0 a).2 B) (hv : InB v B)

include hsd in
theorem same_skip (a : Fin k) : skipShape (args a).1.x.shape (args a).2 = skipShape (args0 a).1.x.shape (args0 a).2 := by
  rw [hsd.x, hsd.ax]

include hsd hok hf hv in
theorem same_den (i : ℕ) (a : Fin k) (c : Fin (sliceSize (args0 a))) :
    ((sliceAt B v (args a)).jac.rep (skipShape (args0 a).1.x.shape (args0 a).2)).den i c = derivAt args0 B v i a c := by
  rw [slice_rep_den (hok a) (same_skip hsd a)]
  unfold derivAt elemAt
  rw [hsd.entry a i _ (by
    rw [hsd.x, hsd.ax]
    exact bindex_inB (hf a).valid (hf a).len (hf a).al hv (inB_unravelIdx c.2)), hsd.x, hsd.ax]

include hf hv in
theorem deriv_large {n : ℕ} (hfor : ∀ a, (args0 a).1.jac.For n (args0 a).1.x.shape) {i : ℕ} (hi : n ≤ i) :
    derivAt args0 B v i = 0 := by
  funext a c
  exact entry_large (hfor a) (bindex_inB (hf a).valid (hf a).len (hf a).al hv (inB_unravelIdx c.2)) hi

include hsd hok hf hv in
theorem same_wf {n : ℕ} (hfor : ∀ a, (args a).1.jac.For n (args a).1.x.shape) (a : Fin k) :
    ((sliceAt B v (args a)).jac.rep (skipShape (args0 a).1.x.shape (args0 a).2)).Wf n := by
  refine slice_rep_wf (hok a) ?_ hv (same_skip hsd a) (hfor a)
  rw [hsd.x, hsd.ax]
  exact hf a

include hsd hok hf hv in
/-- The general rule at one position. -/
theorem term_general {o : List ℕ} {hess : SliceHess F fun a => sliceSize (args0 a)} {g : SliceFn F}
    (hg : TraceRule (fun a => skipShape (args0 a).1.x.shape (args0 a).2) o hess g)
    (extras : List (ND F × List ℕ)) {n n' : ℕ} (hfor0 : ∀ a, (args0 a).1.jac.For n (args0 a).1.x.shape)
    (hfor : ∀ a, (args a).1.jac.For n' (args a).1.x.shape) {il : Option (List ℤ)}
    (hil : IdxOk (fun a => (sliceAt B v (args a)).jac.rep (skipShape (args0 a).1.x.shape (args0 a).2)) il)
    (hnone : il = none → ∀ a, (args a).1.jac.idx = none) {q : List ℕ} (hq : InB q o) :
    (termAt g (List.ofFn args) extras il B v).get q =
      ∑ i ∈ Finset.range n, hess (extras.map fun e => bslice e.1 e.2 B v) (pointAt args0 B v)
        (derivAt args0 B v i) (derivAt args0 B v i) q := by
  unfold termAt
  have ht : ∀ a : Fin k, tripAt ((List.ofFn args).map (sliceAt B v)) a = sliceAt B v (args a) := fun a => tripAt_ofFn args _ a
  have ht' : (fun a : Fin k => (tripAt ((List.ofFn args).map (sliceAt B v)) a).jac.rep (skipShape (args0 a).1.x.shape (args0 a).2)) =
      fun a => (sliceAt B v (args a)).jac.rep (skipShape (args0 a).1.x.shape (args0 a).2) := funext fun a => by rw [ht]
  rw [hg.spec _ _ _ n' (fun a => by rw [ht]; exact same_wf hsd hok hf hv hfor a) (by rw [ht']; exact hil)
    (fun h a => by rw [ht, slice_weak, hnone h a]; rfl) hq, ht']
  have hden : ∀ i, denAt (fun a => (sliceAt B v (args a)).jac.rep (skipShape (args0 a).1.x.shape (args0 a).2)) i = derivAt args0 B v i := by
    intro i
    funext a c
    exact same_den hsd hok hf hv i a c
  have hx : (fun (a : Fin k) (c : Fin (sliceSize (args0 a))) => (tripAt ((List.ofFn args).map (sliceAt B v)) a).x.get
      (unravelIdx (skipShape (args0 a).1.x.shape (args0 a).2) c)) = pointAt args0 B v := by
    funext a c
    rw [ht]
    have := slice_x (a := args a) (b := B) (v := v) (c := unravelIdx (skipShape (args0 a).1.x.shape (args0 a).2) c) (by
      rw [same_skip hsd]; exact inB_unravelIdx c.2)
    rw [this]
    unfold pointAt elemAt
    rw [hsd.x, hsd.ax]
  simp only [hden, hx]
  refine sum_eq_of_vanish _ _ _ (fun i hi => ?_) fun i hi => ?_
  · have : derivAt args0 B v i = 0 := by
      rw [← hden i]
      funext a c
      exact Jac.den_eq_zero_of_ge (same_wf hsd hok hf hv hfor a) i hi c
    rw [this]; simp
  · rw [deriv_large hf hv hfor0 hi]; simp

end

/-- The product rule at one position. -/
theorem term_product {args args0 : Fin 2 → ArrTrip F × List ℕ} (hsd : SameDerivs args args0) (hok : ∀ a, TripOk (args a)) {B v : List ℕ}
    (hf : ∀ a, Fits (args0 a).1.x.shape (args0 a).2 B) (hv : InB v B) {s o : List ℕ}
    (hs : ∀ a, skipShape (args0 a).1.x.shape (args0 a).2 = s) (junk : F)
    (extras : List (ND F × List ℕ)) {n n' : ℕ} (hfor0 : ∀ a, (args0 a).1.jac.For n (args0 a).1.x.shape)
    (hfor : ∀ a, (args a).1.jac.For n' (args a).1.x.shape) {il : Option (List ℤ)}
    (hnone : il = none → ∀ a, (args a).1.jac.idx = none)
    (hsome : ∀ is, il = some is → is ≠ [] ∧ (is.filter fun z => 0 ≤ z).Nodup ∧
      (∃ a, (args a).1.jac.idx ≠ none) ∧
      (∀ a, (args a).1.jac.idx = none → ∀ z ∈ is, 0 ≤ z → z < ((args a).1.jac.data.shape.getD 0 0 : ℕ)) ∧
      ∀ i : ℕ, (i : ℤ) ∉ is → ∃ a, derivAt args0 B v i a = 0) {q : List ℕ} (hq : InB q o) :
    (termAt (productSlice s o junk) (List.ofFn args) extras il B v).get q =
      ∑ i ∈ Finset.range n, 2 * ∑ c : Fin s.prod, (args0 0).1.jac.entry i (elemAt B v (args0 0) c) *
        (args0 1).1.jac.entry i (elemAt B v (args0 1) c) := by
  unfold termAt
  have ht : ∀ a : Fin 2, tripAt ((List.ofFn args).map (sliceAt B v)) a = sliceAt B v (args a) := fun a => tripAt_ofFn args _ a
  have hden : ∀ (a : Fin 2) i (c : Fin s.prod), ((sliceAt B v (args a)).jac.rep s).den i c = (args0 a).1.jac.entry i (elemAt B v (args0 a) c) := by
    intro a i
    rw [← hs a]
    intro c
    exact same_den hsd hok hf hv i a c
  have hwf : ∀ a : Fin 2, ((sliceAt B v (args a)).jac.rep s).Wf n' := by
    intro a
    rw [← hs a]
    exact same_wf hsd hok hf hv hfor a
  rw [productSlice_spec s o junk _ _ il n' (fun a => by rw [ht]; exact hwf a)
    (fun h a => by rw [ht, slice_weak, hnone h a]; rfl) (fun is h => by
      obtain ⟨h1, h2, ⟨a, h3⟩, h4, h5⟩ := hsome is h
      refine ⟨h1, h2, ⟨a, ?_⟩, fun a ha => ?_, fun i hi => ?_⟩
      · rw [ht, slice_weak]
        cases hm : (args a).1.jac.idx with
        | none => exact absurd hm h3
        | some _ => rfl
      · rw [ht, slice_weak] at ha
        rw [ht, slice_nrows (hok a)]
        exact h4 a (by cases hm : (args a).1.jac.idx with
          | none => rfl
          | some _ => rw [hm] at ha; cases ha)
      · obtain ⟨a, ha⟩ := h5 i hi
        refine ⟨a, fun c => ?_⟩
        rw [ht, hden]
        have hc : (c : ℕ) < sliceSize (args0 a) := by show c.1 < (skipShape _ _).prod; rw [hs a]; exact c.2
        exact congrFun ha ⟨c, hc⟩) hq]
  have h0 := ht 0
  have h1 := ht 1
  simp only [Fin.val_zero, Fin.val_one] at h0 h1
  simp only [h0, h1, hden]
  refine sum_eq_of_vanish _ _ _ (fun i hi => ?_) fun i hi => ?_
  · simp only [← hden]
    have : ∀ c, ((sliceAt B v (args 0)).jac.rep s).den i c = 0 := fun c => Jac.den_eq_zero_of_ge (hwf 0) i hi c
    simp [this]
  · have hd := deriv_large hf hv hfor0 hi
    have : ∀ c : Fin s.prod, (args0 0).1.jac.entry i (elemAt B v (args0 0) c) = 0 := by
      intro c
      have hc : (c : ℕ) < sliceSize (args0 0) := by show c.1 < (skipShape _ _).prod; rw [hs 0]; exact c.2
      exact congrFun (congrFun hd 0) ⟨c, hc⟩
    simp [this]

/-! ### The result -/

theorem bcast_pos {S : List (List ℕ)} {b : List ℕ} (h : Broadcasts S b) (hS : ∀ s ∈ S, 0 ∉ s) : 0 ∉ b := by
  intro h0
  obtain ⟨i, hi, e⟩ := List.getElem_of_mem (List.mem_reverse.mpr h0)
  have hd : dimBack b i = 0 := by unfold dimBack; rw [List.getD_eq_getElem _ _ hi, e]
  rcases h.tight i with e | ⟨s, hs, e⟩
  · omega
  · rw [hd] at e
    unfold dimBack at e
    by_cases hl : i < s.reverse.length
    · rw [List.getD_eq_getElem _ _ hl] at e
      exact hS s hs (by rw [← e]; exact List.mem_reverse.mp (List.getElem_mem hl))
    · rw [List.getD_eq_default _ _ (by omega)] at e
      omega

theorem other_pos {s ax : List ℕ} (h : 0 ∉ s) : 0 ∉ otherShape s ax := by
  unfold otherShape
  intro hm
  obtain ⟨p, hp, e⟩ := List.mem_map.mp hm
  have := List.mem_of_mem_filter hp
  have : p.1 ∈ s := by
    have := List.mem_map_of_mem (f := Prod.fst) this
    rwa [List.zipIdx_map_fst] at this
  exact h (by rw [← e]; exact this)

namespace HessCall
variable {n : ℕ} {args : Fin k → ArrTrip F × List ℕ} {extras : List (ND F × List ℕ)} {b B : List ℕ} (hC : HessCall n args extras b B)
include hC

theorem ne : List.ofFn args ≠ [] := ofFn_ne args hC.pos

theorem okL : ∀ a ∈ List.ofFn args, TripOk a := mem_ofFn'.mpr hC.ok

theorem sizeX (a : Fin k) : 0 ∉ (args a).1.x.shape := hC.size a

theorem sizeJ (a : Fin k) (h : (args a).1.jac.idx ≠ none) : 0 ∉ (args a).1.jac.data.shape := by
  have h1 := hC.rows a h
  have h2 := hC.size a
  rw [(hC.ok a).data]
  intro h3
  rcases List.mem_cons.mp h3 with h3 | h3
  · omega
  · exact h2 h3

theorem posb : 0 ∉ b := bcast_pos hC.argShape fun s hs => by
  obtain ⟨a, ha, rfl⟩ := List.mem_map.mp hs
  obtain ⟨i, rfl⟩ := List.mem_ofFn.mp ha
  exact other_pos (hC.sizeX i)

theorem posB : 0 ∉ B := bcast_pos hC.allShape fun s hs => by
  rcases List.mem_append.mp hs with hs | hs
  · obtain ⟨a, ha, rfl⟩ := List.mem_map.mp hs
    obtain ⟨i, rfl⟩ := List.mem_ofFn.mp ha
    exact other_pos (hC.sizeX i)
  · obtain ⟨e, he, rfl⟩ := List.mem_map.mp hs
    exact other_pos (hC.extSize e he)

theorem fitsB (a : Fin k) : Fits (args a).1.x.shape (args a).2 B :=
  fits_arg hC.okL hC.ext hC.allShape _ (List.mem_ofFn.mpr ⟨a, rfl⟩)

theorem fitsb (a : Fin k) : Fits (args a).1.x.shape (args a).2 b :=
  fits_arg (extras := []) hC.okL (by simp) (by simpa using hC.argShape) _ (List.mem_ofFn.mpr ⟨a, rfl⟩)

end HessCall

theorem bcast_self (s : List ℕ) : Broadcasts [s, s] s where
  rank_le t ht := by simp at ht; rw [ht]
  rank_eq := Or.inr ⟨s, by simp, rfl⟩
  compat t ht j := by simp at ht; exact Or.inr (by rw [ht])
  tight j := Or.inr ⟨s, by simp, rfl⟩

theorem bcast_nil (s : List ℕ) : Broadcasts [[], s] s where
  rank_le t ht := by simp at ht; rcases ht with rfl | rfl <;> simp
  rank_eq := Or.inr ⟨s, by simp, rfl⟩
  compat t ht j := by
    simp at ht
    rcases ht with rfl | rfl
    · left; simp [dimBack]
    · exact Or.inr rfl
  tight j := Or.inr ⟨s, by simp, rfl⟩

/-- A full array. -/
theorem second_full {n : ℕ} {args : Fin k → ArrTrip F × List ℕ}
    {Q : List ℕ → ((a : Fin k) → Fin (sliceSize (args a)) → F) → List ℕ → F} {b o : List ℕ} {t : List ℕ → ND F}
    (h : ∀ v q, InB v b → InB q o → (t v).get q = ∑ i ∈ Finset.range n, Q v (derivAt args b v i) q) :
    IsSecondOrder n args Q b o (ND.ofFn (b ++ o) fun w => (t (w.take b.length)).get (w.drop b.length)) where
  shape := bcast_self _
  value v q hv hq := by
    have hin : InB (v ++ q) (b ++ o) := List.rel_append hv hq
    rw [ND.shape_ofFn, Layout.bcoord_self hin, ND.get_ofFn _ hin, ← hv.length_eq, List.take_left, List.drop_left]
    exact h v q hv hq

/-- A scalar zero. -/
theorem second_zero {n : ℕ} {args : Fin k → ArrTrip F × List ℕ}
    {Q : List ℕ → ((a : Fin k) → Fin (sliceSize (args a)) → F) → List ℕ → F} {b o : List ℕ}
    (h : ∀ v i q, InB v b → Q v (derivAt args b v i) q = 0) : IsSecondOrder n args Q b o (ND.ofFn [] fun _ => 0) where
  shape := bcast_nil _
  value v q hv hq := by
    rw [Finset.sum_eq_zero fun i _ => h v i q hv]
    exact ND.get_ofFn _ List.Forall₂.nil

section
variable {n : ℕ} {args : Fin k → ArrTrip F × List ℕ} {extras : List (ND F × List ℕ)} {b B : List ℕ} (hC : HessCall n args extras b B)

include hC in
/-- The dense path, for any slice rule that is exact on dense arguments. -/
theorem second_dense {g : SliceFn F} {o : List ℕ} (hg : ∀ ts es i, (g ts es i).shape = o) (inter sparseJHJ dot : Bool) (T : ℕ)
    (hnd : dot = false ∨ (∃ a, (args a).2.length ≠ 1) ∨ ∀ a, (args a).2 = [(args a).1.x.shape.length - 1])
    (hd : (∀ a, (args a).1.jac.idx = none) ∨ (sparseJHJ = false ∧ denseCall inter T (List.ofFn args) b))
    {Q : List ℕ → ((a : Fin k) → Fin (sliceSize (args a)) → F) → List ℕ → F}
    (hQ : ∀ args' : Fin k → ArrTrip F × List ℕ, SameDerivs args' args → (∀ a, TripOk (args' a)) → (∀ a, (args' a).1.jac.idx = none) →
      ∀ v q, InB v B → InB q o → (termAt g (List.ofFn args') extras none B v).get q = ∑ i ∈ Finset.range n, Q v (derivAt args B v i) q) :
    ∃ R, hessArr g inter sparseJHJ dot T (List.ofFn args) extras (B ++ o) = some R ∧ IsSecondOrder n args Q B o R := by
  obtain ⟨l, hl, hr⟩ := hessArr_dense (g := g) (extras := extras) (b := B) (b0 := b) (fun _ _ _ _ _ _ _ _ _ => by rw [hg, hg])
    inter sparseJHJ dot T hC.okL hC.ext hC.allShape hC.posB hC.ne
    (hnd.imp id (Or.imp (fun ⟨a, h⟩ => ⟨_, List.mem_ofFn.mpr ⟨a, rfl⟩, h⟩) fun h => mem_ofFn'.mpr h))
    hC.argShape (mem_ofFn'.mpr hC.sizeJ) (hd.imp (fun h => mem_ofFn'.mpr h) id)
  obtain ⟨args', rfl, hD⟩ := family_of hl
  have := hr o fun v _ => hg _ _ _
  refine ⟨_, this, second_full fun v q hv hq => ?_⟩
  exact hQ args' ⟨fun a => (hD a).x, fun a => (hD a).ax, fun a i p hp => (hD a).entry (hC.ok a) i hp⟩
    (fun a => (hD a).ok (hC.ok a)) (fun a => (hD a).idx) v q hv hq

/-- Rows of dense arguments. -/
theorem dense_for {args' : Fin k → ArrTrip F × List ℕ} (hok : ∀ a, TripOk (args' a)) (hd : ∀ a, (args' a).1.jac.idx = none) :
    ∃ n', ∀ a, (args' a).1.jac.For n' (args' a).1.x.shape := by
  refine ⟨∑ a, (args' a).1.jac.data.shape.getD 0 0, fun a => ⟨⟨_, (hok a).data⟩, ?_⟩⟩
  rw [hd a]
  exact Finset.single_le_sum (f := fun a => (args' a).1.jac.data.shape.getD 0 0) (fun _ _ => Nat.zero_le _) (Finset.mem_univ a)

include hC in
/-- **The general rule on arrays is exact.** -/
theorem second_general {o : List ℕ} {hess : SliceHess F fun a => sliceSize (args a)} {g : SliceFn F}
    (hT : TraceRule (fun a => skipShape (args a).1.x.shape (args a).2) o hess g) (sparseJHJ : Bool) (T : ℕ)
    (hmix : (∀ a, (args a).1.jac.idx = none) ∨ (sparseJHJ = false ∧ denseCall false T (List.ofFn args) b) ∨
      ((∀ a, (args a).1.jac.idx ≠ none) ∧ ∃ j, B = List.replicate j 1 ++ b)) :
    ∃ R, hessArr g false sparseJHJ false T
        (List.ofFn args) extras (B ++ o) = some R ∧
      IsSecondOrder n args (fun v d q => hess (extras.map fun e => bslice e.1 e.2 B v) (pointAt args B v) d d q) B o R := by
  have hg := hT.shape
  by_cases hd : (∀ a, (args a).1.jac.idx = none) ∨ (sparseJHJ = false ∧ denseCall false T (List.ofFn args) b)
  · refine second_dense hC hg false sparseJHJ false T (Or.inl rfl) hd fun args' hsd hok' hdn v q hv hq => ?_
    obtain ⟨n', hn'⟩ := dense_for hok' hdn
    exact term_general (il := none) hsd hok' hC.fitsB hv hT extras hC.jac hn' trivial (fun _ => hdn) hq
  · push Not at hd
    obtain ⟨hsp, j, rfl⟩ : (∀ a, (args a).1.jac.idx ≠ none) ∧ ∃ j, B = List.replicate j 1 ++ b := by
      rcases hmix with h | h | h
      · exact absurd (fun a => h a) (by push Not; exact hd.1)
      · exact absurd h.2 (hd.2 h.1)
      · exact h
    have hsp' : ∃ a ∈ List.ofFn args, a.1.jac.idx ≠ none := ⟨_, List.mem_ofFn.mpr ⟨⟨0, hC.pos⟩, rfl⟩, hsp _⟩
    have hdrop : ∀ v, InB v (List.replicate j 1 ++ b) → InB (v.drop j) b := by
      intro v hv
      have := List.forall₂_drop j hv
      rwa [List.drop_left' (by simp)] at this
    have hj : sparseJHJ = true ∨ (mergedWidth false (List.ofFn args) b < maxSizeArr (List.ofFn args) ∧ mergedWidth false (List.ofFn args) b ≤ T) := by
      cases hs : sparseJHJ with
      | true => exact Or.inl rfl
      | false =>
        right
        have := hd.2 hs
        unfold denseCall at this
        push Not at this
        exact ⟨this.1, this.2⟩
    have hcov : ∀ v, InB v (List.replicate j 1 ++ b) → ∀ i a c, derivAt args (List.replicate j 1 ++ b) v i a c ≠ 0 →
        (i : ℤ) ∈ mergedAt false (List.ofFn args) b (v.drop j) := by
      intro v hv i a c h
      rw [mem_merged_false]
      refine ⟨args a, List.mem_ofFn.mpr ⟨a, rfl⟩, ?_⟩
      unfold derivAt at h
      rw [elemAt_ones (hC.fitsb a)] at h
      exact entry_deps (hC.ok a) (hC.fitsb a) (hdrop v hv) (inB_unravelIdx c.2) h
    by_cases hw : mergedWidth false (List.ofFn args) b = 0
    · refine ⟨_, hessArr_empty false sparseJHJ false T hC.okL _ hC.ne hC.argShape hsp' hw ?_, second_zero fun v i q hv => ?_⟩
      · rcases hj with h | h
        · exact Or.inl h
        · right; omega
      · have : derivAt args (List.replicate j 1 ++ b) v i = 0 := by
          funext a c
          by_contra hne
          have := hcov v hv i a c hne
          rw [merged_empty (hdrop v hv) hw] at this
          simp at this
        rw [this]; simp
    · refine ⟨_, hessArr_sparse (fun _ _ _ _ _ _ _ _ _ => by rw [hg, hg]) false sparseJHJ false T hC.okL hC.ext hC.argShape hC.allShape
        hC.posb hC.ne (Or.inl rfl) hsp' (by omega) hj fun v _ => hg _ _ _, second_full (t := fun v => termAt _ (List.ofFn args) extras
          (some (idxListAt false (List.ofFn args) b (v.drop j))) (List.replicate j 1 ++ b) v) fun v q hv hq => ?_⟩
      refine term_general (SameDerivs.rfl' args) hC.ok hC.fitsB hv hT extras hC.jac hC.jac ?_ (fun h => by cases h) hq
      refine ⟨idxList_ne_nil (hdrop v hv) (by omega), idxList_nodup, fun i a c h => ?_, fun a ha => ?_⟩
      · rw [same_den (SameDerivs.rfl' args) hC.ok hC.fitsB hv] at h
        exact (mem_idxList.mpr (hcov v hv i a c h)).1
      · rw [slice_weak] at ha
        cases hm : (args a).1.jac.idx with
        | none => exact absurd hm (hsp a)
        | some _ => rw [hm] at ha; cases ha

end

/-! ### A dense argument with a row for every input -/

/-- The number of indices of a Jacobian is at most the number of inputs. -/
theorem nUnique_le {j : ArrJac F} {n : ℕ} {s : List ℕ} (h : j.For n s) : j.nUnique ≤ n := by
  obtain ⟨⟨K, hK⟩, h⟩ := h
  unfold ArrJac.nUnique
  cases hm : j.idx with
  | none => rw [hm] at h; exact h
  | some m =>
    rw [hm] at h
    dsimp only at h ⊢
    have hsub : m.data.toFinset.filter (0 ≤ ·) ⊆ (Finset.range n).map ⟨((↑) : ℕ → ℤ), Nat.cast_injective⟩ := by
      intro z hz
      rw [Finset.mem_filter, List.mem_toFinset] at hz
      obtain ⟨w, hw, rfl⟩ := mem_get m hz.1
      rw [h.1, hK] at hw
      obtain ⟨r, p, rfl, hr, hp⟩ := hw.cons_right
      have := (h.2 r p (by rw [hK]; exact hr) hp).1
      rw [Finset.mem_map]
      exact ⟨(m.get (r :: p)).toNat, by rw [Finset.mem_range]; omega, Int.toNat_of_nonneg hz.2⟩
    calc _ ≤ _ := Finset.card_le_card hsub
      _ = n := by rw [Finset.card_map, Finset.card_range]

/-- A dense argument depends on the inputs of all its rows, everywhere. -/
theorem deps_full {a : ArrTrip F × List ℕ} {b v : List ℕ} (hok : TripOk a) (hf : Fits a.1.x.shape a.2 b) (hv : InB v b)
    (h0 : 0 ∉ a.1.x.shape) (hm : a.1.jac.idx = none) {r : ℕ} (hr : r < a.1.jac.data.shape.getD 0 0) : (r : ℤ) ∈ depsAt b v a := by
  unfold depsAt
  rw [Finset.mem_filter, List.mem_toFinset, mem_bslice]
  have hms : a.1.jac.mask.shape = a.1.jac.data.shape.getD 0 0 :: a.1.x.shape := by
    unfold ArrJac.mask
    rw [hm]
    dsimp only
    rw [ND.shape_ofFn]
    exact hok.data
  obtain ⟨c, hc⟩ : ∃ c, InB c (skipShape a.1.x.shape a.2) := by
    refine ⟨unravelIdx _ 0, inB_unravelIdx (Nat.pos_of_ne_zero fun e => ?_)⟩
    obtain ⟨d, hd, e⟩ := List.mem_map.mp (List.prod_eq_zero_iff.mp e)
    have := List.mem_map_of_mem (f := Prod.fst) (List.mem_of_mem_filter hd)
    rw [List.zipIdx_map_fst] at this
    exact h0 (by rw [← e]; exact this)
  refine ⟨⟨r :: c, ?_, ?_⟩, by simp⟩
  · rw [hms, skipShape_jac]; exact List.Forall₂.cons hr hc
  · rw [hms, bindex_jac]
    have hin : InB (r :: bindex a.1.x.shape a.2 b v c) a.1.jac.data.shape := by
      rw [hok.data]; exact List.Forall₂.cons hr (bindex_inB hf.valid hf.len hf.al hv hc)
    unfold ArrJac.mask
    rw [hm]
    dsimp only
    rw [ND.get_ofFn _ hin]
    rfl

/-- With a dense argument that has a row for every input, the call is treated as dense. -/
theorem denseCall_full {n : ℕ} {args : Fin k → ArrTrip F × List ℕ} {extras : List (ND F × List ℕ)} {b B : List ℕ} (hC : HessCall n args extras b B)
    (T : ℕ) {a : Fin k} (hm : (args a).1.jac.idx = none) (hn : (args a).1.jac.data.shape.getD 0 0 = n) :
    denseCall false T (List.ofFn args) b := by
  left
  have h1 : maxSizeArr (List.ofFn args) ≤ n := by
    unfold maxSizeArr
    have : ∀ l : List ℕ, (∀ x ∈ l, x ≤ n) → l.foldr max 0 ≤ n := by
      intro l
      induction l with
      | nil => intro _; simp
      | cons x l ih => intro h; exact max_le (h x (by simp)) (ih fun y hy => h y (by simp [hy]))
    refine this _ fun x hx => ?_
    obtain ⟨c, hc, rfl⟩ := List.mem_map.mp hx
    obtain ⟨i, rfl⟩ := List.mem_ofFn.mp hc
    exact nUnique_le (hC.jac i)
  obtain ⟨v, hv⟩ : ∃ v, InB v b := ⟨unravelIdx b 0, inB_unravelIdx (Nat.pos_of_ne_zero fun e => hC.posb (List.prod_eq_zero_iff.mp e))⟩
  have h2 : n ≤ (mergedAt false (List.ofFn args) b v).card := by
    have hsub : (Finset.range n).map ⟨((↑) : ℕ → ℤ), Nat.cast_injective⟩ ⊆ mergedAt false (List.ofFn args) b v := by
      intro z hz
      obtain ⟨r, hr, rfl⟩ := Finset.mem_map.mp hz
      rw [mem_merged_false]
      exact ⟨_, List.mem_ofFn.mpr ⟨a, rfl⟩, deps_full (hC.ok a) (hC.fitsb a) hv (hC.sizeX a) hm (by rw [hn]; exact Finset.mem_range.mp hr)⟩
    have := Finset.card_le_card hsub
    rwa [Finset.card_map, Finset.card_range] at this
  have h3 : (mergedAt false (List.ofFn args) b v).card ≤ mergedWidth false (List.ofFn args) b :=
    foldr_max_le (List.mem_map.mpr ⟨v, mem_allIdx.mpr hv, rfl⟩)
  omega

/-! ### Products -/

section
variable {n : ℕ} {args : Fin 2 → ArrTrip F × List ℕ} {extras : List (ND F × List ℕ)} {b B : List ℕ} (hC : HessCall n args extras b B)
  {s : List ℕ} (hs : ∀ a, skipShape (args a).1.x.shape (args a).2 = s)

include hC in
/-- Inputs that are not common to both arguments do not contribute. -/
theorem cover_product {v : List ℕ} (hv : InB v b) {i : ℕ} (h : (i : ℤ) ∉ mergedAt true (List.ofFn args) b v) :
    ∃ a, derivAt args b v i a = 0 := by
  rw [mem_merged_true hC.ne] at h
  push Not at h
  obtain ⟨a, ha, h⟩ := h
  obtain ⟨a, rfl⟩ := List.mem_ofFn.mp ha
  refine ⟨a, ?_⟩
  funext c
  by_contra hne
  exact h (entry_deps (hC.ok a) (hC.fitsb a) hv (inB_unravelIdx c.2) hne)

include hs in
theorem dotForm_zero {d : (a : Fin 2) → Fin (sliceSize (args a)) → F} {a : Fin 2} (h : d a = 0) : dotForm hs d = 0 := by
  unfold dotForm
  have : ∀ c : Fin s.prod, d 0 (Fin.cast (congrArg List.prod (hs 0).symm) c) * d 1 (Fin.cast (congrArg List.prod (hs 1).symm) c) = 0 := by
    intro c
    fin_cases a
    · have := congrFun h (Fin.cast (congrArg List.prod (hs 0).symm) c)
      simp only [Pi.zero_apply] at this
      erw [this]
      simp
    · have := congrFun h (Fin.cast (congrArg List.prod (hs 1).symm) c)
      simp only [Pi.zero_apply] at this
      erw [this]
      simp
  simp [this]

theorem ones_deriv {j : ℕ} (hf : ∀ a, Fits (args a).1.x.shape (args a).2 b) (v : List ℕ) (i : ℕ) :
    derivAt args (List.replicate j 1 ++ b) v i = derivAt args b (v.drop j) i := by
  funext a c
  unfold derivAt
  rw [elemAt_ones (hf a)]

include hC in
/-- What `term_product` asks of the index list. -/
theorem idx_product {v : List ℕ} (hv : InB v b) (hw : 0 < mergedWidth true (List.ofFn args) b) (hsp : ∃ a, (args a).1.jac.idx ≠ none)
    (is : List ℤ) (e : some (idxListAt true (List.ofFn args) b v) = some is) :
    is ≠ [] ∧ (is.filter fun z => 0 ≤ z).Nodup ∧ (∃ a, (args a).1.jac.idx ≠ none) ∧
      (∀ a, (args a).1.jac.idx = none → ∀ z ∈ is, 0 ≤ z → z < ((args a).1.jac.data.shape.getD 0 0 : ℕ)) ∧
      ∀ i : ℕ, (i : ℤ) ∉ is → ∃ a, derivAt args b v i a = 0 := by
  cases e
  refine ⟨idxList_ne_nil hv hw, idxList_nodup, hsp, fun a ha z hz h0 => ?_, fun i hi => ?_⟩
  · have := (mem_merged_true hC.ne).mp (mem_idxList.mp ⟨hz, h0⟩) (args a) (List.mem_ofFn.mpr ⟨a, rfl⟩)
    exact deps_dense (hC.ok a) (hC.fitsb a) hv ha this
  · exact cover_product hC hv fun h => hi (mem_idxList.mpr h).1

include hC in
/-- The dense path of products. -/
theorem product_dense {o : List ℕ} (junk : F) (sparseJHJ dot : Bool) (T : ℕ)
    (hnd : dot = false ∨ (∃ a, (args a).2.length ≠ 1) ∨ ∀ a, (args a).2 = [(args a).1.x.shape.length - 1])
    (hd : (∀ a, (args a).1.jac.idx = none) ∨ (sparseJHJ = false ∧ denseCall true T (List.ofFn args) b)) :
    ∃ R, hessArr (productSlice s o junk) true sparseJHJ dot T (List.ofFn args) extras (B ++ o) = some R ∧
      IsSecondOrder n args (fun _ d _ => dotForm hs d) B o R := by
  refine second_dense hC (traced_product s o junk) true sparseJHJ dot T hnd hd fun args' hsd hok' hdn v q hv hq => ?_
  obtain ⟨n', hn'⟩ := dense_for hok' hdn
  exact term_product (il := none) hsd hok' hC.fitsB hv hs junk extras hC.jac hn' (fun _ => hdn) (fun is h => by cases h) hq

include hC in
/-- **The product rule on arrays is exact.** -/
theorem second_product {o : List ℕ} (junk : F) (sparseJHJ dot : Bool) (T : ℕ)
    (hnd : dot = false ∨ ∃ a, (args a).2.length ≠ 1)
    (hmix : (∀ a, (args a).1.jac.idx = none) ∨ (sparseJHJ = false ∧ denseCall true T (List.ofFn args) b) ∨
      ∃ j, B = List.replicate j 1 ++ b) :
    ∃ R, hessArr (productSlice s o junk) true sparseJHJ dot T (List.ofFn args) extras (B ++ o) = some R ∧
      IsSecondOrder n args (fun _ d _ => dotForm hs d) B o R := by
  have hg := traced_product (F := F) s o junk
  by_cases hd : (∀ a, (args a).1.jac.idx = none) ∨ (sparseJHJ = false ∧ denseCall true T (List.ofFn args) b)
  · exact product_dense hC hs junk sparseJHJ dot T (hnd.imp id Or.inl) hd
  · push Not at hd
    obtain ⟨j, rfl⟩ : ∃ j, B = List.replicate j 1 ++ b := by
      rcases hmix with h | h | h
      · exact absurd (fun a => h a) (by push Not; exact hd.1)
      · exact absurd h.2 (hd.2 h.1)
      · exact h
    have hsp := hd.1
    have hsp' : ∃ a ∈ List.ofFn args, a.1.jac.idx ≠ none := by
      obtain ⟨a, h⟩ := hsp
      exact ⟨_, List.mem_ofFn.mpr ⟨a, rfl⟩, h⟩
    have hdrop : ∀ v, InB v (List.replicate j 1 ++ b) → InB (v.drop j) b := by
      intro v hv
      have := List.forall₂_drop j hv
      rwa [List.drop_left' (by simp)] at this
    have hj : sparseJHJ = true ∨ (mergedWidth true (List.ofFn args) b < maxSizeArr (List.ofFn args) ∧ mergedWidth true (List.ofFn args) b ≤ T) := by
      cases hs : sparseJHJ with
      | true => exact Or.inl rfl
      | false =>
        right
        have := hd.2 hs
        unfold denseCall at this
        push Not at this
        exact ⟨this.1, this.2⟩
    by_cases hw : mergedWidth true (List.ofFn args) b = 0
    · refine ⟨_, hessArr_empty true sparseJHJ dot T hC.okL _ hC.ne hC.argShape hsp' hw ?_, second_zero fun v i q hv => ?_⟩
      · rcases hj with h | h
        · exact Or.inl h
        · right; omega
      · rw [ones_deriv hC.fitsb]
        obtain ⟨a, ha⟩ := cover_product hC (hdrop v hv) (i := i) (by rw [merged_empty (hdrop v hv) hw]; simp)
        exact dotForm_zero hs ha
    · refine ⟨_, hessArr_sparse (fun _ _ _ _ _ _ _ _ _ => by rw [hg, hg]) true sparseJHJ dot T hC.okL hC.ext hC.argShape hC.allShape
        hC.posb hC.ne (hnd.imp id fun ⟨a, h⟩ => ⟨_, List.mem_ofFn.mpr ⟨a, rfl⟩, h⟩) hsp' (by omega) hj fun v _ => hg _ _ _,
        second_full (t := fun v => termAt _ (List.ofFn args) extras
          (some (idxListAt true (List.ofFn args) b (v.drop j))) (List.replicate j 1 ++ b) v) fun v q hv hq => ?_⟩
      refine term_product (SameDerivs.rfl' args) hC.ok hC.fitsB hv hs junk extras hC.jac hC.jac (fun h => by cases h) (fun is e => ?_) hq
      have := idx_product hC (hdrop v hv) (by omega) hsp is e
      simpa only [ones_deriv hC.fitsb] using this

end

section
variable {n : ℕ} {args : Fin 2 → ArrTrip F × List ℕ} {b : List ℕ} (hC : HessCall n args [] b b)
  {s : List ℕ} (hs : ∀ a, skipShape (args a).1.x.shape (args a).2 = s) (hl : ∀ a, LastAxis (args a) b)

include hC hl in
/-- **The dot product rule on arrays is exact**, also when positions without common inputs are removed. -/
theorem second_dot {o : List ℕ} (junk : F) (sparseJHJ : Bool) (T : ℕ)
    (hmix : (∀ a, (args a).1.jac.idx = none) ∨ denseCall true T (List.ofFn args) b ∨ mergedWidth true (List.ofFn args) b = 0 ∨
      2 * (activeAt true (List.ofFn args) b).length > b.prod ∨ (1 ∉ b ∧ 2 ≤ (activeAt true (List.ofFn args) b).length)) :
    ∃ R, hessArr (productSlice s o junk) true sparseJHJ true T (List.ofFn args) [] (b ++ o) = some R ∧
      IsSecondOrder n args (fun _ d _ => dotForm hs d) b o R := by
  have hg := traced_product (F := F) s o junk
  have hax : ∀ a, (args a).2 = [(args a).1.x.shape.length - 1] := fun a => by rw [(hl a).ax, (hl a).rank]; rfl
  by_cases hd : (∀ a, (args a).1.jac.idx = none) ∨ (sparseJHJ = false ∧ denseCall true T (List.ofFn args) b)
  · exact product_dense hC hs junk sparseJHJ true T (Or.inr (Or.inr hax)) hd
  · push Not at hd
    have hsp := hd.1
    have hsp' : ∃ a ∈ List.ofFn args, a.1.jac.idx ≠ none := by
      obtain ⟨a, h⟩ := hsp
      exact ⟨_, List.mem_ofFn.mpr ⟨a, rfl⟩, h⟩
    have hj : sparseJHJ = true ∨ (mergedWidth true (List.ofFn args) b < maxSizeArr (List.ofFn args) ∧ mergedWidth true (List.ofFn args) b ≤ T) := by
      cases hs : sparseJHJ with
      | true => exact Or.inl rfl
      | false =>
        right
        have := hd.2 hs
        unfold denseCall at this
        push Not at this
        exact ⟨this.1, this.2⟩
    by_cases hw : mergedWidth true (List.ofFn args) b = 0
    · refine ⟨_, hessArr_empty true sparseJHJ true T hC.okL _ hC.ne hC.argShape hsp' hw ?_, second_zero fun v i q hv => ?_⟩
      · rcases hj with h | h
        · exact Or.inl h
        · right; omega
      · obtain ⟨a, ha⟩ := cover_product hC hv (i := i) (by rw [merged_empty hv hw]; simp)
        exact dotForm_zero hs ha
    have hterm : ∀ v q, InB v b → InB q o → (termAt (productSlice s o junk) (List.ofFn args) []
        (some (idxListAt true (List.ofFn args) b v)) b v).get q = ∑ i ∈ Finset.range n, dotForm hs (derivAt args b v i) := by
      intro v q hv hq
      exact term_product (SameDerivs.rfl' args) hC.ok hC.fitsB hv hs junk [] hC.jac hC.jac (fun h => by cases h)
        (idx_product hC hv (by omega) hsp) hq
    by_cases hr : denseCall true T (List.ofFn args) b ∨ 2 * (activeAt true (List.ofFn args) b).length > b.prod
    · exact ⟨_, hessArr_dot_all (fun _ _ _ _ _ _ _ _ _ => by rw [hg, hg]) true sparseJHJ T hC.argShape hC.posb hC.ne hsp' (by omega)
        hC.okL (mem_ofFn'.mpr hax) hj hr fun v _ => hg _ _ _, second_full (t := fun v => termAt _ (List.ofFn args) []
          (some (idxListAt true (List.ofFn args) b v)) b v) hterm⟩
    · push Not at hr
      obtain ⟨h1, hn⟩ : 1 ∉ b ∧ 2 ≤ (activeAt true (List.ofFn args) b).length := by
        rcases hmix with h | h | h | h | h
        · obtain ⟨a, ha⟩ := hsp
          exact absurd (h a) ha
        · exact absurd h hr.1
        · exact absurd h hw
        · omega
        · exact h
      have hnd : ¬ (mergedWidth true (List.ofFn args) b ≥ maxSizeArr (List.ofFn args) ∨ mergedWidth true (List.ofFn args) b > T) := hr.1
      refine ⟨_, hessArr_dot_removed (fun _ _ _ _ _ _ _ _ _ => by rw [hg, hg]) true sparseJHJ T hC.argShape hC.posb hC.ne hsp' (by omega)
        (mem_ofFn'.mpr hl) h1 (by omega) hn (by omega) fun v _ => hg _ _ _, bcast_self _, fun v q hv hq => ?_⟩
      have hin : InB (v ++ q) (b ++ o) := List.rel_append hv hq
      rw [ND.shape_ofFn, Layout.bcoord_self hin, ND.get_ofFn _ hin, ← hv.length_eq, List.take_left, List.drop_left]
      by_cases he : (mergedAt true (List.ofFn args) b v).Nonempty
      · rw [if_pos he]; exact hterm v q hv hq
      · rw [if_neg he]
        symm
        refine Finset.sum_eq_zero fun i _ => ?_
        obtain ⟨a, ha⟩ := cover_product hC hv (i := i) (by rw [Finset.not_nonempty_iff_eq_empty.mp he]; simp)
        exact dotForm_zero hs ha

end

end Folx.Layout

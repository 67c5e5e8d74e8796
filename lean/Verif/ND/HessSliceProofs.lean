import Verif.ND.HessSlice
import Verif.ND.HessRaise
import Verif.ND.RuleSpecProofs
import Verif.Core.HessTotal

/-!
# The rules for one slice are exact
-/

namespace Folx.Layout
open Vmap Dot

variable {F : Type} [CommRing F] [Inhabited F] {k : ℕ}

theorem traced_general (ss : Fin k → List ℕ) (o : List ℕ) (c2r : Bool) (hess : SliceHess F fun a => (ss a).prod) (junk : F)
    (ts : List (ArrTrip F)) (es : List (ND F)) (i : Option (List ℤ)) : (generalSlice ss o c2r hess junk ts es i).shape = o := by
  unfold generalSlice
  split <;> rfl

theorem traced_product (s o : List ℕ) (junk : F)
    (ts : List (ArrTrip F)) (es : List (ND F)) (i : Option (List ℤ)) : (productSlice s o junk ts es i).shape = o := by
  unfold productSlice
  split <;> rfl

/-- The general rule computes the trace. -/
theorem general_trace (ss : Fin k → List ℕ) (o : List ℕ) (c2r : Bool) (hess : SliceHess F fun a => (ss a).prod) (junk : F) :
    TraceRule ss o hess (generalSlice ss o c2r hess junk) := by
  refine ⟨traced_general ss o c2r hess junk, fun ts es i rows hrows q hq => ?_⟩
  unfold generalSlice
  rw [hrows]
  dsimp only
  rw [ND.get_ofFn _ hq]
  split
  · split
    · exact viaHvp_eq _ _ _ q
    · exact viaHessian_eq _ _ _ q
  · exact viaTrace_eq _ _ _ q

/-- A rule that computes the trace. -/
theorem TraceRule.spec {ss : Fin k → List ℕ} {o : List ℕ} {hess : SliceHess F fun a => (ss a).prod} {g : SliceFn F} (hg : TraceRule ss o hess g)
    (ts : List (ArrTrip F)) (es : List (ND F)) (idx : Option (List ℤ)) (n : ℕ)
    (hwf : ∀ a : Fin k, ((tripAt ts a).jac.rep (ss a)).Wf n)
    (hidx : IdxOk (fun a : Fin k => (tripAt ts a).jac.rep (ss a)) idx)
    (hnone : idx = none → ∀ a : Fin k, ((tripAt ts a).jac.rep (ss a)).weak = false) {q : List ℕ} (hq : InB q o) :
    (g ts es idx).get q =
      ∑ i ∈ Finset.range n, hess es (fun a c => (tripAt ts a).x.get (unravelIdx (ss a) c))
        (denAt (fun a : Fin k => (tripAt ts a).jac.rep (ss a)) i) (denAt (fun a : Fin k => (tripAt ts a).jac.rep (ss a)) i) q := by
  obtain ⟨rows, hrows⟩ := reducedJacobians_total _ idx hnone
  rw [hg.value ts es idx rows hrows q hq]
  exact reduced_sum n _ hwf idx hidx rows hrows (fun g => hess es (fun a c => (tripAt ts a).x.get (unravelIdx (ss a) c)) g g q) (by simp)

/-- The product rule. -/
theorem productSlice_spec (s o : List ℕ) (junk : F) (ts : List (ArrTrip F)) (es : List (ND F)) (idx : Option (List ℤ)) (n : ℕ)
    (hwf : ∀ a : Fin 2, ((tripAt ts a).jac.rep s).Wf n)
    (hnone : idx = none → ∀ a : Fin 2, ((tripAt ts a).jac.rep s).weak = false)
    (hsome : ∀ is, idx = some is → is ≠ [] ∧ (is.filter fun z => 0 ≤ z).Nodup ∧
      (∃ a : Fin 2, ((tripAt ts a).jac.rep s).weak = true) ∧
      (∀ a : Fin 2, ((tripAt ts a).jac.rep s).weak = false → ∀ z ∈ is, 0 ≤ z → z < ((tripAt ts a).jac.rep s).nrows) ∧
      ∀ i : ℕ, (i : ℤ) ∉ is → ∃ a : Fin 2, ∀ c, ((tripAt ts a).jac.rep s).den i c = 0) {q : List ℕ} (hq : InB q o) :
    (productSlice s o junk ts es idx).get q = ∑ i ∈ Finset.range n, 2 * ∑ c : Fin s.prod,
      ((tripAt ts 0).jac.rep s).den i c * ((tripAt ts 1).jac.rep s).den i c := by
  obtain ⟨rows, hrows⟩ := reducedJacobians_total _ idx hnone
  unfold productSlice
  rw [hrows]
  dsimp only
  rw [ND.get_ofFn _ hq, ← Finset.mul_sum]
  congr 1
  have hφ : ∀ (g : (a : Fin 2) → Fin s.prod → F) a, g a = 0 → ∑ c, g 0 c * g 1 c = 0 := by
    intro g a hg
    apply Finset.sum_eq_zero
    intro c _
    have : a = 0 ∨ a = 1 := by omega
    rcases this with rfl | rfl
    · rw [hg]; simp
    · rw [hg]; simp
  cases hidx : idx with
  | none =>
    subst hidx
    exact reduced_sum n _ hwf none trivial rows hrows (fun g : (a : Fin 2) → Fin s.prod → F => ∑ c, g 0 c * g 1 c) (hφ 0 0 rfl)
  | some is =>
    subst hidx
    obtain ⟨h1, h2, h3, h4, h5⟩ := hsome is rfl
    exact inter_sum n _ hwf is h1 h2 h3 h4 rows hrows (fun g : (a : Fin 2) → Fin s.prod → F => ∑ c, g 0 c * g 1 c) hφ fun i hi => by
      obtain ⟨a, ha⟩ := h5 i hi
      exact hφ _ a (funext ha)

/-! ### Slices of Jacobians -/

section
variable {a : ArrTrip F × List ℕ} {b v : List ℕ} (hok : TripOk a) (hf : Fits a.1.x.shape a.2 b) (hv : InB v b)

theorem slice_get {α : Type} [Inhabited α] {x : ND α} {K : ℕ} {s ax c : List ℕ} (hx : x.shape = K :: s) {r : ℕ} (hr : r < K)
    (hc : InB c (skipShape s ax)) : (bslice x (jacAx ax) b v).get (r :: c) = x.get (r :: bindex s ax b v c) := by
  unfold bslice
  rw [ND.get_ofFn _ (by rw [hx, skipShape_jac]; exact List.Forall₂.cons hr hc), hx, bindex_jac]

theorem slice_shape {α : Type} [Inhabited α] {x : ND α} {K : ℕ} {s ax : List ℕ} (hx : x.shape = K :: s) :
    (bslice x (jacAx ax) b v).shape = K :: skipShape s ax := by
  unfold bslice
  rw [ND.shape_ofFn, hx, skipShape_jac]

include hok in
theorem slice_entry {c : List ℕ} (hc : InB c (skipShape a.1.x.shape a.2)) (i : ℕ) :
    (sliceAt b v a).jac.entry i c = a.1.jac.entry i (bindex a.1.x.shape a.2 b v c) := by
  have hs : (sliceAt b v a).jac.data.shape = a.1.jac.data.shape.getD 0 0 :: skipShape a.1.x.shape a.2 := slice_shape hok.data
  unfold ArrJac.entry
  rw [hs]
  cases hm : a.1.jac.idx with
  | none =>
    have : (sliceAt b v a).jac.idx = none := by unfold sliceAt; rw [hm]; rfl
    rw [this]
    dsimp only
    show (if i < a.1.jac.data.shape.getD 0 0 then _ else _) = _
    split
    · rename_i hi
      exact slice_get hok.data hi hc
    · rfl
  | some m =>
    have : (sliceAt b v a).jac.idx = some (bslice m (jacAx a.2) b v) := by unfold sliceAt; rw [hm]; rfl
    rw [this]
    dsimp only
    congr 1
    refine List.map_congr_left fun r hr => ?_
    have hr : r < a.1.jac.data.shape.getD 0 0 := by simpa using hr
    have e1 : (bslice m (jacAx a.2) b v).get (r :: c) = m.get (r :: bindex a.1.x.shape a.2 b v c) :=
      slice_get ((hok.idx m hm).trans hok.data) hr hc
    have e2 : (sliceAt b v a).jac.data.get (r :: c) = a.1.jac.data.get (r :: bindex a.1.x.shape a.2 b v c) :=
      slice_get hok.data hr hc
    rw [e1, e2]

include hok hf hv in
theorem slice_for {n : ℕ} (h : a.1.jac.For n a.1.x.shape) : (sliceAt b v a).jac.For n (skipShape a.1.x.shape a.2) := by
  have hs : (sliceAt b v a).jac.data.shape = a.1.jac.data.shape.getD 0 0 :: skipShape a.1.x.shape a.2 := slice_shape hok.data
  refine ⟨⟨_, hs⟩, ?_⟩
  cases hm : a.1.jac.idx with
  | none =>
    have : (sliceAt b v a).jac.idx = none := by unfold sliceAt; rw [hm]; rfl
    rw [this, hs]
    have := h.2
    rw [hm] at this
    exact this
  | some m =>
    have : (sliceAt b v a).jac.idx = some (bslice m (jacAx a.2) b v) := by unfold sliceAt; rw [hm]; rfl
    rw [this, hs]
    dsimp only
    have hms := (hok.idx m hm).trans hok.data
    refine ⟨slice_shape hms, fun r c hr hc => ?_⟩
    have e2 : (sliceAt b v a).jac.data.get (r :: c) = a.1.jac.data.get (r :: bindex a.1.x.shape a.2 b v c) :=
      slice_get hok.data hr hc
    have := h.2
    rw [hm] at this
    have := this.2 r _ hr (bindex_inB hf.valid hf.len hf.al hv hc)
    rw [slice_get hms hr hc, e2]
    exact this

include hok in
theorem slice_rep_den {s : List ℕ} (hs : skipShape a.1.x.shape a.2 = s) (i : ℕ) (c : Fin s.prod) :
    ((sliceAt b v a).jac.rep s).den i c = a.1.jac.entry i (bindex a.1.x.shape a.2 b v (unravelIdx s c)) := by
  subst hs
  rw [ArrJac.rep_den, slice_entry hok (inB_unravelIdx c.2)]

include hok hf hv in
theorem slice_rep_wf {s : List ℕ} (hs : skipShape a.1.x.shape a.2 = s) {n : ℕ} (h : a.1.jac.For n a.1.x.shape) :
    ((sliceAt b v a).jac.rep s).Wf n := by
  subst hs
  have hs : (sliceAt b v a).jac.data.shape = a.1.jac.data.shape.getD 0 0 :: skipShape a.1.x.shape a.2 := slice_shape hok.data
  refine (ArrJac.rep_wf hs ?_).mpr (slice_for hok hf hv h)
  intro m hm
  unfold sliceAt at hm ⊢
  cases hi : a.1.jac.idx with
  | none => rw [hi] at hm; cases hm
  | some m' =>
    rw [hi] at hm
    cases hm
    dsimp only
    rw [slice_shape ((hok.idx m' hi).trans hok.data), slice_shape hok.data]

theorem slice_weak (s : List ℕ) : ((sliceAt b v a).jac.rep s).weak = a.1.jac.idx.isSome := by
  unfold ArrJac.rep sliceAt
  cases hi : a.1.jac.idx <;> rfl

include hok in
theorem slice_nrows (s : List ℕ) : ((sliceAt b v a).jac.rep s).nrows = a.1.jac.data.shape.getD 0 0 := by
  have hs : (sliceAt b v a).jac.data.shape = a.1.jac.data.shape.getD 0 0 :: skipShape a.1.x.shape a.2 := slice_shape hok.data
  unfold ArrJac.rep
  rw [hs]
  cases (sliceAt b v a).jac.idx <;> simp [Jac.nrows]

theorem slice_x {c : List ℕ} (hc : InB c (skipShape a.1.x.shape a.2)) :
    (sliceAt b v a).x.get c = a.1.x.get (bindex a.1.x.shape a.2 b v c) := ND.get_ofFn _ hc

include hok hf hv in
/-- The inputs on which a slice depends are among its indices. -/
theorem entry_deps {c : List ℕ} (hc : InB c (skipShape a.1.x.shape a.2)) {i : ℕ}
    (h : a.1.jac.entry i (bindex a.1.x.shape a.2 b v c) ≠ 0) : (i : ℤ) ∈ depsAt b v a := by
  unfold depsAt
  rw [Finset.mem_filter, List.mem_toFinset]
  refine ⟨?_, by simp⟩
  unfold ArrJac.entry at h
  rw [mem_bslice]
  cases hm : a.1.jac.idx with
  | none =>
    rw [hm] at h
    dsimp only at h
    split at h
    · rename_i hi
      have hms : a.1.jac.mask.shape = a.1.jac.data.shape.getD 0 0 :: a.1.x.shape := by
        unfold ArrJac.mask
        rw [hm]
        dsimp only
        rw [ND.shape_ofFn]
        exact hok.data
      refine ⟨i :: c, by rw [hms, skipShape_jac]; exact List.Forall₂.cons hi hc, ?_⟩
      rw [hms, bindex_jac]
      have hin : InB (i :: bindex a.1.x.shape a.2 b v c) a.1.jac.data.shape := by
        rw [hok.data]; exact List.Forall₂.cons hi (bindex_inB hf.valid hf.len hf.al hv hc)
      unfold ArrJac.mask
      rw [hm]
      dsimp only
      rw [ND.get_ofFn _ hin]
      rfl
    · exact absurd rfl h
  | some m =>
    rw [hm] at h
    dsimp only at h
    have hms : a.1.jac.mask = m := by unfold ArrJac.mask; rw [hm]
    rw [hms]
    have hsh := (hok.idx m hm).trans hok.data
    by_contra hc'
    apply h
    apply List.sum_eq_zero
    intro x hx
    obtain ⟨r, hr, rfl⟩ := List.mem_map.mp hx
    have hr : r < a.1.jac.data.shape.getD 0 0 := by simpa using hr
    rw [if_neg]
    intro e
    apply hc'
    refine ⟨r :: c, ?_, ?_⟩
    · rw [hsh, skipShape_jac]; exact List.Forall₂.cons hr hc
    · rw [hsh, bindex_jac, e]

include hok hf hv in
/-- The indices of a dense argument are rows it has. -/
theorem deps_dense (hm : a.1.jac.idx = none) {z : ℤ} (hz : z ∈ depsAt b v a) : z < (a.1.jac.data.shape.getD 0 0 : ℕ) := by
  unfold depsAt at hz
  rw [Finset.mem_filter, List.mem_toFinset, mem_bslice] at hz
  obtain ⟨⟨c, hc, rfl⟩, _⟩ := hz
  have hms : a.1.jac.mask.shape = a.1.jac.data.shape.getD 0 0 :: a.1.x.shape := by
    unfold ArrJac.mask
    rw [hm]
    dsimp only
    rw [ND.shape_ofFn]
    exact hok.data
  rw [hms, skipShape_jac] at hc
  obtain ⟨r, c, rfl, hr, hc⟩ := hc.cons_right
  rw [hms, bindex_jac]
  have hin : InB (r :: bindex a.1.x.shape a.2 b v c) a.1.jac.data.shape := by
    rw [hok.data]; exact List.Forall₂.cons hr (bindex_inB hf.valid hf.len hf.al hv hc)
  unfold ArrJac.mask
  rw [hm]
  dsimp only
  rw [ND.get_ofFn _ hin]
  exact_mod_cast hr

end

/-! ### The index lists -/

section
variable {inter : Bool} {args : List (ArrTrip F × List ℕ)} {b v : List ℕ}

theorem mem_foldr_deps {args : List (ArrTrip F × List ℕ)} {z : ℤ} :
    z ∈ (args.map (depsAt b v)).foldr (· ∪ ·) ∅ ↔ ∃ a ∈ args, z ∈ depsAt b v a := by
  induction args with
  | nil => simp
  | cons a as ih => rw [List.map_cons, List.foldr_cons, Finset.mem_union, ih]; simp

theorem mem_merged_false {z : ℤ} : z ∈ mergedAt false args b v ↔ ∃ a ∈ args, z ∈ depsAt b v a := by
  unfold mergedAt
  rw [Finset.mem_filter, mem_foldr_deps]
  simp

theorem mem_merged_true (hne : args ≠ []) {z : ℤ} : z ∈ mergedAt true args b v ↔ ∀ a ∈ args, z ∈ depsAt b v a := by
  unfold mergedAt
  rw [Finset.mem_filter, mem_foldr_deps]
  obtain ⟨a, as, rfl⟩ := List.exists_cons_of_ne_nil hne
  exact ⟨fun h => h.2 rfl, fun h => ⟨⟨a, by simp, h a (by simp)⟩, fun _ => h⟩⟩

theorem mem_idxList {z : ℤ} : (z ∈ idxListAt inter args b v ∧ 0 ≤ z) ↔ z ∈ mergedAt inter args b v := by
  unfold idxListAt
  simp only [List.mem_append, Finset.mem_sort, List.mem_replicate]
  constructor
  · rintro ⟨h | ⟨_, rfl⟩, h0⟩
    · exact h
    · omega
  · intro h; exact ⟨Or.inl h, mergedAt_nonneg h⟩

theorem idxList_nodup : ((idxListAt inter args b v).filter fun z => 0 ≤ z).Nodup := by
  unfold idxListAt
  rw [List.filter_append]
  have : (List.replicate (mergedWidth inter args b - (mergedAt inter args b v).card) (-1 : ℤ)).filter
      (fun z => decide (0 ≤ z)) = [] := by
    rw [List.filter_eq_nil_iff]
    intro z hz
    rw [(List.mem_replicate.mp hz).2]
    simp
  rw [this, List.append_nil]
  exact (Finset.sort_nodup _ _).filter _

theorem idxList_ne_nil (hv : InB v b) (hw : 0 < mergedWidth inter args b) : idxListAt inter args b v ≠ [] := by
  intro h
  have := idxListAt_length inter args hv
  rw [h] at this
  simp at this
  omega

theorem merged_empty (hv : InB v b) (hw : mergedWidth inter args b = 0) : mergedAt inter args b v = ∅ := by
  have : (mergedAt inter args b v).card ≤ mergedWidth inter args b :=
    foldr_max_le (List.mem_map.mpr ⟨v, mem_allIdx.mpr hv, rfl⟩)
  rw [hw] at this
  exact Finset.card_eq_zero.mp (by omega)

end

/-! ### Axes of size 1 in front -/

theorem bindex_ones {s ax b v c : List ℕ} {j : ℕ} (hs : s.length - ax.length ≤ b.length) :
    bindex s ax (List.replicate j 1 ++ b) v c = bindex s ax b (v.drop j) c := by
  rw [bindex_eq, bindex_eq, List.drop_drop]
  congr 2
  rw [List.length_append, List.length_replicate]
  omega

theorem fits_len {s ax b : List ℕ} (h : Fits s ax b) : s.length - ax.length ≤ b.length := by
  have := h.len
  rw [removeAxes_eq, falses_length h.valid] at this
  exact this

theorem bslice_ones {α : Type} [Inhabited α] (x : ND α) {ax b v : List ℕ} {j : ℕ} (hs : x.shape.length - ax.length ≤ b.length) :
    bslice x ax (List.replicate j 1 ++ b) v = bslice x ax b (v.drop j) := by
  unfold bslice
  congr 1
  funext c
  rw [bindex_ones hs]

theorem sliceAt_ones {a : ArrTrip F × List ℕ} (hok : TripOk a) {b v : List ℕ} {j : ℕ} (hf : Fits a.1.x.shape a.2 b) :
    sliceAt (List.replicate j 1 ++ b) v a = sliceAt b (v.drop j) a := by
  have hl := fits_len hf
  have hj : ∀ {α : Type} (y : ND α), y.shape = a.1.jac.data.shape → y.shape.length - (jacAx a.2).length ≤ b.length := by
    intro α y hy
    rw [hy, hok.data]
    unfold jacAx
    simp
    omega
  unfold sliceAt
  rw [bslice_ones _ hl, bslice_ones _ (hj _ rfl), bslice_ones _ (by rw [hok.lapl]; exact hl)]
  cases hm : a.1.jac.idx with
  | none => rfl
  | some m =>
    rw [Option.map_some, Option.map_some, bslice_ones _ (hj _ (hok.idx m hm))]

theorem elemAt_ones {a : ArrTrip F × List ℕ} {b v : List ℕ} {j : ℕ} (hf : Fits a.1.x.shape a.2 b) (c : ℕ) :
    elemAt (List.replicate j 1 ++ b) v a c = elemAt b (v.drop j) a c := bindex_ones (fits_len hf)

/-! ### Dense copies -/

theorem DenseOf.ok {a a' : ArrTrip F × List ℕ} (h : DenseOf a a') (hok : TripOk a) : TripOk a' := by
  cases hm : a.1.jac.idx with
  | none => rw [h.keep hm]; exact hok
  | some m =>
    obtain ⟨N, h1, _, _⟩ := h.rows m hm
    refine ⟨?_, fun m' h' => ?_, fun m' h' => ?_, ?_, ?_, ?_⟩
    · rw [h1, h.x]; rfl
    · rw [h.idx] at h'; cases h'
    · rw [h.idx] at h'; cases h'
    · rw [h.lapl, h.x]; exact hok.lapl
    · rw [h.ax]; exact hok.nodup
    · rw [h.ax, h.x]; exact hok.lt

theorem DenseOf.entry {a a' : ArrTrip F × List ℕ} (h : DenseOf a a') (hok : TripOk a) (i : ℕ) {p : List ℕ} (hp : InB p a.1.x.shape) :
    a'.1.jac.entry i p = a.1.jac.entry i p := by
  cases hm : a.1.jac.idx with
  | none => rw [h.keep hm]
  | some m =>
    obtain ⟨N, h1, h2, h3⟩ := h.rows m hm
    unfold ArrJac.entry
    rw [h.idx, hm, h1]
    dsimp only
    have hms : m.shape.getD 0 0 = a.1.jac.data.shape.getD 0 0 := by rw [hok.idx m hm]
    show (if i < N then _ else _) = _
    split
    · rename_i hi
      rw [h3 i p hi hp, hms]
    · rename_i hi
      symm
      apply List.sum_eq_zero
      intro x hx
      obtain ⟨r, hr, rfl⟩ := List.mem_map.mp hx
      rw [if_neg]
      intro e
      have := h2 r p (by rw [hms]; simpa using hr) hp
      omega

theorem entry_large {j : ArrJac F} {n : ℕ} {s : List ℕ} (h : j.For n s) {p : List ℕ} (hp : InB p s) {i : ℕ} (hi : n ≤ i) :
    j.entry i p = 0 := by
  obtain ⟨⟨K, hK⟩, h⟩ := h
  unfold ArrJac.entry
  cases hm : j.idx with
  | none =>
    rw [hm] at h
    dsimp only at h ⊢
    rw [if_neg (by omega)]
  | some m =>
    rw [hm] at h
    dsimp only at h ⊢
    apply List.sum_eq_zero
    intro x hx
    obtain ⟨r, hr, rfl⟩ := List.mem_map.mp hx
    rw [if_neg]
    intro e
    have := (h.2 r p (by simpa using hr) hp).1
    omega

end Folx.Layout

import Verif.ND.WrapMain

/-! # A wrapped function on arrays: axes, batches, first- and second-order terms by cases -/

namespace Folx.Layout
open Vmap Dot

/-- The derivative of a component that is a function of a linear image. -/
theorem deriv_comp {E E' F : Type} [NormedAddCommGroup E] [NormedSpace ℝ E] [NormedAddCommGroup E'] [NormedSpace ℝ E'] [NormedAddCommGroup F] [NormedSpace ℝ F] {m : ℕ}
    {f : E → Fin m → F} {D : E →L[ℝ] (Fin m → F)} {x : E} (hf : HasFDerivAt f D x) (S : E →L[ℝ] E') {w : Fin m}
    {ψ : E' → F} (hψ : ∀ y, f y w = ψ (S y)) {Dψ : E' →L[ℝ] F} (h2 : HasFDerivAt ψ Dψ (S x)) (t : E) : D t w = Dψ (S t) := by
  have h3 : HasFDerivAt (fun y => f y w) ((ContinuousLinearMap.proj w).comp D) x := (hasFDerivAt_pi'.mp hf) w
  have h4 : HasFDerivAt (fun y => f y w) (Dψ.comp S) x := by
    rw [show (fun y => f y w) = fun y => ψ (S y) from funext hψ]
    exact h2.comp x S.hasFDerivAt
  exact congrArg (fun L : E →L[ℝ] F => L t) (h3.unique h4)

theorem affine_exact {E F : Type} [NormedAddCommGroup E] [NormedSpace ℝ E] [NormedAddCommGroup F] [NormedSpace ℝ F] {f : E → F} {D H} {x : E}
    (h : HasFDeriv2At f D H x) (c : F) : HasFDeriv2At (fun y => f y + c) D H x := by
  obtain ⟨f', h1, h2, h3⟩ := h
  exact ⟨f', h1.mono fun y hy => hy.add_const c, h2, h3⟩

/-! ### The axes -/

theorem zipIdx_eq (s : List ℕ) : s.zipIdx = (List.range s.length).map fun i => (s.getD i 0, i) := by
  refine List.ext_getElem (by simp) fun i h1 h2 => ?_
  simp at h1
  simp [h1, List.getD_eq_getElem]

theorem other_eq_drop (s dims : List ℕ) : otherShape s dims = dropDims s dims := by
  unfold otherShape dropDims
  rw [zipIdx_eq, List.filter_map, List.map_map]
  rfl

theorem kept_count (dims : List ℕ) (n : ℕ) : ((List.range n).filter fun d => d ∉ dims).length = n - skipsBefore dims n := by
  induction n with
  | zero => rfl
  | succ n ih =>
    have := skipsBefore_le dims n
    rw [List.range_succ, List.filter_append, List.length_append, ih, skipsBefore_succ]
    by_cases h : n ∈ dims
    · simp [h]
    · simp [h]
      omega

theorem kept_mapIdx {β : Type} (g : ℕ → ℕ → β) (dims : List ℕ) (n : ℕ) :
    (((List.range n).filter fun d => d ∉ dims).map fun i => g i (i - skipsBefore dims i)) = ((List.range n).filter fun d => d ∉ dims).mapIdx fun j i => g i j := by
  induction n with
  | zero => rfl
  | succ n ih =>
    rw [List.range_succ, List.filter_append, List.map_append, ih, List.mapIdx_append]
    by_cases h : n ∈ dims
    · simp [h]
    · have := kept_count dims n
      simp [h] at this ⊢
      rw [this]

theorem kept_bindex {s dims b v c : List ℕ} (hl : (dropDims s dims).length = s.length - dims.length) :
    keptOf dims (bindex s dims b v c) = bcoord (dropDims s dims) b v := by
  have hlen : (bindex s dims b v c).length = s.length := by simp [bindex]
  unfold keptOf
  rw [hlen]
  have e1 : (((List.range s.length).filter fun d => d ∉ dims).map fun d => (bindex s dims b v c).getD d 0) =
      ((List.range s.length).filter fun d => d ∉ dims).map fun i => (fun i j => if s.getD i 0 = 1 then 0 else v.getD (b.length - (s.length - dims.length) + j) 0)
        i (i - skipsBefore dims i) := by
    refine List.map_congr_left fun i hi => ?_
    rw [List.mem_filter, List.mem_range, decide_eq_true_eq] at hi
    unfold bindex
    rw [List.getD_eq_getElem _ _ (by simpa using hi.1)]
    simp [hi.2]
  refine (e1.trans (kept_mapIdx (fun i j => if s.getD i 0 = 1 then 0 else v.getD (b.length - (s.length - dims.length) + j) 0) dims s.length)).trans ?_
  unfold bcoord
  refine List.ext_getElem (by simp [dropDims]) fun j h1 h2 => ?_
  rw [List.length_mapIdx] at h1
  have e2 : (dropDims s dims).getD j 0 = s.getD (((List.range s.length).filter fun d => d ∉ dims)[j]) 0 := by
    rw [List.getD_eq_getElem _ _ (by unfold dropDims; rw [List.length_map]; exact h1)]
    simp [dropDims]
  rw [List.getElem_mapIdx, List.getElem_map, List.getElem_range, e2, hl]

theorem axisOf_lt {n : ℕ} {i : ℤ} (h : -(n : ℤ) ≤ i ∧ i < n) : axisOf n i < n := by
  unfold axisOf
  split <;> omega

section
variable {X : Type} [NormedAddCommGroup X] [NormedSpace ℝ X] {F : Type} [RCLike F] [Inhabited F] {k : ℕ} {ss : Fin (k + 1) → List ℕ} {out : List ℕ}
variable {B : Base X} {T : ℕ} {A : ArrFn F ss out} {extras : List (ND F × List ℕ)} {b Bt : List ℕ}
  {args : Fin (k + 1) → ArrTrip F} {u : (a : Fin (k + 1)) → X → Fin (ss a).prod → F}
  {φ : List (ND F) → ((a : Fin (k + 1)) → Fin (A.inAxes.slice (ss a)).prod → F) → List ℕ → F}

theorem second_lt (hb : A.Batch extras b Bt) (a : Fin (k + 1)) : ∀ d ∈ A.inAxes.second (ss a).length, d < (ss a).length := by
  intro d hd
  cases h : A.inAxes with
  | unset kw =>
    rw [h] at hd
    exact List.mem_range.mp hd
  | axes l =>
    rw [h] at hd
    obtain ⟨i, hi, rfl⟩ := List.mem_map.mp hd
    exact axisOf_lt (hb.range l h a i hi)

theorem tripOk_of {n : ℕ} {s : List ℕ} {t : ArrTrip F} (h : ArgFor n s t) {ax : List ℕ} (h1 : ax.Nodup) (h2 : ∀ d ∈ ax, d < s.length) : TripOk (t, ax) := by
  obtain ⟨hx, hj, hl, -, -⟩ := h
  subst hx
  obtain ⟨⟨K, hK⟩, hj⟩ := hj
  refine ⟨by show t.jac.data.shape = _; rw [hK]; rfl, fun m hm => ?_, fun m hm => ?_, hl, h1, h2⟩
  · have hm' : t.jac.idx = some m := hm
    rw [hm'] at hj
    exact hj.1
  · have hm' : t.jac.idx = some m := hm
    rw [hm'] at hj
    obtain ⟨hs, hv⟩ := hj
    intro z hz
    obtain ⟨w, hw, rfl⟩ := mem_get m hz
    rw [hs, hK] at hw
    cases hw with
    | cons hk hp =>
      rename_i q p
      have := (hv q p (by rw [hK]; exact hk) hp).2
      by_contra hc
      have h3 := (this (by omega)).1
      omega

/-- The second-order rules can be called. -/
theorem hessCall_of (hrep : ∀ a, ArrRep B (ss a) (args a) (u a)) (hb : A.Batch extras b Bt) : HessCall B.n (A.trips args) extras b Bt := by
  have hx : ∀ a, (args a).x.shape = ss a := fun a => (hrep a).arg.x
  have e : ((List.ofFn (A.trips args)).map fun a => otherShape a.1.x.shape a.2) = List.ofFn fun a => otherShape (ss a) (A.inAxes.second (ss a).length) := by
    rw [List.map_ofFn]
    congr 1
    funext a
    show otherShape (args a).x.shape (A.inAxes.second (args a).x.shape.length) = _
    rw [hx]
  refine ⟨Nat.succ_pos k, fun a => ?_, fun a => ?_, fun a => ?_, fun a => (hrep a).arg.rows, hb.ext, hb.extSize, ?_, ?_⟩
  · refine tripOk_of (n := B.n) (s := ss a) (hrep a).arg ?_ ?_
    · show (A.inAxes.second (args a).x.shape.length).Nodup
      rw [hx]
      exact hb.nodup a
    · show ∀ d ∈ A.inAxes.second (args a).x.shape.length, _
      rw [hx]
      exact second_lt hb a
  · show (args a).jac.For B.n (args a).x.shape
    rw [hx]
    exact (hrep a).arg.jac
  · show 0 ∉ (args a).x.shape
    rw [hx]
    exact (hrep a).arg.size
  · rw [e]
    exact hb.argShape
  · rw [e]
    exact hb.allShape

theorem fits_batch (hb : A.Batch extras b Bt) (a : Fin (k + 1)) : Fits (ss a) (A.inAxes.second (ss a).length) Bt := by
  have hv : ValidSkip (ss a) (A.inAxes.second (ss a).length) := ⟨hb.nodup a, second_lt hb a⟩
  have hmem : otherShape (ss a) (A.inAxes.second (ss a).length) ∈ (List.ofFn fun a => otherShape (ss a) (A.inAxes.second (ss a).length)) ++
      extras.map fun e => otherShape e.1.shape e.2 := List.mem_append_left _ (List.mem_ofFn.mpr ⟨a, rfl⟩)
  exact ⟨hv, hb.allShape.rank_le _ hmem, (aligned_of_broadcasts hb.allShape hmem).2⟩

/-- The derivative at an element depends on the slices of the directions only. -/
theorem deriv_zero {x : (a : Fin (k + 1)) → Fin (ss a).prod → F} (hA : A.Computes extras Bt φ x) (hb : A.Batch extras b Bt) {v q : List ℕ} (hv : InB v Bt)
    (hq : InB q A.sliceOut) {t : (a : Fin (k + 1)) → Fin (ss a).prod → F}
    (ht : ∀ a c, sliceVec (ss a) (A.inAxes.second (ss a).length) Bt v (t a) c = 0) : (toND out (A.deriv x t)).get (v ++ q) = 0 := by
  obtain ⟨D, hD, hDt⟩ := hA.fst
  obtain ⟨Dφ, Hφ, h1, -⟩ := hA.snd v q hv hq
  have hin : InB (v ++ q) out := by rw [hA.shape]; exact inB_append hv hq
  rw [← hDt, toND_get _ _ hin]
  set w : Fin out.prod := ⟨ravelIdx out (v ++ q), ravelIdx_lt hin⟩ with hw
  have h6 := deriv_comp hD (sliceMap (fits_batch hb) hv) (w := w) (ψ := fun z => φ (extras.map fun e => bslice e.1 e.2 Bt v) z q) (fun y => by
    rw [sliceMap_apply, ← hA.value y v q hv hq, toND_get _ _ hin]) (Dψ := Dφ) (by
    rw [sliceMap_apply]
    exact h1.hasFDerivAt) t
  have h7 : sliceMap (fits_batch hb) hv t = 0 := by
    rw [sliceMap_apply]
    funext a c
    exact ht a c
  refine h6.trans ?_
  show Dφ (sliceMap (fits_batch hb) hv t) = 0
  rw [h7, map_zero]

/-- The axes of a function of slices are what the first-order rules assume, if the results of slices have one element or there is one slice. -/
theorem axes_ok {x : (a : Fin (k + 1)) → Fin (ss a).prod → F} (hA : A.Computes extras Bt φ x) (hb : A.Batch extras b Bt)
    (hax : A.inAxes = .unset none ∨ ((∃ l, A.inAxes = .axes l) ∧ (A.sliceOut = [] ∨ (Bt = [] ∧ A.inAxes ≠ .axes [])))) (sum : Bool) :
    AxesOk (A.inAxes.first sum) (A.deriv x) := by
  rcases hax with h | ⟨⟨l, h⟩, ho⟩
  · rw [h]
    exact trivial
  · have hfit := fits_batch hb
    have hsec : ∀ a, A.inAxes.second (ss a).length = l.map (axisOf (ss a).length) := fun a => by rw [h]; rfl
    have hmem : ∀ a, dropDims (ss a) (l.map (axisOf (ss a).length)) ∈ (List.ofFn fun a => otherShape (ss a) (A.inAxes.second (ss a).length)) ++
      extras.map fun e => otherShape e.1.shape e.2 := fun a => List.mem_append_left _ (List.mem_ofFn.mpr ⟨a, by rw [hsec, other_eq_drop]⟩)
    have hbc : ∀ a, Broadcasts [dropDims (ss a) (l.map (axisOf (ss a).length)), out] out := by
      intro a
      rcases ho with ho | ⟨ho, -⟩
      · have e : out = Bt := by rw [hA.shape, ho, List.append_nil]
        rw [e]
        exact ⟨fun s hs => by
            simp at hs
            rcases hs with rfl | rfl
            · exact hb.allShape.rank_le _ (hmem a)
            · exact le_rfl,
          Or.inr ⟨Bt, by simp, rfl⟩, fun s hs j => by
            simp at hs
            rcases hs with rfl | rfl
            · exact hb.allShape.compat _ (hmem a) j
            · exact Or.inr rfl, fun j => Or.inr ⟨Bt, by simp, rfl⟩⟩
      · have := hb.allShape.rank_le _ (hmem a)
        rw [ho] at this
        rw [List.eq_nil_of_length_eq_zero (Nat.le_zero.mp this)]
        exact bcast_nil _
    have hlen : ∀ a, (dropDims (ss a) (l.map (axisOf (ss a).length))).length = (ss a).length - (l.map (axisOf (ss a).length)).length := by
      intro a
      have h1 : ValidSkip (ss a) (l.map (axisOf (ss a).length)) := by rw [← hsec a]; exact (hfit a).valid
      rw [← other_eq_drop, ← falses_length h1, ← removeAxes_eq]
      rfl
    -- elements of the result
    have hw : ∀ w, InB w out → ∃ v q, InB v Bt ∧ InB q A.sliceOut ∧ w = v ++ q := by
      intro w hw
      rw [hA.shape] at hw
      refine ⟨w.take Bt.length, w.drop Bt.length, ?_, ?_, (List.take_append_drop _ _).symm⟩
      · have := List.forall₂_take Bt.length hw
        rwa [List.take_left] at this
      · have := List.forall₂_drop Bt.length hw
        rwa [List.drop_left] at this
    have hkey : ∀ (t : (a : Fin (k + 1)) → Fin (ss a).prod → F) w, InB w out →
        (∀ a p, InB p (ss a) → keptOf (l.map (axisOf (ss a).length)) p = bcoord (dropDims (ss a) (l.map (axisOf (ss a).length))) out w → (toND (ss a) (t a)).get p = 0) →
        (toND out (A.deriv x t)).get w = 0 := by
      intro t w hw' ht
      obtain ⟨v, q, hv, hq, rfl⟩ := hw w hw'
      refine deriv_zero hA hb hv hq fun a c => ?_
      refine ht a _ (bindex_inB (hfit a).valid (hfit a).len (hfit a).al hv (inB_unravelIdx c.2)) ?_
      have hl := hlen a
      have hm := hmem a
      rw [← hsec a] at hl hm ⊢
      rw [kept_bindex hl]
      rcases ho with ho | ⟨ho, -⟩
      · have e : out = Bt := by rw [hA.shape, ho, List.append_nil]
        rw [ho] at hq
        cases hq
        rw [List.append_nil]
        exact congrArg (fun o => bcoord (dropDims (ss a) (A.inAxes.second (ss a).length)) o v) e.symm
      · have h1 := hb.allShape.rank_le _ hm
        rw [ho] at h1
        rw [List.eq_nil_of_length_eq_zero (Nat.le_zero.mp h1)]
        rfl
    cases l with
    | nil =>
      rw [h]
      refine ⟨fun a => ?_, fun t q hq ht => hkey t q hq fun a p hp hpq => ?_⟩
      · have := hbc a
        rwa [List.map_nil, dropDims_nil] at this
      · rw [List.map_nil, dropDims_nil, keptOf_nil] at hpq
        rw [toND_get _ _ hp]
        refine ht a _ ?_
        rw [← hpq]
        exact unravelIdx_ravelIdx hp
    | cons i l =>
      rw [h]
      refine fun a => ⟨hb.range _ h a, by rw [← hsec a]; exact hb.nodup a, hbc a, fun t q hq ht => hkey _ q hq fun a' p hp hpq => ?_⟩
      by_cases e : a' = a
      · subst e
        rw [Pi.single_eq_same]
        exact ht p hp hpq
      · rw [Pi.single_eq_of_ne e, toND_get _ _ hp]
        rfl

/-- The first-order rules return and are exact, unless a reduced sparse argument does not depend on anything. -/
theorem first_total (T : ℕ) {n : ℕ} (hn : 0 < n) (h0 : 0 ∉ out) (index join : Bool) {ax : AxesKind} {D : Deriv F ss out} {ifwd : Option ((Fin (k + 1) → ND ℤ) → ND ℤ)}
    (hargs : ∀ a, ArgFor n (ss a) (args a)) (hax : AxesOk ax D) (hf : index = true → ∀ f, ifwd = some f → Indexing D f)
    (hcase : (∀ a, (args a).jac.idx = none) ∨ ((∀ a, (args a).jac.idx ≠ none) ∧ (index = true ∨ ax.ew = true ∨ k = 0)) ∨
      ((args 0).jac.idx = none ∨ ∃ h : 1 < k + 1, (args ⟨1, h⟩).jac.idx = none)) :
    (jvpArr T index join ax D ifwd args = none ↔ (∃ a, NoDeps ax (ss a) (args a).jac) ∧ ¬ (index = true ∧ ∀ a, (args a).jac.idx ≠ none)) ∧
    ∀ r, jvpArr T index join ax D ifwd args = some r → IsPush n D args r := by
  have hret : ∀ r, jvpArr T index join ax D ifwd args = some r → IsPush n D args r := C57_sound T hn h0 index join hargs hax hf (by tauto)
  refine ⟨?_, hret⟩
  by_cases hd : ∀ a, (args a).jac.idx = none
  · obtain ⟨r, h1, -⟩ := C57_dense T hn index join (ifwd := ifwd) hargs hax hd
    rw [h1]
    refine iff_of_false (by simp) fun ⟨⟨a, dims, m, _, h3, _⟩, _⟩ => ?_
    rw [hd a] at h3
    simp at h3
  · by_cases hp : (args 0).jac.idx = none ∨ ∃ h : 1 < k + 1, (args ⟨1, h⟩).jac.idx = none
    · have hs : ∃ a, (args a).jac.idx ≠ none := by
        by_contra h
        exact hd fun a => by
          by_contra h'
          exact h ⟨a, h'⟩
      rw [(C57_mixed T hn h0 index join (ifwd := ifwd) hargs hax hs hp).1]
      refine ⟨fun h => ⟨h, fun h' => ?_⟩, fun h => h.1⟩
      rcases hp with h1 | ⟨h2, h1⟩
      · exact h'.2 0 h1
      · exact h'.2 _ h1
    · obtain ⟨hs, hc⟩ := (hcase.resolve_left hd).resolve_right hp
      cases index with
      | true =>
        obtain ⟨r, h1, -⟩ := C57_index T hn join (ifwd := ifwd) hargs hax (hf rfl) hs
        rw [h1]
        exact iff_of_false (by simp) fun h => h.2 ⟨rfl, hs⟩
      | false =>
        by_cases hew : ax.ew = true
        · cases ax <;> simp [AxesKind.ew] at hew
          obtain ⟨r, h1, -⟩ := C57_elementwise T join (ifwd := ifwd) hargs hax hs
          rw [h1]
          refine iff_of_false (by simp) fun ⟨⟨a, dims, m, h3, _⟩, _⟩ => ?_
          simp [reducedAxes] at h3
        · obtain rfl : k = 0 := (hc.resolve_left (by simp)).resolve_left hew
          rw [(C57_single T hn join (ifwd := ifwd) hargs hax hs).1]
          refine ⟨fun h => ⟨⟨0, h⟩, by simp⟩, fun ⟨⟨a, h⟩, _⟩ => ?_⟩
          obtain rfl : a = 0 := Subsingleton.elim (α := Fin 1) _ _
          exact h

/-- Functions that are affine near the point and whose second-order term is zero. -/
theorem wrapped_affine (hrep : ∀ a, ArrRep B (ss a) (args a) (u a)) (h0 : 0 ∉ out)
    {r : FirstOut F} (hr : jvpArr T (A.flags.has Flags.INDEXING) (A.flags.has Flags.JOIN_JVP) (A.inAxes.first (A.flags.has Flags.SUMMATION))
      (A.deriv fun a => u a B.x0) A.ifwd args = some r) (hp : IsPush B.n (A.deriv fun a => u a B.x0) args r)
    (hS : A.second T args extras = some (ND.ofFn [] fun _ => 0))
    (hfwd : ∃ c, ∀ᶠ y in nhds fun a => u a B.x0, A.fwd y = A.deriv (fun a => u a B.x0) y + c) :
    ∃ t, A.wrapped T args extras = some t ∧ ArrRep B out t fun x => A.fwd fun a => u a x := by
  obtain ⟨l, hl1, hl2, hl3⟩ := addB_spec (y := ND.ofFn [] fun _ => (0 : F)) hp.shape (bcast_nil out)
  have hval := valuesOf_eq hrep
  refine ⟨⟨toND out (A.fwd fun a => u a B.x0), r.1, l⟩, ?_, ⟨⟨rfl, hp.ok, hl2, hp.rows, h0⟩, fun p _ => rfl, ?_⟩⟩
  · unfold ArrFn.wrapped
    rw [hval, hr]
    show (A.second T args extras).bind _ = _
    rw [hS]
    show (addB r.2 _).bind _ = _
    rw [hl1]
    rfl
  · choose D H h1 h2 h3 using fun a => (hrep a).deriv
    obtain ⟨HU, hU, hHU⟩ := HasFDeriv2At.pi h1
    have hd : ∀ i : Fin B.n, derivsOf ss args i = fun a => D a (B.dir i) := by
      intro i
      funext a c
      unfold derivsOf
      rw [h2 a i _ (inB_unravelIdx c.2), toND_get _ _ (inB_unravelIdx c.2)]
      exact congrArg _ (Fin.ext (ravelIdx_unravelIdx c.2))
    have hlap : laplsOf ss args = ∑ i, HU (B.dir i) (B.dir i) := by
      funext a c
      unfold laplsOf
      rw [h3 a _ (inB_unravelIdx c.2), toND_get _ _ (inB_unravelIdx c.2), Finset.sum_apply, Finset.sum_apply, Finset.sum_apply]
      refine Finset.sum_congr rfl fun i _ => ?_
      rw [hHU]
      exact congrArg _ (Fin.ext (ravelIdx_unravelIdx c.2))
    obtain ⟨c, hc⟩ := hfwd
    set L : ((a : Fin (k + 1)) → Fin (ss a).prod → F) →L[ℝ] (Fin out.prod → F) :=
      (LinearMap.toContinuousLinearMap (A.deriv fun a => u a B.x0)).restrictScalars ℝ with hL
    have hLt : ∀ t, L t = A.deriv (fun a => u a B.x0) t := fun t => rfl
    obtain ⟨HH, k1, k2⟩ := HasFDeriv2At.clm_comp L hU
    have k3 : HasFDeriv2At (fun x => A.fwd fun a => u a x) (L.comp (ContinuousLinearMap.pi D)) HH B.x0 := by
      have hcont : ContinuousAt (fun x => fun a => u a x) B.x0 := hU.continuousAt
      refine HasFDeriv2At.of_eventuallyEq (affine_exact k1 c) ?_
      filter_upwards [hcont.eventually hc] with x hx
      exact hx
    refine ⟨_, HH, k3, fun i p hp' => ?_, fun p hp' => ?_⟩
    · show r.1.entry i p = _
      rw [hp.entry i p hp', hd i, ← hLt]
      rfl
    · show l.get p = _
      have hz : (ND.ofFn [] fun _ => (0 : F)).get (bcoord (ND.ofFn [] fun _ => (0 : F)).shape out p) = 0 := ND.get_ofFn _ List.Forall₂.nil
      rw [hl3 p hp', hp.lapl p hp', hz, add_zero, hlap, ← hLt, map_sum]
      congr 2
      refine Finset.sum_congr rfl fun i _ => ?_
      rw [k2]

end

end Folx.Layout

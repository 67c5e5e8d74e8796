import Verif.ND.FirstOne

/-!
# Reductions of several sparse arguments
-/

namespace Folx.Layout
open Vmap Dot

variable {F : Type} [CommRing F] [Inhabited F] {k : ℕ} {ss : Fin (k + 1) → List ℕ} {o : List ℕ} {n : ℕ}

theorem bcoord_surj {s o u : List ℕ} (hb : Broadcasts [s, o] o) (h0 : 0 ∉ o) (hu : InB u s) : ∃ q, InB q o ∧ bcoord s o q = u := by
  obtain ⟨hl, hal⟩ := aligned_of_broadcasts hb (s := s) (by simp)
  have hg := aligned_getD hl hal
  have hlu := hu.length_eq
  have hug : ∀ i < s.length, u.getD i 0 < s.getD i 0 := by
    intro i hi
    have := (List.forall₂_iff_get.mp hu).2 i (by omega) hi
    rw [List.getD_eq_getElem _ _ hi, List.getD_eq_getElem _ _ (by omega)]
    simpa using this
  have hq : ∀ i, (List.replicate (o.length - s.length) 0 ++ u).getD (o.length - s.length + i) 0 = u.getD i 0 := by
    intro i
    rw [List.getD_append_right _ _ _ _ (by simp)]
    simp
  refine ⟨List.replicate (o.length - s.length) 0 ++ u, inB_of_getD (by simp; omega) fun i hi => ?_, ?_⟩
  · have hpos : 0 < o.getD i 0 := by
      refine Nat.pos_of_ne_zero fun e => h0 ?_
      rw [List.getD_eq_getElem _ _ hi] at e
      exact e ▸ List.getElem_mem _
    by_cases h : i < o.length - s.length
    · rw [List.getD_append _ _ _ _ (by simpa using h), List.getD_eq_getElem _ _ (by simpa using h), List.getElem_replicate]
      exact hpos
    · obtain ⟨j, rfl⟩ : ∃ j, i = o.length - s.length + j := ⟨i - (o.length - s.length), by omega⟩
      rw [hq]
      have := hug j (by omega)
      rcases hg j (by omega) with h1 | h1
      · omega
      · omega
  · unfold bcoord
    conv_rhs => rw [← map_range_getD u, hlu]
    refine List.map_congr_left fun i hi => ?_
    have hi : i < s.length := List.mem_range.mp hi
    rw [hq]
    split
    · have := hug i hi
      omega
    · rfl

theorem widest_eq {m : ND ℤ} {s dims : List ℕ} {N : ℕ} (h1 : ∀ u, InB u (dropDims s dims) → (depsOf m s dims u).card ≤ N)
    (h2 : ∃ u, InB u (dropDims s dims) ∧ (depsOf m s dims u).card = N) : widest m s dims = N := by
  obtain ⟨u, hu, h2⟩ := h2
  refine le_antisymm (foldr_max_le' fun a ha => ?_) ?_
  · obtain ⟨v, hv, rfl⟩ := List.mem_map.mp ha
    exact h1 v (mem_allIdx.mp hv)
  · rw [← h2]
    exact foldr_max_le (List.mem_map.mpr ⟨u, mem_allIdx.mpr hu, rfl⟩)

theorem widest_eq_zero {m : ND ℤ} {s dims : List ℕ} : widest m s dims = 0 ↔ ∀ u, InB u (dropDims s dims) → depsOf m s dims u = ∅ := by
  constructor
  · intro h u hu
    have : (depsOf m s dims u).card ≤ widest m s dims := foldr_max_le (List.mem_map.mpr ⟨u, mem_allIdx.mpr hu, rfl⟩)
    rw [h] at this
    exact Finset.card_eq_zero.mp (by omega)
  · intro h
    refine Nat.le_zero.mp (foldr_max_le' fun a ha => ?_)
    obtain ⟨v, hv, rfl⟩ := List.mem_map.mp ha
    rw [h v (mem_allIdx.mp hv)]
    simp

/-- A sparse Jacobian with one row, or with two different indices at some element. -/
def NonConst (o : List ℕ) (j : ArrJac F) : Prop :=
  ∀ m, j.idx = some m → hd m = 1 ∨ ∃ p r r', InB p o ∧ r < hd m ∧ r' < hd m ∧ m.get (r :: p) ≠ m.get (r' :: p)

omit [CommRing F] [Inhabited F] in
theorem not_clash {j j' : ArrJac F} (h : NonConst o j) (h' : NonConst o j') : ¬ AddClash o j j' := by
  rintro ⟨m, m', hm, hm', hne, ⟨h1, h2⟩ | ⟨h1, h2⟩⟩
  · rcases h' m' hm' with h3 | ⟨p, r, r', hp, hr, hr', hd⟩
    · exact hne (h1.trans h3.symm)
    · exact hd ((h2 r p hr hp).trans (h2 r' p hr' hp).symm)
  · rcases h m hm with h3 | ⟨p, r, r', hp, hr, hr', hd⟩
    · exact hne (h3.trans h1.symm)
    · exact hd ((h2 r p hr hp).symm.trans (h2 r' p hr' hp))

theorem nonConst_add {j j' : ArrJac F} (hj : JacOk n o j) (hj' : JacOk n o j') (h : NonConst o j) (h' : NonConst o j') {r : ArrJac F} (hr : addJacArr j j' = some r) :
    NonConst o r := by
  intro mr hmr
  unfold addJacArr at hr
  split at hr
  · simp at hr
  · rename_i htail
    cases hi : j.idx with
    | none =>
      rw [hi] at hr
      unfold addDense at hr
      simp only [Option.bind_eq_bind, Option.bind_eq_some_iff, Option.pure_def, Option.some.injEq] at hr
      obtain ⟨_, -, _, -, rfl⟩ := hr
      simp at hmr
    | some m =>
      cases hi' : j'.idx with
      | none =>
        rw [hi, hi'] at hr
        unfold addDense at hr
        simp only [Option.bind_eq_bind, Option.bind_eq_some_iff, Option.pure_def, Option.some.injEq] at hr
        obtain ⟨_, -, _, -, rfl⟩ := hr
        simp at hmr
      | some m' =>
        rw [hi, hi'] at hr
        dsimp only at hr
        obtain ⟨hm, -⟩ := hj.sparse hi
        obtain ⟨hm', -⟩ := hj'.sparse hi'
        have hpos : 0 < hd j.data := hj.rows (by rw [hi]; simp)
        have hpos' : 0 < hd j'.data := hj'.rows (by rw [hi']; simp)
        have hR : hd m = hd j.data := by unfold hd; rw [hm]; rfl
        have hR' : hd m' = hd j'.data := by unfold hd; rw [hm']; rfl
        have hc := not_clash h h'
        split at hr
        · simp at hr
        · rename_i hraise
          split at hr
          · rename_i hag
            have hreq : hd m = hd m' := by
              by_contra hne
              refine hc ⟨m, m', hi, hi', hne, ?_⟩
              have hor : hd m = 1 ∨ hd m' = 1 := by
                by_contra hx
                rw [not_or] at hx
                exact hraise ⟨hne, hx.1, hx.2⟩
              have hag' : ∀ r p, r < max (hd m) (hd m') → InB p o → m.get ((if hd m = 1 then 0 else r) :: p) = m'.get ((if hd m' = 1 then 0 else r) :: p) := by
                intro r p hr hp
                exact hag (r :: p) (mem_allIdx.mpr (by
                  have e : m.shape.tail = o := by rw [hm]; rfl
                  rw [e]
                  exact List.Forall₂.cons hr hp))
              rcases hor with h1 | h1
              · left
                refine ⟨h1, fun r p hr hp => ?_⟩
                have := hag' r p (lt_max_of_lt_right hr) hp
                rw [if_pos h1, if_neg (by omega)] at this
                exact this.symm
              · right
                refine ⟨h1, fun r p hr hp => ?_⟩
                have := hag' r p (lt_max_of_lt_left hr) hp
                rw [if_neg (by omega), if_pos h1] at this
                exact this.symm
            obtain rfl := Option.some.inj hr
            obtain rfl := Option.some.inj hmr
            have hsh : (addLead (fun a _ => a) m m').shape = hd m :: o := by
              show max (hd m) (hd m') :: m.shape.tail = _
              rw [← hreq, max_self, hm]
              rfl
            have hget : ∀ r p, r < hd m → InB p o → (addLead (fun a _ => a) m m').get (r :: p) = m.get (r :: p) := by
              intro r p hr hp
              have : InB (r :: p) (max (hd m) (hd m') :: m.shape.tail) := by
                rw [← hreq, max_self, hm]
                exact List.Forall₂.cons hr hp
              refine (ND.get_ofFn _ this).trans ?_
              show m.get ((if hd m = 1 then 0 else r) :: p) = _
              split
              · obtain rfl : r = 0 := by omega
                rfl
              · rfl
            have hhd : hd (addLead (fun a _ => a) m m') = hd m := by
              conv_lhs => unfold hd
              rw [hsh]
              rfl
            rcases h m hi with h1 | ⟨p, r, r', hp, h2, h3, h4⟩
            · exact Or.inl (hhd.trans h1)
            · exact Or.inr ⟨p, r, r', hp, by rw [hhd]; exact h2, by rw [hhd]; exact h3, by rw [hget r p h2 hp, hget r' p h3 hp]; exact h4⟩
          · rename_i hag
            obtain rfl := Option.some.inj hr
            obtain rfl := Option.some.inj hmr
            right
            have hm1 : m.shape = hd m :: o := by rw [hm, hR]
            have hm1' : m'.shape = hd m' :: o := by rw [hm', hR']
            have hsh := concat0_spec hm1 hm1'
            have hhd : hd (concat0 m m') = hd m + hd m' := by
              conv_lhs => unfold hd
              rw [hsh.1]
              rfl
            have hl : ∀ r p, r < hd m → InB p o → (concat0 m m').get (r :: p) = m.get (r :: p) := fun r p hr hp => by
              rw [hsh.2 r p (by omega) hp, if_pos hr]
            have hr : ∀ r p, r < hd m' → InB p o → (concat0 m m').get ((hd m + r) :: p) = m'.get (r :: p) := fun r p hr hp => by
              rw [hsh.2 (hd m + r) p (by omega) hp, if_neg (by omega), Nat.add_sub_cancel_left]
            rcases h m hi with h1 | ⟨p, r, r', hp, h2, h3, h4⟩
            · rcases h' m' hi' with h1' | ⟨p, r, r', hp, h2, h3, h4⟩
              · unfold masksAgree at hag
                push Not at hag
                obtain ⟨w, hw, hne⟩ := hag
                rw [mem_allIdx] at hw
                have hw' : InB w (1 :: o) := by
                  have e : max (m.shape.getD 0 0) (m'.shape.getD 0 0) = 1 := by
                    show max (hd m) (hd m') = 1
                    rw [h1, h1', max_self]
                  rw [e, hm] at hw
                  exact hw
                obtain ⟨c, p, rfl, hc, hp⟩ := hw'.cons_right
                rw [if_pos (show m.shape.getD 0 0 = 1 from h1), if_pos (show m'.shape.getD 0 0 = 1 from h1')] at hne
                refine ⟨p, 0, hd m + 0, hp, by omega, by omega, ?_⟩
                rw [hl 0 p (by omega) hp, hr 0 p (by omega) hp]
                exact hne
              · exact ⟨p, hd m + r, hd m + r', hp, by omega, by omega, by rw [hr r p h2 hp, hr r' p h3 hp]; exact h4⟩
            · exact ⟨p, r, r', hp, by omega, by omega, by rw [hl r p h2 hp, hl r' p h3 hp]; exact h4⟩

theorem addSafe_of_nonConst (hn : 0 < n) (h0 : 0 ∉ o) {acc : ArrJac F} {L : List (ArrJac F)} (hacc : JacOk n o acc ∧ NonConst o acc)
    (hL : ∀ j ∈ L, JacOk n o j ∧ NonConst o j) : AddSafe o acc L := by
  induction L generalizing acc with
  | nil => trivial
  | cons j L ih =>
    obtain ⟨hj, hc⟩ := hL j (by simp)
    have hnc := not_clash hacc.2 hc
    refine ⟨hnc, fun acc' h => ih ⟨?_, nonConst_add hacc.1 hj hacc.2 hc h⟩ fun j hj => hL j (by simp [hj])⟩
    obtain ⟨h1, h2⟩ := addJac_spec hn h0 hacc.1 hj
    obtain ⟨r, h3, h4, -⟩ := h2 (fun hr => by rw [h1.mpr hr] at h; simp at h) hnc
    rw [h] at h3
    cases h3
    exact h4

theorem reducedAxes_forNd {ax : AxesKind} {s dims : List ℕ} (h : reducedAxes s ax = some dims) :
    ∃ axes, ax.forNd s.length = .reduction (.flat axes) ∧ axes.map (axisOf s.length) = dims := by
  cases ax with
  | elementwise => simp [reducedAxes] at h
  | summation dims => simp [reducedAxes] at h
  | reduction axes =>
    cases axes with
    | nested _ => simp [reducedAxes] at h
    | flat axes =>
      cases axes with
      | nil => simp [reducedAxes] at h
      | cons i l => exact ⟨i :: l, rfl, Option.some.inj h⟩
  | all =>
    unfold reducedAxes at h
    dsimp only at h
    split at h
    · simp at h
    · rename_i hs
      refine ⟨_, ?_, (axisOf_range s.length).trans (Option.some.inj h)⟩
      unfold AxesKind.forNd
      rw [if_neg (by simpa using hs)]

/-- A reduction of one sparse argument: when it is dense, and the rows of the result otherwise. -/
theorem reduceJvp_rows (T : ℕ) (hn : 0 < n) (h0 : 0 ∉ o) (join : Bool) {ax : AxesKind} {s : List ℕ} {D : Deriv F (fun _ : Fin 1 => s) o} {arg : ArrTrip F}
    (harg : ArgFor n s arg) (hax : AxesOk ax D) {m : ND ℤ} (hm : arg.jac.idx = some m) {dims : List ℕ} (hr : reducedAxes s ax = some dims)
    {r : FirstOut F} (h : sparseJvpArr T join ax D arg = some r) :
    (r.1.idx = none ↔ T < widest m s dims) ∧ (∀ m', r.1.idx = some m' → hd m' = widest m s dims) ∧ NonConst o r.1 := by
  obtain ⟨axes, hf, rfl⟩ := reducedAxes_forNd hr
  obtain ⟨hax', -, -⟩ := axesOk_forNd hax
  have hdef : sparseJvpArr T join ax D arg = sparseJvpAt T join (ax.forNd s.length) D arg := by
    unfold sparseJvpArr ND.ndim
    rw [harg.x]
  rw [hdef, hf] at h
  rw [hf] at hax'
  obtain ⟨hrg, hnd, hb, -⟩ := hax' 0
  obtain ⟨K, hK⟩ := harg.jac.1
  have hmK : m.shape = K :: s := by
    have := harg.jac.2
    rw [hm] at this
    exact this.1.trans hK
  have ha : singleAxes s.length (.flat axes) = some (axes.map (axisOf s.length)) := singleAxes_flat hrg hnd
  unfold sparseJvpAt at h
  simp only [hm] at h
  rcases jacForReduction_mask (data := arg.jac.data) hK hmK harg.size ha with ⟨h1, -⟩ | ⟨G, M, N, hN, h1, h2, h3, h4, h5, h6⟩
  · have : sparseReduceArr T (fun t => push D fun _ => t) o arg.lapl arg.jac.data m (.flat axes) = none := by
      unfold sparseReduceArr
      rw [h1]
      rfl
    rw [this] at h
    simp at h
  · have hw := widest_eq h4 h5
    rw [hw]
    rcases sparseReduceArr_step T (push := fun t => push D fun _ => t) (o := o) harg.lapl h1 h2 h3 with ⟨hT, e⟩ | ⟨-, hnb, -⟩ | ⟨hT, -, g, mo, l, e, hg, hmo, -, -, hmg, -⟩
    · rw [e] at h
      dsimp only at h
      obtain ⟨r', h7, h8, -⟩ := denseJvpArr_spec (args := fun _ => arg) hn (fun _ => harg) (D := D) (ew := false) (by simp) join
      rw [h7] at h
      cases h
      exact ⟨iff_of_true h8 hT, fun m' hm' => by rw [h8] at hm'; simp at hm', fun m' hm' => by rw [h8] at hm'; simp at hm'⟩
    · exact absurd hb hnb
    · rw [e] at h
      cases h
      have hhd : hd mo = N := by
        unfold hd
        rw [hmo]
        rfl
      refine ⟨iff_of_false (by simp) (by omega), fun m' hm' => by cases hm'; exact hhd, fun m' hm' => ?_⟩
      cases hm'
      rw [hhd]
      by_cases hN1 : N = 1
      · exact Or.inl hN1
      · right
        obtain ⟨u, hu, hc⟩ := h5
        obtain ⟨q, hq, hqu⟩ := bcoord_surj hb h0 hu
        refine ⟨q, 0, 1, hq, by omega, by omega, ?_⟩
        rw [hmg 0 q (by omega) hq, hmg 1 q (by omega) hq]
        have hqu : bcoord (dropDims s (axes.map (axisOf s.length))) o q = u := hqu
        rw [hqu, h6 0 u (by omega) hu, h6 1 u (by omega) hu]
        have hlen : ((depsOf m s (axes.map (axisOf s.length)) u).sort (· ≤ ·)).length = N := by rw [Finset.length_sort]; exact hc
        rw [List.getD_eq_getElem _ _ (by omega), List.getD_eq_getElem _ _ (by omega)]
        intro e
        have := (Finset.sort_nodup (depsOf m s (axes.map (axisOf s.length)) u) (· ≤ ·)).getElem_inj_iff.mp e
        omega

/-- Reductions of any number of arguments: no sum of Jacobians broadcasts rows. -/
theorem oneByOneArr_reduction (T : ℕ) (hn : 0 < n) (h0 : 0 ∉ o) (join : Bool) {ax : AxesKind} {D : Deriv F ss o} {args : Fin (k + 1) → ArrTrip F}
    (hargs : ∀ a, ArgFor n (ss a) (args a)) (hax : AxesOk ax D) (hred : ∀ a, (args a).jac.idx ≠ none → reducedAxes (ss a) ax ≠ none) :
    ∀ r, oneByOneArr T join ax D args = some r → IsPush n D args r := by
  intro r hr
  obtain ⟨g1, g2⟩ := oneByOneArr_spec T hn h0 join hargs hax
  have hsome : ∀ a, ∃ r, oneJvpArr T join ax D args a = some r := by
    intro a
    cases h : oneJvpArr T join ax D args a with
    | none =>
      rw [g1 a ((oneJvp_spec T hn join hargs hax a).1.mp h)] at hr
      simp at hr
    | some r => exact ⟨r, rfl⟩
  choose rs hrs using hsome
  have hp : ∀ a, JacOk n o (rs a).1 ∧ NonConst o (rs a).1 := by
    intro a
    obtain ⟨h1, h2⟩ := (oneJvp_spec T hn join hargs hax a).2 _ (hrs a)
    refine ⟨h2.jacOk, ?_⟩
    cases hi : (args a).jac.idx with
    | none =>
      intro m hm
      rw [h1 hi] at hm
      simp at hm
    | some m =>
      obtain ⟨dims, hdims⟩ := Option.ne_none_iff_exists'.mp (hred a (by rw [hi]; simp))
      have := hrs a
      unfold oneJvpArr at this
      rw [hi] at this
      exact (reduceJvp_rows T hn h0 join (hargs a) (axesOk_part hax a) hi hdims this).2.2
  refine (g2 rs hrs (addSafe_of_nonConst hn h0 (hp 0) ?_)).2 r hr
  intro j hj
  obtain ⟨i, -, rfl⟩ := List.mem_map.mp hj
  exact hp i.succ

/-- Reductions of two sparse arguments: exactly when they raise. -/
theorem oneByOneArr_two (T : ℕ) (hn : 0 < n) (h0 : 0 ∉ o) (join : Bool) {ax : AxesKind} {ss : Fin 2 → List ℕ} {D : Deriv F ss o} {args : Fin 2 → ArrTrip F}
    (hargs : ∀ a, ArgFor n (ss a) (args a)) (hax : AxesOk ax D) {ms : Fin 2 → ND ℤ} (hms : ∀ a, (args a).jac.idx = some (ms a))
    {dims : Fin 2 → List ℕ} (hred : ∀ a, reducedAxes (ss a) ax = some (dims a)) :
    oneByOneArr T join ax D args = none ↔ (∃ a, widest (ms a) (ss a) (dims a) = 0) ∨
      (widest (ms 0) (ss 0) (dims 0) ≤ T ∧ widest (ms 1) (ss 1) (dims 1) ≤ T ∧ widest (ms 0) (ss 0) (dims 0) ≠ widest (ms 1) (ss 1) (dims 1) ∧
        widest (ms 0) (ss 0) (dims 0) ≠ 1 ∧ widest (ms 1) (ss 1) (dims 1) ≠ 1) := by
  have hno : ∀ a, NoDeps ax (ss a) (args a).jac ↔ widest (ms a) (ss a) (dims a) = 0 := by
    intro a
    rw [widest_eq_zero]
    constructor
    · rintro ⟨d, m, h1, h2, h3⟩
      rw [hred a] at h1
      rw [hms a] at h2
      cases h1
      cases h2
      exact h3
    · exact fun h => ⟨_, _, hred a, hms a, h⟩
  obtain ⟨g1, g2⟩ := oneByOneArr_spec T hn h0 join hargs hax
  by_cases hz : ∃ a, widest (ms a) (ss a) (dims a) = 0
  · obtain ⟨a, ha⟩ := hz
    exact iff_of_true (g1 a ((hno a).mpr ha)) (Or.inl ⟨a, ha⟩)
  · have hsome : ∀ a, ∃ r, oneJvpArr T join ax D args a = some r := by
      intro a
      cases h : oneJvpArr T join ax D args a with
      | none => exact absurd ⟨a, (hno a).mp ((oneJvp_spec T hn join hargs hax a).1.mp h)⟩ hz
      | some r => exact ⟨r, rfl⟩
    choose rs hrs using hsome
    have hrow : ∀ a, ((rs a).1.idx = none ↔ T < widest (ms a) (ss a) (dims a)) ∧ (∀ m', (rs a).1.idx = some m' → hd m' = widest (ms a) (ss a) (dims a)) ∧ NonConst o (rs a).1 := by
      intro a
      have := hrs a
      unfold oneJvpArr at this
      rw [hms a] at this
      exact reduceJvp_rows T hn h0 join (hargs a) (axesOk_part hax a) (hms a) (hred a) this
    have hp : ∀ a, JacOk n o (rs a).1 := fun a => ((oneJvp_spec T hn join hargs hax a).2 _ (hrs a)).2.jacOk
    have hlist : ((List.finRange 1).map fun i => (rs i.succ).1) = [(rs 1).1] := rfl
    have g3 := (g2 rs hrs (addSafe_of_nonConst hn h0 ⟨hp 0, (hrow 0).2.2⟩ (by
      intro j hj
      obtain ⟨i, -, rfl⟩ := List.mem_map.mp hj
      exact ⟨hp i.succ, (hrow i.succ).2.2⟩))).1
    rw [g3, hlist]
    have : SumRaises (rs 0).1 [(rs 1).1] ↔ AddRaises (rs 0).1 (rs 1).1 := by simp [SumRaises]
    rw [this]
    constructor
    · rintro ⟨m, m', hm, hm', h1, h2, h3⟩
      right
      have e0 : hd m = _ := (hrow 0).2.1 m hm
      have e1 : hd m' = _ := (hrow 1).2.1 m' hm'
      refine ⟨?_, ?_, ?_, ?_, ?_⟩
      · by_contra h
        rw [(hrow 0).1.mpr (by omega)] at hm
        simp at hm
      · by_contra h
        rw [(hrow 1).1.mpr (by omega)] at hm'
        simp at hm'
      · rw [← e0, ← e1]
        exact h1
      · rw [← e0]
        exact h2
      · rw [← e1]
        exact h3
    · rintro (h | ⟨h1, h2, h3, h4, h5⟩)
      · exact absurd h hz
      · obtain ⟨m, hm⟩ := Option.ne_none_iff_exists'.mp (fun h => by have := (hrow 0).1.mp h; omega : (rs 0).1.idx ≠ none)
        obtain ⟨m', hm'⟩ := Option.ne_none_iff_exists'.mp (fun h => by have := (hrow 1).1.mp h; omega : (rs 1).1.idx ≠ none)
        have e0 : hd m = _ := (hrow 0).2.1 m hm
        have e1 : hd m' = _ := (hrow 1).2.1 m' hm'
        refine ⟨m, m', hm, hm', ?_, ?_, ?_⟩
        · show hd m ≠ hd m'
          rw [e0, e1]
          exact h3
        · show hd m ≠ 1
          rw [e0]
          exact h4
        · show hd m' ≠ 1
          rw [e1]
          exact h5

end Folx.Layout

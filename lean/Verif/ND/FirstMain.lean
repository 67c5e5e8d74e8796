import Verif.ND.FirstAdd
import Verif.Props.SumRuleProps

/-!
# Reductions, one argument at a time, and the dispatch
-/

namespace Folx.Layout
open Vmap Dot

variable {F : Type} [CommRing F] [Inhabited F] {k : ℕ} {ss : Fin (k + 1) → List ℕ} {o : List ℕ} {n : ℕ}

theorem segLayout_shape {jac : ND F} {idx : ND ℤ} {M : ℕ} {out : List ℕ} {res : ND F} (hres : segLayout jac idx M out = some res) : res.shape = M :: out := by
  unfold segLayout at hres
  simp only [Option.bind_eq_bind] at hres
  split at hres
  · simp at hres
  · simp only [Option.bind_eq_some_iff] at hres
    obtain ⟨i1, -, hres⟩ := hres
    split at hres
    · simp at hres
    · simp only [Option.bind_eq_some_iff] at hres
      obtain ⟨j1, -, r1, -, hres⟩ := hres
      unfold ND.reshape? at hres
      split at hres
      · rw [← Option.some.inj hres]
        rfl
      · simp at hres

theorem sparseSum_rows {T : ℕ} {x lapl data : ND F} {x0 : ND ℤ} {axes : List ℕ} {y : ND F} {j : ArrJac F} {l : ND F}
    (h : sparseSumArr T x lapl data x0 axes = some (y, j, l)) (hj : j.idx ≠ none) : 0 < j.data.shape.getD 0 0 := by
  unfold sparseSumArr at h
  simp only [Option.bind_eq_bind, Option.bind_eq_some_iff] at h
  obtain ⟨idx, -, out, hout, h⟩ := h
  have hM : 0 < out.shape.getD 0 0 := by
    unfold computeOutdeps at hout
    dsimp only at hout
    split at hout
    · simp at hout
    · rw [← Option.some.inj hout, ND.shape_ofFn]
      exact Nat.succ_pos _
  split at h
  · simp only [Option.bind_eq_some_iff, Option.map_eq_some_iff] at h
    obtain ⟨seg, ⟨m, -, rfl⟩, jac, -, jac', -, ids, -, res, hres, h⟩ := h
    simp only [Option.pure_def, Option.some.injEq, Prod.mk.injEq] at h
    obtain ⟨-, rfl, -⟩ := h
    exact absurd rfl hj
  · simp only [Option.bind_eq_some_iff, Option.map_eq_some_iff] at h
    obtain ⟨seg, ⟨m, -, rfl⟩, jac, -, jac', -, ids, -, res, hres, h⟩ := h
    simp only [Option.pure_def, Option.some.injEq, Prod.mk.injEq] at h
    obtain ⟨-, rfl, -⟩ := h
    show 0 < res.shape.getD 0 0
    rw [segLayout_shape hres]
    exact hM

theorem sparseReduce_rows {T : ℕ} {push : ND F → ND F} {lapl data : ND F} {x0 : ND ℤ} {K : ℕ} {s dims : List ℕ} {axes : AxesArg} (hd : data.shape = K :: s)
    (hi : x0.shape = K :: s) (h0 : 0 ∉ s) (ha : singleAxes s.length axes = some dims) {j : ArrJac F} {l : ND F}
    (h : sparseReduceArr T push o lapl data x0 axes = some (.sparse j l)) : 0 < j.data.shape.getD 0 0 := by
  unfold sparseReduceArr at h
  simp only [Option.bind_eq_bind] at h
  rcases jacForReduction_mask (data := data) hd hi h0 ha with ⟨h1, h2⟩ | ⟨G, M, N, hN, h1, h2, h3, h4, -, -⟩
  · rw [h1] at h
    simp at h
  · rw [h1] at h
    simp only [Option.bind_some] at h
    split at h
    · simp at h
    · simp only [Option.bind_eq_some_iff] at h
      obtain ⟨m, -, mask, hm, h⟩ := h
      simp only [Option.pure_def, Option.some.injEq, ReduceOut.sparse.injEq] at h
      obtain ⟨rfl, -⟩ := h
      unfold broadcastMask at hm
      split at hm
      · simp at hm
      · rename_i hne
        have := not_not.mp hne
        dsimp only at this ⊢
        rw [← this, h3]
        exact hN

/-- The derivative of a function of one argument, on arrays. -/
theorem push_linear {s : List ℕ} (D : Deriv F (fun _ : Fin 1 => s) o) : LinearArr (fun t => push D fun _ => t) s o := by
  have hget : ∀ t : ND F, t.shape = s → ∀ q, (push D fun _ => t).get q = (toND o (D fun _ c => t.get (unravelIdx s c))).get q :=
    fun t ht q => push_get D (fun _ => ht) q
  refine ⟨fun _ _ => rfl, fun t u v ht hu hv h q hq => ?_, fun c t v ht hv h q hq => ?_⟩
  · rw [hget v hv, hget t ht, hget u hu, get_push D hq, get_push D hq, get_push D hq, ← map_add]
    congr 1
    funext _ c
    exact h _ (inB_unravelIdx c.2)
  · rw [hget v hv, hget t ht, get_push D hq, get_push D hq, ← smul_eq_mul, ← map_smul]
    congr 1
    funext _ c'
    exact h _ (inB_unravelIdx c'.2)

theorem single_fin1 {s : List ℕ} (t : (a : Fin 1) → Fin ((fun _ : Fin 1 => s) a).prod → F) : Pi.single 0 (t 0) = t := by
  funext a
  obtain rfl : a = 0 := Subsingleton.elim _ _
  rw [Pi.single_eq_same]

theorem single_fin1' {s : List ℕ} (t : Fin s.prod → F) : (Pi.single 0 t : (a : Fin 1) → Fin ((fun _ : Fin 1 => s) a).prod → F) = fun _ => t :=
  single_fin1 (s := s) fun _ => t

/-- When the rule raises, for resolved axes. -/
def RaisesAt (ax : AxesKind) (s : List ℕ) (j : ArrJac F) : Prop :=
  ∃ axes m, ax = .reduction (.flat axes) ∧ j.idx = some m ∧
    ∀ u, InB u (dropDims s (axes.map (axisOf s.length))) → depsOf m s (axes.map (axisOf s.length)) u = ∅

/-- The rules for one sparse argument, for resolved axes. -/
theorem sparseJvpAt_spec (T : ℕ) (hn : 0 < n) (join : Bool) {ax : AxesKind} {s : List ℕ} {D : Deriv F (fun _ : Fin 1 => s) o} {arg : ArrTrip F}
    (harg : ArgFor n s arg) (hs : arg.jac.idx ≠ none) (hax : AxesOk ax D) (hall : ax ≠ .all) :
    (sparseJvpAt T join ax D arg = none ↔ RaisesAt ax s arg.jac) ∧
    ∀ r, sparseJvpAt T join ax D arg = some r → IsPush n D (fun _ => arg) r := by
  obtain ⟨m, hm⟩ := Option.ne_none_iff_exists'.mp hs
  have hjac : arg.jac = ⟨arg.jac.data, some m⟩ := by rw [← hm]
  obtain ⟨K, hK⟩ := harg.jac.1
  have hmK : m.shape = K :: s := by
    have := harg.jac.2
    rw [hm] at this
    exact this.1.trans hK
  have hfor : ArrJac.For ⟨arg.jac.data, some m⟩ n s := by rw [← hjac]; exact harg.jac
  have hKpos : K ≠ 0 := by
    have := harg.rows hs
    rw [hK] at this
    exact Nat.pos_iff_ne_zero.mp this
  cases ax with
  | elementwise =>
    obtain ⟨r, h1, h2, h3⟩ := sparseDiagArr_spec (args := fun _ => arg) (fun _ => harg) hax fun _ => hs
    have h1 : sparseJvpAt T join .elementwise D arg = some r := h1
    rw [h1]
    refine ⟨by simp [RaisesAt], fun r' h => ?_⟩
    cases h
    exact h3
  | summation dims =>
    obtain ⟨hnd, hax⟩ := hax
    obtain ⟨hlt, ho, hsum⟩ := hax 0
    subst ho
    obtain ⟨y, j, l, h1, -, h3, h4, -, h6⟩ := C53_sum T n (x := arg.x) harg.x harg.lapl hK hmK hKpos harg.size hnd hlt hfor
    have hdef : sparseJvpAt T join (.summation dims) D arg = some (j, l) := by
      unfold sparseJvpAt
      simp only [hm, h1]
      rfl
    rw [hdef]
    refine ⟨by simp [RaisesAt], fun r' h => ?_⟩
    cases h
    have key : ∀ (t : List ℕ → F) q, InB q (dropDims s dims) →
        (toND (dropDims s dims) (D fun _ c => t (unravelIdx s c))).get q = sumOver s dims t q := by
      intro t q hq
      have := hsum (fun c => t (unravelIdx s c)) q hq
      rw [single_fin1'] at this
      refine this.trans ?_
      unfold sumOver
      congr 1
      refine List.map_congr_left fun p hp => ?_
      have hp' := mem_allIdx.mp (List.mem_filter.mp hp).1
      rw [toND_get _ _ hp', unravelIdx_ravelIdx hp']
    refine ⟨h4, fun hj => sparseSum_rows h1 hj, fun i q hq => ?_, h3, fun q hq => ?_⟩
    · rw [(h6 q hq).2.2 i, ← hjac]
      exact (key _ q hq).symm
    · rw [(h6 q hq).2.1]
      exact (key _ q hq).symm
  | all => exact absurd rfl hall
  | reduction axes =>
    cases axes with
    | nested _ => exact hax.elim
    | flat axes =>
      obtain ⟨hr, hnd, hb, hdep⟩ := hax 0
      have hgetp : ∀ t : ND F, t.shape = s → ∀ q, (push D fun _ => t).get q = (toND o (D fun _ c => t.get (unravelIdx s c))).get q :=
        fun t ht q => push_get D (fun _ => ht) q
      obtain ⟨h1, h2, h3⟩ := C53_reduction T n (lapl := arg.lapl) (data := arg.jac.data) (x0 := m) (s := s) (o := o) (a := axes)
        (push := fun t => push D fun _ => t) harg.lapl hK hmK harg.size hr rfl hnd hb (push_linear D) (by
          intro t ht q hq hz
          have := hdep (fun c => t.get (unravelIdx s c)) q hq fun p hp hk => by
            rw [toND_get _ _ hp]
            dsimp only
            rw [unravelIdx_ravelIdx hp]
            exact hz p hp hk
          rw [single_fin1'] at this
          rw [hgetp t ht]
          exact this) hn hfor
      have hnone : RaisesAt (.reduction (.flat axes)) s arg.jac ↔
          ∀ u, InB u (dropDims s (axes.map (axisOf s.length))) → depsOf m s (axes.map (axisOf s.length)) u = ∅ := by
        constructor
        · rintro ⟨a, m', ha, hm', h⟩
          cases ha
          rw [hm] at hm'
          cases hm'
          exact h
        · exact fun h => ⟨axes, m, rfl, hm, h⟩
      have ha : singleAxes s.length (.flat axes) = some (axes.map (axisOf s.length)) := singleAxes_flat hr hnd
      cases hres : sparseReduceArr T (fun t => push D fun _ => t) o arg.lapl arg.jac.data m (.flat axes) with
      | none =>
        have hdef : sparseJvpAt T join (.reduction (.flat axes)) D arg = none := by
          unfold sparseJvpAt
          simp only [hm, hres]
        rw [hdef, hnone]
        exact ⟨by simp only [true_iff]; exact h1.mp hres, fun r h => by simp at h⟩
      | some out =>
        have hnn : ¬ RaisesAt (.reduction (.flat axes)) s arg.jac := by
          rw [hnone]
          intro h
          have := h1.mpr h
          rw [hres] at this
          simp at this
        cases out with
        | dense =>
          obtain ⟨r, h4, -, h5⟩ := denseJvpArr_spec (args := fun _ => arg) hn (fun _ => harg) (D := D) (ew := false) (by simp) join
          have hdef : sparseJvpAt T join (.reduction (.flat axes)) D arg = some r := by
            unfold sparseJvpAt
            simp only [hm, hres]
            exact h4
          rw [hdef]
          refine ⟨by simp [hnn], fun r' h => ?_⟩
          cases h
          exact h5
        | sparse j l =>
          have hdef : sparseJvpAt T join (.reduction (.flat axes)) D arg = some (j, l) := by
            unfold sparseJvpAt
            simp only [hm, hres]
          rw [hdef]
          refine ⟨by simp [hnn], fun r' h => ?_⟩
          cases h
          obtain ⟨h4, -, -, h5, h6⟩ := h3 j l hres
          refine ⟨h4, fun _ => sparseReduce_rows hK hmK harg.size ha hres, fun i q hq => ?_, h5, fun q hq => ?_⟩
          · rw [(h6 q hq).2 i, hgetp _ (ND.shape_ofFn _ _), ← hjac]
            congr 3
            funext a c
            exact ND.get_ofFn _ (inB_unravelIdx c.2)
          · rw [(h6 q hq).1, hgetp _ harg.lapl]
            rfl

theorem broadcasts_nil (o : List ℕ) : Broadcasts [[], o] o := by
  refine ⟨?_, Or.inr ⟨o, by simp, rfl⟩, ?_, fun j => Or.inr ⟨o, by simp, rfl⟩⟩
  · intro t ht
    simp only [List.mem_cons, List.not_mem_nil, or_false] at ht
    rcases ht with rfl | rfl <;> simp
  · intro t ht j
    simp only [List.mem_cons, List.not_mem_nil, or_false] at ht
    rcases ht with rfl | rfl
    · exact Or.inl rfl
    · exact Or.inr rfl

theorem dropDims_nil (s : List ℕ) : dropDims s [] = s := by
  unfold dropDims
  rw [List.filter_eq_self.mpr (by simp)]
  exact map_range_getD s

theorem keptOf_nil (s : List ℕ) : keptOf [] s = s := dropDims_nil s

theorem dropDims_all (s : List ℕ) : dropDims s (List.range s.length) = [] := by
  unfold dropDims
  rw [List.filter_eq_nil_iff.mpr (by simp)]
  rfl

theorem axisOf_range (nd : ℕ) : ((List.range nd).map Int.ofNat).map (axisOf nd) = List.range nd := by
  rw [List.map_map]
  conv_rhs => rw [← List.map_id (List.range nd)]
  refine List.map_congr_left fun i _ => ?_
  show axisOf nd (i : ℤ) = i
  unfold axisOf
  rw [if_neg (by omega)]
  exact Int.toNat_natCast i

/-- Resolving the axes keeps what they say about the function. -/
theorem axesOk_forNd {ax : AxesKind} {s : List ℕ} {D : Deriv F (fun _ : Fin 1 => s) o} (hax : AxesOk ax D) :
    AxesOk (ax.forNd s.length) D ∧ ax.forNd s.length ≠ .all ∧ ∀ j : ArrJac F, RaisesAt (ax.forNd s.length) s j ↔ NoDeps ax s j := by
  have hel : ∀ j : ArrJac F, ¬ RaisesAt .elementwise s j := fun j ⟨_, _, h, _⟩ => by cases h
  have hno : ∀ (ax : AxesKind) (j : ArrJac F), reducedAxes s ax = none → ¬ NoDeps ax s j := fun ax j h ⟨_, _, h', _⟩ => by rw [h] at h'; simp at h'
  cases ax with
  | elementwise => exact ⟨hax, by simp [AxesKind.forNd], fun j => iff_of_false (hel j) (hno _ j rfl)⟩
  | summation dims =>
    cases dims with
    | nil =>
      refine ⟨?_, by simp [AxesKind.forNd], fun j => iff_of_false (hel j) (hno _ j rfl)⟩
      obtain ⟨-, ho, hsum⟩ := hax.2 0
      rw [dropDims_nil] at ho
      subst ho
      refine ⟨fun _ => broadcasts_self s, fun t q hq hz => ?_⟩
      have := hsum (t 0) q hq
      rw [single_fin1] at this
      rw [this]
      unfold sumOver
      refine List.sum_eq_zero fun v hv => ?_
      obtain ⟨p, hp, rfl⟩ := List.mem_map.mp hv
      rw [List.mem_filter] at hp
      have hpi := mem_allIdx.mp hp.1
      have hpq : p = q := by
        have := of_decide_eq_true hp.2
        rwa [keptOf_nil] at this
      subst hpq
      rw [toND_get _ _ hpi]
      refine hz 0 _ ?_
      show unravelIdx s (ravelIdx s p) = bcoord s s p
      rw [unravelIdx_ravelIdx hpi, bcoord_self hpi]
    | cons d l => exact ⟨hax, by simp [AxesKind.forNd], fun j => iff_of_false (fun ⟨_, _, h, _⟩ => by cases h) (hno _ j rfl)⟩
  | reduction axes =>
    cases axes with
    | nested _ => exact hax.elim
    | flat axes =>
      cases axes with
      | nil =>
        refine ⟨?_, by simp [AxesKind.forNd], fun j => iff_of_false (hel j) (hno _ j rfl)⟩
        obtain ⟨-, -, hb, hdep⟩ := hax 0
        simp only [List.map_nil, dropDims_nil, keptOf_nil] at hb hdep
        refine ⟨fun _ => hb, fun t q hq hz => ?_⟩
        have := hdep (t 0) q hq fun p hp hpq => by
          rw [toND_get _ _ hp]
          refine hz 0 _ ?_
          show unravelIdx s (ravelIdx s p) = bcoord s o q
          rw [unravelIdx_ravelIdx hp, hpq]
        rw [single_fin1] at this
        exact this
      | cons i l =>
        refine ⟨hax, by simp [AxesKind.forNd], fun j => ?_⟩
        constructor
        · rintro ⟨a, m, ha, hm, h⟩
          cases ha
          exact ⟨_, m, rfl, hm, h⟩
        · rintro ⟨d, m, hd, hm, h⟩
          cases hd
          exact ⟨i :: l, m, rfl, hm, h⟩
  | all =>
    by_cases hs : s = []
    · subst hs
      refine ⟨?_, by simp [AxesKind.forNd], fun j => iff_of_false (hel j) (hno _ j (by simp [reducedAxes]))⟩
      refine ⟨fun _ => broadcasts_nil o, fun t q hq hz => ?_⟩
      have : t = 0 := by
        funext a c
        refine hz a c ?_
        rfl
      rw [this, map_zero, toND_get _ _ hq]
      rfl
    · have hl : s.length ≠ 0 := by simpa using hs
      have hf : AxesKind.forNd s.length .all = .reduction (.flat ((List.range s.length).map Int.ofNat)) := by
        unfold AxesKind.forNd
        rw [if_neg hl]
      rw [hf]
      refine ⟨?_, by simp, fun j => ?_⟩
      · intro a
        show _ ∧ _ ∧ _ ∧ _
        rw [axisOf_range, dropDims_all]
        refine ⟨?_, List.nodup_range, broadcasts_nil o, fun t q hq hz => ?_⟩
        · intro i hi
          obtain ⟨d, hd, rfl⟩ := List.mem_map.mp hi
          have := List.mem_range.mp hd
          exact ⟨by simp, by simpa using this⟩
        · obtain rfl : a = 0 := Subsingleton.elim (α := Fin 1) _ _
          have : t = 0 := by
            funext c
            have hc := inB_unravelIdx (s := s) c.2
            have := hz (unravelIdx s c) hc (by
              show dropDims (unravelIdx s c) _ = _
              have hl : (unravelIdx s c).length = s.length := hc.length_eq
              rw [← hl, dropDims_all]
              rfl)
            rw [toND_get _ _ hc] at this
            refine Eq.trans ?_ this
            exact congrArg t (Fin.ext (ravelIdx_unravelIdx c.2).symm)
          rw [this, Pi.single_zero, map_zero, toND_get _ _ hq]
          rfl
      · constructor
        · rintro ⟨a, m, ha, hm, h⟩
          cases ha
          rw [axisOf_range] at h
          exact ⟨_, m, by unfold reducedAxes; rw [if_neg hs], hm, h⟩
        · rintro ⟨d, m, hd, hm, h⟩
          unfold reducedAxes at hd
          rw [if_neg hs] at hd
          cases hd
          refine ⟨_, m, rfl, hm, ?_⟩
          rw [axisOf_range]
          exact h

/-- The rules for one sparse argument. -/
theorem sparseJvpArr_spec (T : ℕ) (hn : 0 < n) (join : Bool) {ax : AxesKind} {s : List ℕ} {D : Deriv F (fun _ : Fin 1 => s) o} {arg : ArrTrip F}
    (harg : ArgFor n s arg) (hs : arg.jac.idx ≠ none) (hax : AxesOk ax D) :
    (sparseJvpArr T join ax D arg = none ↔ NoDeps ax s arg.jac) ∧ ∀ r, sparseJvpArr T join ax D arg = some r → IsPush n D (fun _ => arg) r := by
  obtain ⟨h1, h2, h3⟩ := axesOk_forNd hax
  have : sparseJvpArr T join ax D arg = sparseJvpAt T join (ax.forNd s.length) D arg := by
    unfold sparseJvpArr ND.ndim
    rw [harg.x]
  rw [this, ← h3]
  exact sparseJvpAt_spec T hn join harg hs h1 h2

omit [Inhabited F] in
theorem part_apply (D : Deriv F ss o) (a : Fin (k + 1)) (t : (b : Fin 1) → Fin ((fun _ : Fin 1 => ss a) b).prod → F) :
    D.part a t = D (Pi.single a (t 0)) := rfl

theorem elementwise_part {D : Deriv F ss o} (h : Elementwise D) (a : Fin (k + 1)) : Elementwise (D.part a) := by
  refine ⟨fun _ => h.bcast a, fun t q hq hz => ?_⟩
  rw [part_apply]
  refine h.dep _ q hq fun b c hb => ?_
  by_cases hab : b = a
  · subst hab
    rw [Pi.single_eq_same]
    exact hz 0 c hb
  · rw [Pi.single_eq_of_ne hab]
    rfl

theorem axesOk_part {ax : AxesKind} {D : Deriv F ss o} (h : AxesOk ax D) (a : Fin (k + 1)) : AxesOk ax (D.part a) := by
  have key : ∀ (b : Fin 1) (t : Fin (ss a).prod → F), D.part a (Pi.single b t) = D (Pi.single a t) := by
    intro b t
    obtain rfl : b = 0 := Subsingleton.elim (α := Fin 1) _ _
    rw [part_apply]
    congr 1
  cases ax with
  | elementwise => exact elementwise_part h a
  | summation dims =>
    refine ⟨h.1, fun b => ?_⟩
    obtain ⟨h1, h2, h3⟩ := h.2 a
    exact ⟨h1, h2, fun t q hq => by rw [key]; exact h3 t q hq⟩
  | reduction axes =>
    cases axes with
    | nested _ => exact h.elim
    | flat axes =>
      intro b
      obtain ⟨h1, h2, h3, h4⟩ := h a
      exact ⟨h1, h2, h3, fun t q hq hz => by rw [key]; exact h4 t q hq hz⟩
  | all => trivial

end Folx.Layout

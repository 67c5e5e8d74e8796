import Verif.Props.LayoutProps
import Verif.Props.BuiltInArrProps
import Verif.ND.CallMain

/-!
# C74: what is read off a result

`result.x`, `result.jacobian.dense_array`, `result.jacobian.data` with `result.jacobian.mask`, and `result.laplacian` as arrays of the shape of the result
(`api.py:160-198,241-281`).
-/

namespace Folx.Layout
open Vmap Dot Filter Topology

section
variable {F : Type} [CommRing F] [Inhabited F]

/-- `dense_array` (`api.py:160-168`; `FwdLaplArray.dense_jacobian`, `api.py:263-265`). -/
def denseArr (j : ArrJac F) : Option (ND F) :=
  match j.idx with
  | none => some j.data
  | some m => denseArray j.data m

/-- `mask` (`api.py:189-198`; `FwdLaplArray.jacobian_mask`, `api.py:275-277`): the stored indices; `arange` along the Jacobian axis of a dense Jacobian. -/
def maskArr (j : ArrJac F) : ND ℤ :=
  match j.idx with
  | none => ND.ofFn j.data.shape fun w => (w.headD 0 : ℤ)
  | some m => m

variable {s : List ℕ}

/-- `dense_array` holds what is stored. -/
theorem denseArr_entry {j : ArrJac F} {K : ℕ} (hd : j.data.shape = K :: s) (hi : ∀ m, j.idx = some m → m.shape = K :: s) (hK : j.idx ≠ none → 0 < K) (h0 : 0 ∉ s) :
    ∃ r N, denseArr j = some r ∧ r.shape = N :: s ∧ ∀ i p, InB p s → (if i < N then r.get (i :: p) else 0) = j.entry i p := by
  unfold denseArr ArrJac.entry
  cases hj : j.idx with
  | none =>
    refine ⟨_, K, rfl, hd, fun i p _ => ?_⟩
    rw [hd]
    rfl
  | some m =>
    obtain ⟨r, N, h1, h2, h3, -, h4⟩ := C35_dense_array hd (hi m hj) (hK (by rw [hj]; simp)) h0
    refine ⟨r, N, h1, h2, fun i p hp => ?_⟩
    dsimp only
    rw [show j.data.shape.getD 0 0 = K by rw [hd]; rfl]
    by_cases hN : i < N
    · rw [if_pos hN, h4 i p hN hp]
    · rw [if_neg hN]
      symm
      refine List.sum_eq_zero fun y hy => ?_
      obtain ⟨k, hk, rfl⟩ := List.mem_map.mp hy
      rw [if_neg]
      have := h3 k p (by simpa using hk) hp
      omega

end

section
variable {F : Type} [CommRing F] [Inhabited F] {s : List ℕ}

theorem jacArr_none {J : Jac (Fin s.prod) F} : (jacArr s J).idx ≠ none ↔ J.weak = true := by
  cases J <;> simp [jacArr, Jac.weak]

omit [CommRing F] in
theorem jacArr_idx [CommRing F] {rs : List (Row (Fin s.prod) F)} {m : ND ℤ} (h : (jacArr s (Jac.sparse rs)).idx = some m) {k : ℕ} (hk : k < rs.length) {p : List ℕ} (hp : InB p s) :
    m.get (k :: p) = rs[k].idx ⟨_, ravelIdx_lt hp⟩ := by
  have h := (Option.some.inj h).symm
  subst h
  have hin : InB (k :: p) (rs.length :: s) := List.Forall₂.cons hk hp
  refine (ND.get_ofFn _ hin).trans ?_
  show (if h : ravelIdx s p < s.prod then (rs.getD k ⟨fun _ => 0, fun _ => 0⟩).idx ⟨_, h⟩ else 0) = _
  rw [dif_pos (ravelIdx_lt hp), List.getD_eq_getElem _ _ hk]

omit [Inhabited F] in
theorem constructSparse_length {rs : List (Row (Fin s.prod) F)} {m : ℕ} {rows : List (Fin s.prod → F)} (h : Jac.constructSparse rs (arange m) = .ok rows) : rows.length = max m 1 := by
  unfold Jac.constructSparse at h
  cases m with
  | zero =>
    rw [if_pos (by rfl)] at h
    obtain rfl := Except.ok.inj h
    rfl
  | succ m =>
    have hne : arange (P := Fin s.prod) (m + 1) ≠ [] := by
      intro h
      have := congrArg List.length h
      simp [arange] at this
    unfold Jac.getIndexMask at h
    rw [if_neg hne] at h
    rw [if_neg hne] at h
    obtain rfl := Except.ok.inj h
    simp [Jac.materializeForIdx, segSum, arange]

/-- **C74 (two models).**  The models of `dense_array` by positions (`Core/Jac.lean`) and by arrays (`ND/Layout.lean`) agree. -/
theorem C74_agree {n : ℕ} {J : Jac (Fin s.prod) F} (hJ : Jac.Wf n J) (h0 : 0 ∉ s) (hr : J.weak = true → 0 < J.nrows) :
    ∃ r rows, denseArr (jacArr s J) = some r ∧ J.denseArray = .ok rows ∧ r.shape = rows.length :: s ∧
      ∀ i p (hp : InB p s), i < rows.length → r.get (i :: p) = (rows.getD i fun _ => 0) ⟨ravelIdx s p, ravelIdx_lt hp⟩ := by
  obtain ⟨hd, hi⟩ := jacArr_shape (s := s) J
  have : Nonempty (Fin s.prod) := ⟨⟨0, Nat.pos_of_ne_zero (List.prod_ne_zero h0)⟩⟩
  have hent : ∀ i p (hp : InB p s), (jacArr s J).entry i p = J.den i ⟨_, ravelIdx_lt hp⟩ := fun i p hp => by
    have e := ArrJac.rep_den (jacArr s J) s i ⟨ravelIdx s p, ravelIdx_lt hp⟩
    rw [rep_jacArr] at e
    rw [e, unravelIdx_ravelIdx hp]
  obtain ⟨rows, h4⟩ : ∃ rows, J.denseArray = .ok rows := by
    refine Jac.denseArray_ok _ ?_
    rintro r' rfl rfl
    exact absurd (hr rfl) (by simp [Jac.nrows])
  have hden := (Jac.denseArray_den hJ h4).1
  suffices h : ∃ r, denseArr (jacArr s J) = some r ∧ r.shape = rows.length :: s ∧ ∀ i p, InB p s → i < rows.length → r.get (i :: p) = (jacArr s J).entry i p by
    obtain ⟨r, h1, h2, h3⟩ := h
    refine ⟨r, rows, h1, h4, h2, fun i p hp hlt => ?_⟩
    rw [h3 i p hp hlt, hent i p hp, ← hden]
    rfl
  cases J with
  | dense rs =>
    obtain rfl := Except.ok.inj h4
    refine ⟨_, rfl, hd, fun i p hp hlt => ?_⟩
    show _ = if i < (jacArr s (Jac.dense rs)).data.shape.getD 0 0 then (jacArr s (Jac.dense rs)).data.get (i :: p) else 0
    rw [hd]
    exact (if_pos hlt).symm
  | sparse rs =>
    obtain ⟨mk, hmk⟩ := Option.ne_none_iff_exists'.mp (jacArr_none.mpr (show (Jac.sparse rs).weak = true from rfl))
    obtain ⟨r, N, h1, h2, h3, h5, h6⟩ := C35_dense_array hd (hi mk hmk) (hr rfl) h0
    simp only [Jac.denseArray] at h4
    have hN : rows.length = N := by
      split at h4
      · simp at h4
      · rename_i m hm
        have hle : ∀ k p (hk : k < rs.length) (hp : InB p s), mk.get (k :: p) ≤ m := fun k p hk hp => by
          rw [jacArr_idx hmk hk hp]
          have := Jac.le_maxN rs rs[k] (List.getElem_mem _) ⟨_, ravelIdx_lt hp⟩
          rw [hm] at this
          exact WithBot.coe_le_coe.mp this
        have hl := constructSparse_length h4
        by_cases hm0 : 0 ≤ m
        · obtain ⟨k, p, hk, hp, hge⟩ : ∃ k p, k < rs.length ∧ InB p s ∧ m ≤ mk.get (k :: p) := by
            by_contra hcon
            push_neg at hcon
            have := Jac.maxN_lt rs m.toNat (fun r' hr' q => by
              obtain ⟨k, hk, rfl⟩ := List.getElem_of_mem hr'
              have := hcon k _ hk (inB_unravelIdx q.2)
              rw [jacArr_idx hmk hk (inB_unravelIdx q.2)] at this
              have e : (⟨ravelIdx s (unravelIdx s q), ravelIdx_lt (inB_unravelIdx q.2)⟩ : Fin s.prod) = q := Fin.ext (ravelIdx_unravelIdx q.2)
              rw [e] at this
              omega) m hm
            omega
          have e1 := h3 k p hk hp
          have e2 := hle k p hk hp
          rcases h5 with h5 | ⟨k', p', hk', hp', e3, e4⟩
          · omega
          · have := hle k' p' hk' hp'
            omega
        · rcases h5 with h5 | ⟨k', p', hk', hp', e3, e4⟩
          · omega
          · have := hle k' p' hk' hp'
            omega
    subst hN
    refine ⟨r, ?_, h2, fun i p hp hlt => ?_⟩
    · unfold denseArr
      rw [hmk]
      exact h1
    · rw [h6 i p hlt hp]
      unfold ArrJac.entry
      rw [hmk]
      dsimp only
      rw [show (jacArr s (Jac.sparse rs)).data.shape.getD 0 0 = (Jac.sparse rs).nrows by rw [hd]; rfl]

end

section
variable {F : Type} [RCLike F] [Inhabited F] {n : ℕ}

/-- What is read off a result `v` of shape `s`, for the function `g` at `x` with weights `w`: a plain array is the value of `g` near `x`.  Otherwise `x` is the value; `dense_array` is
an array of shape `(N, *s)` whose rows are the weighted partial derivatives, and those of the remaining inputs are zero; at every position the entries of `data` whose index in
`mask` is `i` sum up to the partial derivative with respect to input `i`, and the other entries are zero; `laplacian` is the weighted Laplacian. -/
def ReadsOff (w x : Fin n → ℝ) (s : List ℕ) (v : PVal F) (g : FArr (Fin n → ℝ) F) : Prop :=
  ∃ (o : Opd F s.prod) (u : (Fin n → ℝ) → Fin s.prod → F), v = ⟨s.prod, o⟩ ∧ g = ⟨s.prod, u⟩ ∧
    match o with
    | .plain a => ∀ᶠ z in 𝓝 x, toND s (u z) = toND s a
    | .lapl t =>
      (∀ p, InB p s → TwiceDiff (fun z => (toND s (u z)).get p) x) ∧
      toND s t.x = toND s (u x) ∧
      (∃ r N, denseArr (tripArr s t).jac = some r ∧ r.shape = N :: s ∧ ∀ p, InB p s →
        (∀ i : Fin n, (i : ℕ) < N → r.get (i :: p) = (w i : F) * partialD i (fun z => (toND s (u z)).get p) x) ∧
        (∀ i : Fin n, N ≤ i → (w i : F) * partialD i (fun z => (toND s (u z)).get p) x = 0) ∧
        ∀ i, n ≤ i → i < N → r.get (i :: p) = 0) ∧
      (∃ K, (tripArr s t).jac.data.shape = K :: s ∧ (maskArr (tripArr s t).jac).shape = K :: s ∧ ∀ p, InB p s →
        ∀ i : Fin n, ((List.range K).map fun k => if (maskArr (tripArr s t).jac).get (k :: p) = (i : ℤ) then (tripArr s t).jac.data.get (k :: p) else 0).sum =
          (w i : F) * partialD i (fun z => (toND s (u z)).get p) x) ∧
      ∀ p, InB p s → (tripArr s t).lapl.get p = ∑ i, ((w i) ^ 2 : ℝ) * partialD i (partialD i fun z => (toND s (u z)).get p) x

theorem toND_fun {s p : List ℕ} (hp : InB p s) (u : (Fin n → ℝ) → Fin s.prod → F) : (fun z => (toND s (u z)).get p) = fun z => u z ⟨_, ravelIdx_lt hp⟩ :=
  funext fun z => toND_get _ _ hp

/-- **C74 (results).**  What the theorems about programs call exact can be read off the arrays. -/
theorem C74_read {w x : Fin n → ℝ} {v : PVal F} {g : FArr (Fin n → ℝ) F} (h : ExactVal w x v g) (hr : ∀ t, v.2 = .lapl t → t.jac.weak = true → 0 < t.jac.nrows)
    {s : List ℕ} (hs : v.1 = s.prod) (h0 : 0 ∉ s) : ReadsOff w x s v g := by
  obtain ⟨m, o⟩ := v
  dsimp only at hs
  subst hs
  obtain ⟨u, rfl, h⟩ := h
  refine ⟨o, u, rfl, rfl, ?_⟩
  cases o with
  | plain a => exact h.mono fun z hz => by rw [show u z = a from hz]
  | lapl t =>
    obtain ⟨h1, h2, h3, h4, h5⟩ := h
    obtain ⟨hd, hi⟩ := jacArr_shape (s := s) t.jac
    have hent : ∀ i p (hp : InB p s), (jacArr s t.jac).entry i p = t.jac.den i ⟨_, ravelIdx_lt hp⟩ := fun i p hp => by
      have e := ArrJac.rep_den (jacArr s t.jac) s i ⟨ravelIdx s p, ravelIdx_lt hp⟩
      rw [rep_jacArr] at e
      rw [e, unravelIdx_ravelIdx hp]
    refine ⟨fun p hp => ?_, ?_, ?_, ?_, fun p hp => ?_⟩
    · rw [toND_fun hp]
      exact h1 _
    · rw [show t.x = u x from funext h2]
    · obtain ⟨r, N, e1, e2, e3⟩ := denseArr_entry hd hi (fun h => hr t rfl (jacArr_none.mp h)) h0
      refine ⟨r, N, e1, e2, fun p hp => ⟨fun i hiN => ?_, fun i hiN => ?_, fun i hin hiN => ?_⟩⟩
      · rw [toND_fun hp, ← h3, ← hent i p hp, ← e3 i p hp, if_pos hiN]
      · rw [toND_fun hp, ← h3, ← hent i p hp, ← e3 i p hp, if_neg (by omega)]
      · have := e3 i p hp
        rw [if_pos hiN, hent i p hp, h4 i hin] at this
        exact this
    · refine ⟨t.jac.nrows, hd, ?_, fun p hp i => ?_⟩
      · show (maskArr (jacArr s t.jac)).shape = _
        unfold maskArr
        cases hj : (jacArr s t.jac).idx with
        | none => exact hd
        | some m => exact hi m hj
      · rw [toND_fun hp, ← h3, ← hent i p hp]
        show ((List.range t.jac.nrows).map fun k => if (maskArr (jacArr s t.jac)).get (k :: p) = ((i : ℕ) : ℤ) then (jacArr s t.jac).data.get (k :: p) else 0).sum = _
        unfold maskArr ArrJac.entry
        cases hj : (jacArr s t.jac).idx with
        | some m =>
          dsimp only
          rw [show (jacArr s t.jac).data.shape.getD 0 0 = t.jac.nrows by rw [hd]; rfl]
        | none =>
          dsimp only
          rw [show (jacArr s t.jac).data.shape.getD 0 0 = t.jac.nrows by rw [hd]; rfl]
          have hk : ∀ k ∈ List.range t.jac.nrows, (if (ND.ofFn (jacArr s t.jac).data.shape fun w => ((w.headD 0 : ℕ) : ℤ)).get (k :: p) = ((i : ℕ) : ℤ) then
              (jacArr s t.jac).data.get (k :: p) else 0) = if k = (i : ℕ) then (jacArr s t.jac).data.get ((i : ℕ) :: p) else 0 := fun k hk => by
            have hin : InB (k :: p) (jacArr s t.jac).data.shape := by rw [hd]; exact List.Forall₂.cons (List.mem_range.mp hk) hp
            rw [ND.get_ofFn _ hin]
            show (if ((k : ℕ) : ℤ) = ((i : ℕ) : ℤ) then _ else _) = _
            by_cases e : k = i
            · subst e; simp
            · rw [if_neg (by exact_mod_cast e), if_neg e]
          rw [List.map_congr_left hk]
          by_cases hlt : (i : ℕ) < t.jac.nrows
          · rw [if_pos hlt]
            have e : ∀ (K : ℕ) (f : ℕ → F), ((List.range K).map f).sum = ∑ k ∈ Finset.range K, f k := fun K f => by
              induction K with
              | zero => rfl
              | succ K ih => rw [List.range_succ, List.map_append, List.sum_append, Finset.sum_range_succ, ih]; simp
            rw [e, Finset.sum_ite_eq' (Finset.range t.jac.nrows) (i : ℕ), if_pos (Finset.mem_range.mpr hlt)]
          · rw [if_neg hlt]
            refine List.sum_eq_zero fun y hy => ?_
            obtain ⟨k, hk, rfl⟩ := List.mem_map.mp hy
            rw [if_neg]
            have := List.mem_range.mp hk
            omega
    · rw [toND_fun hp, ← h5]
      exact toND_get _ _ hp

end
end Folx.Layout

namespace Folx
open Folx.Layout Folx.Interp Folx.Vmap Filter Topology

section
variable {F : Type} [RCLike F] [Inhabited F] {n : ℕ}

theorem read_all {w x : Fin n → ℝ} {inv : ∀ m, Jac (Fin m) F → Prop} (hinv : ∀ m J, inv m J → J.weak = true → 0 < J.nrows) {ys : List (PVal F)} {f : List (FArr (Fin n → ℝ) F)}
    (h : List.Forall₂ (Represents (inputBase w x) inv) ys f) : List.Forall₂ (fun v g => ∀ s, v.1 = s.prod → 0 ∉ s → ReadsOff w x s v g) ys f :=
  h.imp fun v g hv s hs h0 => by
    refine C74_read (exactVal_of_represents _ x _ v g hv) (fun t ht hw => ?_) hs h0
    obtain ⟨u, rfl, ho⟩ := hv
    rw [ht] at ho
    exact hinv _ _ ho.2 hw

/-- **C74 (programs).**  Under the conditions of C59: what is read off the arrays that `forward_laplacian(f, weights)(x)` returns (`x`, `dense_array`, `data` with `mask`, `laplacian`) is
the value of `f` at `x`, its weighted partial derivatives and its weighted Laplacian. -/
theorem C74_program (reg : String → Option (Prim F)) (junk : List (PVal F) → PVal F) (t : ℚ)
    (hn : 0 < n) (sizes : List ℕ) (hs : sizes.sum = n) (d : ℕ)
    (j : Jaxpr (Op d F) (PArr F)) (consts : List (PArr F)) (weights : Weights F) (w x : Fin n → ℝ)
    (hw : weightArrs weights sizes = .ok (unflat sizes w)) (hd : ArrayProgramOk (decide (0 < threshold t n)) reg d j consts sizes x)
    (ys : List (PVal F)) (h : forwardLaplacian reg junk t d j consts weights (plainArgs sizes x) = .ok ys) :
    ∃ f : List (FArr (Fin n → ℝ) F),
      (∀ z, evalPlain d j consts (unflat sizes z) = .ok (f.map fun g => g.at z)) ∧
      List.Forall₂ (fun v g => ∀ s, v.1 = s.prod → 0 ∉ s → ReadsOff w x s v g) ys f := by
  obtain ⟨f, h1, h2⟩ := arr_forward_rep _ reg junk t hn sizes hs rfl d j consts weights w x hw hd ys h
  refine ⟨f, h1, read_all (fun m J hJ hwk => ?_) h2⟩
  split at hJ
  · exact hJ.1 hwk
  · exact absurd hwk (by rw [hJ.1]; decide)

/-- **C74 (sparsity disabled).**  Then all Jacobians are dense arrays with one row for every input. -/
theorem C74_all_rows (reg : String → Option (Prim F)) (junk : List (PVal F) → PVal F) (t : ℚ)
    (hn : 0 < n) (sizes : List ℕ) (hs : sizes.sum = n) (ht : threshold t n ≤ 0) (d : ℕ)
    (j : Jaxpr (Op d F) (PArr F)) (consts : List (PArr F)) (weights : Weights F) (w x : Fin n → ℝ)
    (hw : weightArrs weights sizes = .ok (unflat sizes w)) (hd : ArrayProgramOk false reg d j consts sizes x)
    (ys : List (PVal F)) (h : forwardLaplacian reg junk t d j consts weights (plainArgs sizes x) = .ok ys) :
    ∀ v ∈ ys, ∀ s, v.1 = s.prod → ∀ o : Trip (Fin s.prod) F, v = ⟨s.prod, .lapl o⟩ → (tripArr s o).jac.idx = none ∧ (tripArr s o).jac.data.shape = n :: s := by
  obtain ⟨f, -, h2⟩ := arr_forward_rep false reg junk t hn sizes hs (by simpa using ht) d j consts weights w x hw hd ys h
  intro v hv s _ o ho
  obtain ⟨i, hi, rfl⟩ := List.getElem_of_mem hv
  have hr : Represents (inputBase w x) _ ys[i] _ := h2.get (i := i) hi (by rw [← h2.length_eq]; exact hi)
  rw [ho] at hr
  obtain ⟨u, -, hr⟩ := hr
  have h3 : o.jac.weak = false ∧ o.jac.nrows = n := hr.2
  obtain ⟨hd', -⟩ := jacArr_shape (s := s) o.jac
  refine ⟨?_, ?_⟩
  · by_contra hne
    have := jacArr_none.mp hne
    rw [h3.1] at this
    cases this
  · rw [← h3.2]
    exact hd'

/-- **C74 (short Jacobians).**  Under the conditions of C71. -/
theorem C74_short (reg : String → Option (Prim F)) (junk : List (PVal F) → PVal F) (t : ℚ)
    (hn : 0 < n) (sizes : List ℕ) (hs : sizes.sum = n) (d : ℕ)
    (j : Jaxpr (Op d F) (PArr F)) (consts : List (PArr F)) (weights : Weights F) (w x : Fin n → ℝ)
    (hw : weightArrs weights sizes = .ok (unflat sizes w)) (hd : AnyProgramOk reg d j consts sizes x)
    (ys : List (PVal F)) (h : forwardLaplacian reg junk t d j consts weights (plainArgs sizes x) = .ok ys) :
    ∃ f : List (FArr (Fin n → ℝ) F),
      (∀ z, evalPlain d j consts (unflat sizes z) = .ok (f.map fun g => g.at z)) ∧
      List.Forall₂ (fun v g => ∀ s, v.1 = s.prod → 0 ∉ s → ReadsOff w x s v g) ys f := by
  have hne : sizes ≠ [] := by
    rintro rfl
    simp at hs
    omega
  unfold forwardLaplacian at h
  rw [sizes_plainArgs, hs] at h
  dsimp only at h
  unfold plainArgs at h
  rw [initState_eq _ weights sizes hne hs w x hw] at h
  dsimp only at h
  obtain ⟨outs, h1, h2⟩ := evalLapl_sound (inputBase w x) _ reg junk _ AnyGood (fun p v hv => hv.sound hn p v) d j consts _ _ ys (filled_init _ w x sizes hs)
    (any_dom reg junk t hn sizes hs d j consts w x hd) h
  refine ⟨outs, fun z => ?_, read_all (fun m J hJ hwk => filled_iff hJ hwk) h2⟩
  rw [← inputFns_unflat]
  exact h1 z

end

/-- **C74 (default registry).**  For programs over the functions registered by default (C72). -/
theorem C74_default {n : ℕ} (reg : String → Option (Prim ℝ)) (junk : List (PVal ℝ) → PVal ℝ) (t : ℚ)
    (hn : 0 < n) (sizes : List ℕ) (hs : sizes.sum = n) (d : ℕ)
    (j : Jaxpr (Op d ℝ) (PArr ℝ)) (consts : List (PArr ℝ)) (weights : Weights ℝ) (w x : Fin n → ℝ)
    (hw : weightArrs weights sizes = .ok (unflat sizes w))
    (hd : DomProg (evPlain d) (DomP reg (DefaultAt (decide (0 < threshold t n))) d) j consts (unflat sizes x))
    (ys : List (PVal ℝ)) (h : forwardLaplacian reg junk t d j consts weights (plainArgs sizes x) = .ok ys) :
    ∃ f : List (FArr (Fin n → ℝ) ℝ),
      (∀ z, evalPlain d j consts (unflat sizes z) = .ok (f.map fun g => g.at z)) ∧
      List.Forall₂ (fun v g => ∀ s, v.1 = s.prod → 0 ∉ s → ReadsOff w x s v g) ys f := by
  refine C74_program reg junk t hn sizes hs d j consts weights w x hw (fun s hs' => ?_) ys h
  exact domRun_mono _ _ _ (DomP.mono reg _ _ (fun p y ⟨_, _, _, _, _, h1, h2, h3⟩ => C72_good h1 _ h2 h3 n) d) _ _ (hd s hs')

/-! ### Examples -/

/-- A sparse Jacobian of an array of shape (2,) with respect to three inputs: two rows, one entry unused.  `dense_array` has one row for every input up to the largest that occurs. -/
def exRead : Jac (Fin ([2] : List ℕ).prod) ℚ := .sparse [⟨fun p => if p.val = 0 then 0 else 1, fun p => if p.val = 0 then 5 else 7⟩, ⟨fun p => if p.val = 0 then 1 else -1, fun p => if p.val = 0 then 6 else 0⟩]

example : (denseArr (jacArr [2] exRead)).map (fun r => (r.shape, r.data)) = some ([2, 2], [5, 0, 6, 7]) := by decide +kernel

example : Jac.Wf 3 exRead := by
  intro r hr p
  simp only [exRead, List.mem_cons, List.not_mem_nil, or_false] at hr
  rcases hr with rfl | rfl <;> fin_cases p <;> decide +kernel

open GramDemo in
/-- `jnp.tanh(y @ y.T).sum()`: with sparsity disabled `dense_array` of the result is an array of shape (4,) whose entries are the partial derivatives. -/
example (junk : List (PVal ℝ) → PVal ℝ) (x : Fin 4 → ℝ) (ys : List (PVal ℝ)) (h : forwardLaplacian Demo.reg junk 0 1 GramDemo.prog [] .absent (plainArgs [4] x) = .ok ys) :
    List.Forall₂ (fun v g => ∀ s, v.1 = s.prod → 0 ∉ s → ReadsOff (fun _ => 1) x s v g) ys [⟨1, fun z _ => gram z⟩] := by
  obtain ⟨f, f1, f2⟩ := C74_default Demo.reg junk 0 (n := 4) (by decide) [4] rfl 1 GramDemo.prog [] .absent (fun _ => 1) x (weights_absent [4] rfl)
    (usesOnly_prog (P := SmoothRetFn false) (fun _ ⟨_, _, _, _, _, h1, h2, h3⟩ x => ⟨_, _, _, _, _, h1, fun h => absurd h (by decide), h3 x⟩)
      (GramDemo.prog_calls _ (reshape_smooth _) (transpose_smooth _) matmul_smooth (tanh_smooth _) (total_smooth _)) _ _) ys h
  rw [farr_ext f [⟨1, fun z _ => gram z⟩] fun z => Except.ok.inj ((f1 z).symm.trans (GramDemo.prog_eval z))] at f2
  exact f2

end Folx

import Verif.Form.Core

/-! # The rules: the form of the result -/

namespace Folx

open Folx.Interp (Err)

variable {k : ℕ} {P : Fin k → Type} {Q F : Type} [CommRing F]

/-- The same function applied at other values: everything the rules look at while tracing is the same. -/
structure Inst.Like (I I' : Inst k P Q F) : Prop where
  flags : I.flags = I'.flags
  elem : I.elem = I'.elem
  π : I.π = I'.π
  same : I.same = I'.same
  ax : I.ax = I'.ax
  static : I.static = I'.static
  src : I.flags.has Flags.INDEXING = true → I.static = true → I.src = I'.src
  role : I.role = I'.role
  multi : I.multi = I'.multi
  seg : I.seg = I'.seg

/-- Results of a rule of the same form. -/
def JvpOut.Same (o o' : JvpOut Q F) : Prop := o.jac.Same o'.jac

/-- Arguments of the same form. -/
def ArgsSame (args args' : (a : Fin k) → Trip (P a) F) : Prop := ∀ a, (args a).jac.Same (args' a).jac

theorem maxLen_congr {rows rows' : (a : Fin k) → List (P a → F)} (h : ∀ a, (rows a).length = (rows' a).length) :
    maxLen rows = maxLen rows' := by
  unfold maxLen
  congr 1
  funext a
  exact h a

theorem denseSplit_same {I I' : Inst k P Q F} {args args' : (a : Fin k) → Trip (P a) F}
    {rows rows' : (a : Fin k) → List (P a → F)} (h : ∀ a, (rows a).length = (rows' a).length) :
    (denseSplit I args rows).Same (denseSplit I' args' rows') := by
  unfold JvpOut.Same denseSplit
  refine Jac.same_dense.mpr ?_
  simp only [List.length_map, List.length_range]
  exact maxLen_congr h

theorem denseJoint_same {I I' : Inst k P Q F} {args args' : (a : Fin k) → Trip (P a) F}
    {rows rows' : (a : Fin k) → List (P a → F)} (h : ∀ a, (rows a).length = (rows' a).length) :
    (denseJoint I args rows).Same (denseJoint I' args' rows') := by
  unfold JvpOut.Same denseJoint
  refine Jac.same_dense.mpr ?_
  simp only [List.length_dropLast, List.length_map, List.length_append, List.length_range, List.length_singleton]
  rw [maxLen_congr h]

theorem denseElementwise_same [Fintype Q] {I I' : Inst k P Q F} (hI : I.Like I') {args args' : (a : Fin k) → Trip (P a) F}
    {rows rows' : (a : Fin k) → List (P a → F)} (h : ∀ a, (rows a).length = (rows' a).length) (a : Fin k)
    [DecidableEq (P a)] : (denseElementwise I args rows a).Same (denseElementwise I' args' rows' a) := by
  unfold denseElementwise
  rw [hI.same]
  cases I'.same a with
  | none => exact denseSplit_same h
  | some e => exact Jac.same_dense.mpr (by simp only [List.length_map]; exact h a)

theorem denseJvp_rel [∀ a, Fintype (P a)] [∀ a, DecidableEq (P a)] [Fintype Q] {I I' : Inst k P Q F} (hI : I.Like I')
    {args args' : (a : Fin k) → Trip (P a) F} (h : ArgsSame args args') :
    ExRel JvpOut.Same (denseJvp I args) (denseJvp I' args') := by
  unfold denseJvp
  obtain ⟨e, h1, h2⟩ | ⟨x, y, h1, h2, hxy⟩ := (seqFin_rel (fun a (r r' : List (P a → F)) => r.length = r'.length) _ _
    fun a => denseArray_rel (h a)).elim
  · rw [h1, h2]; exact .error e
  rw [h1, h2]
  dsimp only
  by_cases hk : I.elem = true ∧ k = 1
  · rw [dif_pos hk, dif_pos (hI.elem ▸ hk : I'.elem = true ∧ k = 1)]
    exact .ok (denseElementwise_same hI hxy _)
  · rw [dif_neg hk, dif_neg (fun h => hk (hI.elem ▸ h)), hI.flags]
    split
    · exact .ok (denseJoint_same hxy)
    · exact .ok (denseSplit_same hxy)

theorem uniqueRows_idx [DecidableEq (Q → ℤ)] (r : List (Row Q F)) :
    (uniqueRows r).map Row.idx = (r.map Row.idx).dedup := by
  unfold uniqueRows
  rw [List.map_map]
  exact List.map_id' _

theorem flatten_ofFn_idx {rows rows' : Fin k → List (Row Q F)}
    (h : ∀ a, (rows a).map Row.idx = (rows' a).map Row.idx) :
    (List.flatten (List.ofFn rows)).map Row.idx = (List.flatten (List.ofFn rows')).map Row.idx := by
  rw [List.map_flatten, List.map_flatten, List.map_ofFn, List.map_ofFn]
  congr 2
  funext a
  exact h a

theorem sparseDiag_rel [∀ a, DecidableEq (P a)] [Fintype Q] [DecidableEq Q] {I I' : Inst k P Q F} (hI : I.Like I')
    {args args' : (a : Fin k) → Trip (P a) F} (h : ArgsSame args args') :
    ExRel JvpOut.Same (sparseDiag I args) (sparseDiag I' args') := by
  unfold sparseDiag
  rw [hI.multi, hI.same, hI.π]
  by_cases hm : I'.multi = true
  · rw [if_pos hm, if_pos hm]; exact .error _
  rw [if_neg hm, if_neg hm]
  dsimp only
  have hg : ∀ a, ((args a).jac.srows.map fun r => (⟨fun q => r.idx (I'.π a q), I.jvp (fun a => (args a).x)
        (Pi.single a r.val)⟩ : Row Q F)).map Row.idx =
      ((args' a).jac.srows.map fun r => (⟨fun q => r.idx (I'.π a q), I'.jvp (fun a => (args' a).x)
        (Pi.single a r.val)⟩ : Row Q F)).map Row.idx := by
    intro a
    rw [List.map_map, List.map_map]
    exact map_idx_congr (srows_idx (h a)) fun i q => i (I'.π a q)
  split
  · cases I'.same _ with
    | some e =>
      refine .ok (Jac.same_sparse.mpr ?_)
      rw [List.map_map, List.map_map]
      exact map_idx_congr (srows_idx (h _)) fun i q => i (e q)
    | none => exact .ok (Jac.same_sparse.mpr (flatten_ofFn_idx hg))
  · refine .ok (Jac.same_sparse.mpr ?_)
    rw [uniqueRows_idx, uniqueRows_idx, flatten_ofFn_idx hg]

theorem getD_idx {P : Type} {r r' : List (Row P F)} (h : r.map Row.idx = r'.map Row.idx) (i : ℕ) :
    (r.getD i ⟨fun _ => -1, fun _ => 0⟩).idx = (r'.getD i ⟨fun _ => -1, fun _ => 0⟩).idx := by
  have key : ∀ r : List (Row P F), (r.getD i ⟨fun _ => -1, fun _ => 0⟩).idx = (r.map Row.idx).getD i fun _ => -1 := by
    intro r
    rw [List.getD_eq_getElem?_getD, List.getD_eq_getElem?_getD, List.getElem?_map]
    cases r[i]? <;> rfl
  rw [key, key, h]

theorem sparseIndex_rel [∀ a, Fintype (P a)] [∀ a, DecidableEq (P a)] [Fintype Q] {I I' : Inst k P Q F} (hI : I.Like I')
    (hf : I.flags.has Flags.INDEXING = true) {args args' : (a : Fin k) → Trip (P a) F} (h : ArgsSame args args') :
    ExRel JvpOut.Same (sparseIndex I args) (sparseIndex I' args') := by
  unfold sparseIndex
  rw [← hI.static, ← hI.multi]
  by_cases hs : I.static = true
  · rw [if_pos hs, if_pos hs]
    by_cases hm : I.multi = true
    · rw [if_pos hm, if_pos hm]; exact .error _
    rw [if_neg hm, if_neg hm]
    refine .ok (Jac.same_sparse.mpr ?_)
    rw [List.map_map, List.map_map, ← hI.src hf hs]
    have hl : (Finset.univ.sup fun a => (args a).jac.srows.length) = Finset.univ.sup fun a => (args' a).jac.srows.length := by
      congr 1
      funext a
      exact length_of_idx (srows_idx (h a))
    rw [hl]
    refine List.map_congr_left fun i _ => ?_
    funext q
    show (match I.src q with
      | some ⟨a, p⟩ => ((args a).jac.srows.getD i ⟨fun _ => -1, fun _ => 0⟩).idx p
      | none => -1) = match I.src q with
      | some ⟨a, p⟩ => ((args' a).jac.srows.getD i ⟨fun _ => -1, fun _ => 0⟩).idx p
      | none => -1
    cases I.src q with
    | none => rfl
    | some s => exact congrFun (getD_idx (srows_idx (h s.1)) i) s.2
  · rw [if_neg hs, if_neg hs]
    exact denseJvp_rel hI h

theorem Inst.Like.single {I I' : Inst k P Q F} (hI : I.Like I') (x x' : (a : Fin k) → P a → F) (a : Fin k) :
    (I.single x a).Like (I'.single x' a) where
  flags := hI.flags
  elem := hI.elem
  π := by show (fun _ : Fin 1 => I.π a) = fun _ => I'.π a; rw [hI.π]
  same := by show (fun _ : Fin 1 => I.same a) = fun _ => I'.same a; rw [hI.same]
  ax := by show (fun _ : Fin 1 => I.ax a) = fun _ => I'.ax a; rw [hI.ax]
  static := hI.static
  src := fun _ _ => rfl
  role := by show (fun _ : Fin 1 => I.role a) = fun _ => I'.role a; rw [hI.role]
  multi := hI.multi
  seg := by show (fun _ : Fin 1 => I.seg a) = fun _ => I'.seg a; rw [hI.seg]

section Single
variable {P₀ : Type}

theorem sumIdx_congr (r : Red P₀ Q) {rows rows' : List (Row P₀ F)} (h : rows.map Row.idx = rows'.map Row.idx) (q : Q) :
    sumIdx r rows q = sumIdx r rows' q := by
  unfold sumIdx
  rw [map_idx_congr h fun i => Finset.univ.image fun c => i (r.split.symm (r.κ q, c))]

theorem redIdx_congr (r : Red P₀ Q) {rows rows' : List (Row P₀ F)} (h : rows.map Row.idx = rows'.map Row.idx) (u : r.K) :
    redIdx r rows u = redIdx r rows' u := by
  unfold redIdx
  rw [map_idx_congr h fun i => (Finset.univ.image fun c => i (r.split.symm (u, c))).erase (-1)]

theorem sparseSum_rel [Fintype P₀] [Fintype Q] (r : Red P₀ Q) (T : ℕ) {arg arg' : Trip P₀ F} (h : arg.jac.Same arg'.jac) :
    ExRel JvpOut.Same (sparseSum r T arg) (sparseSum r T arg') := by
  unfold sparseSum
  have hs : sumIdx r arg.jac.srows = sumIdx r arg'.jac.srows := funext fun q => sumIdx_congr r (srows_idx h) q
  dsimp only
  rw [hs, maxN_congr (srows_idx h)]
  split
  · exact .error _
  · split
    · cases Jac.maxN arg'.jac.srows with
      | bot => exact .error _
      | coe m => exact .ok (Jac.same_dense.mpr (by simp only [List.length_map]))
    · refine .ok (Jac.same_sparse.mpr ?_)
      rw [List.map_map, List.map_map]
      rfl

theorem jacobianForReduction_rel (r : Red P₀ Q) {rows rows' : List (Row P₀ F)} (h : rows.map Row.idx = rows'.map Row.idx) :
    ExRel (fun x y => x.1.length = y.1.length ∧ x.2 = y.2) (jacobianForReduction r rows) (jacobianForReduction r rows') := by
  unfold jacobianForReduction
  have hs : redIdx r rows = redIdx r rows' := funext fun q => redIdx_congr r h q
  rw [hs]
  dsimp only
  split
  · exact .error _
  · rw [getIndexMask_congr h]
    cases Jac.getIndexMask rows' _ with
    | error e => exact .error e
    | ok ids => exact .ok ⟨by simp only [Jac.materializeForIdx, segSum_length], rfl⟩

theorem zip_fst_map {α β γ : Type} (l : List α) (m m' : List β) (h : m.length = m'.length) (g : α → γ) :
    (l.zip m).map (fun x => g x.1) = (l.zip m').map fun x => g x.1 := by
  induction l generalizing m m' with
  | nil => simp
  | cons a l ih =>
    cases m with
    | nil => cases m' with
      | nil => rfl
      | cons b m' => simp at h
    | cons b m => cases m' with
      | nil => simp at h
      | cons b' m' => simp only [List.zip_cons_cons, List.map_cons, ih m m' (by simpa using h)]

theorem sparseReduce_rel [Fintype P₀] [DecidableEq P₀] [Fintype Q] {I I' : Inst 1 (fun _ => P₀) Q F} (hI : I.Like I')
    (r : Red P₀ Q) (T : ℕ) {arg arg' : Trip P₀ F} (h : arg.jac.Same arg'.jac) :
    ExRel JvpOut.Same (sparseReduce I r T arg) (sparseReduce I' r T arg') := by
  unfold sparseReduce
  obtain ⟨e, h1, h2⟩ | ⟨⟨g, m⟩, ⟨g', m'⟩, h1, h2, hg, hm⟩ := (jacobianForReduction_rel r (srows_idx h)).elim
  · rw [h1, h2]; exact .error e
  rw [h1, h2]
  dsimp only at hm hg ⊢
  subst hm
  rw [hI.multi]
  split
  · exact denseJvp_rel hI fun _ => h
  · split
    · exact .error _
    · refine .ok (Jac.same_sparse.mpr ?_)
      rw [List.map_map, List.map_map]
      exact zip_fst_map m g g' hg fun i q => i (r.κ q)

theorem segCount_congr [Fintype P₀] (g : Seg P₀ Q) {rows rows' : List (Row P₀ F)} (h : rows.map Row.idx = rows'.map Row.idx) :
    segCount g rows = segCount g rows' := by
  funext s i
  unfold segCount
  refine Finset.sum_congr rfl fun u _ => ?_
  have key : ∀ rows : List (Row P₀ F), (rows.filter fun r => decide (r.idx u = (i : ℤ))).length =
      ((rows.map Row.idx).filter fun f => decide (f u = (i : ℤ))).length := by
    intro rows
    rw [List.filter_map, List.length_map]
    rfl
  rw [key, key, h]

theorem segMaxOut_congr [Fintype P₀] (g : Seg P₀ Q) {rows rows' : List (Row P₀ F)} (h : rows.map Row.idx = rows'.map Row.idx)
    (n : ℕ) : segMaxOut g rows n = segMaxOut g rows' n := by
  unfold segMaxOut
  rw [segCount_congr g h]

theorem segMask_congr [Fintype P₀] (g : Seg P₀ Q) {rows rows' : List (Row P₀ F)} (h : rows.map Row.idx = rows'.map Row.idx)
    (n : ℕ) : segMask g rows n = segMask g rows' n := by
  funext j s
  unfold segMask segCol
  rw [segCount_congr g h]

theorem sparseSegment_rel [Fintype P₀] [DecidableEq P₀] [Fintype Q] {I I' : Inst 1 (fun _ => P₀) Q F} (hI : I.Like I')
    (g : Seg P₀ Q) (T : ℕ) {arg arg' : Trip P₀ F} (h : arg.jac.Same arg'.jac) :
    ExRel JvpOut.Same (sparseSegment I g T arg) (sparseSegment I' g T arg') := by
  unfold sparseSegment
  have hr := srows_idx h
  dsimp only
  rw [maxN_congr hr]
  cases Jac.maxN arg'.jac.srows with
  | bot => exact .error _
  | coe m =>
    dsimp only
    rw [segMaxOut_congr g hr, segMask_congr g hr, getIndexMask_congr hr]
    split
    · exact .error _
    · split
      · exact denseJvp_rel hI fun _ => h
      · cases Jac.getIndexMask arg'.jac.srows _ with
        | error e => exact .error e
        | ok ids =>
          dsimp only
          split
          · refine .ok (Jac.same_sparse.mpr ?_)
            rw [List.map_map, List.map_map]
            rfl
          · split
            · refine .ok (Jac.same_sparse.mpr ?_)
              rw [List.map_map, List.map_map]
              rfl
            · exact .error _

theorem sparseScatter_rel [Fintype P₀] [DecidableEq P₀] [Fintype Q] {I I' : Inst 1 (fun _ => P₀) Q F} (hI : I.Like I')
    (T : ℕ) {arg arg' : Trip P₀ F} (h : arg.jac.Same arg'.jac) :
    ExRel JvpOut.Same (sparseScatter I T arg) (sparseScatter I' T arg') := by
  unfold sparseScatter
  rw [hI.role, hI.seg, hI.flags, hI.same]
  cases I'.role 0 with
  | indices => exact denseJvp_rel hI fun _ => h
  | updates =>
    cases I'.seg 0 with
    | none => exact denseJvp_rel hI fun _ => h
    | some g => exact sparseSegment_rel hI g T h
  | operand =>
    dsimp only
    split
    · cases I'.same 0 with
      | none => exact .error _
      | some e =>
        refine .ok (Jac.same_sparse.mpr ?_)
        rw [List.map_map, List.map_map]
        exact map_idx_congr (srows_idx h) fun i q => i (e q)
    · exact denseJvp_rel hI fun _ => h

theorem sparseSingle_rel [Fintype P₀] [DecidableEq P₀] [Fintype Q] [DecidableEq Q] {I I' : Inst 1 (fun _ => P₀) Q F}
    (hI : I.Like I') (T : ℕ) {arg arg' : Trip P₀ F} (h : arg.jac.Same arg'.jac) :
    ExRel JvpOut.Same (sparseSingle I T arg) (sparseSingle I' T arg') := by
  unfold sparseSingle
  rw [hI.ax, hI.flags]
  cases I'.ax 0 with
  | elem π =>
    have hl : ({ I with π := fun _ => π } : Inst 1 (fun _ => P₀) Q F).Like { I' with π := fun _ => π } :=
      ⟨hI.flags, hI.elem, rfl, hI.same, hI.ax, hI.static, hI.src, hI.role, hI.multi, hI.seg⟩
    exact sparseDiag_rel hl fun _ => h
  | red r =>
    dsimp only
    split
    · exact sparseScatter_rel hI T h
    · split
      · exact sparseSum_rel r T h
      · exact sparseReduce_rel hI r T h

theorem singleJvp_rel [Fintype P₀] [DecidableEq P₀] [Fintype Q] [DecidableEq Q] {I I' : Inst 1 (fun _ => P₀) Q F}
    (hI : I.Like I') (T : ℕ) {arg arg' : Trip P₀ F} (h : arg.jac.Same arg'.jac) :
    ExRel JvpOut.Same (singleJvp I T arg) (singleJvp I' T arg') := by
  unfold singleJvp
  rw [h.1]
  split
  · exact sparseSingle_rel hI T h
  · exact denseJvp_rel hI fun _ => h

end Single

theorem accumulate_rel [Fintype Q] [DecidableEq Q] : ∀ (l l' : List (Except Err (JvpOut Q F))) (acc acc' : Option (JvpOut Q F)),
    List.Forall₂ (ExRel JvpOut.Same) l l' → Option.Rel JvpOut.Same acc acc' →
    ExRel (Option.Rel JvpOut.Same) (accumulate l acc) (accumulate l' acc')
  | [], _, acc, acc', h, ha => by
    cases h
    exact .ok ha
  | x :: l, _, acc, acc', h, ha => by
    cases h with
    | cons h1 h2 =>
      cases h1 with
      | error e => exact .error e
      | ok h1 =>
        cases ha with
        | none =>
          unfold accumulate
          exact accumulate_rel l _ _ _ h2 (.some h1)
        | some ha =>
          unfold accumulate
          obtain ⟨e, k1, k2⟩ | ⟨x, y, k1, k2, hxy⟩ := (add_rel ha h1).elim
          · rw [k1, k2]; exact .error e
          rw [k1, k2]
          exact accumulate_rel l _ _ _ h2 (.some hxy)

theorem forall₂_ofFn {k : ℕ} {α β : Type} {R : α → β → Prop} (f : Fin k → α) (g : Fin k → β) (h : ∀ a, R (f a) (g a)) :
    List.Forall₂ R (List.ofFn f) (List.ofFn g) := by
  induction k with
  | zero => simp
  | succ k ih =>
    rw [List.ofFn_succ, List.ofFn_succ]
    exact .cons (h 0) (ih _ _ fun a => h a.succ)

theorem oneByOne_rel [∀ a, Fintype (P a)] [∀ a, DecidableEq (P a)] [Fintype Q] [DecidableEq Q] {I I' : Inst k P Q F}
    (hI : I.Like I') (T : ℕ) {args args' : (a : Fin k) → Trip (P a) F} (h : ArgsSame args args') :
    ExRel JvpOut.Same (oneByOne I T args) (oneByOne I' T args') := by
  unfold oneByOne
  obtain ⟨e, k1, k2⟩ | ⟨x, y, k1, k2, hxy⟩ := (accumulate_rel _ _ none none
    (forall₂_ofFn _ _ fun a => singleJvp_rel (hI.single (fun a => (args a).x) (fun a => (args' a).x) a) T (h a)) .none).elim
  · rw [k1, k2]; exact .error e
  rw [k1, k2]
  cases hxy with
  | none => exact .error _
  | some h => exact .ok h

theorem allWeak_congr {args args' : (a : Fin k) → Trip (P a) F} (h : ArgsSame args args') : allWeak args = allWeak args' := by
  unfold allWeak
  congr 1
  exact propext (forall_congr' fun a => by rw [(h a).1])

theorem anyWeak_congr {args args' : (a : Fin k) → Trip (P a) F} (h : ArgsSame args args') : anyWeak args = anyWeak args' := by
  unfold anyWeak
  congr 1
  exact propext (exists_congr fun a => by rw [(h a).1])

theorem parallelJvp_rel [∀ a, Fintype (P a)] [∀ a, DecidableEq (P a)] [Fintype Q] [DecidableEq Q] {I I' : Inst k P Q F}
    (hI : I.Like I') (T : ℕ) {args args' : (a : Fin k) → Trip (P a) F} (h : ArgsSame args args') :
    ExRel JvpOut.Same (parallelJvp I T args) (parallelJvp I' T args') := by
  unfold parallelJvp
  rw [allWeak_congr h, ← hI.flags, hI.elem]
  split
  · exact denseJvp_rel hI h
  · split
    · rename_i hf
      exact sparseIndex_rel hI hf h
    · split
      · exact sparseDiag_rel hI h
      · split
        · exact sparseSingle_rel (hI.single _ _ _) T (h _)
        · exact denseJvp_rel hI h

/-- The first-order rule. -/
theorem jvpRule_rel [∀ a, Fintype (P a)] [∀ a, DecidableEq (P a)] [Fintype Q] [DecidableEq Q] {I I' : Inst k P Q F}
    (hI : I.Like I') (T : ℕ) {args args' : (a : Fin k) → Trip (P a) F} (h : ArgsSame args args') :
    ExRel JvpOut.Same (jvpRule I T args) (jvpRule I' T args') := by
  unfold jvpRule
  rw [allWeak_congr h, anyWeak_congr h, ← hI.flags, hI.elem]
  split
  · exact parallelJvp_rel hI T h
  · exact oneByOne_rel hI T h

end Folx

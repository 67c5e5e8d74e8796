import Verif.Prog.BuiltIn

/-!
# Every registered function is exact in its domain
-/

namespace Folx

open Filter Topology Vmap Dot
open Folx.Interp (Err)

attribute [local instance] instInhabitedScalar

/-! ### Truth of the declarations -/

theorem reduceMaxOp_true (n : ℕ) {s dims : List ℕ} (hs : 0 < s.prod)
    (hp : (keptDims s.length dims ++ dims).Perm (List.range s.length)) (x : (i : Fin 1) → Fin (oneSize s.prod i) → ℝ)
    (ht : UniqueExtremum 1 s dims (x 0)) : (reduceMaxOp s dims hs hp).TrueAt n x := by
  have : Nonempty (Fin (sizes s dims).prod) := ⟨⟨0, reduced_pos hs hp⟩⟩
  refine axesRed_linear n hs hp _ x fun q => ?_
  obtain ⟨k, hk, hmax⟩ := ht _ (inB_unravelIdx (s := sizes s (keptDims s.length dims)) q.2)
  refine maxFn_affine _ ⟨ravelIdx _ k, ravelIdx_lt hk⟩ fun c' hc' => ?_
  have e1 := reduce_along hp (x 0) q c'
  have e2 := reduce_along hp (x 0) q ⟨ravelIdx _ k, ravelIdx_lt hk⟩
  refine (e1.trans_lt ?_).trans_eq e2.symm
  rw [unravelIdx_ravelIdx hk]
  have := hmax _ (inB_unravelIdx c'.2) fun hh => hc' (Fin.ext ?_)
  · simpa using this
  · show (c' : ℕ) = ravelIdx _ k
    rw [← hh, ravelIdx_unravelIdx c'.2]

theorem reduceMinOp_true (n : ℕ) {s dims : List ℕ} (hs : 0 < s.prod)
    (hp : (keptDims s.length dims ++ dims).Perm (List.range s.length)) (x : (i : Fin 1) → Fin (oneSize s.prod i) → ℝ)
    (ht : UniqueExtremum (-1) s dims (x 0)) : (reduceMinOp s dims hs hp).TrueAt n x := by
  have : Nonempty (Fin (sizes s dims).prod) := ⟨⟨0, reduced_pos hs hp⟩⟩
  refine axesRed_linear n hs hp _ x fun q => ?_
  obtain ⟨k, hk, hmax⟩ := ht _ (inB_unravelIdx (s := sizes s (keptDims s.length dims)) q.2)
  refine minFn_affine _ ⟨ravelIdx _ k, ravelIdx_lt hk⟩ fun c' hc' => ?_
  have e1 := reduce_along hp (x 0) q c'
  have e2 := reduce_along hp (x 0) q ⟨ravelIdx _ k, ravelIdx_lt hk⟩
  refine (e2.trans_lt ?_).trans_eq e1.symm
  rw [unravelIdx_ravelIdx hk]
  have := hmax _ (inB_unravelIdx c'.2) fun hh => hc' (Fin.ext ?_)
  · simpa using this
  · show (c' : ℕ) = ravelIdx _ k
    rw [← hh, ravelIdx_unravelIdx c'.2]

theorem reduceProdOp_true (n : ℕ) {s dims : List ℕ} (hs : 0 < s.prod)
    (hp : (keptDims s.length dims ++ dims).Perm (List.range s.length)) (x : (i : Fin 1) → Fin (oneSize s.prod i) → ℝ) :
    (reduceProdOp ℝ s dims hs hp).TrueAt n x := by
  refine axesRed_general n hs hp _ x fun q => ?_
  have : ContDiff ℝ 2 fun v : Fin (sizes s dims).prod → ℝ => ∏ c, v c := contDiff_prod fun c _ => contDiff_apply ℝ ℝ c
  exact this.contDiffAt

theorem scatterMax_affine {s ids upd : List ℕ} {g : ScatterDims} (hs : 0 < s.prod) (hi : 0 < ids.prod) (hu : 0 < upd.prod)
    (x : (i : Fin 3) → Fin ((scatterCombineOp s ids upd g hs hi hu).shapes i).prod → ℝ) (hx : ∀ p, ∃ k : ℤ, x 1 p = k)
    (ht : (scatterCombineOp s ids upd g hs hi hu).NoTie 1 x) :
    AffineAt ℝ (fun x q => listMax ((scatterCombineOp s ids upd g hs hi hu).vals x q)) x :=
  (scatterCombineOp s ids upd g hs hi hu).extremal_affine 1 listMax
    (fun l m hm h => listMax_eq l m hm fun a ha => by simpa using h a ha) (scatterCombine_valid hs hi hu x hx) ht

theorem scatterMin_affine {s ids upd : List ℕ} {g : ScatterDims} (hs : 0 < s.prod) (hi : 0 < ids.prod) (hu : 0 < upd.prod)
    (x : (i : Fin 3) → Fin ((scatterCombineOp s ids upd g hs hi hu).shapes i).prod → ℝ) (hx : ∀ p, ∃ k : ℤ, x 1 p = k)
    (ht : (scatterCombineOp s ids upd g hs hi hu).NoTie (-1) x) :
    AffineAt ℝ (fun x q => listMin ((scatterCombineOp s ids upd g hs hi hu).vals x q)) x :=
  (scatterCombineOp s ids upd g hs hi hu).extremal_affine (-1) listMin
    (fun l m hm h => listMin_eq l m hm fun a ha => by simpa using h a ha) (scatterCombine_valid hs hi hu x hx) ht

theorem elemCustom_total (e : ElemEntry) {out : ℕ} {size : Fin e.arity → ℕ} (π : (i : Fin e.arity) → Fin out → Fin (size i))
    (k : ℕ) (emb : Fin k ↪o Fin e.arity) (x : (i : Fin e.arity) → Fin (size i) → ℝ)
    (c : CustomRule k (fun _ => 1) (Fin out) Unit ℝ) (h : e.custom π k emb x = some c) : HInst.CustomTotal c := by
  unfold ElemEntry.custom at h
  split at h
  · exact divCustom_total _ k _ _ c h
  · exact absurd h (by simp)

/-! ### Without sparsity -/

theorem Std.denseOk (s : Std ℝ) (T n : ℕ) (x : (i : Fin s.nIn) → Fin (s.size i) → ℝ) (h : s.TrueAt n x)
    (hc : ∀ k (e : Fin k ↪o Fin s.nIn) c, s.custom e x = some c → HInst.CustomTotal c) :
    Good false n s.toWPrim.toPrim x ∧ s.toWPrim.toPrim.TotalAt T n x :=
  ⟨.wrapped s x h (by simp), s.total T n x h hc⟩

theorem IndexOp.denseOk (op : IndexOp) (static oneAxis : Bool) (T n : ℕ) (x : (i : Fin op.nIn) → Fin (op.shapes i).prod → ℝ)
    (h : op.Valid x) : Good false n (op.prim ℝ static oneAxis) x ∧ (op.prim ℝ static oneAxis).TotalAt T n x :=
  (op.std ℝ static oneAxis).denseOk T n x (op.true_at static oneAxis n h) fun _ _ c hc =>
    absurd (show none = some c from hc) (by simp)

theorem CombineOp.denseOk (op : CombineOp) (comb : List ℝ → ℝ) (oneAxis : Bool) (T n : ℕ)
    (x : (i : Fin op.nIn) → Fin (op.shapes i).prod → ℝ) (h : AffineAt ℝ (fun x q => comb (op.vals x q)) x) :
    Good false n (op.prim comb oneAxis) x ∧ (op.prim comb oneAxis).TotalAt T n x :=
  (op.std comb oneAxis).denseOk T n x (op.true_at comb oneAxis n h) fun _ _ c hc =>
    absurd (show none = some c from hc) (by simp)

theorem BuiltIn.denseOk {name : String} {p : Prim ℝ} {dom : ((i : Fin p.nIn) → Fin (p.size i) → ℝ) → Prop}
    {index : Fin p.nIn → Bool} {sp : Prop} (h : BuiltIn name p dom index sp) (T n : ℕ)
    (x : (i : Fin p.nIn) → Fin (p.size i) → ℝ) (hx : dom x) : Good false n p x ∧ p.TotalAt T n x := by
  cases h with
  | elem k e he size out π same hsame =>
    exact (e.std size out π same (e.custom π)).denseOk T n x (elemTable_true k e he n size out π same hsame x hx)
      fun k emb c hc => elemCustom_total e π k emb x c hc
  | drop e he size out π => exact ⟨.dropped _ _ _ _ _ x (drop_prim_const e he size out π x hx), drop_total T n x⟩
  | reduceSum s dims hs hp =>
    exact (reduceSumOp ℝ s dims hs hp).denseOk T n x (sumStd_true n s dims hs hp x) fun _ _ c hc =>
      absurd (show none = some c from hc) (by simp)
  | reduceMax s dims hs hp =>
    exact (reduceMaxOp s dims hs hp).denseOk T n x (reduceMaxOp_true n hs hp x hx) fun _ _ c hc =>
      absurd (show none = some c from hc) (by simp)
  | reduceMin s dims hs hp =>
    exact (reduceMinOp s dims hs hp).denseOk T n x (reduceMinOp_true n hs hp x hx) fun _ _ c hc =>
      absurd (show none = some c from hc) (by simp)
  | reduceProd s dims hs hp =>
    exact (reduceProdOp ℝ s dims hs hp).denseOk T n x (reduceProdOp_true n hs hp x) fun _ _ c hc =>
      absurd (show none = some c from hc) (by simp)
  | cumsum s axis reverse oneAxis hs =>
    exact (cumsumOp s axis reverse hs).denseOk List.sum oneAxis T n x
      ((cumsumOp s axis reverse hs).sum_affine (cumsum_valid hs x))
  | broadcastInDim s t dims hs h => exact IndexOp.denseOk _ _ _ T n x (broadcast_valid hs h x)
  | reshape s t hs h => exact IndexOp.denseOk _ _ _ T n x (reshape_valid hs h x)
  | slice s start limit stride hs h => exact IndexOp.denseOk _ _ _ T n x (slice_valid hs h x)
  | dynamicSlice s sizes hs hl h => exact IndexOp.denseOk _ _ _ T n x (dynamicSlice_valid hs hl h x hx)
  | concatenate k shapes axis out hs h => exact IndexOp.denseOk _ _ _ T n x (concatenate_valid hs h x)
  | selectN s k scalar hs => exact IndexOp.denseOk _ _ _ T n x (selectN_valid hs x hx)
  | gather s ids out sliceSizes g hs hi h => exact IndexOp.denseOk _ _ _ T n x (gather_valid hs hi h x hx)
  | transpose s perm hs h => exact IndexOp.denseOk _ _ _ T n x (transpose_valid hs h x)
  | squeeze s dims hs => exact IndexOp.denseOk _ _ _ T n x (squeeze_valid hs x)
  | rev s dims hs => exact IndexOp.denseOk _ _ _ T n x (rev_valid hs x)
  | scatterAdd s ids upd g hs hi hu oneAxis =>
    exact CombineOp.denseOk _ _ oneAxis T n x
      ((scatterCombineOp s ids upd g hs hi hu).sum_affine (scatterCombine_valid hs hi hu x hx))
  | scatterMax s ids upd g hs hi hu oneAxis =>
    exact CombineOp.denseOk _ _ oneAxis T n x (scatterMax_affine hs hi hu x hx.1 hx.2)
  | scatterMin s ids upd g hs hi hu oneAxis =>
    exact CombineOp.denseOk _ _ oneAxis T n x (scatterMin_affine hs hi hu x hx.1 hx.2)
  | scatter size c hc π => exact ⟨.scatter c hc π x rfl, scatterPrim_total T n c π x⟩
  | dotGeneral dd ls rs h hl hr => exact ⟨.dot dd ls rs x h (by simp), dotPrim_total T n h hl hr x⟩
  | slogdet b m hm => exact ⟨.slogdet DetField.ofReal b m hm x hx rfl, slogdet_totalAt _ hm T n x⟩
  | convert m => exact ⟨.mapped m _ x, map_total T n m _ x⟩

/-! ### With sparsity -/

theorem Prim.SoundAt.soundForI {p : Prim ℝ} {inv : ∀ m, Jac (Fin m) ℝ → Prop} {T n : ℕ}
    (o : (i : Fin p.nIn) → Opd ℝ (p.size i)) (h : p.SoundAt inv T n fun i => (o i).x) : p.SoundForI inv T n o := by
  intro X _ _ B u r hB hr hl hc j
  exact h X B o u r hB (fun i => (opdRep_x B _ _ _ (hr i)).symm) hr hl hc j

theorem Std.soundFor_big (T n : ℕ) (hn : 0 < n) (s : Std ℝ) (o : (i : Fin s.nIn) → Opd ℝ (s.size i))
    (h : s.TrueAt n fun i => (o i).x) (hst : s.flags.has Flags.INDEXING = true → s.static = true)
    (hd : (s.inst (WPrim.laplEmb o) fun i => (o i).x).NoDefect T fun a => (o (WPrim.laplEmb o a)).trip) :
    s.toWPrim.toPrim.SoundForI (bigInv T n) T n o := by
  intro X _ _ B u r hB hr hl hc j
  subst hB
  simp only [WPrim.toPrim] at hc
  cases hc' : s.toWPrim.call T o with
  | error e => simp [hc'] at hc
  | ok r' =>
    simp only [hc'] at hc
    have hr' := Except.ok.inj hc
    subst hr'
    have hlap : ∀ a, (o (WPrim.laplEmb o a)).isLapl = true := fun a =>
      (WPrim.mem_laplIdx o _).mp (by unfold WPrim.laplEmb; exact Finset.orderEmbOfFin_mem _ _ _)
    have hpos : 0 < (WPrim.laplIdx o).card := by
      obtain ⟨i, hi⟩ := hl
      exact Finset.card_pos.mpr ⟨i, (WPrim.mem_laplIdx o i).mpr hi⟩
    have hrep : ∀ a, TripRep B (o (WPrim.laplEmb o a)).trip (u (WPrim.laplEmb o a)) ∧
        bigInv T B.n _ (o (WPrim.laplEmb o a)).trip.jac := fun a => opdRep_lapl B _ _ _ (hr _) (hlap a)
    exact s.toWPrim.call_for (bigInv T B.n) T (fun i => (o i).x) B hn (fun _ e hk => Std.faithful h e hk) o u r'
      (fun i => (opdRep_x B _ _ _ (hr i)).symm) hr hl hd.1 hd.2
      (fun c hcc => jvpRule_big _ T B.n hpos _ h.noScatter hst (fun a => (hrep a).1.wf) (fun a => (hrep a).2) c hcc) hc'

theorem Std.soundFor_single (T n : ℕ) (hn : 0 < n) (s : Std ℝ) (hone : s.nIn = 1) (o : (i : Fin s.nIn) → Opd ℝ (s.size i))
    (h : s.TrueAt n fun i => (o i).x) (hst : s.flags.has Flags.INDEXING = true → s.static = true) :
    s.toWPrim.toPrim.SoundForI (bigInv T n) T n o :=
  s.soundFor_big T n hn o h hst (noDefect_single _ T ((laplIdx_card_le o).trans (le_of_eq hone)) _)

theorem IndexOp.soundFor_big (op : IndexOp) (oneAxis : Bool) (T n : ℕ) (hn : 0 < n)
    (o : (i : Fin op.nIn) → Opd ℝ (op.shapes i).prod) (hv : op.Valid fun i => (o i).x) (hf : op.FewScalars)
    (hp : ∀ i, op.data i = false → (o i).isLapl = false) : (op.prim ℝ true oneAxis).SoundForI (bigInv T n) T n o :=
  (op.std ℝ true oneAxis).soundFor_big T n hn o (op.true_at true oneAxis n hv) (fun _ => rfl)
    (op.noDefect true oneAxis T hf o hp)

theorem CombineOp.soundFor_big (op : CombineOp) (comb : List ℝ → ℝ) (oneAxis : Bool) (T n : ℕ) (hn : 0 < n)
    (o : (i : Fin op.nIn) → Opd ℝ (op.shapes i).prod) (hv : AffineAt ℝ (fun x q => comb (op.vals x q)) fun i => (o i).x)
    (hf : op.FewScalars) (hp : ∀ i, op.data i = false → (o i).isLapl = false) :
    (op.prim comb oneAxis).SoundForI (bigInv T n) T n o :=
  (op.std comb oneAxis).soundFor_big T n hn o (op.true_at comb oneAxis n hv) (fun _ => rfl)
    (op.noDefect comb oneAxis T hf o hp)

theorem one_few {op : IndexOp} (h1 : op.nIn = 1) : op.FewScalars :=
  Or.inr fun i j _ _ _ _ => Or.inl (Fin.ext (by have := i.2; have := j.2; omega))

theorem scatter_index {s ids upd : List ℕ} {g : ScatterDims} (hs : 0 < s.prod) (hi : 0 < ids.prod) (hu : 0 < upd.prod)
    (o : (i : Fin 3) → Opd ℝ ((scatterCombineOp s ids upd g hs hi hu).shapes i).prod)
    (hp : ∀ i : Fin 3, decide (i.val = 1) = true → (o i).isLapl = false) (i : Fin 3)
    (hd : (scatterCombineOp s ids upd g hs hi hu).data i = false) : (o i).isLapl = false := by
  refine hp i ?_
  have hd : ![true, false, true] i = false := hd
  fin_cases i <;> simp at hd ⊢

theorem BuiltIn.sparseOk {name : String} {p : Prim ℝ} {dom : ((i : Fin p.nIn) → Fin (p.size i) → ℝ) → Prop}
    {index : Fin p.nIn → Bool} {sp : Prop} (h : BuiltIn name p dom index sp) (hsp : sp) (T n : ℕ) (hn : 0 < n)
    (o : (i : Fin p.nIn) → Opd ℝ (p.size i)) (hx : dom fun i => (o i).x)
    (hp : ∀ i, index i = true → (o i).isLapl = false) : p.SoundForI (bigInv T n) T n o := by
  cases h with
  | elem k e he size out π same hsame =>
    exact Prim.SoundAt.soundForI o ((e.std size out π same (e.custom π)).sound_sparse T n hn _
      (elemTable_true k e he n size out π same hsame _ hx) (elemTable_sparseOk k e he size out π same hsp))
  | drop e he size out π => exact Prim.SoundAt.soundForI o (drop_sound _ T n _ (drop_prim_const e he size out π _ hx))
  | reduceSum s dims hs hq =>
    exact (reduceSumOp ℝ s dims hs hq).soundFor_single T n hn rfl o (sumStd_true n s dims hs hq _) fun _ => rfl
  | reduceMax s dims hs hq =>
    exact (reduceMaxOp s dims hs hq).soundFor_single T n hn rfl o (reduceMaxOp_true n hs hq _ hx) fun _ => rfl
  | reduceMin s dims hs hq =>
    exact (reduceMinOp s dims hs hq).soundFor_single T n hn rfl o (reduceMinOp_true n hs hq _ hx) fun _ => rfl
  | reduceProd s dims hs hq =>
    exact (reduceProdOp ℝ s dims hs hq).soundFor_single T n hn rfl o (reduceProdOp_true n hs hq _) fun _ => rfl
  | cumsum s axis reverse oneAxis hs =>
    exact ((cumsumOp s axis reverse hs).std List.sum oneAxis).soundFor_single T n hn rfl o
      ((cumsumOp s axis reverse hs).true_at List.sum oneAxis n ((cumsumOp s axis reverse hs).sum_affine (cumsum_valid hs _)))
      fun _ => rfl
  | broadcastInDim s t dims hs h =>
    subst hsp
    exact IndexOp.soundFor_big _ _ T n hn o (broadcast_valid hs h _) (one_few rfl) fun _ hd => absurd hd (by simp [broadcastInDimOp])
  | reshape s t hs h =>
    subst hsp
    exact IndexOp.soundFor_big _ _ T n hn o (reshape_valid hs h _) (one_few rfl) fun _ hd => absurd hd (by simp [reshapeOp])
  | slice s start limit stride hs h =>
    subst hsp
    exact IndexOp.soundFor_big _ _ T n hn o (slice_valid hs h _) (one_few rfl) fun _ hd => absurd hd (by simp [sliceOp])
  | dynamicSlice s sizes hs hl h =>
    subst hsp
    refine IndexOp.soundFor_big _ _ T n hn o (dynamicSlice_valid hs hl h _ hx) (Or.inr ?_) ?_
    · have key : ∀ i : Fin (s.length + 1), (dynamicSliceOp s sizes hs).data i = true → i = 0 := by
        intro i
        refine Fin.cases (fun _ => rfl) (fun d hd => ?_) i
        exact absurd (show false = true from hd) (by simp)
      exact fun i j k hi hj _ => Or.inl ((key i hi).trans (key j hj).symm)
    · intro i
      refine Fin.cases (fun hd => absurd (show true = false from hd) (by simp)) (fun d _ => hp _ ?_) i
      exact decide_eq_true (Nat.succ_ne_zero _)
  | concatenate k shapes axis out hs h =>
    subst hsp
    refine IndexOp.soundFor_big _ _ T n hn o (concatenate_valid hs h _) (Or.inl fun i _ hc => ?_) fun _ hd =>
      absurd hd (by simp [concatenateOp])
    have h1 := (h.rest i).1
    have hc : shapes i = [] := hc
    rw [hc] at h1
    have h2 := h.lt
    rw [← h1] at h2
    simp at h2
  | selectN s k scalar hs =>
    obtain ⟨rfl, hk⟩ := hsp
    refine IndexOp.soundFor_big _ _ T n hn o (selectN_valid hs _ hx) ?_ ?_
    · rcases hk with hk | hk
      · left
        intro i
        refine Fin.cases (fun hd => absurd (show false = true from hd) (by simp)) (fun d _ => hk) i
      · right
        intro i j l hi hj hl
        have key : ∀ i : Fin (k + 1), (selectNOp s k scalar hs).data i = true → i ≠ 0 := by
          intro i
          refine Fin.cases (fun hd => absurd (show false = true from hd) (by simp)) (fun d _ => Fin.succ_ne_zero d) i
        have h1 : (i : Fin (k + 1)).val ≠ 0 := fun h => key i hi (Fin.ext h)
        have h2 : (j : Fin (k + 1)).val ≠ 0 := fun h => key j hj (Fin.ext h)
        have h3 : (l : Fin (k + 1)).val ≠ 0 := fun h => key l hl (Fin.ext h)
        have b1 : (i : Fin (k + 1)).val < k + 1 := i.2
        have b2 : (j : Fin (k + 1)).val < k + 1 := j.2
        have b3 : (l : Fin (k + 1)).val < k + 1 := l.2
        have : (i : Fin (k + 1)).val = j.val ∨ j.val = l.val ∨ i.val = l.val := by omega
        rcases this with h | h | h
        · exact Or.inl (Fin.ext h)
        · exact Or.inr (Or.inl (Fin.ext h))
        · exact Or.inr (Or.inr (Fin.ext h))
    · intro i
      refine Fin.cases (fun _ => hp (0 : Fin (k + 1)) rfl) (fun d hd => ?_) i
      exact absurd (show true = false from hd) (by simp)
  | gather s ids out sliceSizes g hs hi h =>
    subst hsp
    refine IndexOp.soundFor_big _ _ T n hn o (gather_valid hs hi h _ hx) (Or.inr ?_) ?_
    · have key : ∀ i : Fin 2, (gatherOp s ids out sliceSizes g hs hi).data i = true → i = 0 := by
        intro i
        refine Fin.cases (fun _ => rfl) (fun d hd => ?_) i
        obtain rfl : d = 0 := Subsingleton.elim _ _
        exact absurd (show false = true from hd) (by simp)
      exact fun i j k hi hj _ => Or.inl ((key i hi).trans (key j hj).symm)
    · intro i
      refine Fin.cases (fun hd => absurd (show true = false from hd) (by simp)) (fun d _ => ?_) i
      obtain rfl : d = 0 := Subsingleton.elim _ _
      exact hp (1 : Fin 2) rfl
  | transpose s perm hs h =>
    subst hsp
    exact IndexOp.soundFor_big _ _ T n hn o (transpose_valid hs h _) (one_few rfl) fun _ hd => absurd hd (by simp [transposeOp])
  | squeeze s dims hs =>
    subst hsp
    exact IndexOp.soundFor_big _ _ T n hn o (squeeze_valid hs _) (one_few rfl) fun _ hd => absurd hd (by simp [squeezeOp])
  | rev s dims hs =>
    subst hsp
    exact IndexOp.soundFor_big _ _ T n hn o (rev_valid hs _) (one_few rfl) fun _ hd => absurd hd (by simp [revOp])
  | scatterAdd s ids upd g hs hi hu oneAxis =>
    exact CombineOp.soundFor_big _ _ oneAxis T n hn o
      ((scatterCombineOp s ids upd g hs hi hu).sum_affine (scatterCombine_valid hs hi hu _ hx))
      (scatter_fewScalars hs hi hu hsp) (scatter_index hs hi hu o hp)
  | scatterMax s ids upd g hs hi hu oneAxis =>
    exact CombineOp.soundFor_big _ _ oneAxis T n hn o (scatterMax_affine hs hi hu _ hx.1 hx.2)
      (scatter_fewScalars hs hi hu hsp) (scatter_index hs hi hu o hp)
  | scatterMin s ids upd g hs hi hu oneAxis =>
    exact CombineOp.soundFor_big _ _ oneAxis T n hn o (scatterMin_affine hs hi hu _ hx.1 hx.2)
      (scatter_fewScalars hs hi hu hsp) (scatter_index hs hi hu o hp)
  | scatter size c hc π => exact hsp.elim
  | dotGeneral dd ls rs h hl hr =>
    exact Prim.SoundAt.soundForI o (dotPrim_sound_aux (stdSound_sparse T n hn) h (Or.inr hsp) _)
  | slogdet b m hm => exact hsp.elim
  | convert m => exact Prim.SoundAt.soundForI o (map_sound (bigInv T n) T n m _ (mapData_big T n _) _)

end Folx

import Verif.Prog.DotGeneral

/-!
# Soundness of the rule of `dot_general`
-/

namespace Folx

open Vmap Layout Dot Filter Topology
open Folx.Interp (Err)

variable {F : Type} [RCLike F]

attribute [local instance] instInhabitedScalar

section Call
variable {X : Type} [NormedAddCommGroup X] [NormedSpace ℝ X]

/-- A sound rule, also applied to plain arrays only. -/
theorem call_rep (p : WPrim F) (inv : ∀ m, Jac (Fin m) F → Prop) (T n : ℕ) (x : (i : Fin p.nIn) → Fin (p.size i) → F)
    (h : p.toPrim.SoundAt inv T n x) (B : Base X) (o : (i : Fin p.nIn) → Opd F (p.size i))
    (u : (i : Fin p.nIn) → X → Fin (p.size i) → F) (r : Opd F p.out) (hB : B.n = n) (hx : ∀ i, u i B.x0 = x i)
    (ho : ∀ i, OpdRep B inv (o i) (u i)) (hr : p.call T o = .ok r) :
    OpdRep B inv r fun y => p.fwd fun i => u i y := by
  by_cases hex : ∃ i, (o i).isLapl = true
  · have := h X B o u (fun _ => r) hB hx ho hex (by
      simp only [WPrim.toPrim]
      rw [hr])
    exact this (0 : Fin 1)
  · have hall : ∀ i, (o i).isLapl = false := fun i => by
      cases h : (o i).isLapl with
      | false => rfl
      | true => exact absurd ⟨i, h⟩ hex
    unfold WPrim.call at hr
    have hcard : (WPrim.laplIdx o).card = 0 := by
      rw [Finset.card_eq_zero, Finset.eq_empty_iff_forall_notMem]
      intro i hi
      rw [WPrim.mem_laplIdx, hall] at hi
      exact absurd hi (by simp)
    rw [if_pos hcard] at hr
    have hr' := Except.ok.inj hr
    subst hr'
    have hox : (fun i => (o i).x) = fun i => u i B.x0 := funext fun i => opdRep_x B inv _ _ (ho i)
    refine ⟨by rw [hox], ?_⟩
    have hev : ∀ᶠ y in 𝓝 B.x0, ∀ i, u i y = u i B.x0 :=
      eventually_all.mpr fun i => opdRep_plain B inv _ _ (ho i) (hall i)
    filter_upwards [hev] with y hy
    rw [hox]
    exact congrArg p.fwd (funext hy)

/-- A representation may be read as one of an equal function. -/
theorem OpdRep.congr {B : Base X} {inv : ∀ m, Jac (Fin m) F → Prop} {m : ℕ} {o : Opd F m} {u u' : X → Fin m → F}
    (h : OpdRep B inv o u) (e : ∀ y, u y = u' y) : OpdRep B inv o u' := by
  have : u = u' := funext e
  exact this ▸ h

end Call

/-! ### The building blocks meet their declarations -/

theorem rearrangeStd_true (n : ℕ) (s : List ℕ) (hs : 0 < s.prod) (z : ND ℕ) (x : (i : Fin 1) → Fin (oneSize s.prod i) → F) :
    (rearrangeStd s hs z : Std F).TrueAt n x :=
  arr_index n (fun _ => decide (s = [])) (fun _ h => by
    have : s = [] := by simpa using h
    show s.prod = 1
    rw [this]; rfl) (fun _ => 0) x (Eventually.of_forall fun _ => rfl)

theorem rearrangeStd_sparse (s : List ℕ) (hs : 0 < s.prod) (z : ND ℕ) : (rearrangeStd s hs z : Std F).SparseOk :=
  arrStd_sparseOk (Or.inl rfl) (by decide)

theorem mulStd_true (n : ℕ) (s t b : List ℕ) (hs : 0 < s.prod) (ht : 0 < t.prod)
    (x : (i : Fin 2) → Fin (![s.prod, t.prod] i) → F) : (mulStd s t b hs ht : Std F).TrueAt n x := by
  refine elem_mul n x fun i ε h q => ?_
  match i with
  | 0 =>
    dsimp only at h
    split at h
    · rename_i e
      subst e
      have h' := Option.some.inj h
      subst h'
      exact (bpos_self hs q).symm
    · simp at h
  | 1 =>
    dsimp only at h
    split at h
    · rename_i e
      subst e
      have h' := Option.some.inj h
      subst h'
      exact (bpos_self ht q).symm
    · simp at h

theorem mulStd_sparse {s t b : List ℕ} (h : Broadcasts [s, t] b) (hs : 0 < s.prod) (ht : 0 < t.prod) :
    (mulStd s t b hs ht : Std F).SparseOk := by
  refine elemStd_sparseOk (le_refl 2) (fun i _ => ?_) (by decide)
  have hb := broadcasts_pos h hs ht
  match i with
  | 0 => exact bpos_surjective h (by simp) hs hb
  | 1 => exact bpos_surjective h (by simp) ht hb

theorem sumStd_true (n : ℕ) (b dims : List ℕ) (hb : 0 < b.prod)
    (hp : (keptDims b.length dims ++ dims).Perm (List.range b.length)) (x : (i : Fin 1) → Fin (oneSize b.prod i) → F) :
    (sumStd b dims hb hp : Std F).TrueAt n x := by
  have haff : AffineAt F (reduceFn (F := F) (axesSplit b _ dims hp) (fun q => q) fun v => ∑ c, v c) x := by
    apply reduce_affine
    intro q
    refine ⟨∑ c, ContinuousLinearMap.proj (R := F) (φ := fun _ : Fin (sizes b dims).prod => F) c, 0,
      Eventually.of_forall fun y => ?_⟩
    simp
  refine arrStd_trueAt n x (fun i => ?_) ⟨by decide, by decide⟩ haff.contDiffAt (fun _ => ⟨by decide, haff⟩)
    (fun _ => by decide) (fun _ => by decide) (fun h => noFlag' _ _ h (by decide)) (fun _ i r hr y q => ?_)
    (fun _ _ hc => by simp at hc)
  · obtain rfl : i = 0 := Subsingleton.elim _ _
    cases dims with
    | nil =>
      unfold AxesOk sumAxes sumSame
      refine ⟨fun q y y' _ h2 => ?_, fun ε hε q => ?_⟩
      · unfold reduceFn
        refine Finset.sum_congr rfl fun c _ => ?_
        have hc : c = ⟨0, Nat.one_pos⟩ := by
          apply Fin.ext
          have : (c : ℕ) < 1 := c.2
          show (c : ℕ) = 0
          omega
        subst hc
        exact h2 _ rfl
      · have hε' := Option.some.inj hε
        subst hε'
        rfl
    | cons d ds =>
      unfold AxesOk sumAxes someAxes
      refine ⟨fun q y y' _ h2 => ?_, fun _ => Function.surjective_id⟩
      unfold reduceFn
      refine Finset.sum_congr rfl fun c _ => h2 _ ?_
      simp
  · obtain rfl : i = 0 := Subsingleton.elim _ _
    cases dims with
    | nil => exact absurd hr (by simp [sumAxes])
    | cons d ds =>
      unfold sumAxes someAxes at hr
      injection hr with hr
      subst hr
      rfl

theorem sumStd_sparse (b dims : List ℕ) (hb : 0 < b.prod)
    (hp : (keptDims b.length dims ++ dims).Perm (List.range b.length)) : (sumStd b dims hb hp : Std F).SparseOk :=
  arrStd_sparseOk (Or.inl rfl) (by decide)

theorem dotLastStd_surj {s t O : List ℕ} (h : Broadcasts [s.dropLast, t.dropLast] O) (hs : 0 < s.dropLast.prod)
    (ht : 0 < t.dropLast.prod) (i : Fin 2) : Function.Surjective
      ((fun | 0 => bpos s.dropLast O hs | 1 => bpos t.dropLast O ht :
        (i : Fin 2) → Fin O.prod → Fin (![s.dropLast.prod, t.dropLast.prod] i)) i) := by
  have hb := broadcasts_pos h hs ht
  match i with
  | 0 => exact bpos_surjective h (by simp) hs hb
  | 1 => exact bpos_surjective h (by simp) ht hb

/-! ### Position-level form of the general path -/

theorem lastSplit_symm (s : List ℕ) (d : ℕ) (h : s.getLast? = some d) (p : Fin s.dropLast.prod) (c : Fin d) :
    (((lastSplit s d h).symm (p, c) : Fin s.prod) : ℕ) = p * d + c := by
  show ((finProdFinEquiv (p, c) : Fin _) : ℕ) = _
  simp [finProdFinEquiv]
  ring

theorem toND_last (s : List ℕ) (d : ℕ) (h : s.getLast? = some d) (a : Fin s.prod → F) {w : List ℕ} (hw : InB w s.dropLast)
    (c : Fin d) : (toND s a).get (w ++ [(c : ℕ)]) = a ((lastSplit s d h).symm (⟨ravelIdx s.dropLast w, ravelIdx_lt hw⟩, c)) := by
  have hs : s = s.dropLast ++ [d] := by
    obtain ⟨l, rfl⟩ := List.getLast?_eq_some_iff.mp h
    simp
  have hin : InB (w ++ [(c : ℕ)]) s := by
    conv_rhs => rw [hs]
    exact inB_append hw (List.Forall₂.cons c.2 .nil)
  rw [toND_get s a hin]
  congr 1
  apply Fin.ext
  rw [lastSplit_symm]
  show ravelIdx s (w ++ [(c : ℕ)]) = _
  have : ravelIdx s (w ++ [(c : ℕ)]) = ravelIdx (s.dropLast ++ [d]) (w ++ [(c : ℕ)]) := by rw [← hs]
  rw [this, ravelIdx_append _ _ _ _ hw.length_eq]
  simp [ravelIdx]

theorem dotLast_toND {s t O : List ℕ} {d : ℕ} (h1 : s.getLast? = some d) (h2 : t.getLast? = some d)
    (h : Broadcasts [s.dropLast, t.dropLast] O) (hs : 0 < s.dropLast.prod) (ht : 0 < t.dropLast.prod)
    (a : Fin s.prod → F) (b : Fin t.prod → F) :
    dotLast (toND s a) (toND t b) = some (toND O fun q => ∑ c : Fin d,
      a ((lastSplit s d h1).symm (bpos s.dropLast O hs q, c)) * b ((lastSplit t d h2).symm (bpos t.dropLast O ht q, c))) := by
  unfold dotLast
  have hlast : ¬ (toND s a).shape.getLast? ≠ (toND t b).shape.getLast? := by
    rw [toND_shape, toND_shape, h1, h2]; simp
  rw [if_neg hlast]
  have hb : broadcastShapes [(toND s a).shape.dropLast, (toND t b).shape.dropLast] = some O := broadcastShapes_iff.mpr h
  rw [hb, Option.map_some]
  congr 1
  refine ND.ext_get rfl fun w hw => ?_
  have hw' : InB w O := hw
  rw [ND.get_ofFn _ hw', toND_get _ _ hw']
  have hd : (toND s a).shape.getLast?.getD 0 = d := by rw [toND_shape, h1]; rfl
  rw [hd, sum_range_fin]
  refine Finset.sum_congr rfl fun c _ => ?_
  obtain ⟨i1, e1⟩ := bpos_eq h (s := s.dropLast) (by simp) hs ⟨ravelIdx O w, ravelIdx_lt hw'⟩
  obtain ⟨i2, e2⟩ := bpos_eq h (s := t.dropLast) (by simp) ht ⟨ravelIdx O w, ravelIdx_lt hw'⟩
  rw [e1, e2]
  dsimp only at i1 i2 ⊢
  rw [unravelIdx_ravelIdx hw'] at i1 i2
  simp only [unravelIdx_ravelIdx hw', toND_shape]
  rw [toND_last s d h1 a i1, toND_last t d h2 b i2]

/-! ### Composition -/

section Rep
variable {X : Type} [NormedAddCommGroup X] [NormedSpace ℝ X]

/-- What is used about the building blocks, with or without sparsity. -/
def StdSound (inv : ∀ m, Jac (Fin m) F → Prop) (T n : ℕ) : Prop :=
  ∀ (s : Std F) (x : (i : Fin s.nIn) → Fin (s.size i) → F), s.TrueAt n x → s.SparseOk →
    s.toWPrim.toPrim.SoundAt inv T n x

theorem stdSound_dense (T n : ℕ) (hn : 0 < n) : StdSound (F := F) (denseInv n) T n := fun s x h _ =>
  s.sound_dense T n hn x h

theorem stdSound_sparse (T n : ℕ) (hn : 0 < n) : StdSound (F := F) (bigInv T n) T n := fun s x h hs =>
  s.sound_sparse T n hn x h hs

variable {inv : ∀ m, Jac (Fin m) F → Prop} {T : ℕ} {B : Base X}

/-- One building block. -/
theorem std_rep (hS : StdSound inv T B.n) (s : Std F) (o : (i : Fin s.nIn) → Opd F (s.size i))
    (u : (i : Fin s.nIn) → X → Fin (s.size i) → F) (r : Opd F s.out) (ht : s.TrueAt B.n fun i => u i B.x0) (hs : s.SparseOk)
    (ho : ∀ i, OpdRep B inv (o i) (u i)) (hr : s.toWPrim.call T o = .ok r) :
    OpdRep B inv r fun y => s.whole fun i => u i y :=
  call_rep s.toWPrim inv T B.n _ (hS s _ ht hs) B o u r rfl (fun _ => rfl) ho hr

/-- Two functions of the inputs. -/
def pairFn {a b : ℕ} (u : X → Fin a → F) (v : X → Fin b → F) : (i : Fin 2) → X → Fin (![a, b] i) → F
  | 0 => u
  | 1 => v

theorem pair_rep {a b : ℕ} {x : Opd F a} {y : Opd F b} {u : X → Fin a → F} {v : X → Fin b → F} (hx : OpdRep B inv x u)
    (hy : OpdRep B inv y v) (i : Fin 2) : OpdRep B inv (pairOpd x y i) (pairFn u v i) := by
  match i with
  | 0 => exact hx
  | 1 => exact hy

/-- The result represents the array-valued function `g`. -/
def RepND (B : Base X) (inv : ∀ m, Jac (Fin m) F → Prop) (v : PVal F) (g : X → ND F) : Prop :=
  ∃ s : List ℕ, ∃ h : v.1 = s.prod, ∃ u : X → Fin s.prod → F, OpdRep B inv (h ▸ v.2) u ∧ ∀ y, g y = toND s (u y)

theorem mulSum_rep (hS : StdSound inv T B.n) {s t : List ℕ} {hs : 0 < s.prod} {ht : 0 < t.prod} {x : Opd F s.prod}
    {y : Opd F t.prod} {u : X → Fin s.prod → F} {v : X → Fin t.prod → F} (hx : OpdRep B inv x u) (hy : OpdRep B inv y v)
    (dims : ℕ → List ℕ) {r : PVal F} (hr : mulSumRule T s t hs ht x y dims = .ok r) (g : X → ND F)
    (hg : ∀ z, ∃ p, mulB (toND s (u z)) (toND t (v z)) = some p ∧ sumDims p (dims p.ndim) = g z) : RepND B inv r g := by
  unfold mulSumRule at hr
  cases hb : broadcastShapes [s, t] with
  | none => rw [hb] at hr; simp at hr
  | some b =>
    rw [hb] at hr
    dsimp only at hr
    have hB := broadcastShapes_iff.mp hb
    split at hr
    · simp at hr
    · rename_i p hp
      split at hr
      · rename_i h
        split at hr
        · simp at hr
        · rename_i r' hr'
          have e := Except.ok.inj hr
          subst e
          have h1 := std_rep hS (mulStd s t b hs ht) (pairOpd x y) (pairFn u v) p (mulStd_true _ _ _ _ _ _ _)
            (mulStd_sparse hB hs ht) (pair_rep hx hy) hp
          have h2 := std_rep hS (sumStd b (dims b.length) h.1 h.2) (fun _ => p) (fun _ => _) r' (sumStd_true _ _ _ _ _ _)
            (sumStd_sparse _ _ _ _) (fun _ => h1) hr'
          refine ⟨sizes b (keptDims b.length (dims b.length)), rfl, _, h2, fun z => ?_⟩
          obtain ⟨q, e1, e2⟩ := hg z
          rw [mulB_toND hB hs ht] at e1
          have e3 := Option.some.inj e1
          subst e3
          rw [← e2]
          exact sumDims_toND b (dims b.length) h.2 _
      · simp at hr

theorem dotLast_rep (hS : StdSound inv T B.n) {s t : List ℕ} {x : Opd F s.prod} {y : Opd F t.prod} {u : X → Fin s.prod → F}
    {v : X → Fin t.prod → F} (hx : OpdRep B inv x u) (hy : OpdRep B inv y v) {r : PVal F}
    (hr : dotLastRule T s t x y = .ok r) (g : X → ND F) (hg : ∀ z, dotLast (toND s (u z)) (toND t (v z)) = some (g z)) :
    RepND B inv r g := by
  unfold dotLastRule at hr
  cases hb : broadcastShapes [s.dropLast, t.dropLast] with
  | none => rw [hb] at hr; simp at hr
  | some O =>
    rw [hb] at hr
    dsimp only at hr
    have hB := broadcastShapes_iff.mp hb
    split at hr
    · rename_i h
      split at hr
      · simp at hr
      · rename_i r' hr'
        have e := Except.ok.inj hr
        subst e
        have h1 := std_rep hS (dotLastStd s t O _ h.1 h.2.1 h.2.2.1 h.2.2.2.1 h.2.2.2.2) (pairOpd x y) (pairFn u v) r'
          (dot_true _ (dotLastStd_surj hB h.2.2.2.1 h.2.2.2.2) _)
          (dotStd_sparseOk (dotLastStd_surj hB h.2.2.2.1 h.2.2.2.2)) (pair_rep hx hy) hr'
        refine ⟨O, rfl, _, h1, fun z => ?_⟩
        have := hg z
        rw [dotLast_toND h.1 h.2.1 hB h.2.2.2.1 h.2.2.2.2] at this
        exact (Option.some.inj this).symm
    · simp at hr

theorem rearrange_rep (hS : StdSound inv T B.n) {s : List ℕ} (hs : 0 < s.prod) {c b brd other : List ℕ} {rhs : Bool}
    (hp : (b ++ brd ++ c).Perm (List.range s.length)) {zi : ND ℕ} (hzi : rearrange (iota s) c b brd other rhs = some zi)
    {x : Opd F s.prod} {u : X → Fin s.prod → F} (hx : OpdRep B inv x u) {l : Opd F zi.shape.prod}
    (hl : (rearrangeStd s hs zi).toWPrim.call T (fun _ => x) = .ok l) :
    ∃ w : X → Fin zi.shape.prod → F, OpdRep B inv l w ∧
      ∀ z, rearrange (toND s (u z)) c b brd other rhs = some (toND zi.shape (w z)) := by
  have h1 := std_rep hS (rearrangeStd s hs zi) (fun _ => x) (fun _ => u) l (rearrangeStd_true _ _ _ _ _)
    (rearrangeStd_sparse _ _ _) (fun _ => hx) hl
  refine ⟨_, h1, fun z => ?_⟩
  have e1 : rearrange (toND s (u z)) c b brd other rhs = some (zi.map fun k => if h : k < s.prod then u z ⟨k, h⟩ else default) := by
    rw [toND_eq_map, rearrange_map (iota s) _ hp, hzi]
    rfl
  have e2 := rearrange_gather s hs (u z) hp e1
  rw [hzi] at e2
  rw [e1, e2]
  rfl

/-- Every result of the rule represents what `dotGeneral` computes on arrays. -/
theorem dotGeneral_rep (hS : StdSound inv T B.n) {dd : DotDims} {ls rs : List ℕ} (hok : dd.Ok ls rs) {x : Opd F ls.prod}
    {y : Opd F rs.prod} {u : X → Fin ls.prod → F} {v : X → Fin rs.prod → F} (hx : OpdRep B inv x u)
    (hy : OpdRep B inv y v) (g : X → ND F)
    (hg : ∀ z, dotGeneral dd (x.isWeak && y.isWeak) (toND ls (u z)) (toND rs (v z)) = some (g z))
    {r : PVal F} (hr : dotGeneralRule dd ls rs T x y = .ok r) : RepND B inv r g := by
  have hok' : ∀ z, dd.Ok (toND ls (u z)).shape (toND rs (v z)).shape := fun _ => hok
  unfold dotGeneralRule at hr
  split at hr
  · rename_i hpl
    have e := Except.ok.inj hr
    subst e
    have hw : (x.isWeak && y.isWeak) = false := by
      cases x with
      | plain _ => rfl
      | lapl t => exact absurd hpl.1 (by simp [Opd.isLapl])
    rw [hw] at hg
    have hg' : ∀ z, contraction dd (toND ls (u z)) (toND rs (v z)) = g z := fun z =>
      Option.some.inj ((dotGeneral_spec dd false (hok' z) (fun h => by simp at h)).symm.trans (hg z))
    refine ⟨outShape dd ls rs, rfl, fun z => vecOf (contraction dd (toND ls (u z)) (toND rs (v z))) _, ?_, fun z =>
      (hg' z).symm.trans (toND_vecOf _ _ rfl).symm⟩
    have e1 := opdRep_x B inv _ _ hx
    have e2 := opdRep_x B inv _ _ hy
    refine ⟨by rw [e1, e2], ?_⟩
    filter_upwards [opdRep_plain B inv _ _ hx hpl.1, opdRep_plain B inv _ _ hy hpl.2] with z h1 h2
    rw [e1, e2, h1, h2]
  · split at hr
    · rename_i h
      split at hr
      · rename_i zl zr hzl hzr
        split at hr
        · rename_i l r0 hl hr0
          obtain ⟨wl, c1, c2⟩ := rearrange_rep hS h.1 (freeOf_perm hok.lnodup hok.llt) hzl hx hl
          obtain ⟨wr, d1, d2⟩ := rearrange_rep hS h.2 (freeOf_perm hok.rnodup hok.rlt) hzr hy hr0
          have c2' : ∀ z, left dd (toND rs (v z)).ndim (toND ls (u z)) = some (toND zl.shape (wl z)) := c2
          have d2' : ∀ z, right dd (toND ls (u z)).ndim (toND rs (v z)) = some (toND zr.shape (wr z)) := d2
          have hg2 : ∀ z, (if interEqIn zl.shape zr.shape && (x.isWeak && y.isWeak) then
              if noTranspose dd ls.length rs.length then
                (mulB (toND ls (u z)) (toND rs (v z))).bind fun p => some (sumDims p dd.lc)
              else (mulB (toND zl.shape (wl z)) (toND zr.shape (wr z))).bind fun p => some (sumDims p [p.ndim - 1])
            else dotLast (toND zl.shape (wl z)) (toND zr.shape (wr z))) = some (g z) := by
            intro z
            have := hg z
            unfold dotGeneral at this
            rw [c2' z, d2' z] at this
            exact this
          split at hr
          · rename_i hfast
            simp only [hfast, if_true] at hg2
            split at hr
            · rename_i hnt
              simp only [hnt, if_true] at hg2
              refine mulSum_rep hS hx hy _ hr _ fun z => ?_
              obtain ⟨p, h1, h2⟩ := Option.bind_eq_some_iff.mp (hg2 z)
              exact ⟨p, h1, Option.some.inj h2⟩
            · rename_i hnt
              simp only [hnt] at hg2
              split at hr
              · refine mulSum_rep hS c1 d1 _ hr _ fun z => ?_
                obtain ⟨p, h1, h2⟩ := Option.bind_eq_some_iff.mp (hg2 z)
                exact ⟨p, h1, Option.some.inj h2⟩
              · simp at hr
          · rename_i hfast
            simp only [hfast] at hg2
            exact dotLast_rep hS c1 d1 hr _ hg2
        · simp at hr
        · simp at hr
      · simp at hr
    · simp at hr

end Rep

/-- The primitive `dot_general` is sound. -/
theorem dotPrim_sound_aux {inv : ∀ m, Jac (Fin m) F → Prop} {T n : ℕ} (hS : StdSound (F := F) inv T n) {dd : DotDims} {ls rs : List ℕ}
    (hok : dd.Ok ls rs) (hsp : (∀ m (J : Jac (Fin m) F), inv m J → J.weak = false) ∨
      (interEqIn (leftShape dd ls rs) (rightShape dd ls rs) = true →
        noTranspose dd ls.length rs.length = true → SpecialOk dd ls.length rs.length))
    (x : (i : Fin 2) → Fin (![ls.prod, rs.prod] i) → F) : (dotPrim dd ls rs).SoundAt inv T n x := by
  intro X _ _ B o u r hB hx ho _ hr j
  subst hB
  have hr1 : (match dotGeneralRule dd ls rs T (o (0 : Fin 2)) (o (1 : Fin 2)) with
    | .error e => Except.error e
    | .ok v =>
      match castTo (outShape dd ls rs).prod v with
      | .error e => .error e
      | .ok r => .ok fun _ => r) = Except.ok r := hr
  have h0 : OpdRep (m := ls.prod) B inv (o (0 : Fin 2)) (u (0 : Fin 2)) := ho (0 : Fin 2)
  have h1 : OpdRep (m := rs.prod) B inv (o (1 : Fin 2)) (u (1 : Fin 2)) := ho (1 : Fin 2)
  split at hr1
  · simp at hr1
  · rename_i v hv
    split at hr1
    · simp at hr1
    · rename_i r' hr'
      have e := Except.ok.inj hr1
      subst e
      have hg : ∀ z, dotGeneral dd ((o (0 : Fin 2)).isWeak && (o (1 : Fin 2)).isWeak) (toND ls (u (0 : Fin 2) z))
          (toND rs (u (1 : Fin 2) z)) = some (contraction dd (toND ls (u (0 : Fin 2) z)) (toND rs (u (1 : Fin 2) z))) := by
        intro z
        refine dotGeneral_spec dd _ hok fun hwk h3 h4 => ?_
        replace hwk := (Bool.and_eq_true _ _ ▸ hwk).1
        rcases hsp with hd | hsp
        · exfalso
          generalize o (0 : Fin 2) = o0 at h0 hwk
          cases o0 with
          | plain a => simp [Opd.isWeak] at hwk
          | lapl t =>
            have := hd _ t.jac h0.2
            have hwk' : t.jac.weak = true := hwk
            rw [this] at hwk'
            exact absurd hwk' (by simp)
        · exact hsp h3 h4
      obtain ⟨s, hvs, w, hw1, hw2⟩ := dotGeneral_rep hS hok h0 h1 _ hg hv
      have hsO : s = outShape dd ls rs := by
        have := congrArg ND.shape (hw2 B.x0)
        exact this.symm
      subst hsO
      have hv' := (castTo_eq _ v r').mp hr'
      subst hv'
      refine OpdRep.congr hw1 fun z => ?_
      have := congrArg (fun t : ND F => vecOf t (outShape dd ls rs).prod) (hw2 z)
      dsimp only at this
      rw [vecOf_toND] at this
      exact this.symm

end Folx

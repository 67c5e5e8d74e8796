import Verif.Form.Second
import Verif.Prog.BuiltInProofs

/-! # Primitives: the form of the result -/

namespace Folx

open Filter Topology Vmap Dot
open Folx.Interp (Err)

attribute [local instance] instInhabitedScalar

section
variable {F : Type}

theorem Opd.Same.isLapl {m : ℕ} {o o' : Opd F m} (h : o.Same o') : o.isLapl = o'.isLapl := by
  cases o <;> cases o' <;> first | rfl | exact h.elim

theorem Opd.Same.refl {m : ℕ} (o : Opd F m) : o.Same o := by
  cases o with
  | plain x => trivial
  | lapl t => exact Jac.Same.refl _

theorem Opd.same_plain {m : ℕ} (x y : Fin m → F) : (Opd.plain x).Same (Opd.plain y) := trivial

theorem Opd.Same.trip [Zero F] {m : ℕ} {o o' : Opd F m} (h : o.Same o') : o.trip.jac.Same o'.trip.jac := by
  cases o with
  | plain x =>
    cases o' with
    | plain y => exact Jac.Same.refl _
    | lapl t => exact h.elim
  | lapl t =>
    cases o' with
    | plain y => exact h.elim
    | lapl t' => exact h

end

section
variable {F : Type} [CommRing F]

/-- A wrapped function applied to the derivative-carrying operands `S`. -/
def WPrim.callAt (p : WPrim F) (T : ℕ) (S : Finset (Fin p.nIn)) (o : (i : Fin p.nIn) → Opd F (p.size i)) :
    Except Err (Opd F p.out) :=
  if S.card = 0 then .ok (.plain (p.fwd fun i => (o i).x))
  else
    match (p.inst (S.orderEmbOfFin rfl) fun i => (o i).x).wrapped T (fun a => (o (S.orderEmbOfFin rfl a)).trip) with
    | .error e => .error e
    | .ok t => .ok (.lapl t)

/-- The form of what a wrapped function returns. -/
theorem WPrim.call_rel (p : WPrim F) (T : ℕ) (o o' : (i : Fin p.nIn) → Opd F (p.size i)) (h : ∀ i, (o i).Same (o' i))
    (hI : ∀ {k : ℕ} (e : Fin k ↪o Fin p.nIn), (p.inst e fun i => (o i).x).Like (p.inst e fun i => (o' i).x)) :
    ExRel Opd.Same (p.call T o) (p.call T o') := by
  have hS : WPrim.laplIdx o = WPrim.laplIdx o' := by
    unfold WPrim.laplIdx
    congr 1
    funext i
    rw [(h i).isLapl]
  have e1 : p.call T o = p.callAt T (WPrim.laplIdx o) o := rfl
  have e2 : p.call T o' = p.callAt T (WPrim.laplIdx o') o' := rfl
  rw [e1, e2, ← hS]
  generalize WPrim.laplIdx o = S
  unfold WPrim.callAt
  by_cases hc : S.card = 0
  · rw [if_pos hc, if_pos hc]; exact .ok trivial
  · rw [if_neg hc, if_neg hc]
    obtain ⟨e, h1, h2⟩ | ⟨x, y, h1, h2, hxy⟩ := (HInst.wrapped_rel (hI (S.orderEmbOfFin rfl)) T
      (args := fun a => (o (S.orderEmbOfFin rfl a)).trip) (args' := fun a => (o' (S.orderEmbOfFin rfl a)).trip)
      fun a => (h _).trip).elim
    · rw [h1, h2]; exact .error e
    · rw [h1, h2]; exact .ok hxy

theorem WPrim.formStable (p : WPrim F) (T : ℕ) (fixed : Fin p.nIn → Bool)
    (hI : ∀ (x x' : (i : Fin p.nIn) → Fin (p.size i) → F), (∀ i, fixed i = true → x i = x' i) →
      ∀ {k : ℕ} (e : Fin k ↪o Fin p.nIn), (p.inst e x).Like (p.inst e x')) : p.toPrim.FormStable T fixed := by
  intro o o' h hf
  have := p.call_rel T o o' h fun {k} e => hI _ _ (fun i hi => by rw [hf i hi]) e
  unfold WPrim.toPrim
  dsimp only
  obtain ⟨e, h1, h2⟩ | ⟨x, y, h1, h2, hxy⟩ := this.elim
  · rw [h1, h2]; exact .error e
  · rw [h1, h2]; exact .ok fun _ => hxy

theorem customSame_refl_none {k : ℕ} {dim : Fin k → ℕ} {V O : Type} :
    CustomSame (none : Option (CustomRule k dim V O F)) none := trivial

end

section
variable {F : Type} [RCLike F]

/-- The index computation of a wrapped function depends only on the values of the operands in `fixed`. -/
structure Std.Fixed (s : Std F) (fixed : Fin s.nIn → Bool) : Prop where
  src : s.flags.has Flags.INDEXING = true → s.static = true → ∀ x x' : (i : Fin s.nIn) → Fin (s.size i) → F,
    (∀ i, fixed i = true → x i = x' i) → s.src x = s.src x'
  custom : ∀ (x x' : (i : Fin s.nIn) → Fin (s.size i) → F) {k : ℕ} (e : Fin k ↪o Fin s.nIn),
    CustomSame (s.custom e x) (s.custom e x')

theorem Std.Fixed.like {s : Std F} {fixed : Fin s.nIn → Bool} (h : s.Fixed fixed)
    (x x' : (i : Fin s.nIn) → Fin (s.size i) → F) (hx : ∀ i, fixed i = true → x i = x' i) {k : ℕ}
    (e : Fin k ↪o Fin s.nIn) : (s.inst e x).Like (s.inst e x') :=
  ⟨(s.inst e x').fwd, (s.inst e x').jvp, (s.inst e x').src, (s.inst e x').hess, (s.inst e x').custom, rfl,
    fun h1 h2 => by
      show (fun q => Std.restrictSrc s.size e (s.src x q)) = fun q => Std.restrictSrc s.size e (s.src x' q)
      rw [h.src h1 h2 x x' hx],
    h.custom x x' e⟩

theorem Std.Fixed.stable {s : Std F} {fixed : Fin s.nIn → Bool} (h : s.Fixed fixed) (T : ℕ) :
    s.toWPrim.toPrim.FormStable T fixed :=
  WPrim.formStable s.toWPrim T fixed fun x x' hx {_} e => h.like x x' hx e

/-- Calls of wrapped functions without index computations. -/
theorem Std.Fixed.call {s : Std F} (h : s.Fixed fun _ => false) (T : ℕ) (o o' : (i : Fin s.nIn) → Opd F (s.size i))
    (ho : ∀ i, (o i).Same (o' i)) : ExRel Opd.Same (s.toWPrim.call T o) (s.toWPrim.call T o') :=
  WPrim.call_rel s.toWPrim T o o' ho fun {_} e => h.like _ _ (fun i hi => by simp at hi) e

theorem divCustom_same {out : ℕ} {size : Fin 2 → ℕ} (π : (i : Fin 2) → Fin out → Fin (size i)) (k : ℕ) (e : Fin k ↪o Fin 2)
    (x x' : (i : Fin 2) → Fin (size i) → F) : CustomSame (divCustom π k e x) (divCustom π k e x') := by
  match k, e with
  | 0, _ => exact trivial
  | 1, e =>
    show CustomSame (if e 0 = 1 then some (divRule1 fun q => x 0 (π 0 q)) else none)
      (if e 0 = 1 then some (divRule1 fun q => x' 0 (π 0 q)) else none)
    split
    · intro v args args' idx h
      unfold divRule1
      obtain ⟨er, h1, h2⟩ | ⟨x, y, h1, h2, hxy⟩ := (reducedJacobians_rel (js := fun a => (args a).jac)
        (js' := fun a => (args' a).jac) h idx).elim
      · rw [h1, h2]; exact .error er
      · rw [h1, h2]; exact .ok trivial
    · exact trivial
  | 2, e =>
    intro v args args' idx h
    unfold divRule2
    obtain ⟨er, h1, h2⟩ | ⟨x, y, h1, h2, hxy⟩ := (reducedJacobians_rel (js := fun a => (args a).jac)
      (js' := fun a => (args' a).jac) h idx).elim
    · rw [h1, h2]; exact .error er
    · rw [h1, h2]; exact .ok trivial
  | k + 3, e => exact trivial

/-! ### The kinds of primitives -/

theorem elem_fixed {nIn : ℕ} {size : Fin nIn → ℕ} {out : ℕ} {φ : (Fin nIn → F) → F} {flags : Flags}
    {π : (i : Fin nIn) → Fin out → Fin (size i)} {same : (i : Fin nIn) → Option (Fin out ≃ Fin (size i))}
    {custom : (k : ℕ) → (e : Fin k ↪o Fin nIn) → ((i : Fin nIn) → Fin (size i) → F) →
      Option (CustomRule k (fun _ => 1) (Fin out) Unit F)} (fixed : Fin nIn → Bool)
    (hc : ∀ k e x x', CustomSame (custom k e x) (custom k e x')) :
    (elemStd nIn size out φ flags π same custom).Fixed fixed :=
  ⟨fun _ _ _ _ _ => rfl, fun x x' {_} e => hc _ e x x'⟩

theorem arr_fixed {nIn : ℕ} {size : Fin nIn → ℕ} {out : ℕ} {hpos : ∀ i, 0 < size i}
    {fn : ((i : Fin nIn) → Fin (size i) → F) → Fin out → F} {flags : Flags}
    {axes : (i : Fin nIn) → ArgAx (Fin (size i)) (Fin out)} {same : (i : Fin nIn) → Option (Fin out ≃ Fin (size i))}
    {src : ((i : Fin nIn) → Fin (size i) → F) → Fin out → Option (Σ i, Fin (size i))} {static oneAxis : Bool}
    {fixed : Fin nIn → Bool}
    (hs : flags.has Flags.INDEXING = true → static = true → ∀ x x', (∀ i, fixed i = true → x i = x' i) → src x = src x') :
    (arrStd nIn size out hpos fn flags axes same src static oneAxis fun _ _ _ => none).Fixed fixed :=
  ⟨hs, fun _ _ {_} _ => trivial⟩

theorem IndexOp.fixed (op : IndexOp) (static oneAxis : Bool) (fixed : Fin op.nIn → Bool)
    (h : static = true → ∀ i, op.data i = false → fixed i = true) : (op.std F static oneAxis).Fixed fixed :=
  arr_fixed fun _ hst x x' hx => by
    have : op.ints x = op.ints x' := by
      funext i
      unfold IndexOp.ints
      by_cases hd : op.data i = true
      · simp only [hd, if_true]
      · rw [hx i (h hst i (by simpa using hd))]
    funext q
    unfold IndexOp.src
    rw [this]

theorem CombineOp.fixed (op : CombineOp) (comb : List F → F) (oneAxis : Bool) (fixed : Fin op.nIn → Bool) :
    (op.std comb oneAxis).Fixed fixed :=
  arr_fixed fun _ _ _ _ _ => rfl

theorem dropPrim_stable (nIn : ℕ) (size : Fin nIn → ℕ) (nOut : ℕ) (outSize : Fin nOut → ℕ)
    (fwd : ((i : Fin nIn) → Fin (size i) → F) → (j : Fin nOut) → Fin (outSize j) → F) (T : ℕ) (fixed : Fin nIn → Bool) :
    (dropPrim nIn size nOut outSize fwd).FormStable T fixed :=
  fun _ _ _ _ => .ok fun _ => trivial

theorem mapData_same {P : Type} (f : F → F) {J J' : Jac P F} (h : J.Same J') : (J.mapData f).Same (J'.mapData f) := by
  rcases h.cases with ⟨r, r', rfl, rfl, hl⟩ | ⟨r, r', rfl, rfl, hl⟩
  · exact Jac.same_dense.mpr (by simp only [List.length_map]; exact hl)
  · refine Jac.same_sparse.mpr ?_
    rw [List.map_map, List.map_map]
    exact hl

theorem mapAt_same {P : Type} (f f' : P → F → F) {J J' : Jac P F} (h : J.Same J') : (J.mapAt f).Same (J'.mapAt f') := by
  rcases h.cases with ⟨r, r', rfl, rfl, hl⟩ | ⟨r, r', rfl, rfl, hl⟩
  · exact Jac.same_dense.mpr (by simp only [List.length_map]; exact hl)
  · refine Jac.same_sparse.mpr ?_
    rw [List.map_map, List.map_map]
    exact hl

theorem mapPrim_stable (m : ℕ) (f : F → F) (T : ℕ) (fixed : Fin 1 → Bool) : (mapPrim m f).FormStable T fixed := by
  intro o o' h _
  refine .ok fun _ => ?_
  have h0 := h (0 : Fin 1)
  revert h0
  generalize o (0 : Fin 1) = a
  generalize o' (0 : Fin 1) = b
  intro h0
  cases a with
  | plain x =>
    cases b with
    | plain y => trivial
    | lapl t => exact h0.elim
  | lapl t =>
    cases b with
    | plain y => exact h0.elim
    | lapl t' => exact mapData_same f h0

omit [RCLike F] in
/-- An operand is what it is: both plain, or both with derivatives. -/
theorem Opd.Same.both {m : ℕ} {o o' : Opd F m} (h : o.Same o') :
    (∃ x y, o = .plain x ∧ o' = .plain y) ∨ ∃ t t', o = .lapl t ∧ o' = .lapl t' ∧ t.jac.Same t'.jac := by
  cases o with
  | plain x =>
    cases o' with
    | plain y => exact Or.inl ⟨x, y, rfl, rfl⟩
    | lapl t => exact False.elim h
  | lapl t =>
    cases o' with
    | plain y => exact False.elim h
    | lapl t' => exact Or.inr ⟨t, t', rfl, rfl, h⟩

theorem mapAt_lapl {m : ℕ} {J J' : Jac (Fin m) F} (h : J.Same J') (f f' : Fin m → F → F) (x l x' l' : Fin m → F) :
    Opd.Same (.lapl ⟨x, J.mapAt f, l⟩) (.lapl ⟨x', J'.mapAt f', l'⟩) := mapAt_same f f' h

theorem ExRel.map' {α β γ δ : Type} {R : α → β → Prop} {S : γ → δ → Prop} {x : Except Err α} {y : Except Err β}
    (h : ExRel R x y) {f : α → γ} {g : β → δ} (hfg : ∀ a b, R a b → S (f a) (g b)) : ExRel S (x.map f) (y.map g) := by
  cases h with
  | error e => exact .error e
  | ok h => exact .ok (hfg _ _ h)

theorem scatterPrim_stable {size : Fin 2 → ℕ} (c : Scatter (Fin (size 0)) (Fin (size 1)))
    (π : (a : Fin 2) → Fin (size 0) → Fin (size a)) (T : ℕ) (fixed : Fin 2 → Bool) :
    (scatterPrim (F := F) c π).FormStable T fixed := by
  intro o o' h _
  unfold scatterPrim
  dsimp only
  have hh : ArgsSame (P := fun a : Fin 2 => Fin (size a)) (fun a => (o a).trip) fun a => (o' a).trip := fun a => (h a).trip
  have h0 : (o (0 : Fin 2)).Same (o' (0 : Fin 2)) := h (0 : Fin 2)
  have h1 : (o (1 : Fin 2)).Same (o' (1 : Fin 2)) := h (1 : Fin 2)
  obtain ⟨x, y, e0, e0'⟩ | ⟨t, t', e0, e0', ht⟩ := h0.both
  · rw [e0, e0']
    obtain ⟨x1, y1, e1, e1'⟩ | ⟨t1, t1', e1, e1', ht1⟩ := h1.both
    · rw [e1, e1']; exact .ok fun _ => trivial
    · rw [e1, e1']
      refine (HInst.wrapped_rel (I := scatterUpdates c x (π 1)) (I' := scatterUpdates c y (π 1))
        ⟨_, _, _, _, _, rfl, fun _ _ => rfl, trivial⟩ T (args := fun _ => t1) (args' := fun _ => t1') fun _ => ht1).map' ?_
      exact fun a b hab _ => hab
  · rw [e0, e0']
    obtain ⟨x1, y1, e1, e1'⟩ | ⟨t1, t1', e1, e1', ht1⟩ := h1.both
    · rw [e1, e1']
      refine (HInst.wrapped_rel (I := scatterOperand c x1) (I' := scatterOperand c y1)
        ⟨_, _, _, _, _, rfl, fun _ _ => rfl, trivial⟩ T (args := fun _ => t) (args' := fun _ => t') fun _ => ht).map' ?_
      exact fun a b hab _ => hab
    · rw [e1, e1']
      refine (HInst.wrapped_rel (I := scatterInst (F := F) (P := fun a => Fin (size a)) c π) (I' := scatterInst (F := F) (P := fun a => Fin (size a)) c π)
        ⟨_, _, _, _, _, rfl, fun _ _ => rfl, (trivial : CustomSame none none)⟩ T hh).map' ?_
      exact fun a b hab _ => hab

theorem slogdetPrim_stable (cplx : Bool) (b m : ℕ) (hm : 0 < m) (T : ℕ) (fixed : Fin 1 → Bool) :
    (slogdetPrim F cplx b m hm).FormStable T fixed := by
  intro o o' h _
  unfold slogdetPrim
  dsimp only
  have h0 : (o (0 : Fin 1)).Same (o' (0 : Fin 1)) := h (0 : Fin 1)
  obtain ⟨x, y, e0, e0'⟩ | ⟨t, t', e0, e0', ht⟩ := h0.both
  · rw [e0, e0']; exact .ok fun _ => trivial
  · rw [e0, e0']
    have hw : ExRel (fun s s' : Trip (Fin b) F => s.jac.Same s'.jac) ((slogdetInst b m hm).wrapped 0 fun _ => t)
        ((slogdetInst b m hm).wrapped 0 fun _ => t') := by
      refine HInst.wrapped_rel ⟨_, _, _, _, _, rfl, fun _ _ => rfl, ?_⟩ 0 fun _ => ht
      intro v args args' idx hs
      unfold slogdetCustom
      obtain ⟨er, h1, h2⟩ | ⟨x, y, h1, h2, hxy⟩ := (constructFor_rel (hs (0 : Fin 1)) idx).elim
      · erw [h1, h2]; exact .error er
      · erw [h1, h2]; exact .ok trivial
    obtain ⟨e, h1, h2⟩ | ⟨s, s', h1, h2, hss⟩ := hw.elim
    · dsimp only; erw [h1, h2]; exact .error e
    · dsimp only; erw [h1, h2]
      refine .ok fun j => ?_
      split
      · split
        · exact mapAt_lapl hss _ _ _ _ _ _
        · trivial
      · split
        · exact mapAt_lapl hss _ _ _ _ _ _
        · exact hss

theorem cabsPrim_stable (m : ℕ) (T : ℕ) (fixed : Fin 1 → Bool) : (cabsPrim F m).FormStable T fixed := by
  intro o o' h _
  unfold cabsPrim
  dsimp only
  have h0 : (o (0 : Fin 1)).Same (o' (0 : Fin 1)) := h (0 : Fin 1)
  obtain ⟨x, y, e0, e0'⟩ | ⟨t, t', e0, e0', ht⟩ := h0.both
  · rw [e0, e0']; exact .ok fun _ => trivial
  · rw [e0, e0']
    have hw : ExRel (fun s s' : Trip (Fin m) F => s.jac.Same s'.jac) ((absInst m).wrapped T fun _ => t)
        ((absInst m).wrapped T fun _ => t') :=
      HInst.wrapped_rel ⟨_, _, _, _, _, rfl, fun _ _ => rfl, (show CustomSame (some _) (some _) from fun _ _ _ _ _ => ExRel.ok trivial)⟩ T fun _ => ht
    obtain ⟨e, h1, h2⟩ | ⟨s, s', h1, h2, hss⟩ := hw.elim
    · dsimp only; erw [h1, h2]; exact .error e
    · dsimp only; erw [h1, h2]
      refine .ok fun j => ?_
      exact mapAt_lapl hss _ _ _ _ _ _

/-! ### `dot_general` -/

/-- Values of the same size and form. -/
def PVal.SameAt (v v' : PVal F) : Prop := ∃ m, ∃ o o' : Opd F m, v = ⟨m, o⟩ ∧ v' = ⟨m, o'⟩ ∧ o.Same o'

theorem pairOpd_same {a b : ℕ} {x x' : Opd F a} {y y' : Opd F b} (hx : x.Same x') (hy : y.Same y') (i : Fin 2) :
    (pairOpd x y i).Same (pairOpd x' y' i) := by
  match i with
  | 0 => exact hx
  | 1 => exact hy

theorem rearrange_fixed (s : List ℕ) (hs : 0 < s.prod) (z : ND ℕ) (fixed : Fin 1 → Bool) :
    (rearrangeStd (F := F) s hs z).Fixed fixed := arr_fixed fun _ _ _ _ _ => rfl

theorem mulStd_fixed (s t b : List ℕ) (hs : 0 < s.prod) (ht : 0 < t.prod) (fixed : Fin 2 → Bool) :
    (mulStd (F := F) s t b hs ht).Fixed fixed := elem_fixed fixed fun _ _ _ _ => trivial

theorem sumStd_fixed (b dims : List ℕ) (hb hp) (fixed : Fin 1 → Bool) :
    (sumStd (F := F) b dims hb hp).Fixed fixed := arr_fixed fun _ _ _ _ _ => rfl

theorem dotLast_fixed (s t O : List ℕ) (d : ℕ) (h1 h2 hd hs ht) (fixed : Fin 2 → Bool) :
    (dotLastStd (F := F) s t O d h1 h2 hd hs ht).Fixed fixed := ⟨fun _ _ _ _ _ => rfl, fun _ _ {_} _ => trivial⟩

theorem mulSumRule_rel (T : ℕ) (s t : List ℕ) (hs : 0 < s.prod) (ht : 0 < t.prod) {x x' : Opd F s.prod} {y y' : Opd F t.prod}
    (hx : x.Same x') (hy : y.Same y') (dims : ℕ → List ℕ) :
    ExRel PVal.SameAt (mulSumRule T s t hs ht x y dims) (mulSumRule T s t hs ht x' y' dims) := by
  unfold mulSumRule
  cases broadcastShapes [s, t] with
  | none => exact .error _
  | some b =>
    dsimp only
    obtain ⟨e, h1, h2⟩ | ⟨p, p', h1, h2, hp⟩ := ((mulStd_fixed s t b hs ht fun _ => false).call T _ _ (pairOpd_same hx hy)).elim
    · erw [h1, h2]; exact .error e
    erw [h1, h2]
    dsimp only
    split
    · rename_i hd
      obtain ⟨e, h1, h2⟩ | ⟨r, r', h1, h2, hr⟩ := ((sumStd_fixed b (dims b.length) hd.1 hd.2 fun _ => false).call T (fun _ => p)
        (fun _ => p') fun _ => hp).elim
      · erw [h1, h2]; exact .error e
      erw [h1, h2]
      exact .ok ⟨_, r, r', rfl, rfl, hr⟩
    · exact .error _

theorem dotLastRule_rel (T : ℕ) (s t : List ℕ) {x x' : Opd F s.prod} {y y' : Opd F t.prod} (hx : x.Same x') (hy : y.Same y') :
    ExRel PVal.SameAt (dotLastRule T s t x y) (dotLastRule T s t x' y') := by
  unfold dotLastRule
  cases broadcastShapes [s.dropLast, t.dropLast] with
  | none => exact .error _
  | some O =>
    dsimp only
    split
    · rename_i hd
      obtain ⟨e, h1, h2⟩ | ⟨r, r', h1, h2, hr⟩ := ((dotLast_fixed s t O _ hd.1 hd.2.1 hd.2.2.1 hd.2.2.2.1 hd.2.2.2.2
        fun _ => false).call T _ _ (pairOpd_same hx hy)).elim
      · erw [h1, h2]; exact .error e
      erw [h1, h2]
      exact .ok ⟨_, r, r', rfl, rfl, hr⟩
    · exact .error _

theorem Opd.Same.isWeak {m : ℕ} {o o' : Opd F m} (h : o.Same o') : o.isWeak = o'.isWeak := by
  obtain ⟨x, y, rfl, rfl⟩ | ⟨t, t', rfl, rfl, ht⟩ := h.both
  · rfl
  · exact ht.1

theorem dotGeneralRule_rel (dd : DotDims) (ls rs : List ℕ) (T : ℕ) {x x' : Opd F ls.prod} {y y' : Opd F rs.prod}
    (hx : x.Same x') (hy : y.Same y') :
    ExRel PVal.SameAt (dotGeneralRule dd ls rs T x y) (dotGeneralRule dd ls rs T x' y') := by
  unfold dotGeneralRule
  rw [hx.isLapl, hy.isLapl, hx.isWeak, hy.isWeak]
  split
  · exact .ok ⟨_, _, _, rfl, rfl, trivial⟩
  · split
    · rename_i h
      cases left dd rs.length (iota ls) with
      | none => exact .error _
      | some zl =>
        cases right dd ls.length (iota rs) with
        | none => exact .error _
        | some zr =>
          dsimp only
          obtain ⟨e, h1, h2⟩ | ⟨l, l', h1, h2, hl⟩ := ((rearrange_fixed ls h.1 zl fun _ => false).call T (fun _ => x)
            (fun _ => x') fun _ => hx).elim
          · erw [h1, h2]; exact .error e
          erw [h1, h2]
          obtain ⟨e, h3, h4⟩ | ⟨r, r', h3, h4, hr⟩ := ((rearrange_fixed rs h.2 zr fun _ => false).call T (fun _ => y)
            (fun _ => y') fun _ => hy).elim
          · erw [h3, h4]; exact .error e
          erw [h3, h4]
          dsimp only
          split
          · split
            · exact mulSumRule_rel T ls rs h.1 h.2 hx hy _
            · split
              · exact mulSumRule_rel T _ _ _ _ hl hr _
              · exact .error _
          · exact dotLastRule_rel T _ _ hl hr
    · exact .error _

theorem castTo_sameAt (n : ℕ) {v v' : PVal F} (h : v.SameAt v') :
    ExRel Opd.Same (castTo (β := Opd F) n v) (castTo (β := Opd F) n v') := by
  obtain ⟨m, o, o', rfl, rfl, ho⟩ := h
  unfold castTo
  dsimp only
  split
  · rename_i hm
    subst hm
    exact .ok ho
  · exact .error _

theorem dotPrim_stable (dd : DotDims) (ls rs : List ℕ) (T : ℕ) (fixed : Fin 2 → Bool) :
    (dotPrim (F := F) dd ls rs).FormStable T fixed := by
  intro o o' h _
  unfold dotPrim
  dsimp only
  have h0 : (o (0 : Fin 2)).Same (o' (0 : Fin 2)) := h (0 : Fin 2)
  have h1 : (o (1 : Fin 2)).Same (o' (1 : Fin 2)) := h (1 : Fin 2)
  obtain ⟨e, k1, k2⟩ | ⟨v, v', k1, k2, hv⟩ := (dotGeneralRule_rel dd ls rs T h0 h1).elim
  · erw [k1, k2]; exact .error e
  erw [k1, k2]
  dsimp only
  obtain ⟨e, k1, k2⟩ | ⟨v, v', k1, k2, hv⟩ := (castTo_sameAt (outShape dd ls rs).prod hv).elim
  · rw [k1, k2]; exact .error e
  rw [k1, k2]
  exact .ok fun _ => hv

end

/-! ### The registry -/

theorem ElemEntry.custom_same (e : ElemEntry) {out : ℕ} {size : Fin e.arity → ℕ}
    (π : (i : Fin e.arity) → Fin out → Fin (size i)) (k : ℕ) (emb : Fin k ↪o Fin e.arity)
    (x x' : (i : Fin e.arity) → Fin (size i) → ℝ) : CustomSame (e.custom π k emb x) (e.custom π k emb x') := by
  unfold ElemEntry.custom
  split
  · exact divCustom_same _ k emb x x'
  · exact trivial

/-- Every registered function: the form of the results depends only on the form of the operands and on the values of the
operands that hold indices. -/
theorem BuiltIn.formStable {name : String} {p : Prim ℝ} {dom : ((i : Fin p.nIn) → Fin (p.size i) → ℝ) → Prop}
    {index : Fin p.nIn → Bool} {sp : Prop} (h : BuiltIn name p dom index sp) (T : ℕ) : p.FormStable T index := by
  cases h with
  | elem k e he size out π same hsame => exact (elem_fixed _ (e.custom_same π)).stable T
  | drop e he size out π => exact dropPrim_stable _ _ _ _ _ T _
  | reduceSum s dims hs hp => exact (arr_fixed fun _ _ _ _ _ => rfl : (reduceSumOp ℝ s dims hs hp).Fixed _).stable T
  | reduceMax s dims hs hp => exact (arr_fixed fun _ _ _ _ _ => rfl : (reduceMaxOp s dims hs hp).Fixed _).stable T
  | reduceMin s dims hs hp => exact (arr_fixed fun _ _ _ _ _ => rfl : (reduceMinOp s dims hs hp).Fixed _).stable T
  | reduceProd s dims hs hp => exact (arr_fixed fun _ _ _ _ _ => rfl : (reduceProdOp ℝ s dims hs hp).Fixed _).stable T
  | cumsum s axis reverse oneAxis hs => exact (CombineOp.fixed _ _ _ _).stable T
  | broadcastInDim s t dims hs h static oneAxis => exact (IndexOp.fixed _ _ _ _ fun _ _ hd => by simp [broadcastInDimOp] at hd).stable T
  | reshape s t hs h static oneAxis => exact (IndexOp.fixed _ _ _ _ fun _ _ hd => by simp [reshapeOp] at hd).stable T
  | slice s start limit stride hs h static oneAxis => exact (IndexOp.fixed _ _ _ _ fun _ _ hd => by simp [sliceOp] at hd).stable T
  | dynamicSlice s sizes hs hl h static oneAxis =>
    exact (IndexOp.fixed _ _ _ _ fun _ i hd => by
      refine Fin.cases (fun hd => ?_) (fun j _ => ?_) i hd
      · simp [dynamicSliceOp] at hd
      · simp).stable T
  | concatenate k shapes axis out hs h static oneAxis =>
    exact (IndexOp.fixed _ _ _ _ fun _ _ hd => by simp [concatenateOp] at hd).stable T
  | selectN s k scalar hs static oneAxis => 
    exact (IndexOp.fixed _ _ _ _ fun _ i hd => by
      refine Fin.cases (fun _ => ?_) (fun j hd => ?_) i hd
      · simp
      · simp [selectNOp] at hd).stable T
  | gather s ids out sliceSizes g hs hi h static oneAxis =>
    exact (IndexOp.fixed _ _ _ _ fun _ i hd => by
      revert i
      intro (i : Fin 2) hd
      fin_cases i
      · simp [gatherOp] at hd
      · rfl).stable T
  | transpose s perm hs h static oneAxis => exact (IndexOp.fixed _ _ _ _ fun _ _ hd => by simp [transposeOp] at hd).stable T
  | squeeze s dims hs static oneAxis => exact (IndexOp.fixed _ _ _ _ fun _ _ hd => by simp [squeezeOp] at hd).stable T
  | rev s dims hs static oneAxis => exact (IndexOp.fixed _ _ _ _ fun _ _ hd => by simp [revOp] at hd).stable T
  | scatterAdd s ids upd g hs hi hu oneAxis => exact (CombineOp.fixed _ _ _ _).stable T
  | scatterMax s ids upd g hs hi hu oneAxis => exact (CombineOp.fixed _ _ _ _).stable T
  | scatterMin s ids upd g hs hi hu oneAxis => exact (CombineOp.fixed _ _ _ _).stable T
  | scatter size c hc π => exact scatterPrim_stable c π T _
  | dotGeneral dd ls rs h hl hr => exact dotPrim_stable dd ls rs T _
  | slogdet b m hm => exact slogdetPrim_stable _ b m hm T _
  | convert m => exact mapPrim_stable m _ T _

end Folx

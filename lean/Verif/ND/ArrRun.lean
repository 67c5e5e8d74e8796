import Verif.ND.ArrGood
import Verif.Prog.Run
import Verif.Prog.ReturnLib

/-!
# Calls of array-level functions with the operands they meet in a run

Short dense Jacobians (with fewer rows than inputs, e.g. behind `slogdet` of a sparse array) are allowed as long as no sparse Jacobian meets them.
-/

namespace Folx.Layout
open Vmap Dot Filter Topology

variable {F : Type} [RCLike F]

section
variable [Inhabited F] {m : ℕ} {shape : Fin (m + 1) → List ℕ} {out : List ℕ}
variable {X : Type} [NormedAddCommGroup X] [NormedSpace ℝ X] {B : Base X}
variable {T n : ℕ} {A : ArrFn F shape out} {ifwd : (acts : List (Fin (m + 1))) → Option ((Fin acts.length → ND ℤ) → ND ℤ)} {b : List ℕ}
  {φ : List (ND F) → ((i : Fin (m + 1)) → Fin (A.inAxes.slice (shape i)).prod → F) → List ℕ → F} {x : (i : Fin (m + 1)) → Fin (shape i).prod → F}
  {o : (i : Fin (m + 1)) → Opd F (shape i).prod} {uo : (i : Fin (m + 1)) → X → Fin (shape i).prod → F}

/-- A call with dense Jacobians of any numbers of rows. -/
theorem call_short (hn : 0 < B.n) (hT : A.Truthful ifwd b φ x) (hc : CallOk B o uo x) (hd : ∀ i t, o i = .lapl t → t.jac.weak = false) :
    ∃ t, A.call ifwd T o = some (.lapl t) ∧ TripRep B t (fun y => A.fwd fun i => uo i y) ∧ t.jac.weak = false := by
  obtain ⟨a0, rest, ha, hx, hs, hrep⟩ := call_parts hn hT hc
  have hnd : (a0 :: rest).Nodup := hs.imp fun h => ne_of_lt h
  rw [call_eq ha hx]
  choose tt ht hrep using hrep
  have hidx : ∀ a, (tripArr (shape ((a0 :: rest).get a)) (o ((a0 :: rest).get a)).trip).jac.idx = none := fun a =>
    idx_jacArr (by rw [ht a]; exact hd _ _ (ht a))
  have hS := (restrict_second (T := T) hT hs hrep fun a => hc.val _).1 hidx
  have hA' := restrict_computes' hT hc hs
  obtain ⟨b', hb'⟩ := restrict_batch (ifwd := ifwd) (acts := a0 :: rest) (x := x) hT.batch hT.argSize
  have hax := restrict_axes hT hc hnd
  obtain ⟨r, hr, hr1, hr2⟩ := C57_dense (k := rest.length) (ifwd := (A.restrict ifwd (a0 :: rest) x).ifwd) T hn (A.flags.has Flags.INDEXING) (A.flags.has Flags.JOIN_JVP)
    (fun a => (hrep a).arg) hax hidx
  have hp : ∀ r', jvpArr T (A.flags.has Flags.INDEXING) (A.flags.has Flags.JOIN_JVP) (A.inAxes.first (A.flags.has Flags.SUMMATION))
      ((A.restrict ifwd (a0 :: rest) x).deriv fun a => uo ((a0 :: rest).get a) B.x0) (A.restrict ifwd (a0 :: rest) x).ifwd
      (fun a => tripArr (shape ((a0 :: rest).get a)) (o ((a0 :: rest).get a)).trip) = some r' →
      IsPush (k := rest.length) B.n ((A.restrict ifwd (a0 :: rest) x).deriv fun a => uo ((a0 :: rest).get a) B.x0)
        (fun a => tripArr (shape ((a0 :: rest).get a)) (o ((a0 :: rest).get a)).trip) r' := by
    intro r' hr'
    have : r' = r := Option.some.inj (hr'.symm.trans hr)
    rw [this]
    exact hr2
  have hw := wrapped_iff (k := rest.length) hrep hA' hT.outSize (fits_batch (k := rest.length) hb') hS hp
  cases hwt : (A.restrict ifwd (a0 :: rest) x).wrapped (k := rest.length) T (fun a => tripArr (shape ((a0 :: rest).get a)) (o ((a0 :: rest).get a)).trip)
      (A.extrasOf (a0 :: rest) x) with
  | none =>
    have := hw.1.mp hwt
    exact absurd (hr.symm.trans this) (by simp)
  | some t =>
    obtain ⟨h1, r', h2, h3⟩ := wrapped_sound (k := rest.length) hrep hA' hT.outSize (fits_batch (k := rest.length) hb') hS.sound hp hwt
    have : r' = r := Option.some.inj (h2.symm.trans hr)
    subst this
    refine ⟨arrTrip out t, rfl, tripRep_congr (tripRep_of_arrRep h1) (merge_eventually hc ha), ?_⟩
    show (t.jac.rep out).weak = false
    rw [← Bool.not_eq_true, weak_rep, h3, hr1]
    simp

omit [Inhabited F] in
/-- Dense Jacobians of any numbers of rows. -/
def shortInv : ∀ m, Jac (Fin m) F → Prop := fun _ J => J.weak = false

theorem prim_sound_short (hn : 0 < n) (hT : A.Truthful ifwd b φ x) : (A.prim ifwd).SoundAt shortInv T n x := by
  intro X _ _ B o u r hB hx ho hl hr j
  subst hB
  obtain ⟨h1, h2⟩ := callOk_of (inv := shortInv) (fun _ J hJ hw => absurd hw (by rw [show J.weak = false from hJ]; decide)) hx ho hl
  obtain ⟨t, h3, h4, h5⟩ := call_short (T := T) hn hT h1 h2
  obtain ⟨r0, h6, rfl⟩ := prim_rule_ok hr
  obtain rfl : r0 = .lapl t := Option.some.inj (h6.symm.trans h3)
  exact ⟨h4, h5⟩

end

theorem arrSound_short (T n : ℕ) (hn : 0 < n) : letI := instInhabitedScalar (F := F); ArrSound (F := F) false shortInv T n :=
  letI := instInhabitedScalar (F := F)
  fun _ _ _ _ _ _ _ _ _ h _ => prim_sound_short hn h

/-- What every Jacobian in a run satisfies: sparse ones have rows. -/
def filledInv : ∀ m, Jac (Fin m) F → Prop := fun _ J => J.Filled

theorem filled_iff {m : ℕ} {J : Jac (Fin m) F} (h : J.Filled) : J.weak = true → 0 < J.nrows := fun hw => Nat.pos_of_ne_zero (h hw)

variable [Inhabited F]

/-- Functions that are linear in each operand, or have one operand: with Jacobians of any layout. -/
theorem prim_sound_any {m : ℕ} {shape : Fin (m + 1) → List ℕ} {out : List ℕ} {T n : ℕ} {A : ArrFn F shape out} {ifwd : (acts : List (Fin (m + 1))) → Option ((Fin acts.length → ND ℤ) → ND ℤ)}
    {b : List ℕ} {φ : List (ND F) → ((i : Fin (m + 1)) → Fin (A.inAxes.slice (shape i)).prod → F) → List ℕ → F} {x : (i : Fin (m + 1)) → Fin (shape i).prod → F}
    (hn : 0 < n) (hT : A.Truthful ifwd b φ x) (hs : A.SparseSafe ifwd b) (hl1 : A.flags.has Flags.LINEAR_IN_ONE = true ∨ m = 0) : (A.prim ifwd).SoundAt filledInv T n x := by
  intro X _ _ B o u r hB hx ho hl hr j
  subst hB
  obtain ⟨h1, h2⟩ := callOk_of (inv := filledInv) (fun _ J hJ => filled_iff hJ) hx ho hl
  by_cases hd : ∀ i t, o i = .lapl t → t.jac.weak = false
  · obtain ⟨t, h3, h4, h5⟩ := call_short (T := T) hn hT h1 hd
    obtain ⟨r0, h6, rfl⟩ := prim_rule_ok hr
    obtain rfl : r0 = .lapl t := Option.some.inj (h6.symm.trans h3)
    exact ⟨h4, fun hw => absurd ((h5 : _ = false).symm.trans hw) (by decide)⟩
  · obtain ⟨r0, h6, rfl⟩ := prim_rule_ok hr
    obtain ⟨t, rfl, h4, h5, -⟩ := call_any (T := T) hn hT hs h1 (hl1.imp id fun h0 i t ht => by
      subst h0
      refine Jac.Big.of_weak ?_
      by_contra hw
      refine hd fun i' t' ht' => ?_
      obtain rfl : i' = i := Subsingleton.elim (α := Fin 1) _ _
      obtain rfl := Opd.lapl.inj (ht.symm.trans ht')
      exact Bool.eq_false_iff.mpr hw) h6
    exact ⟨h4, fun hw => (h5 hw).ne'⟩

theorem arrSound_any (T n : ℕ) (hn : 0 < n) : letI := instInhabitedScalar (F := F); ArrSound (F := F) true filledInv T n :=
  letI := instInhabitedScalar (F := F)
  fun _ _ _ _ _ _ _ _ h1 h hs => prim_sound_any hn h (hs rfl) (Or.inl h1)

/-- The call of `p` with the operands `o` it gets in a run (`n` inputs, threshold `T`):
* array-level functions with true declarations: all Jacobians are dense (with any numbers of rows), or the function is safe with sparse Jacobians, and it is linear in each
  operand, or it has one operand only, or the dense Jacobians among the operands have all rows (or as many as the threshold);
* `dot_general`, outside of the cases B9 and B20;
* functions that drop derivatives and are constant near the point; real-linear functions of every element;
* `slogdet` of batches of invertible matrices;
* `abs` of complex arrays without zeros, if no position stores two entries for one input (B2). -/
inductive ArrGoodCall (T n : ℕ) : (p : Prim F) → ((i : Fin p.nIn) → Opd F (p.size i)) → Prop
  | array {m : ℕ} {shape : Fin (m + 1) → List ℕ} {out : List ℕ} (A : ArrFn F shape out) (ifwd : (acts : List (Fin (m + 1))) → Option ((Fin acts.length → ND ℤ) → ND ℤ))
      (b : List ℕ) (φ : List (ND F) → ((i : Fin (m + 1)) → Fin (A.inAxes.slice (shape i)).prod → F) → List ℕ → F) (o : (i : Fin (m + 1)) → Opd F (shape i).prod)
      (h : A.Truthful ifwd b φ fun i => (o i).x)
      (hd : (∀ i t, o i = .lapl t → t.jac.weak = false) ∨
        (A.SparseSafe ifwd b ∧ ((A.flags.has Flags.LINEAR_IN_ONE = true ∨ m = 0) ∨ ∀ i t, o i = .lapl t → t.jac.Big T n))) : ArrGoodCall T n (A.prim ifwd) o
  | dot (dd : DotDims) (ls rs : List ℕ) (h : dd.Ok ls rs) (hl : 0 ∉ ls) (hr : 0 ∉ rs) (o : (i : Fin 2) → Opd F (two ls rs i).prod)
      (hd : (∀ i t, o i = .lapl t → t.jac.weak = false) ∨
        (1 ∉ outShape dd ls rs ∧ (interEqIn (leftShape dd ls rs) (rightShape dd ls rs) = true → noTranspose dd ls.length rs.length = true → SpecialOk dd ls.length rs.length))) :
      ArrGoodCall T n (dotArrPrim dd ls rs) o
  | dropped (nIn : ℕ) (size : Fin nIn → ℕ) (nOut : ℕ) (outSize : Fin nOut → ℕ)
      (fwd : ((i : Fin nIn) → Fin (size i) → F) → (j : Fin nOut) → Fin (outSize j) → F)
      (o : (i : Fin nIn) → Opd F (size i)) (h : ∀ᶠ y in 𝓝 fun i => (o i).x, fwd y = fwd fun i => (o i).x) :
      ArrGoodCall T n (dropPrim nIn size nOut outSize fwd) o
  | mapped (m : ℕ) (f : F →L[ℝ] F) (o : (i : Fin 1) → Opd F m) : ArrGoodCall T n (mapPrim m f) o
  | slogdet (fld : DetField F) (b m : ℕ) (hm : 0 < m) (o : (i : Fin 1) → Opd F (b * (m * m)))
      (h : ∀ q, (mats (o 0).x q).det ≠ 0) : ArrGoodCall T n (slogdetPrim F fld.cplx b m hm) o
  | cabs (m : ℕ) (hm : 0 < m) (o : (i : Fin 1) → Opd F m) (h : ∀ q, (o 0).x q ≠ 0) (hr : ∀ t, o 0 = .lapl t → t.jac.NoRepeat) :
      ArrGoodCall T n (cabsPrim F m) o

section
omit [Inhabited F]

theorem soundForI_of {p : Prim F} {inv : ∀ m, Jac (Fin m) F → Prop} {T n : ℕ} (o : (i : Fin p.nIn) → Opd F (p.size i)) (h : p.SoundAt inv T n fun i => (o i).x)
    (hi : ∀ i t, o i = .lapl t → t.jac.Filled → inv _ t.jac) (hw : ∀ m J, inv m J → J.Filled) : p.SoundForI filledInv T n o := by
  intro X _ _ B u r hB hr hl hc j
  have h1 := h X B o u r hB (fun i => (opdRep_x B _ _ _ (hr i)).symm) (fun i => by
    have := hr i
    revert this
    cases ho : o i with
    | plain a => exact fun h => h
    | lapl t => exact fun h => ⟨h.1, hi i t ho h.2⟩) hl hc j
  revert h1
  cases r j with
  | plain a => exact fun h => h
  | lapl t => exact fun h => ⟨h.1, hw _ _ h.2⟩

theorem filled_of_short {m : ℕ} {J : Jac (Fin m) F} (h : shortInv m J) : J.Filled := fun hw => absurd hw (by rw [show J.weak = false from h]; decide)

theorem filled_of_arr {T n m : ℕ} {J : Jac (Fin m) F} (h : arrInv T n m J) : J.Filled := fun hw => (h.1 hw).ne'

theorem cabs_soundFilled (T n : ℕ) (hn : 0 < n) (m : ℕ) (hm : 0 < m) (o : (i : Fin 1) → Opd F m) (h : ∀ q, (o 0).x q ≠ 0)
    (hr : ∀ t, o 0 = .lapl t → t.jac.NoRepeat) : (cabsPrim F m).SoundForI filledInv T n o := by
  intro X _ _ B u r hB hrep hl hc j
  have h1 := cabs_soundFor T n hn m o h hr X B u r hB (fun i => opdRep_weaken B _ _ _ (hrep i)) hl hc j
  have hk : (r j).Kept false := by
    suffices hs : ∀ o0 : Opd F m, (∀ t, o0 = .lapl t → t.jac.Filled) → o0.isLapl = true → ∀ r : Fin 1 → Opd F m, (cabsPrim F m).rule T (fun _ => o0) = .ok r → (r j).Kept false by
      refine hs (o (0 : Fin 1)) (fun t ht => ?_) ?_ r ((congrArg ((cabsPrim F m).rule T) (funext fun i => congrArg o (Subsingleton.elim (α := Fin 1) _ _))).trans hc)
      · have := hrep (0 : Fin 1)
        rw [ht] at this
        exact this.2
      · obtain ⟨i, hi⟩ := hl
        have : i = (0 : Fin 1) := Subsingleton.elim (α := Fin 1) _ _
        subst this
        exact hi
    intro o0 h2 h3 r hr
    cases o0 with
    | plain a => simp [Opd.isLapl] at h3
    | lapl t =>
      obtain ⟨c, hc, e1, e2, e3⟩ := absInst_returns T m hm t (h2 t rfl)
      simp only [cabsPrim, hc] at hr
      obtain rfl := Except.ok.inj hr
      exact Opd.kept_mapAt (t := c) ⟨fun t' e => by obtain rfl := Opd.lapl.inj e; exact ⟨hm, e2⟩, fun hf => absurd hf (by decide)⟩ _ _ _
  revert h1 hk
  cases r j with
  | plain a => exact fun h _ => h
  | lapl t => exact fun h hk => ⟨h.1, (hk.1 t rfl).2⟩

end

/-- Such calls are exact. -/
theorem ArrGoodCall.sound {T n : ℕ} (hn : 0 < n) (p : Prim F) (o : (i : Fin p.nIn) → Opd F (p.size i)) (h : ArrGoodCall T n p o) : p.SoundForI filledInv T n o := by
  cases h with
  | array A ifwd b φ o h hd =>
    rcases hd with hd | ⟨hs, hd | hd⟩
    · exact soundForI_of (p := A.prim ifwd) o (prim_sound_short hn h) (fun i t ht _ => hd i t ht) fun _ _ => filled_of_short
    · exact soundForI_of (p := A.prim ifwd) o (prim_sound_any hn h hs hd) (fun _ _ _ hf => hf) fun _ _ h => h
    · exact soundForI_of (p := A.prim ifwd) o (prim_sound_sparse (T := T) hn h hs) (fun i t ht hf => ⟨filled_iff hf, hd i t ht⟩) fun _ _ => filled_of_arr
  | dot dd ls rs h hl hr o hd =>
    rcases hd with hd | hs
    · exact soundForI_of (p := dotArrPrim dd ls rs) o (dotArr_sound (arrSound_short T n hn) (fun _ _ _ hJ => hJ) h hl hr (fun h => absurd h (by decide)) _) (fun i t ht _ => hd i t ht)
        fun _ _ => filled_of_short
    · exact soundForI_of (p := dotArrPrim dd ls rs) o (dotArr_sound (arrSound_any T n hn) (fun h => absurd h (by decide)) h hl hr (fun _ => hs) _) (fun _ _ _ hf => hf) fun _ _ h => h
  | dropped nIn size nOut outSize fwd o h =>
    exact soundForI_of (p := dropPrim nIn size nOut outSize fwd) (inv := filledInv) o (drop_sound filledInv T n _ h) (fun _ _ _ hf => hf) fun _ _ h => h
  | mapped m f o =>
    refine soundForI_of (p := mapPrim m f) (inv := filledInv) o (map_sound filledInv T n m f (fun J hJ hw => ?_) _) (fun _ _ _ hf => hf) fun _ _ h => h
    rw [Jac.mapData_weak] at hw
    rw [Jac.mapData_nrows]
    exact hJ hw
  | slogdet fld b m hm o h =>
    refine soundForI_of (p := slogdetPrim F fld.cplx b m hm) (inv := filledInv) o (slogdet_sound filledInv T n hn fld hm _ h fun t c _ hc => ?_) (fun _ _ _ hf => hf) fun _ _ h => h
    obtain ⟨rows, hd⟩ := slogdet_dense hm 0 t c hc
    rw [hd]
    exact ⟨Jac.filled_dense rfl, fun f => Jac.filled_dense rfl⟩
  | cabs m hm o h hr => exact cabs_soundFilled T n hn m hm o h hr

/-- Functions whose calls are exact at operand values `x` for Jacobians of every layout, dense ones with any number of rows:
* array-level functions with true declarations that are safe with sparse Jacobians and linear in each operand (indexing, sums, additions, products, ...), or have one operand
  (elementwise functions, products and maxima along axes, ...);
* `dot_general` outside of the cases B9 and B20;
* functions that drop derivatives and are constant near the point; real-linear functions of every element;
* `slogdet` of batches of invertible matrices. -/
inductive AnyGood : (p : Prim F) → ((i : Fin p.nIn) → Fin (p.size i) → F) → Prop
  | array {m : ℕ} {shape : Fin (m + 1) → List ℕ} {out : List ℕ} (A : ArrFn F shape out) (ifwd : (acts : List (Fin (m + 1))) → Option ((Fin acts.length → ND ℤ) → ND ℤ))
      (b : List ℕ) (φ : List (ND F) → ((i : Fin (m + 1)) → Fin (A.inAxes.slice (shape i)).prod → F) → List ℕ → F) (x : (i : Fin (m + 1)) → Fin (shape i).prod → F)
      (h : A.Truthful ifwd b φ x) (hs : A.SparseSafe ifwd b) (hl : A.flags.has Flags.LINEAR_IN_ONE = true ∨ m = 0) : AnyGood (A.prim ifwd) x
  | dot (dd : DotDims) (ls rs : List ℕ) (h : dd.Ok ls rs) (hl : 0 ∉ ls) (hr : 0 ∉ rs)
      (hs : 1 ∉ outShape dd ls rs ∧ (interEqIn (leftShape dd ls rs) (rightShape dd ls rs) = true → noTranspose dd ls.length rs.length = true → SpecialOk dd ls.length rs.length))
      (x : (i : Fin 2) → Fin (two ls rs i).prod → F) : AnyGood (dotArrPrim dd ls rs) x
  | dropped (nIn : ℕ) (size : Fin nIn → ℕ) (nOut : ℕ) (outSize : Fin nOut → ℕ)
      (fwd : ((i : Fin nIn) → Fin (size i) → F) → (j : Fin nOut) → Fin (outSize j) → F)
      (x : (i : Fin nIn) → Fin (size i) → F) (h : ∀ᶠ y in 𝓝 x, fwd y = fwd x) : AnyGood (dropPrim nIn size nOut outSize fwd) x
  | mapped (m : ℕ) (f : F →L[ℝ] F) (x : (i : Fin 1) → Fin m → F) : AnyGood (mapPrim m f) x
  | slogdet (fld : DetField F) (b m : ℕ) (hm : 0 < m) (x : (i : Fin 1) → Fin (b * (m * m)) → F) (h : ∀ q, (mats (x 0) q).det ≠ 0) : AnyGood (slogdetPrim F fld.cplx b m hm) x

theorem AnyGood.sound {T n : ℕ} (hn : 0 < n) (p : Prim F) (x : (i : Fin p.nIn) → Fin (p.size i) → F) (h : AnyGood p x) : p.SoundAt filledInv T n x := by
  cases h with
  | array A ifwd b φ x h hs hl => exact prim_sound_any hn h hs hl
  | dot dd ls rs h hl hr hs x => exact dotArr_sound (arrSound_any T n hn) (fun h => absurd h (by decide)) h hl hr (fun _ => hs) _
  | dropped nIn size nOut outSize fwd x h => exact drop_sound filledInv T n x h
  | mapped m f x =>
    refine map_sound filledInv T n m f (fun J hJ hw => ?_) x
    rw [Jac.mapData_weak] at hw
    rw [Jac.mapData_nrows]
    exact hJ hw
  | slogdet fld b m hm x h =>
    refine slogdet_sound filledInv T n hn fld hm x h fun t c _ hc => ?_
    obtain ⟨rows, hd⟩ := slogdet_dense hm 0 t c hc
    rw [hd]
    exact ⟨Jac.filled_dense rfl, fun f => Jac.filled_dense rfl⟩

/-- Such functions called with operands with those values. -/
theorem AnyGood.call {T n : ℕ} {p : Prim F} {o : (i : Fin p.nIn) → Opd F (p.size i)} (h : AnyGood p fun i => (o i).x) : ArrGoodCall T n p o := by
  generalize hx : (fun i => (o i).x) = x at h
  cases h with
  | array A ifwd b φ x h hs hl =>
    obtain rfl := hx
    exact .array A ifwd b φ o h (Or.inr ⟨hs, Or.inl hl⟩)
  | dot dd ls rs h hl hr hs x => exact .dot dd ls rs h hl hr o (Or.inr hs)
  | dropped nIn size nOut outSize fwd x h =>
    obtain rfl := hx
    exact .dropped nIn size nOut outSize fwd o h
  | mapped m f x => exact .mapped m f o
  | slogdet fld b m hm x h =>
    obtain rfl := hx
    exact .slogdet fld b m hm o h

end Folx.Layout

namespace Folx
open Folx.Interp

variable {F : Type} [RCLike F]

theorem evalRC_count {O V : Type} (ev : O → List V → Except Err (List V)) (j : Jaxpr O V) (cs as ys : List V) (h : evalRC ev j cs as = .ok ys) : ys.length = j.outvars.length := by
  unfold evalRC at h
  split at h
  · exact absurd h (by simp)
  · split at h
    · exact absurd h (by simp)
    · rename_i s' _
      have key : ∀ (atoms : List (Atom V)) (s : EnvState V) ys s'', s.readMany atoms = .ok (ys, s'') → ys.length = atoms.length := by
        intro atoms
        induction atoms with
        | nil =>
          intro s ys s'' h
          simp only [EnvState.readMany, Except.ok.injEq, Prod.mk.injEq] at h
          rw [← h.1]
          rfl
        | cons a as ih =>
          intro s ys s'' h
          simp only [EnvState.readMany] at h
          repeat' split at h
          · exact absurd h (by simp)
          · exact absurd h (by simp)
          all_goals
            simp only [Except.ok.injEq, Prod.mk.injEq] at h
            rw [← h.1, List.length_cons, List.length_cons, ih _ _ _ (by assumption)]
      split at h
      · exact absurd h (by simp)
      · rename_i h2
        obtain rfl := Except.ok.inj h
        exact key _ _ _ _ h2

/-- Hypotheses about the operand values of every call are hypotheses about every call of the run. -/
theorem Dom.domR (reg : String → Option (Prim F)) (junk : List (PVal F) → PVal F) (T : ℕ)
    (good : (p : Prim F) → ((i : Fin p.nIn) → Fin (p.size i) → F) → Prop) (good' : (p : Prim F) → ((i : Fin p.nIn) → Opd F (p.size i)) → Prop)
    (hg : ∀ p o, good p (fun i => (o i).x) → good' p o) :
    ∀ (d : ℕ) (op : Op d F) (vals : List (PVal F)), Dom reg junk T good d op vals → DomR reg junk T good' d op vals
  | 0, op, _, _ => nomatch op
  | d + 1, op, vals, hd => by
    have hu : ∀ (p : Prim F) o, unpack (β := Opd F) p.size vals = .ok o → unpack (β := fun m => Fin m → F) p.size (vals.map fun v => ⟨v.1, v.2.x⟩) = .ok fun i => (o i).x := by
      intro p o ho
      rw [unpack_eq] at ho ⊢
      rw [ho, List.map_ofFn]
      rfl
    intro hl
    have hd := hd hl
    cases op with
    | prim p => exact fun o ho => hg p o (hd _ (hu p o ho))
    | pjit name j consts =>
      dsimp only at hd ⊢
      cases hr : reg name with
      | some p =>
        rw [hr] at hd
        exact ⟨fun o ho => hg p o (hd.1 _ (hu p o ho)), hd.2⟩
      | none =>
        rw [hr] at hd
        exact fun s hs => domRun_mono _ _ _ (Dom.domR reg junk T good good' hg d) _ _ (hd s hs)
    | scan s =>
      obtain ⟨h1, h2⟩ := hd
      intro hx
      refine scanDom_mono _ _ _ (fun xs h => ⟨fun s' hs => domRun_mono _ _ _ (Dom.domR reg junk T good good' hg d) _ _ (h s' hs), fun r hr v hv => ?_⟩) _ _ _ _ _ (h2 hx)
      have := evalRC_count _ _ _ _ _ hr
      rw [List.drop_eq_nil_of_le (by rw [this]; show (s.body.outvars.map _).length ≤ _; rw [List.length_map]; exact h1.le)] at hv
      simp at hv

end Folx

import Verif.Prog.ReturnRun
import Verif.Props.CAbsProps

/-!
# The calls that return with sparse Jacobians

What the interpreter needs in order not to raise when sparse Jacobians are used.  No smoothness is needed.
-/

namespace Folx

open Filter Topology Vmap Layout Dot
open Folx.Interp

variable {F : Type} [RCLike F]

attribute [local instance] instInhabitedScalar

/-- The call of `p` with operands `o` does not raise: none of the situations in which the rules raise on sparse Jacobians.
With `full`, moreover every element of the results depends on some input if that is true of the operands.
`scatter` (C40) is left out. -/
inductive SafeCall (T : ℕ) (full : Bool) : (p : Prim F) → ((i : Fin p.nIn) → Opd F (p.size i)) → Prop
  | wrapped (s : Std F) (o : (i : Fin s.nIn) → Opd F (s.size i)) (hs : s.Sane) (hn : s.NoRaise T o)
      (hc : full = true → s.Covers o) : SafeCall T full s.toWPrim.toPrim o
  | dropped (nIn : ℕ) (size : Fin nIn → ℕ) (nOut : ℕ) (outSize : Fin nOut → ℕ)
      (fwd : ((i : Fin nIn) → Fin (size i) → F) → (j : Fin nOut) → Fin (outSize j) → F)
      (o : (i : Fin nIn) → Opd F (size i)) : SafeCall T full (dropPrim nIn size nOut outSize fwd) o
  | mapped (m : ℕ) (f : F → F) (o : (i : Fin 1) → Opd F m) : SafeCall T full (mapPrim m f) o
  | dot (dd : DotDims) (ls rs : List ℕ) (o : (i : Fin 2) → Opd F (![ls.prod, rs.prod] i)) (h : dd.Ok ls rs) (hl : 0 < ls.prod)
      (hr : 0 < rs.prod) (hs : DotSafe dd ls rs T (o 0) (o 1)) : SafeCall T full (dotPrim dd ls rs) o
  | slogdet (cplx : Bool) (b m : ℕ) (hm : 0 < m) (o : (i : Fin 1) → Opd F (b * (m * m))) (hl : (o 0).Live) :
      SafeCall T full (slogdetPrim F cplx b m hm) o
  | cabs (m : ℕ) (o : (i : Fin 1) → Opd F m) : SafeCall T full (cabsPrim F m) o

/-- What a run with sparse Jacobians keeps. -/
def Opd.Kept (full : Bool) {m : ℕ} (o : Opd F m) : Prop := o.Ready ∧ (full = true → o.Full)

theorem Opd.kept_plain {full : Bool} {m : ℕ} (a : Fin m → F) : (Opd.plain a).Kept full :=
  ⟨Opd.ready_plain a, fun _ => Opd.full_plain a⟩

theorem Jac.mapAt_filled {P : Type} (f : P → F → F) {J : Jac P F} (h : J.Filled) : (J.mapAt f).Filled := by
  cases J with
  | dense rows => exact Jac.filled_dense rfl
  | sparse rows =>
    intro _
    have := h rfl
    simpa [Jac.mapAt, Jac.nrows] using this

theorem Jac.mapAt_full {P : Type} (f : P → F → F) {J : Jac P F} (h : J.Full) : (J.mapAt f).Full := by
  cases J with
  | dense rows => exact Jac.full_dense rfl
  | sparse rows =>
    intro p
    obtain ⟨r, hr, h1⟩ := h p
    exact ⟨⟨r.idx, fun p => f p (r.val p)⟩, List.mem_map_of_mem hr, h1⟩

theorem Opd.kept_mapAt {full : Bool} {m : ℕ} {t : Trip (Fin m) F} (h : (Opd.lapl t).Kept full) (f : Fin m → F → F)
    (x l : Fin m → F) : (Opd.lapl ⟨x, t.jac.mapAt f, l⟩).Kept full := by
  refine ⟨fun t' e => ?_, fun hf t' e => ?_⟩
  · obtain rfl := Opd.lapl.inj e
    exact ⟨(h.1 t rfl).1, Jac.mapAt_filled f (h.1 t rfl).2⟩
  · obtain rfl := Opd.lapl.inj e
    exact ⟨(h.2 hf t rfl).1, Jac.mapAt_full f (h.2 hf t rfl).2⟩

theorem Opd.kept_dense {full : Bool} {m : ℕ} (hm : 0 < m) {t : Trip (Fin m) F} (h : t.jac.weak = false) :
    (Opd.lapl t).Kept full := by
  refine ⟨fun t' e => ?_, fun _ t' e => ?_⟩
  · obtain rfl := Opd.lapl.inj e
    exact ⟨hm, Jac.filled_dense h⟩
  · obtain rfl := Opd.lapl.inj e
    exact ⟨hm, Jac.full_dense h⟩

theorem Jac.mapAt_weak {P : Type} (f : P → F → F) (J : Jac P F) : (J.mapAt f).weak = J.weak := by cases J <;> rfl

theorem mapOpd_kept {full : Bool} {m : ℕ} (f : F → F) (o : Opd F m) (h : o.Kept full) :
    (mapOpd f o).x = (fun p => f (o.x p)) ∧ (mapOpd f o).Kept full := by
  cases o with
  | plain a => exact ⟨rfl, Opd.kept_plain _⟩
  | lapl t =>
    refine ⟨rfl, ?_⟩
    have : t.jac.mapData f = t.jac.mapAt fun _ => f := by cases t.jac <;> rfl
    show (Opd.lapl ⟨fun p => f (t.x p), t.jac.mapData f, fun p => f (t.lapl p)⟩).Kept full
    rw [this]
    exact Opd.kept_mapAt h _ _ _

theorem absInst_returns (T m : ℕ) (hm : 0 < m) (t : Trip (Fin m) F) (h : t.jac.Filled) :
    ∃ c, (absInst m).wrapped T (fun _ => t) = .ok c ∧ c.x = (fun q => ((‖t.x q‖ : ℝ) : F)) ∧ c.jac.Filled ∧
      (t.jac.Full → c.jac.Full) := by
  have : Nonempty (Fin m) := ⟨⟨0, hm⟩⟩
  have hone : ∀ h, takesOneByOne (absInst (F := F) m).toInst (fun _ => t) → h := fun h hc =>
    absurd hc (not_oneByOne_single _ rfl _)
  obtain ⟨o, h1, h2, h3⟩ := jvpRule_returns (absInst (F := F) m).toInst T Nat.one_pos (fun _ => t)
    ⟨by show Flags.GENERAL.has Flags.SCATTER = false; decide,
      fun h => noFlag' Flags.GENERAL _ h (by decide), fun h => noFlag' Flags.GENERAL _ h (by decide)⟩
    rfl (fun _ => h) (fun _ a r hr => absurd (show ArgAx.elem _ = .red r from hr) (by simp)) (hone _)
  obtain ⟨w, hw⟩ := (absInst (F := F) m).hessian_returns T (fun _ => t) Nat.one_pos (fun _ hw => ⟨this, h hw⟩)
    (fun c hc => by
      have hc : some absRule = some c := hc
      obtain rfl := Option.some.inj hc
      exact fun v sargs idx _ => ⟨_, rfl⟩)
    (fun h => noFlag' Flags.GENERAL _ h (by decide)) (fun h => noFlag' Flags.GENERAL _ h (by decide))
    (fun h => noFlag' Flags.GENERAL _ h (by decide))
  refine ⟨⟨o.y, o.jac, fun q => o.lapl q + w q⟩, ?_, h3, h2.1, fun hf => h2.2 (fun _ h =>
    noFlag' Flags.GENERAL _ h (by decide)) fun _ => hf⟩
  unfold HInst.wrapped
  rw [h1]
  simp only [hw]

/-- Every safe call returns. -/
theorem SafeCall.returns {T : ℕ} {full : Bool} {p : Prim F} {o : (i : Fin p.nIn) → Opd F (p.size i)} (h : SafeCall T full p o) :
    p.ReturnsFor (fun _ => Opd.Kept full) T o := by
  intro hQ hex
  induction h with
  | wrapped s o hs hn hc =>
    obtain ⟨r, h1, h2, h3, h4⟩ := s.call_returns hs T o (fun i => (hQ i).1) hn
    exact ⟨fun (_ : Fin 1) => r, by simp only [WPrim.toPrim, h1],
      fun _ => ⟨h2, h3, fun hf => h4 (fun i => (hQ i).2 hf) (hc hf)⟩⟩
  | dropped nIn size nOut outSize fwd o => exact ⟨_, rfl, fun j => ⟨rfl, Opd.kept_plain _⟩⟩
  | mapped m f o =>
    exact ⟨_, rfl, fun j => mapOpd_kept f (o 0) (hQ (0 : Fin 1))⟩
  | dot dd ls rs o h hl hr hs =>
    obtain ⟨r, h1, h2, h3, h4⟩ := dotGeneral_returns T h hl hr (o 0) (o 1) (hQ (0 : Fin 2)).1 (hQ (1 : Fin 2)).1 hs
    refine ⟨fun _ => r, ?_, fun _ => ⟨h2, h3, fun hf => h4 ((hQ (0 : Fin 2)).2 hf) ((hQ (1 : Fin 2)).2 hf)⟩⟩
    show (match dotGeneralRule dd ls rs T (o (0 : Fin 2)) (o (1 : Fin 2)) with
      | .error e => Except.error e
      | .ok v =>
        match castTo (outShape dd ls rs).prod v with
        | .error e => .error e
        | .ok r => .ok fun _ => r) = _
    rw [h1]
    dsimp only
    rw [(castTo_eq _ _ r).mpr rfl]
    rfl
  | slogdet cplx b m hm o hl =>
    obtain ⟨i, hi⟩ := hex
    obtain rfl : i = (0 : Fin 1) := Subsingleton.elim (α := Fin 1) _ _
    have hQ0 : (o 0).Kept full := hQ (0 : Fin 1)
    suffices hs : ∀ o0 : Opd F (b * (m * m)), o0.isLapl = true → o0.Live → o0.Kept full →
        ∃ r : Fin 2 → Opd F b, (slogdetPrim F cplx b m hm).rule T (fun _ => o0) = .ok r ∧
          ∀ j, (r j).x = slogdetFwd o0.x j ∧ (r j).Kept full by
      obtain ⟨r, h1, h2⟩ := hs (o 0) hi hl hQ0
      exact ⟨r, h1, h2⟩
    intro o0 h1 h2 h3
    cases o0 with
    | plain a => simp [Opd.isLapl] at h1
    | lapl t =>
      have hb : 0 < b := Nat.pos_of_mul_pos_right (h3.1 t rfl).1
      obtain ⟨c, hc⟩ := slogdet_total hm 0 t fun hw => by
        obtain ⟨p, r, hr, h⟩ := (h2 t rfl).srows hw
        exact ⟨r, hr, p, h⟩
      obtain ⟨rows, hd⟩ := slogdet_dense hm 0 t c hc
      have hw : c.jac.weak = false := by rw [hd]; rfl
      simp only [slogdetPrim, hc]
      refine ⟨_, rfl, fun j => ?_⟩
      match j with
      | 0 =>
        cases cplx with
        | true => exact ⟨rfl, Opd.kept_mapAt (t := c) (Opd.kept_dense hb hw) _ _ _⟩
        | false => exact ⟨rfl, Opd.kept_plain _⟩
      | 1 =>
        cases cplx with
        | true => exact ⟨rfl, Opd.kept_mapAt (t := c) (Opd.kept_dense hb hw) _ _ _⟩
        | false => exact ⟨rfl, Opd.kept_dense hb hw⟩
  | cabs m o =>
    obtain ⟨i, hi⟩ := hex
    obtain rfl : i = (0 : Fin 1) := Subsingleton.elim (α := Fin 1) _ _
    have hQ0 : (o 0).Kept full := hQ (0 : Fin 1)
    suffices hs : ∀ o0 : Opd F m, o0.isLapl = true → o0.Kept full →
        ∃ r : Opd F m, (cabsPrim F m).rule T (fun _ => o0) = .ok (fun _ => r) ∧
          r.x = (fun q => ((‖o0.x q‖ : ℝ) : F)) ∧ r.Kept full by
      obtain ⟨r, h1, h2⟩ := hs (o 0) hi hQ0
      exact ⟨fun _ => r, h1, fun _ => h2⟩
    intro o0 h1 h2
    cases o0 with
    | plain a => simp [Opd.isLapl] at h1
    | lapl t =>
      obtain ⟨c, hc, e1, e2, e3⟩ := absInst_returns T m (h2.1 t rfl).1 t (h2.1 t rfl).2
      simp only [cabsPrim, hc]
      refine ⟨_, rfl, e1, ?_⟩
      refine Opd.kept_mapAt (t := c) ⟨fun t' e => ?_, fun hf t' e => ?_⟩ _ _ _
      · obtain rfl := Opd.lapl.inj e
        exact ⟨(h2.1 t rfl).1, e2⟩
      · obtain rfl := Opd.lapl.inj e
        exact ⟨(h2.1 t rfl).1, e3 ((h2.2 hf t rfl).2)⟩

end Folx

import Verif.Prog.Std

/-! # True declarations make the wrapped function faithful -/

namespace Folx

open Filter Topology
open Folx.Interp (Err)

variable {F : Type} [RCLike F]

namespace Std

variable (s : Std F)

theorem slice_dext {k : ℕ} (e : Fin k ↪o Fin s.nIn) (x : (i : Fin s.nIn) → Fin (s.size i) → F)
    (y : (a : Fin k) → Fin (s.size (e a)) → F) (v : s.V) :
    s.slice (dext e x y) v = dext e (s.slice x v) fun a c => y a ((s.split (e a)).symm (s.κ (e a) v, c)) :=
  dext_map (W := fun i => Fin (s.size i) → F) (W' := fun i => Fin (s.dim i) → F) e x y
    fun i f c => f ((s.split i).symm (s.κ i v, c))

theorem slice_dextL {k : ℕ} (e : Fin k ↪o Fin s.nIn) (y : (a : Fin k) → Fin (s.size (e a)) → F) (v : s.V) :
    s.slice (dextL F (W := fun i => Fin (s.size i) → F) e y) v =
      dextL F (W := fun i => Fin (s.dim i) → F) e fun a c => y a ((s.split (e a)).symm (s.κ (e a) v, c)) := by
  rw [dextL_apply, dextL_apply, slice_dext]
  rfl

section
variable {s} {n : ℕ} {x : (i : Fin s.nIn) → Fin (s.size i) → F} (h : s.TrueAt n x) {k : ℕ}
  (e : Fin k ↪o Fin s.nIn)
include h

theorem inst_jvp (t : (a : Fin k) → Fin (s.size (e a)) → F) :
    (s.inst e x).jvp (fun a => x (e a)) t = fderiv F s.whole x (dextL F (W := fun i => Fin (s.size i) → F) e t) := by
  have := (D2_dext (F := F) (W := fun i => Fin (s.size i) → F) e s.whole x (s.whole_contDiffAt x h.smooth)).1 t
  exact this

theorem inst_hess (v : s.V) (a b : (a : Fin k) → Fin (s.dim (e a)) → F) :
    (s.inst e x).hess v ((s.inst e x).sliceX (fun a => x (e a)) v) a b =
      D2 F s.fn (s.slice x v) (dextL F (W := fun i => Fin (s.dim i) → F) e a)
        (dextL F (W := fun i => Fin (s.dim i) → F) e b) := by
  have := (D2_dext (F := F) (W := fun i => Fin (s.dim i) → F) e s.fn (s.slice x v) (h.smooth v)).2 a b
  exact this

theorem smoothAt : (s.inst e x).SmoothAt fun a => x (e a) := by
  obtain ⟨H, h1, h2⟩ := hasFDeriv2At_of_contDiffAt (F := F) s.whole x (s.whole_contDiffAt x h.smooth)
  have hd : HasFDeriv2At (fun y => dext e x y)
      ((dextL F (W := fun i => Fin (s.size i) → F) e).restrictScalars ℝ) 0 (fun a => x (e a)) := by
    have hl := HasFDeriv2At.linear ((dextL F (W := fun i => Fin (s.size i) → F) e).restrictScalars ℝ) (fun a => x (e a))
    obtain ⟨f', f1, f2, f3⟩ := hl
    refine ⟨f', ?_, f2, f3⟩
    filter_upwards [f1] with y hy
    have := hy.const_add (dext e x (fun _ => 0))
    refine this.congr_of_eventuallyEq (Eventually.of_forall fun z => ?_)
    exact dext_affine (F := F) (W := fun i => Fin (s.size i) → F) e x z
  have h1' : HasFDeriv2At s.whole ((fderiv F s.whole x).restrictScalars ℝ) H (dext e x fun a => x (e a)) := by
    rw [dext_self]; exact h1
  obtain ⟨H2, c1, c2⟩ := HasFDeriv2At.comp h1' hd
  refine ⟨_, H2, c1, ?_, ?_⟩
  · intro t
    exact (inst_jvp h e t).symm
  · intro a b q
    have e1 : H2 a b q = D2 F s.whole x (dextL F (W := fun i => Fin (s.size i) → F) e a)
        (dextL F (W := fun i => Fin (s.size i) → F) e b) q := by
      rw [c2, ← h2]
      simp
    rw [e1, (s.whole_fderiv x h.smooth).2, slice_dextL, slice_dextL]
    exact (congrFun (inst_hess h e (s.lay q).1 _ _) (s.lay q).2).symm

theorem faithful_fwd (y : (i : Fin s.nIn) → Fin (s.size i) → F) (hy : ∀ i, i ∉ Set.range e → y i = x i) :
    (s.inst e x).fwd (fun a => y (e a)) = s.whole y := by
  show s.whole (dext e x fun a => y (e a)) = _
  rw [dext_of_agree e x y hy]

theorem jvp_single_zero (i : Fin s.nIn) (S : Fin s.out → Set (Fin (s.size i))) (hS : s.DependsOn i S)
    (t : Fin (s.size i) → F) (q : Fin s.out) (ht : ∀ p ∈ S q, t p = 0) :
    fderiv F s.whole x (Pi.single i t) q = 0 := by
  apply s.whole_fderiv_zero x _ q (s.whole_contDiffAt x h.smooth)
  intro τ
  apply hS
  · intro j hj
    rw [Pi.add_apply, Pi.smul_apply, Pi.single_eq_of_ne hj, smul_zero, add_zero]
  · intro p hp
    simp [ht p hp]

theorem lawful : (s.inst e x).toInst.Lawful fun a => x (e a) where
  elem := by
    intro hel t q ht
    have hel' : s.elem = true := hel
    rw [inst_jvp h e t, (s.whole_fderiv x h.smooth).1, slice_dextL]
    have : (fun a c => t a ((s.split (e a)).symm (s.κ (e a) (s.lay q).1, c))) =
        (fun a c => 0 : (a : Fin k) → Fin (s.dim (e a)) → F) := by
      funext a c
      rw [h.elem_slice hel' (e a) q c]
      exact ht a
    rw [this]
    have h0 : dextL F (W := fun i => Fin (s.dim i) → F) e (fun a c => 0) = 0 :=
      map_zero (dextL F (W := fun i => Fin (s.dim i) → F) e)
    rw [h0, map_zero]
    rfl
  elem_ax := fun hel a => h.elem hel (e a)
  ax_elem := by
    intro a π ha t q ht
    rw [inst_jvp h e, dextL_single]
    exact jvp_single_zero h (e a) _ (h.ax_elem (e a) π ha) t q (by
      intro p hp
      rw [Set.mem_singleton_iff.mp hp]
      exact ht)
  ax_red := by
    intro a r ha t q ht
    rw [inst_jvp h e, dextL_single]
    refine jvp_single_zero h (e a) _ (h.ax_red (e a) r ha) t q ?_
    intro p hp
    have := ht (r.split p).2
    rw [← (show (r.split p).1 = r.κ q from hp), Prod.mk.eta, Equiv.symm_apply_apply] at this
    exact this
  ax_surj := fun a r ha => h.ax_surj (e a) r ha
  same_elem := fun hel a ε hε q => h.same (e a) _ (h.elem hel (e a)) ε hε q
  same_ax := fun a π ha ε hε q => h.same (e a) π ha ε hε q
  index := by
    intro hi hst t q
    rw [inst_jvp h e t]
    obtain ⟨cst, hc⟩ := h.index hi hst
    have hd := ((s.whole_contDiffAt x h.smooth).differentiableAt (by simp)).hasFDerivAt
    have hq := (ContinuousLinearMap.proj (R := F) (φ := fun _ : Fin s.out => F) q).hasFDerivAt.comp x hd
    have hev : (fun y => s.whole y q) =ᶠ[𝓝 x] fun y => copyOr (s.src x q) y (cst q) := by
      filter_upwards [hc] with y hy using hy q
    have hq' : fderiv F (fun y => s.whole y q) x = _ := hq.fderiv
    rw [hev.fderiv_eq] at hq'
    have hval : ∀ t', fderiv F s.whole x t' q = fderiv F (fun y : (i : Fin s.nIn) → Fin (s.size i) → F =>
        copyOr (s.src x q) y (cst q)) x t' := by
      intro t'
      rw [hq']
      rfl
    rw [hval]
    cases hsrc : s.src x q with
    | none =>
      have hr : (s.inst e x).src q = none := by
        show restrictSrc s.size e (s.src x q) = none
        rw [hsrc]
        rfl
      rw [hr]
      dsimp only [copyOr]
      rw [fderiv_const_apply]
      rfl
    | some ip =>
      obtain ⟨i, p⟩ := ip
      dsimp only [copyOr]
      have hl : fderiv F (fun y : (i : Fin s.nIn) → Fin (s.size i) → F => y i p) x =
          (ContinuousLinearMap.proj (R := F) (φ := fun _ : Fin (s.size i) => F) p).comp
            (ContinuousLinearMap.proj (R := F) (φ := fun i : Fin s.nIn => Fin (s.size i) → F) i) :=
        ((ContinuousLinearMap.proj (R := F) (φ := fun _ : Fin (s.size i) => F) p).comp
            (ContinuousLinearMap.proj (R := F) (φ := fun i : Fin s.nIn => Fin (s.size i) → F) i)).fderiv
      rw [hl]
      show dextL F (W := fun i => Fin (s.size i) → F) e t i p = _
      rw [dextL_apply]
      by_cases hx : ∃ a, e a = i
      · have hr : (s.inst e x).src q = some ⟨hx.choose, p.cast (by rw [hx.choose_spec])⟩ := by
          show restrictSrc s.size e (s.src x q) = _
          rw [hsrc]
          exact dif_pos hx
        rw [hr]
        dsimp only
        have key : ∀ a (ha : e a = i), dext (W := fun i => Fin (s.size i) → F) e (fun _ => 0) t i p = t a (p.cast (by rw [ha])) := by
          intro a ha
          subst ha
          rw [dext_apply]
          rfl
        exact key _ hx.choose_spec
      · have hr : (s.inst e x).src q = none := by
          show restrictSrc s.size e (s.src x q) = _
          rw [hsrc]
          exact dif_neg hx
        rw [hr]
        dsimp only
        rw [dext_of_not_mem e _ _ i (fun hm => hx hm)]
        rfl
  sum := by
    intro hs a r ha
    have hsum := h.sum hs (e a) r ha
    constructor
    · intro t q
      rw [inst_jvp h e, dextL_single]
      have hd := ((s.whole_contDiffAt x h.smooth).differentiableAt (by simp)).hasFDerivAt
      have hq := (ContinuousLinearMap.proj (R := F) (φ := fun _ : Fin s.out => F) q).hasFDerivAt.comp x hd
      have hev : (fun y => s.whole y q) = fun y => (∑ c : r.C,
          (ContinuousLinearMap.proj (R := F) (φ := fun _ : Fin (s.size (e a)) => F) (r.split.symm (r.κ q, c))).comp
            (ContinuousLinearMap.proj (R := F) (φ := fun i : Fin s.nIn => Fin (s.size i) → F) (e a))) y := by
        funext y
        rw [hsum y q, _root_.sum_apply]
        rfl
      have hq' : fderiv F (fun y => s.whole y q) x = _ := hq.fderiv
      rw [hev, ContinuousLinearMap.fderiv] at hq'
      have := congrArg (fun L => L (Pi.single (e a) t)) hq'
      refine Eq.trans (Eq.symm this) ?_
      rw [_root_.sum_apply]
      refine Finset.sum_congr rfl fun c _ => ?_
      show (Pi.single (M := fun i => Fin (s.size i) → F) (e a) t) (e a) _ = _
      rw [Pi.single_eq_same]
    · intro t q
      show s.whole (dext e x _) q = _
      rw [hsum]
      refine Finset.sum_congr rfl fun c _ => ?_
      rw [dext_apply, Function.update_self]
  noScatter := h.noScatter

omit h in
theorem emb_two {m : ℕ} (hm : m ≤ 2) (e : Fin k ↪o Fin m) (a : Fin k) (hk : 2 ≤ k) : (e a).val = a.val := by
  have hcard := Fintype.card_le_of_embedding e.toEmbedding
  simp only [Fintype.card_fin] at hcard
  obtain rfl : k = 2 := by omega
  obtain rfl : m = 2 := by omega
  have h01 : e 0 < e 1 := e.strictMono (by decide)
  have : (e 0).val < (e 1).val := h01
  have := (e 1).2
  rcases (show a = 0 ∨ a = 1 by omega) with rfl | rfl
  · show (e 0).val = 0; omega
  · show (e 1).val = 1; omega

/-- Second derivative of an inner product. -/
theorem D2_inner (i0 i1 : Fin s.nIn) (hne : i0 ≠ i1) (hd : s.dim i0 = s.dim i1)
    (hf : ∀ z o, s.fn z o = ∑ c : Fin (s.dim i0), z i0 c * z i1 (c.cast hd))
    (v : s.V) (a b : (i : Fin s.nIn) → Fin (s.dim i) → F) (o : s.O) :
    D2 F s.fn (s.slice x v) a b o =
      ∑ c : Fin (s.dim i0), (a i0 c * b i1 (c.cast hd) + b i0 c * a i1 (c.cast hd)) := by
  let pr := fun (i : Fin s.nIn) (c : Fin (s.dim i)) =>
    (ContinuousLinearMap.proj (R := F) (φ := fun _ : Fin (s.dim i) => F) c).comp
      (ContinuousLinearMap.proj (R := F) (φ := fun i : Fin s.nIn => Fin (s.dim i) → F) i)
  have hder : ∀ z, HasFDerivAt s.fn (ContinuousLinearMap.pi fun _ : s.O =>
      ∑ c : Fin (s.dim i0), (z i0 c • pr i1 (c.cast hd) + z i1 (c.cast hd) • pr i0 c)) z := by
    intro z
    rw [hasFDerivAt_pi]
    intro o
    have : (fun z => s.fn z o) = fun z => ∑ c : Fin (s.dim i0), pr i0 c z * pr i1 (c.cast hd) z :=
      funext fun z => hf z o
    rw [this]
    exact HasFDerivAt.fun_sum fun c _ => (pr i0 c).hasFDerivAt.mul (pr i1 (c.cast hd)).hasFDerivAt
  have hfd : fderiv F s.fn = fun z => ContinuousLinearMap.pi fun _ : s.O =>
      ∑ c : Fin (s.dim i0), (z i0 c • pr i1 (c.cast hd) + z i1 (c.cast hd) • pr i0 c) :=
    funext fun z => (hder z).fderiv
  -- evaluate the derivative of the derivative in direction `a`, then at `b` and `o`
  have h2 : HasFDerivAt (fderiv F s.fn) (D2 F s.fn (s.slice x v)) (s.slice x v) :=
    (((h.smooth v).fderiv_right (m := 1) (by norm_num)).differentiableAt (by simp)).hasFDerivAt
  have h3 : HasFDerivAt (fun z => fderiv F s.fn z b o)
      (((ContinuousLinearMap.proj (R := F) (φ := fun _ : s.O => F) o).comp
        (ContinuousLinearMap.apply F (s.O → F) b)).comp (D2 F s.fn (s.slice x v))) (s.slice x v) :=
    ((ContinuousLinearMap.proj (R := F) (φ := fun _ : s.O => F) o).comp
        (ContinuousLinearMap.apply F (s.O → F) b)).hasFDerivAt.comp _ h2
  have h4 : (fun z => fderiv F s.fn z b o) = fun z => (∑ c : Fin (s.dim i0),
      (b i1 (c.cast hd) • pr i0 c + b i0 c • pr i1 (c.cast hd))) z := by
    funext z
    rw [hfd]
    simp only [ContinuousLinearMap.coe_pi', _root_.sum_apply, _root_.add_apply,
      _root_.smul_apply, smul_eq_mul]
    refine Finset.sum_congr rfl fun c _ => ?_
    show z i0 c * b i1 (c.cast hd) + z i1 (c.cast hd) * b i0 c = b i1 (c.cast hd) * z i0 c + b i0 c * z i1 (c.cast hd)
    ring
  rw [h4] at h3
  have h5 := congrArg (fun L => L a) (h3.unique (ContinuousLinearMap.hasFDerivAt _))
  refine Eq.trans h5 ?_
  simp only [_root_.sum_apply, _root_.add_apply, _root_.smul_apply, smul_eq_mul]
  refine Finset.sum_congr rfl fun c _ => ?_
  show b i1 (c.cast hd) * a i0 c + b i0 c * a i1 (c.cast hd) = _
  ring

theorem hlawful : (s.inst e x).HLawful n fun a => x (e a) where
  linear := by
    intro hl v a b
    refine (inst_hess h e v a b).trans ?_
    rw [h.linear hl v]
    rfl
  linOne := by
    intro hl v i a b
    refine (inst_hess h e v _ _).trans ?_
    refine Eq.trans ?_ (h.linOne hl v (e i) a b)
    exact congrArg₂ (fun a b => D2 F s.fn (s.slice x v) a b) (dextL_single (F := F) (W := fun i => Fin (s.dim i) → F) e i a)
      (dextL_single (F := F) (W := fun i => Fin (s.dim i) → F) e i b)
  linFirst := by
    intro hl hf v i hi a b
    refine (inst_hess h e v _ _).trans ?_
    refine Eq.trans ?_ (h.linFirst hl v (e i) ?_ a b)
    · exact congrArg₂ (fun a b => D2 F s.fn (s.slice x v) a b) (dextL_single (F := F) (W := fun i => Fin (s.dim i) → F) e i a)
        (dextL_single (F := F) (W := fun i => Fin (s.dim i) → F) e i b)
    have hf' : decide (∃ a : Fin k, a.val = 0 ∧ (e a).val = 0) = true := hf
    obtain ⟨a', ha1, ha2⟩ := of_decide_eq_true hf'
    obtain rfl : a' = i := Fin.ext (by omega)
    exact ha2
  mult_arity := by
    intro hm
    have hcard := Fintype.card_le_of_embedding e.toEmbedding
    simp only [Fintype.card_fin] at hcard
    have := (h.mult hm).1
    omega
  mult := by
    intro hm a0 a1 h0 h1
    have hk : 2 ≤ k := by have := a1.2; omega
    have hle := (h.mult hm).1
    have e0 := emb_two hle e a0 hk
    have e1 := emb_two hle e a1 hk
    obtain ⟨hd, hf⟩ := (h.mult hm).2 (e a0) (e a1) (by omega) (by omega)
    refine ⟨hd, fun v a b o => ?_⟩
    refine (congrFun (inst_hess h e v a b) o).trans ?_
    have hne : e a0 ≠ e a1 := fun hc => by rw [hc] at e0; omega
    have := D2_inner h (e a0) (e a1) hne hd hf v (dextL F (W := fun i => Fin (s.dim i) → F) e a)
      (dextL F (W := fun i => Fin (s.dim i) → F) e b) o
    refine this.trans (Finset.sum_congr rfl fun c _ => ?_)
    have hap : ∀ (a : (a : Fin k) → Fin (s.dim (e a)) → F) (i : Fin k),
        dextL F (W := fun i => Fin (s.dim i) → F) e a (e i) = a i := fun a i => by
      rw [dextL_apply, dext_apply]
    exact congrArg₂ (· + ·) (congrArg₂ (· * ·) (congrFun (hap a a0) c) (congrFun (hap b a1) _))
      (congrArg₂ (· * ·) (congrFun (hap b a0) c) (congrFun (hap a a1) _))
  custom := fun c hc => h.custom e c hc

theorem bilinearOk (hk : 0 < k) : (s.inst e x).BilinearOk := by
  intro hl
  rcases h.bilinear hl with h1 | h1 | ⟨h1, h2⟩
  · exact Or.inl h1
  · refine Or.inr (Or.inl ?_)
    have hcard := Fintype.card_le_of_embedding e.toEmbedding
    simp only [Fintype.card_fin] at hcard
    omega
  · exact Or.inr (Or.inr ⟨h1, h2 e⟩)

theorem faithful (hk : 0 < k) : s.toWPrim.Faithful n e x where
  fwd_eq := fun y hy => faithful_fwd h e y hy
  smooth := smoothAt h e
  lawful := lawful h e
  hlawful := hlawful h e
  bilinear := bilinearOk h e hk

omit h in
theorem sparseOk (hs : s.SparseOk) (hk : 0 < k) : (s.inst e x).SparseOk where
  idx := hs.idx
  few := by
    have hcard := Fintype.card_le_of_embedding e.toEmbedding
    simp only [Fintype.card_fin] at hcard
    rcases hs.few with h | h
    · exact Or.inl (by omega)
    · exact Or.inr fun a => h (e a)
  ax := by
    have hcard := Fintype.card_le_of_embedding e.toEmbedding
    simp only [Fintype.card_fin] at hcard
    rcases hs.ax with h | h
    · exact Or.inl (by omega)
    · exact Or.inr fun a => h (e a)
  dim := fun a => hs.dim (e a)
  surj := fun a => hs.surj (e a)
  jhj := hs.jhj

end

/-- With sparsity disabled. -/
theorem sound_dense (T n : ℕ) (hn : 0 < n) (x : (i : Fin s.nIn) → Fin (s.size i) → F) (h : s.TrueAt n x) :
    s.toWPrim.toPrim.SoundAt (denseInv n) T n x :=
  WPrim.sound_dense s.toWPrim T n hn x fun _ e hk => faithful h e hk

/-- With sparsity enabled. -/
theorem sound_sparse (T n : ℕ) (hn : 0 < n) (x : (i : Fin s.nIn) → Fin (s.size i) → F) (h : s.TrueAt n x)
    (hs : s.SparseOk) : s.toWPrim.toPrim.SoundAt (bigInv T n) T n x :=
  WPrim.sound_sparse s.toWPrim T n hn x (fun _ e hk => faithful h e hk) fun _ e hk => sparseOk e hs hk

end Std

end Folx

import Verif.Prog.SlogdetProofs
import Verif.Prog.RuleSpec
import Verif.Prog.Total
import Verif.Props.JvpProps

/-! # C19: `slogdet` -/

namespace Folx

open Filter Topology Matrix

variable {F : Type} [RCLike F] {b m : ℕ}

/-- Entry `(i, j)` of matrix `q` of an array of shape `(b, m, m)`: row-major layout. -/
theorem mats_apply (y : Fin (b * (m * m)) → F) (q : Fin b) (i j : Fin m) (h : (q * m + i) * m + j < b * (m * m)) :
    mats y q i j = y ⟨(q * m + i) * m + j, h⟩ := by
  show y (finProdFinEquiv (q, finProdFinEquiv (i, j))) = _
  congr 1
  apply Fin.ext
  simp only [finProdFinEquiv_apply_val]
  ring

/-- The rule in terms of the wrapped function. -/
theorem slogdet_rule (cplx : Bool) (hm : 0 < m) (T : ℕ) (t : Trip (Fin (b * (m * m))) F) (r : Fin 2 → Opd F b)
    (hr : (slogdetPrim F cplx b m hm).rule T (fun _ => .lapl t) = .ok r) :
    ∃ c, (slogdetInst b m hm).wrapped 0 (fun _ => t) = .ok c ∧ r = fun j =>
      if j = 0 then
        if cplx then .lapl ⟨slogdetFwd t.x 0, c.jac.mapAt fun q z => RCLike.I * slogdetFwd t.x 0 q * ((RCLike.im z : ℝ) : F),
          fun q => slogdetFwd t.x 0 q * (RCLike.I * ((RCLike.im (c.lapl q) : ℝ) : F) - imDot c.jac q)⟩
        else .plain (slogdetFwd t.x 0)
      else
        if cplx then .lapl ⟨slogdetFwd t.x 1, c.jac.mapAt fun _ z => ((RCLike.re z : ℝ) : F),
          fun q => ((RCLike.re (c.lapl q) : ℝ) : F)⟩
        else .lapl ⟨slogdetFwd t.x 1, c.jac, c.lapl⟩ := by
  simp only [slogdetPrim] at hr
  cases hw : (slogdetInst b m hm).wrapped 0 (fun _ => t) with
  | error e => rw [hw] at hr; simp at hr
  | ok c =>
    rw [hw] at hr
    exact ⟨c, rfl, (Except.ok.inj hr).symm⟩

theorem slogdet_cached_formula (hm : 0 < m) (n : ℕ) (hn : 0 < n) (T : ℕ) (t : Trip (Fin (b * (m * m))) F)
    (hwf : t.jac.Wf n) (c : Trip (Fin b) F) (h : (slogdetInst b m hm).wrapped T (fun _ => t) = .ok c) :
    c.jac.Wf n ∧ ∀ q, (∀ i, c.jac.den i q = trace ((mats t.x q)⁻¹ * mats (t.jac.den i) q)) ∧
      c.lapl q = trace ((mats t.x q)⁻¹ * mats t.lapl q) -
        ∑ i ∈ Finset.range n,
          trace ((mats t.x q)⁻¹ * mats (t.jac.den i) q * (mats t.x q)⁻¹ * mats (t.jac.den i) q) := by
  obtain ⟨_, s2, s3, s4⟩ := slogdet_wrapSpec hm n hn T t hwf c h
  refine ⟨s4, fun q => ⟨fun i => (s2 i q).trans (slogdetJvp_eq t.x _ q), ?_⟩⟩
  rw [s3 q, sub_eq_add_neg, ← Finset.sum_neg_distrib]
  exact congrArg₂ _ (slogdetJvp_eq t.x _ q) rfl

/-- **C19 (real matrices).** Let `A` be a matrix of the batch, `dA i` its derivative with respect to input `i` (whatever
the stored form of the Jacobian) and `ΔA` its Laplacian.  The sign is a plain array; the logarithm has derivatives
`tr (A⁻¹ dA)` and Laplacian `tr (A⁻¹ ΔA) - ∑ tr (A⁻¹ dA A⁻¹ dA)`. -/
theorem C19_real (hm : 0 < m) (n : ℕ) (hn : 0 < n) (T : ℕ) (t : Trip (Fin (b * (m * m))) ℝ) (hwf : t.jac.Wf n)
    (r : Fin 2 → Opd ℝ b) (hr : (slogdetPrim ℝ false b m hm).rule T (fun _ => .lapl t) = .ok r) :
    r 0 = .plain (fun q => (mats t.x q).det / |(mats t.x q).det|) ∧
    ∃ c, r 1 = .lapl c ∧ c.jac.Wf n ∧ ∀ q,
      let A := mats t.x q
      let dA := fun i => mats (t.jac.den i) q
      let ΔA := mats t.lapl q
      c.x q = Real.log |A.det| ∧ (∀ i, c.jac.den i q = trace (A⁻¹ * dA i)) ∧
      c.lapl q = trace (A⁻¹ * ΔA) - ∑ i ∈ Finset.range n, trace (A⁻¹ * dA i * A⁻¹ * dA i) := by
  obtain ⟨c, hc, rfl⟩ := slogdet_rule false hm T t r hr
  obtain ⟨h1, h2⟩ := slogdet_cached_formula hm n hn 0 t hwf c hc
  exact ⟨rfl, _, rfl, h1, fun q => ⟨rfl, h2 q⟩⟩

/-- **C19 (complex matrices).** With `A`, `dA`, `ΔA` as above and `L = tr (A⁻¹ ΔA) - ∑ tr (A⁻¹ dA A⁻¹ dA)`: the logarithm
of the absolute value has derivatives `Re tr (A⁻¹ dA)` and Laplacian `Re L`; the phase `s = det A / |det A|` has
derivatives `i s Im tr (A⁻¹ dA)` and Laplacian `s (i Im L - ∑ (Im tr (A⁻¹ dA))²)`. -/
theorem C19_complex (hm : 0 < m) (n : ℕ) (hn : 0 < n) (T : ℕ) (t : Trip (Fin (b * (m * m))) ℂ) (hwf : t.jac.Wf n)
    (r : Fin 2 → Opd ℂ b) (hr : (slogdetPrim ℂ true b m hm).rule T (fun _ => .lapl t) = .ok r) :
    ∃ s c, r 0 = .lapl s ∧ r 1 = .lapl c ∧ s.jac.Wf n ∧ c.jac.Wf n ∧ ∀ q,
      let A := mats t.x q
      let dA := fun i => mats (t.jac.den i) q
      let ΔA := mats t.lapl q
      let L := trace (A⁻¹ * ΔA) - ∑ i ∈ Finset.range n, trace (A⁻¹ * dA i * A⁻¹ * dA i)
      s.x q = A.det / ‖A.det‖ ∧ (∀ i, s.jac.den i q = Complex.I * s.x q * (trace (A⁻¹ * dA i)).im) ∧
      s.lapl q = s.x q * (Complex.I * L.im - ∑ i ∈ Finset.range n, ((trace (A⁻¹ * dA i)).im : ℂ) ^ 2) ∧
      c.x q = Real.log ‖A.det‖ ∧ (∀ i, c.jac.den i q = ((trace (A⁻¹ * dA i)).re : ℂ)) ∧ c.lapl q = (L.re : ℂ) := by
  obtain ⟨c, hc, rfl⟩ := slogdet_rule true hm T t r hr
  obtain ⟨h1, h2⟩ := slogdet_cached_formula hm n hn 0 t hwf c hc
  obtain ⟨rows, hrows⟩ := slogdet_dense hm 0 t c hc
  let f : Fin b → ℂ →+ ℂ := fun q => (AddMonoidHom.mulLeft (Complex.I * slogdetFwd t.x 0 q)).comp
    ((Complex.ofRealHom : ℝ →+ ℂ).comp Complex.imAddGroupHom)
  let g : Fin b → ℂ →+ ℂ := fun _ => (Complex.ofRealHom : ℝ →+ ℂ).comp Complex.reAddGroupHom
  refine ⟨_, _, rfl, rfl, Jac.mapAt_wf f _ _ h1, Jac.mapAt_wf g _ _ h1, fun q => ⟨rfl, fun i => ?_, ?_, rfl, fun i => ?_, ?_⟩⟩
  · refine (Jac.mapAt_den f c.jac i q).trans ?_
    rw [(h2 q).1 i]
    rfl
  · have hdot : imDot c.jac q = ∑ i ∈ Finset.range n, (((c.jac.den i q).im : ℝ) : ℂ) ^ 2 := by
      rw [hrows] at h1 ⊢
      have hlen : rows.length ≤ n := h1
      unfold imDot
      have e1 : ((Jac.dense rows).data.map fun r => ((RCLike.im (r q) * RCLike.im (r q) : ℝ) : ℂ)).sum =
          ∑ i ∈ Finset.range rows.length, ((((Jac.dense rows).den i q).im : ℝ) : ℂ) ^ 2 := by
        rw [Finset.sum_range, ← List.sum_ofFn]
        congr 1
        simp only [Jac.data]
        apply List.ext_getElem (by simp)
        intro i a1 a2
        simp only [List.getElem_map, List.getElem_ofFn, Jac.den]
        rw [List.getD_eq_getElem?_getD, List.getElem?_eq_getElem (by simpa using a1)]
        simp [sq]
      refine e1.trans (Finset.sum_subset (by simpa using hlen) fun i _ hi => by
      have : (Jac.dense rows).den i q = 0 := by
        simp only [Jac.den]
        rw [List.getD_eq_getElem?_getD, List.getElem?_eq_none (by simpa using hi)]
        rfl
      rw [this]
      simp)
    show slogdetFwd t.x 0 q * (Complex.I * (((c.lapl q).im : ℝ) : ℂ) - imDot c.jac q) = _
    rw [hdot, (h2 q).2]
    simp only [(h2 q).1]
    try rfl
  · refine (Jac.mapAt_den g c.jac i q).trans ?_
    rw [(h2 q).1 i]
    rfl
  · show (((c.lapl q).re : ℝ) : ℂ) = _
    rw [(h2 q).2]

/-- **C19 (meaning, real).** At invertible matrices both results hold value and true derivatives of the sign and of the
logarithm of the absolute value of the determinant: if the operand describes the matrix-valued function `A` of the
inputs near `x` (`Holds`: value, first derivatives, Laplacian; any stored form of the Jacobian), the results describe
`sign (det A)` and `log |det A|`. -/
theorem C19_meaning_real (hm : 0 < m) {n : ℕ} (hn : 0 < n) (T : ℕ) (w x : Fin n → ℝ) (o : Opd ℝ (b * (m * m)))
    (A : (Fin n → ℝ) → Fin (b * (m * m)) → ℝ) (hA : ∀ q, (mats (A x) q).det ≠ 0)
    (ho : Holds (fun _ _ => True) w x o A) (hl : o.isLapl = true) (r : Fin 2 → Opd ℝ b)
    (hr : (slogdetPrim ℝ false b m hm).rule T (fun _ => o) = .ok r) :
    Holds (fun _ _ => True) w x (r 0) (fun z q => (mats (A z) q).det / |(mats (A z) q).det|) ∧
    Holds (fun _ _ => True) w x (r 1) (fun z q => Real.log |(mats (A z) q).det|) := by
  have h := slogdet_sound_any T n hn DetField.ofReal hm (fun _ => A x) (fun q => hA q) (Fin n → ℝ) (inputBase w x)
    (fun _ => o) (fun _ => A) r rfl (fun _ => rfl) (fun _ => (holds_iff _ w x _ _).mp ho) ⟨(0 : Fin 1), hl⟩ hr
  exact ⟨(holds_iff _ w x _ _).mpr (h (0 : Fin 2)), (holds_iff _ w x _ _).mpr (h (1 : Fin 2))⟩

/-- **C19 (meaning, complex).** -/
theorem C19_meaning_complex (hm : 0 < m) {n : ℕ} (hn : 0 < n) (T : ℕ) (w x : Fin n → ℝ) (o : Opd ℂ (b * (m * m)))
    (A : (Fin n → ℝ) → Fin (b * (m * m)) → ℂ) (hA : ∀ q, (mats (A x) q).det ≠ 0)
    (ho : Holds (fun _ _ => True) w x o A) (hl : o.isLapl = true) (r : Fin 2 → Opd ℂ b)
    (hr : (slogdetPrim ℂ true b m hm).rule T (fun _ => o) = .ok r) :
    Holds (fun _ _ => True) w x (r 0) (fun z q => (mats (A z) q).det / (‖(mats (A z) q).det‖ : ℝ)) ∧
    Holds (fun _ _ => True) w x (r 1) (fun z q => (Real.log ‖(mats (A z) q).det‖ : ℝ)) := by
  have h := slogdet_sound_any T n hn DetField.ofComplex hm (fun _ => A x) (fun q => hA q) (Fin n → ℝ) (inputBase w x)
    (fun _ => o) (fun _ => A) r rfl (fun _ => rfl) (fun _ => (holds_iff _ w x _ _).mp ho) ⟨(0 : Fin 1), hl⟩ hr
  exact ⟨(holds_iff _ w x _ _).mpr (h (0 : Fin 2)), (holds_iff _ w x _ _).mpr (h (1 : Fin 2))⟩

theorem slogdetCustom_total (b m : ℕ) : HInst.CustomTotal (slogdetCustom (F := F) b m) := by
  intro v sargs idx h
  unfold slogdetCustom
  have : ∃ rows, Jac.constructFor (P := Fin (b * (m * m))) (sargs 0).jac idx = .ok rows := by
    cases idx with
    | some is => exact constructFor_some_total (P₀ := Fin (b * (m * m))) (sargs (0 : Fin 1)).jac is
    | none =>
      have hw := h rfl 0
      cases hj : (sargs 0).jac with
      | dense r => exact ⟨r, rfl⟩
      | sparse r => rw [hj] at hw; simp [Jac.weak] at hw
  obtain ⟨rows, hrows⟩ := this
  rw [hrows]
  exact ⟨_, rfl⟩

theorem sparseSingle_multi_total {P Q : Type} [Fintype P] [DecidableEq P] [Fintype Q] [DecidableEq Q]
    (I : Inst 1 (fun _ => P) Q F) (r : Red P Q) (T : ℕ) (hax : I.ax 0 = .red r) (hfl : I.flags = Flags.GENERAL)
    (t : Trip P F) (row : Row P F) (hrow : row ∈ t.jac.srows) (p : P) (hp : row.idx p ≠ -1) :
    T = 0 → ∃ o, sparseSingle I T t = .ok o := by
  intro hT
  unfold sparseSingle
  rw [hax]
  dsimp only
  rw [if_neg (by rw [hfl]; decide), if_neg (by rw [hfl]; decide)]
  exact C14_reduction_total T _ (Or.inr hT) _ t row hrow p hp

/-- The wrapped function returns. -/
theorem slogdet_total (hm : 0 < m) (n : ℕ) (t : Trip (Fin (b * (m * m))) F)
    (h : t.jac.weak = true → ∃ row ∈ t.jac.srows, ∃ p, row.idx p ≠ -1) :
    ∃ c, (slogdetInst b m hm).wrapped 0 (fun _ => t) = .ok c := by
  have h1 : ∃ o, jvpRule (slogdetInst (F := F) b m hm).toInst 0 (fun _ => t) = .ok o := by
    unfold jvpRule
    rw [if_pos (by by_contra hc; exact not_oneByOne_single _ rfl _ hc)]
    unfold parallelJvp
    by_cases hw : t.jac.weak = true
    · rw [if_neg (by simp [allWeak, hw]), if_neg (by simp [slogdetInst]; decide), if_neg (by simp [slogdetInst]),
        dif_pos rfl]
      obtain ⟨row, hrow, p, hp⟩ := h hw
      exact sparseSingle_multi_total _ _ _ rfl rfl t row hrow p hp rfl
    · rw [if_pos (by simpa [allWeak] using hw)]
      have hd : ∃ rows, t.jac.denseArray = .ok rows := by
        cases hj : t.jac with
        | dense r => exact ⟨r, rfl⟩
        | sparse r => rw [hj] at hw; simp [Jac.weak] at hw
      obtain ⟨rows, hd⟩ := hd
      unfold denseJvp
      rw [seqFin_of_ok (fun a : Fin 1 => t.jac.denseArray) (fun _ => rows) (fun _ => hd)]
      simp only
      split
      · exact ⟨_, rfl⟩
      · split <;> exact ⟨_, rfl⟩
  obtain ⟨o, ho⟩ := h1
  obtain ⟨h2, hh2⟩ := (slogdetInst (F := F) b m hm).hessian_total n 0 (fun _ => t) (by decide)
    (fun a ha => by
      obtain ⟨row, hrow, p, hp⟩ := h ha
      refine ⟨⟨p⟩, fun h0 => ?_⟩
      cases hj : t.jac with
      | dense r => rw [hj] at ha; simp [Jac.weak] at ha
      | sparse r =>
        have h0 : t.jac.nrows = 0 := h0
        rw [hj] at h0 hrow
        simp only [Jac.nrows, List.length_eq_zero_iff] at h0
        subst h0
        simp [Jac.srows] at hrow)
    (fun c hc => by
      obtain rfl : slogdetCustom b m = c := Option.some.inj hc
      exact slogdetCustom_total b m)
    (fun h => absurd h (by simp [slogdetInst]; decide)) (slogdetInst_hlawful hm n _)
  unfold HInst.wrapped
  rw [ho]
  simp only [hh2]
  exact ⟨_, rfl⟩

/-- **C19 (the rule returns)** for every dense Jacobian and for every sparse one that depends on some input. -/
theorem C19_returns (cplx : Bool) (hm : 0 < m) (T : ℕ) (t : Trip (Fin (b * (m * m))) F)
    (h : t.jac.weak = true → ∃ row ∈ t.jac.srows, ∃ p, row.idx p ≠ -1) :
    ∃ r, (slogdetPrim F cplx b m hm).rule T (fun _ => .lapl t) = .ok r := by
  obtain ⟨c, hc⟩ := slogdet_total hm 0 t h
  simp only [slogdetPrim, hc]
  exact ⟨_, rfl⟩

theorem slogdet_totalAt (cplx : Bool) (hm : 0 < m) (T n : ℕ) (x : (i : Fin 1) → Fin (b * (m * m)) → F) :
    (slogdetPrim F cplx b m hm).TotalAt T n x := by
  intro o _ hl hd
  have h0 : (o (0 : Fin 1)).isLapl = true := by
    obtain ⟨i, hi⟩ := hl
    have : i = (0 : Fin 1) := Subsingleton.elim (α := Fin 1) _ _
    subst this
    exact hi
  suffices hs : ∀ o0 : Opd F (b * (m * m)), o0.isLapl = true → (∀ t, o0 = .lapl t → denseInv n _ t.jac) →
      ∃ r, (slogdetPrim F cplx b m hm).rule T (fun _ => o0) = .ok r by
    obtain ⟨r, hr⟩ := hs (o (0 : Fin 1)) h0 fun t ht => hd (0 : Fin 1) t ht
    exact ⟨r, hr⟩
  intro o0 h1 h2
  cases o0 with
  | plain a => simp [Opd.isLapl] at h1
  | lapl t =>
    refine C19_returns cplx hm T t fun hw => ?_
    have := (h2 t rfl).1
    rw [hw] at this
    simp at this

/-! A family of two 2×2 matrices of two inputs: the entries of the first are `(2 + x₀, x₁; x₀, 1)`, of the second
`(0, 1 + x₁; -1, x₀)`, at the origin; with sparse and with dense Jacobians. -/

namespace SlogdetDemo

noncomputable def vals : Fin (2 * (2 * 2)) → ℝ := ![2, 0, 0, 1, 0, 1, -1, 0]

noncomputable def sparseT : Trip (Fin (2 * (2 * 2))) ℝ :=
  ⟨vals, .sparse [⟨![0, 1, 0, -1, -1, 1, -1, 0], ![1, 1, 1, 0, 0, 1, 0, 1]⟩], fun _ => 0⟩

noncomputable def denseT : Trip (Fin (2 * (2 * 2))) ℝ :=
  ⟨vals, .dense [![1, 0, 1, 0, 0, 0, 0, 1], ![0, 1, 0, 0, 0, 1, 0, 0]], fun _ => 0⟩

example : sparseT.jac.Wf 2 ∧ denseT.jac.Wf 2 := by
  refine ⟨?_, by simp [denseT, Jac.Wf]⟩
  simp only [sparseT, Jac.Wf, List.mem_singleton, forall_eq]
  intro p
  fin_cases p <;> simp

example (T : ℕ) : ∃ r, (slogdetPrim ℝ false 2 2 (by decide)).rule T (fun _ => .lapl sparseT) = .ok r :=
  C19_returns _ _ _ _ fun _ => ⟨⟨![0, 1, 0, -1, -1, 1, -1, 0], ![1, 1, 1, 0, 0, 1, 0, 1]⟩, by simp [sparseT, Jac.srows], 0, by simp⟩

example (T : ℕ) : ∃ r, (slogdetPrim ℝ false 2 2 (by decide)).rule T (fun _ => .lapl denseT) = .ok r :=
  C19_returns _ _ _ _ fun h => by simp [denseT, Jac.weak] at h

/-- Both matrices are invertible. -/
theorem det_ne : ∀ q, (mats vals q).det ≠ 0 := by
  intro q
  have h : ∀ i j (h : (q.val * 2 + i) * 2 + j < 2 * (2 * 2)) (hi : i < 2) (hj : j < 2),
      mats vals q ⟨i, hi⟩ ⟨j, hj⟩ = vals ⟨(q * 2 + i) * 2 + j, h⟩ := fun i j h hi hj => mats_apply vals q ⟨i, hi⟩ ⟨j, hj⟩ h
  rw [Matrix.det_fin_two]
  fin_cases q
  · rw [show mats vals _ 0 0 = _ from h 0 0 (by decide) (by decide) (by decide),
      show mats vals _ 0 1 = _ from h 0 1 (by decide) (by decide) (by decide),
      show mats vals _ 1 0 = _ from h 1 0 (by decide) (by decide) (by decide),
      show mats vals _ 1 1 = _ from h 1 1 (by decide) (by decide) (by decide)]
    show (2 : ℝ) * 1 - 0 * 0 ≠ 0
    norm_num
  · rw [show mats vals _ 0 0 = _ from h 0 0 (by decide) (by decide) (by decide),
      show mats vals _ 0 1 = _ from h 0 1 (by decide) (by decide) (by decide),
      show mats vals _ 1 0 = _ from h 1 0 (by decide) (by decide) (by decide),
      show mats vals _ 1 1 = _ from h 1 1 (by decide) (by decide) (by decide)]
    show (0 : ℝ) * 0 - 1 * (-1) ≠ 0
    norm_num

end SlogdetDemo

end Folx

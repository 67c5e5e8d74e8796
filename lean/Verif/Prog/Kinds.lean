import Mathlib.Analysis.Calculus.Deriv.Inv
import Mathlib.Analysis.Calculus.Deriv.Pow
import Verif.Prog.StdLib
import Verif.Prog.Interp
import Verif.Props.CustomProps

/-!
# Further registry entries: derivative-dropping functions, real-linear maps, division

and the sparsity conditions of the kinds of `Verif/Prog/StdLib.lean`.
-/

namespace Folx

open Filter Topology
open Folx.Interp (Err)

variable {F : Type} [RCLike F]

/-! ### Static conditions for the sparse rules -/

theorem elemStd_sparseOk {nIn : ℕ} {size : Fin nIn → ℕ} {out : ℕ} {φ : (Fin nIn → F) → F} {flags : Flags}
    {π : (i : Fin nIn) → Fin out → Fin (size i)} {same : (i : Fin nIn) → Option (Fin out ≃ Fin (size i))}
    {custom : (k : ℕ) → (e : Fin k ↪o Fin nIn) → ((i : Fin nIn) → Fin (size i) → F) →
      Option (CustomRule k (fun _ => 1) (Fin out) Unit F)} (h2 : nIn ≤ 2)
    (hπ : ∀ i, Nonempty (Fin out) → Function.Surjective (π i)) (hf : flags.has Flags.SPARSE_JHJ = false) :
    (elemStd nIn size out φ flags π same custom).SparseOk where
  idx := fun _ => rfl
  few := Or.inl h2
  ax := Or.inr fun _ _ _ => rfl
  dim := fun _ => Nat.one_pos
  surj := hπ
  jhj := fun h => noFlag' _ _ h hf

theorem arrStd_sparseOk {nIn : ℕ} {size : Fin nIn → ℕ} {out : ℕ} {hpos : ∀ i, 0 < size i}
    {fn : ((i : Fin nIn) → Fin (size i) → F) → Fin out → F} {flags : Flags}
    {axes : (i : Fin nIn) → ArgAx (Fin (size i)) (Fin out)}
    {same : (i : Fin nIn) → Option (Fin out ≃ Fin (size i))}
    {src : ((i : Fin nIn) → Fin (size i) → F) → Fin out → Option (Σ i, Fin (size i))} {oneAxis : Bool}
    {custom : (k : ℕ) → (e : Fin k ↪o Fin nIn) → ((i : Fin nIn) → Fin (size i) → F) →
      Option (CustomRule k (fun a => size (e a)) Unit (Fin out) F)}
    (hax : nIn = 1 ∨ ∀ i, ∃ r, axes i = .red r) (hf : flags.has Flags.SPARSE_JHJ = false) :
    (arrStd nIn size out hpos fn flags axes same src true oneAxis custom).SparseOk where
  idx := fun _ => rfl
  few := by
    rcases hax with h | h
    · exact Or.inl (by show nIn ≤ 2; omega)
    · exact Or.inr h
  ax := by
    rcases hax with h | h
    · exact Or.inl h
    · refine Or.inr fun i π hi => ?_
      obtain ⟨r, hr⟩ := h i
      have hi' : axes i = .elem π := hi
      rw [hr] at hi'
      exact absurd hi' (by simp)
  dim := hpos
  surj := fun _ ⟨v⟩ u => ⟨v, rfl⟩
  jhj := fun h => noFlag' _ _ h hf

theorem dotStd_sparseOk {size : Fin 2 → ℕ} {out d : ℕ} {hd : 0 < d} {K : Fin 2 → Type} [∀ i, Fintype (K i)]
    [∀ i, DecidableEq (K i)] {split : (i : Fin 2) → Fin (size i) ≃ K i × Fin d} {κ : (i : Fin 2) → Fin out → K i}
    (hκ : ∀ i, Function.Surjective (κ i)) : (dotStd (F := F) size out d hd K split κ).SparseOk where
  idx := fun _ => rfl
  few := Or.inl (le_refl 2)
  ax := Or.inr fun (i : Fin 2) π h => by
    have h : (ArgAx.red ⟨K i, Fin d, split i, κ i⟩ : ArgAx (Fin (size i)) (Fin out)) = .elem π := h
    exact absurd h (by simp)
  dim := fun _ => hd
  surj := fun i _ => hκ i
  jhj := fun _ => by
    show (Flags.DOT_PRODUCT ||| Flags.JOIN_JVP ||| Flags.SPARSE_JHJ).has Flags.LINEAR_IN_ONE = true
    decide

/-! ### Functions that drop derivatives -/

/-- `warp_without_fwd_laplacian(fn)` (`wrapper.py:141-154`): `fn` on the values
(`sign`, comparisons, logical operations, `is_finite`, `stop_gradient`; `wrapped_functions.py:323,422-433,435`). -/
def dropPrim (nIn : ℕ) (size : Fin nIn → ℕ) (nOut : ℕ) (outSize : Fin nOut → ℕ)
    (fwd : ((i : Fin nIn) → Fin (size i) → F) → (j : Fin nOut) → Fin (outSize j) → F) : Prim F where
  nIn := nIn
  size := size
  nOut := nOut
  outSize := outSize
  fwd := fwd
  rule := fun _ o => .ok fun j => .plain (fwd (fun i => (o i).x) j)

section
variable {X : Type} [NormedAddCommGroup X] [NormedSpace ℝ X]

theorem opdRep_continuousAt (B : Base X) (inv : ∀ m, Jac (Fin m) F → Prop) {m : ℕ} (o : Opd F m)
    (u : X → Fin m → F) (h : OpdRep B inv o u) : ContinuousAt u B.x0 := by
  cases o with
  | plain a =>
    have h2 : u =ᶠ[𝓝 B.x0] fun _ => a := h.2
    exact continuousAt_const.congr h2.symm
  | lapl t =>
    obtain ⟨D, H, h3, -⟩ := h.1.deriv
    exact h3.hasFDerivAt.continuousAt

end

theorem drop_aux {X : Type} [NormedAddCommGroup X] [NormedSpace ℝ X] (B : Base X) (inv : ∀ m, Jac (Fin m) F → Prop)
    {nIn : ℕ} {size : Fin nIn → ℕ} {nOut : ℕ}
    {outSize : Fin nOut → ℕ} {fwd : ((i : Fin nIn) → Fin (size i) → F) → (j : Fin nOut) → Fin (outSize j) → F}
    (x : (i : Fin nIn) → Fin (size i) → F) (h : ∀ᶠ y in 𝓝 x, fwd y = fwd x)
    (o : (i : Fin nIn) → Opd F (size i)) (u : (i : Fin nIn) → X → Fin (size i) → F)
    (hu : ∀ i, u i B.x0 = x i) (ho : ∀ i, OpdRep B inv (o i) (u i)) (j : Fin nOut) :
    OpdRep B inv (.plain (fwd (fun i => (o i).x) j)) fun y => fwd (fun i => u i y) j := by
  have hx : (fun i => (o i).x) = x := funext fun i => (opdRep_x B inv _ _ (ho i)).trans (hu i)
  have hx0 : (fun i => u i B.x0) = x := funext hu
  have hc : ContinuousAt (fun y i => u i y) B.x0 :=
    tendsto_pi_nhds.mpr fun i => opdRep_continuousAt B inv _ _ (ho i)
  have hev : ∀ᶠ y in 𝓝 B.x0, fwd (fun i => u i y) = fwd x := by
    have h' : ∀ᶠ y in 𝓝 ((fun y i => u i y) B.x0), fwd y = fwd x := by
      show ∀ᶠ y in 𝓝 (fun i => u i B.x0), fwd y = fwd x
      rw [hx0]
      exact h
    exact hc.eventually h'
  refine ⟨?_, ?_⟩
  · rw [hx]
    dsimp only
    rw [hx0]
  · filter_upwards [hev] with y hy
    rw [hx, hy]

/-- Dropping derivatives is exact where the function is locally constant. -/
theorem drop_sound (inv : ∀ m, Jac (Fin m) F → Prop) (T n : ℕ) {nIn : ℕ} {size : Fin nIn → ℕ} {nOut : ℕ}
    {outSize : Fin nOut → ℕ} {fwd : ((i : Fin nIn) → Fin (size i) → F) → (j : Fin nOut) → Fin (outSize j) → F}
    (x : (i : Fin nIn) → Fin (size i) → F) (h : ∀ᶠ y in 𝓝 x, fwd y = fwd x) :
    (dropPrim nIn size nOut outSize fwd).SoundAt inv T n x := by
  intro X _ _ B o u r _ hu ho _ hr j
  have hr' : (fun j => Opd.plain (fwd (fun i => (o i).x) j)) = r := Except.ok.inj hr
  subst hr'
  exact drop_aux B inv x h o u hu ho j

/-! ### Real-linear maps applied to all components -/

/-- Apply a function to the stored entries of a Jacobian (`FwdJacobian(fn(jac.data), jac.x0_idx)`,
`wrapper.py:157-176`, `api.py:226-238`). -/
def Jac.mapData {P G : Type} (f : F → G) : Jac P F → Jac P G
  | .dense rows => .dense (rows.map fun r p => f (r p))
  | .sparse rows => .sparse (rows.map fun r => ⟨r.idx, fun p => f (r.val p)⟩)

/-- `inner` (`wrapper.py:165-172`): `fn` applied to a plain array, or to value, Jacobian data and Laplacian. -/
def mapOpd {m : ℕ} (f : F → F) : Opd F m → Opd F m
  | .plain a => .plain fun p => f (a p)
  | .lapl t => .lapl ⟨fun p => f (t.x p), t.jac.mapData f, fun p => f (t.lapl p)⟩

/-- `wrap_elementwise(fn)` (`wrapper.py:157-176`) for `conj`, `real`, `imag` (`wrapped_functions.py:298-300`), and
`astype` to a floating or complex type (`wrapped_functions.py:187-192`, `api.py:226-238,283-308`): `fn` is applied to
value, Jacobian data and Laplacian.  Real arrays are complex arrays with vanishing imaginary part. -/
def mapPrim (m : ℕ) (f : F → F) : Prim F where
  nIn := 1
  size := fun _ => m
  nOut := 1
  outSize := fun _ => m
  fwd := fun x _ p => f (x 0 p)
  rule := fun _ o => .ok fun _ => mapOpd f (o 0)

theorem Jac.mapData_den {P : Type} (f : F →+ F) (J : Jac P F) (i : ℕ) (p : P) :
    (J.mapData f).den i p = f (J.den i p) := by
  cases J with
  | dense rows =>
    simp only [Jac.mapData, Jac.den, List.getD_eq_getElem?_getD, List.getElem?_map]
    cases rows[i]? <;> simp
  | sparse rows =>
    simp only [Jac.mapData, Jac.den, List.map_map, map_list_sum]
    congr 1
    apply List.map_congr_left
    intro r _
    simp only [Function.comp]
    split <;> simp

theorem Jac.mapData_wf {P : Type} (f : F →+ F) (J : Jac P F) (n : ℕ) (h : J.Wf n) : (J.mapData f).Wf n := by
  cases J with
  | dense rows => simpa [Jac.mapData, Jac.Wf] using h
  | sparse rows =>
    intro r hr p
    obtain ⟨r', hr', rfl⟩ := List.mem_map.mp hr
    obtain ⟨h1, h2⟩ := h r' hr' p
    refine ⟨h1, fun hc => ⟨(h2 hc).1, ?_⟩⟩
    show f (r'.val p) = 0
    rw [(h2 hc).2, map_zero]

/-- A continuous real-linear map commutes with differentiation. -/
theorem map_sound (inv : ∀ m, Jac (Fin m) F → Prop) (T n m : ℕ) (f : F →L[ℝ] F)
    (hinv : ∀ J : Jac (Fin m) F, inv m J → inv m (J.mapData f)) (x : (i : Fin 1) → Fin m → F) :
    (mapPrim m f).SoundAt inv T n x := by
  intro X _ _ B o u r _ _ ho _ hr j
  have hr' := Except.ok.inj hr
  subst hr'
  have ho0 : OpdRep B inv (m := m) (o (0 : Fin 1)) (u (0 : Fin 1)) := ho (0 : Fin 1)
  suffices hs : ∀ (o0 : Opd F m) (u0 : X → Fin m → F), OpdRep B inv o0 u0 →
      OpdRep B inv (mapOpd f o0) fun y p => f (u0 y p) from
    hs _ _ ho0
  intro o0 u0 h0
  let L : (Fin m → F) →L[ℝ] (Fin m → F) := ContinuousLinearMap.pi fun p => f.comp (ContinuousLinearMap.proj p)
  have hL : ∀ v p, L v p = f (v p) := fun v p => rfl
  cases o0 with
  | plain a =>
    have h1 : a = u0 B.x0 := h0.1
    refine ⟨?_, ?_⟩
    · show (fun p => f (a p)) = fun p => f (u0 B.x0 p)
      rw [h1]
    · filter_upwards [h0.2] with y hy
      show (fun p => f (u0 y p)) = fun p => f (a p)
      rw [hy]
  | lapl t =>
    obtain ⟨⟨h1, h2, D, H, h3, h4, h5⟩, h6⟩ := h0
    refine ⟨⟨?_, Jac.mapData_wf (f : F →+ F) _ _ h2, ?_⟩, hinv _ h6⟩
    · show (fun p => f (t.x p)) = fun p => f (u0 B.x0 p)
      rw [h1]
    · obtain ⟨H', h7, h8⟩ := HasFDeriv2At.comp (f := L) (HasFDeriv2At.linear L (u0 B.x0)) h3
      refine ⟨_, H', h7, fun i => ?_, ?_⟩
      · funext p
        refine (Jac.mapData_den (f : F →+ F) t.jac i p).trans ?_
        rw [h4]
        rfl
      · funext p
        show f (t.lapl p) = _
        rw [h5, Finset.sum_apply, Finset.sum_apply, map_sum]
        refine Finset.sum_congr rfl fun i _ => ?_
        rw [h8]
        simp [hL]

/-! ### Division -/

/-- The rule `div_jac_hessian_jac` dispatching on the derivative-carrying operands (`custom_hessian.py:81-105`).  The
case of a derivative-carrying numerator alone is never reached (`hessian.py:388-393`). -/
def divCustom {out : ℕ} {size : Fin 2 → ℕ} (π : (i : Fin 2) → Fin out → Fin (size i)) :
    (k : ℕ) → (e : Fin k ↪o Fin 2) → ((i : Fin 2) → Fin (size i) → F) →
      Option (CustomRule k (fun _ => 1) (Fin out) Unit F)
  | 1, e, x => if e 0 = 1 then some (divRule1 fun q => x 0 (π 0 q)) else none
  | 2, _, _ => some divRule2
  | _, _, _ => none

/-- `div` (`wrapped_functions.py:315-320`). -/
def divStd {size : Fin 2 → ℕ} {out : ℕ} (π : (i : Fin 2) → Fin out → Fin (size i))
    (same : (i : Fin 2) → Option (Fin out ≃ Fin (size i))) : Std F :=
  elemStd 2 size out (fun z => z 0 / z 1) Flags.LINEAR_IN_FIRST π same (divCustom π)

theorem D2_div (z : Fin 2 → F) (hz : z 1 ≠ 0) (a b : Fin 2 → F) :
    D2 F (fun z : Fin 2 → F => z 0 / z 1) z a b =
      -(a 0 * b 1 + a 1 * b 0) / (z 1 * z 1) + 2 * z 0 * (a 1 * b 1) / (z 1 * z 1 * z 1) := by
  let p := fun i : Fin 2 => ContinuousLinearMap.proj (R := F) (φ := fun _ : Fin 2 => F) i
  have hp : ∀ i (z : Fin 2 → F), HasFDerivAt (fun z : Fin 2 → F => z i) (p i) z := fun i z => (p i).hasFDerivAt
  have hinv : ∀ z : Fin 2 → F, z 1 ≠ 0 → HasFDerivAt (fun z : Fin 2 → F => (z 1)⁻¹) (-((z 1) ^ 2)⁻¹ • p 1) z := by
    intro z hz
    have h := (hasDerivAt_inv hz).comp_hasFDerivAt z (hp 1 z)
    exact h
  have h1 : ∀ z : Fin 2 → F, z 1 ≠ 0 → HasFDerivAt (fun z : Fin 2 → F => z 0 / z 1)
      ((z 0 * -((z 1) ^ 2)⁻¹) • p 1 + (z 1)⁻¹ • p 0) z := by
    intro z hz
    have h := (hp 0 z).mul (hinv z hz)
    simp only [div_eq_mul_inv]
    refine h.congr_fderiv ?_
    rw [smul_smul]
  have hev : ∀ᶠ y in 𝓝 z, fderiv F (fun z : Fin 2 → F => z 0 / z 1) y =
      (y 0 * -((y 1) ^ 2)⁻¹) • p 1 + (y 1)⁻¹ • p 0 := by
    have : ∀ᶠ y : Fin 2 → F in 𝓝 z, y 1 ≠ 0 := (continuous_apply 1).continuousAt.eventually_ne hz
    filter_upwards [this] with y hy using (h1 y hy).fderiv
  have hsq : HasFDerivAt (fun y : Fin 2 → F => ((y 1) ^ 2)⁻¹) ((-2 * ((z 1) ^ 3)⁻¹) • p 1) z := by
    have h := (((hasDerivAt_id (z 1)).pow 2).inv (by simpa using hz)).comp_hasFDerivAt z (hp 1 z)
    refine (h.congr_fderiv ?_)
    congr 1
    simp only [id]
    field_simp
    norm_num
    ring
  have h2 : HasFDerivAt (fun y : Fin 2 → F => (y 0 * -((y 1) ^ 2)⁻¹) • p 1 + (y 1)⁻¹ • p 0)
      (((z 0 • -((-2 * ((z 1) ^ 3)⁻¹) • p 1) + -((z 1) ^ 2)⁻¹ • p 0)).smulRight (p 1) +
        (-((z 1) ^ 2)⁻¹ • p 1).smulRight (p 0)) z :=
    (((hp 0 z).mul hsq.neg).smul_const (p 1)).add ((hinv z hz).smul_const (p 0))
  have h3 : D2 F (fun z : Fin 2 → F => z 0 / z 1) z = _ := (EventuallyEq.fderiv_eq hev).trans h2.fderiv
  rw [h3]
  have hpa : ∀ i v, p i v = v i := fun i v => rfl
  simp only [_root_.add_apply, ContinuousLinearMap.smulRight_apply, _root_.smul_apply,
    _root_.neg_apply, hpa, smul_eq_mul]
  field_simp
  ring

/-- Components of the second derivative. -/
theorem D2_component {E : Type} [NormedAddCommGroup E] [NormedSpace F E] {ι : Type} [Fintype ι] (f : E → ι → F) (x : E)
    (h : ContDiffAt F 2 f x) (a b : E) (q : ι) : D2 F f x a b q = D2 F (fun y => f y q) x a b := by
  have h1 : ∀ᶠ y in 𝓝 x, fderiv F (fun y => f y q) y =
      (ContinuousLinearMap.proj (R := F) (φ := fun _ : ι => F) q).comp (fderiv F f y) := by
    filter_upwards [h.eventually (by simp)] with y hy
    have := (ContinuousLinearMap.proj (R := F) (φ := fun _ : ι => F) q).hasFDerivAt.comp y
      (hy.differentiableAt (by simp)).hasFDerivAt
    exact this.fderiv
  have h2 : HasFDerivAt (fderiv F f) (D2 F f x) x :=
    ((h.fderiv_right (m := 1) (by norm_num)).differentiableAt (by simp)).hasFDerivAt
  have h3 := (ContinuousLinearMap.compL F _ _ _
    (ContinuousLinearMap.proj (R := F) (φ := fun _ : ι => F) q)).hasFDerivAt.comp x h2
  have h4 : D2 F (fun y => f y q) x = _ := (EventuallyEq.fderiv_eq h1).trans h3.fderiv
  rw [h4]
  rfl

/-- The second derivative of the slice function of an elementwise function. -/
theorem elem_D2 {nIn : ℕ} (φ : (Fin nIn → F) → F) (z : (i : Fin nIn) → Fin ((fun _ => 1 : Fin nIn → ℕ) i) → F)
    (h : ContDiffAt F 2 φ (headL F nIn z)) (a b : (i : Fin nIn) → Fin ((fun _ => 1 : Fin nIn → ℕ) i) → F) (o : Unit) :
    D2 F (fun (z : (i : Fin nIn) → Fin ((fun _ => 1 : Fin nIn → ℕ) i) → F) (_ : Unit) => φ fun i => z i 0) z a b o =
      D2 F φ (headL F nIn z) (headL F nIn a) (headL F nIn b) := by
  have hf : (fun z : (i : Fin nIn) → Fin ((fun _ => 1 : Fin nIn → ℕ) i) → F => φ fun i => z i 0) =
      fun z => φ (0 + headL F nIn z) := by
    funext z
    rw [zero_add]
    rfl
  have h' : ContDiffAt F 2 φ (0 + headL F nIn z) := by rw [zero_add]; exact h
  have hs : ContDiffAt F 2 (fun z : (i : Fin nIn) → Fin ((fun _ => 1 : Fin nIn → ℕ) i) → F => φ fun i => z i 0) z := by
    rw [hf]
    exact ContDiffAt.comp z h' ((contDiff_const.add (headL F nIn).contDiff).contDiffAt)
  rw [D2_component _ _ (contDiffAt_pi.mpr fun _ => hs)]
  show D2 F (fun z : (i : Fin nIn) → Fin ((fun _ => 1 : Fin nIn → ℕ) i) → F => φ fun i => z i 0) z a b = _
  rw [hf, (D2_comp_affine φ (headL F nIn) 0 z h').2, zero_add]

theorem div_contDiffAt (z : Fin 2 → F) (hz : z 1 ≠ 0) : ContDiffAt F 2 (fun z : Fin 2 → F => z 0 / z 1) z := by
  have h : ∀ i : Fin 2, ContDiff F 2 fun z : Fin 2 → F => z i := fun i => contDiff_apply F F i
  exact (h 0).contDiffAt.div (h 1).contDiffAt hz

/-- What the Hessian table of `div` holds. -/
theorem div_hess {size : Fin 2 → ℕ} {out : ℕ} (π : (i : Fin 2) → Fin out → Fin (size i))
    (same : (i : Fin 2) → Option (Fin out ≃ Fin (size i))) {k : ℕ} (e : Fin k ↪o Fin 2)
    (x : (i : Fin 2) → Fin (size i) → F) (v : Fin out) (hy : x 1 (π 1 v) ≠ 0)
    (a b : (a : Fin k) → Fin 1 → F) (o : Unit) :
    ((divStd π same).inst e x).hess v (((divStd π same).inst e x).sliceX (fun a => x (e a)) v) a b o =
      -(dext e (fun _ _ => 0) a 0 0 * dext e (fun _ _ => 0) b 1 0 + dext e (fun _ _ => 0) a 1 0 * dext e (fun _ _ => 0) b 0 0) /
        (x 1 (π 1 v) * x 1 (π 1 v)) +
      2 * x 0 (π 0 v) * (dext e (fun _ _ => 0) a 1 0 * dext e (fun _ _ => 0) b 1 0) /
        (x 1 (π 1 v) * x 1 (π 1 v) * x 1 (π 1 v)) := by
  have hsm : ContDiffAt F 2 (fun (z : (i : Fin 2) → Fin ((fun _ => 1 : Fin 2 → ℕ) i) → F) (_ : Unit) =>
      (fun z : Fin 2 → F => z 0 / z 1) fun i => z i 0) (fun i _ => x i (π i v)) := by
    rw [contDiffAt_pi]
    intro _
    exact ContDiffAt.comp (f := headL F 2) (fun i _ => x i (π i v)) (div_contDiffAt _ hy) (headL F 2).contDiff.contDiffAt
  have h1 := (D2_dext (F := F) (W := fun _ : Fin 2 => Fin 1 → F) e
    (fun (z : (i : Fin 2) → Fin ((fun _ => 1 : Fin 2 → ℕ) i) → F) (_ : Unit) =>
      (fun z : Fin 2 → F => z 0 / z 1) fun i => z i 0) (fun i _ => x i (π i v)) hsm).2 a b
  refine (congrFun h1 o).trans ?_
  refine (elem_D2 (fun z : Fin 2 → F => z 0 / z 1) (fun i _ => x i (π i v)) (div_contDiffAt _ hy) _ _ o).trans ?_
  refine (D2_div _ hy _ _).trans ?_
  rfl

/-- `div_hess` when both operands carry derivatives. -/
theorem div_hess2 {size : Fin 2 → ℕ} {out : ℕ} (π : (i : Fin 2) → Fin out → Fin (size i))
    (same : (i : Fin 2) → Option (Fin out ≃ Fin (size i))) (e : Fin 2 ↪o Fin 2)
    (x : (i : Fin 2) → Fin (size i) → F) (v : Fin out) (hy : x 1 (π 1 v) ≠ 0)
    (a b : (a : Fin 2) → Fin 1 → F) (o : Unit) :
    ((divStd π same).inst e x).hess v (((divStd π same).inst e x).sliceX (fun a => x (e a)) v) a b o =
      -(a 0 0 * b 1 0 + a 1 0 * b 0 0) / (x 1 (π 1 v) * x 1 (π 1 v)) +
      2 * x 0 (π 0 v) * (a 1 0 * b 1 0) / (x 1 (π 1 v) * x 1 (π 1 v) * x 1 (π 1 v)) := by
  refine (div_hess π same e x v hy a b o).trans ?_
  have he : ∀ i, e i = i := fun i => Fin.ext (Std.emb_two (le_refl 2) e i (le_refl 2))
  have hde : ∀ (a : (a : Fin 2) → Fin 1 → F) (j : Fin 2),
      dext (W := fun _ : Fin 2 => Fin 1 → F) e (fun _ _ => 0) a j 0 = a j 0 := by
    intro a j
    have := dext_apply (W := fun _ : Fin 2 => Fin 1 → F) e (fun _ _ => 0) a j
    rw [he] at this
    rw [this]
  simp only [hde]

/-- `div_hess` when only the denominator carries derivatives. -/
theorem div_hess1 {size : Fin 2 → ℕ} {out : ℕ} (π : (i : Fin 2) → Fin out → Fin (size i))
    (same : (i : Fin 2) → Option (Fin out ≃ Fin (size i))) (e : Fin 1 ↪o Fin 2) (he : e 0 = 1)
    (x : (i : Fin 2) → Fin (size i) → F) (v : Fin out) (hy : x 1 (π 1 v) ≠ 0)
    (a b : (a : Fin 1) → Fin 1 → F) (o : Unit) :
    ((divStd π same).inst e x).hess v (((divStd π same).inst e x).sliceX (fun a => x (e a)) v) a b o =
      2 * x 0 (π 0 v) * (a 0 0 * b 0 0) / (x 1 (π 1 v) * x 1 (π 1 v) * x 1 (π 1 v)) := by
  refine (div_hess π same e x v hy a b o).trans ?_
  have he1 : ∀ (a : (a : Fin 1) → Fin 1 → F), dext (W := fun _ : Fin 2 => Fin 1 → F) e (fun _ _ => 0) a 1 0 = a 0 0 := by
    intro a
    have := dext_apply (W := fun _ : Fin 2 => Fin 1 → F) e (fun _ _ => 0) a 0
    rw [he] at this
    rw [this]
  have he0 : ∀ (a : (a : Fin 1) → Fin 1 → F), dext (W := fun _ : Fin 2 => Fin 1 → F) e (fun _ _ => 0) a 0 0 = 0 := by
    intro a
    rw [dext_of_not_mem]
    rintro ⟨b, hb⟩
    obtain rfl : b = 0 := Subsingleton.elim _ _
    rw [he] at hb
    exact absurd hb (by decide)
  simp [he1, he0]

theorem elem_div (n : ℕ) {size : Fin 2 → ℕ} {out : ℕ} {π : (i : Fin 2) → Fin out → Fin (size i)}
    {same : (i : Fin 2) → Option (Fin out ≃ Fin (size i))} (x : (i : Fin 2) → Fin (size i) → F)
    (hsame : ∀ i ε, same i = some ε → ∀ q, ε q = π i q) (hy : ∀ q, x 1 (π 1 q) ≠ 0) :
    (divStd (F := F) π same).TrueAt n x := by
  refine elemStd_trueAt n x hsame ⟨by decide, by decide, by decide⟩ (fun q => div_contDiffAt _ (hy q))
    (fun h => noFlag' _ _ h (by decide)) (fun h => noFlag' _ _ h (by decide)) (fun _ q i hi => ?_)
    (fun h => noFlag' _ _ h (by decide)) ?_ (fun h => noFlag' _ _ h (by decide))
  · obtain rfl : i = 0 := Fin.ext hi
    refine ⟨(ContinuousLinearMap.id F F).smulRight ((x 1 (π 1 q))⁻¹), 0, Eventually.of_forall fun u => ?_⟩
    simp [atPos, div_eq_mul_inv]
  · intro k e c hc v sargs idx res hx hwf hidx hres o
    match k, e, c, hc, sargs, hx, hwf, hidx, hres with
    | 0, e, c, hc, _, _, _, _, _ => simp [divCustom] at hc
    | 1, e, c, hc, sargs, hx, hwf, hidx, hres =>
      have hc' : (if (e 0 : Fin 2) = 1 then some (divRule1 fun q => x 0 (π 0 q)) else none) = some c := hc
      by_cases he : (e 0 : Fin 2) = 1
      · rw [if_pos he] at hc'
        injection hc' with hc'
        subst hc'
        refine (divRule1_value _ n v sargs idx res hwf hidx hres o).trans ?_
        refine Finset.sum_congr rfl fun i _ => ?_
        refine Eq.symm ((div_hess1 π same e he x v (hy v) _ _ o).trans ?_)
        have h0 : (sargs 0).x (0 : Fin 1) = x 1 (π 1 v) := by
          have h := congrFun (hx 0) (0 : Fin 1)
          have h' : (sargs 0).x (0 : Fin 1) = x (e 0) (π (e 0) v) := h
          rw [h']
          have : ∀ j : Fin 2, j = 1 → x j (π j v) = x 1 (π 1 v) := by rintro _ rfl; rfl
          exact this _ he
        erw [h0]
        have hy1 := hy v
        show 2 * x 0 (π 0 v) * ((sargs 0).jac.den i (0 : Fin 1) * (sargs 0).jac.den i (0 : Fin 1)) /
          (x 1 (π 1 v) * x 1 (π 1 v) * x 1 (π 1 v)) = (sargs 0).jac.den i (0 : Fin 1) * (sargs 0).jac.den i (0 : Fin 1) *
          (2 * x 0 (π 0 v) * (x 1 (π 1 v) * x 1 (π 1 v) * x 1 (π 1 v))⁻¹)
        rw [div_eq_mul_inv]
        ring
      · rw [if_neg he] at hc'
        simp at hc'
    | 2, e, c, hc, sargs, hx, hwf, hidx, hres =>
      unfold divCustom at hc
      injection hc with hc
      subst hc
      refine (divRule2_value n v sargs idx res hwf hidx hres o).trans ?_
      refine Finset.sum_congr rfl fun i _ => ?_
      refine Eq.symm ((div_hess2 π same e x v (hy v) _ _ o).trans ?_)
      have hsx : ∀ j : Fin 2, (sargs j).x (0 : Fin 1) = x j (π j v) := by
        intro j
        have h := congrFun (hx j) (0 : Fin 1)
        have h' : (sargs j).x (0 : Fin 1) = x (e j) (π (e j) v) := h
        rw [h']
        have : ∀ j' : Fin 2, j' = j → x j' (π j' v) = x j (π j v) := by rintro _ rfl; rfl
        exact this _ (Fin.ext (Std.emb_two (le_refl 2) e j (le_refl 2)))
      erw [hsx 0, hsx 1]
      show -((sargs 0).jac.den i (0 : Fin 1) * (sargs 1).jac.den i (0 : Fin 1) +
          (sargs 1).jac.den i (0 : Fin 1) * (sargs 0).jac.den i (0 : Fin 1)) / (x 1 (π 1 v) * x 1 (π 1 v)) +
        2 * x 0 (π 0 v) * ((sargs 1).jac.den i (0 : Fin 1) * (sargs 1).jac.den i (0 : Fin 1)) /
          (x 1 (π 1 v) * x 1 (π 1 v) * x 1 (π 1 v)) =
        -2 * (x 1 (π 1 v) * x 1 (π 1 v))⁻¹ * ((sargs 0).jac.den i (0 : Fin 1) * (sargs 1).jac.den i (0 : Fin 1)) +
        2 * x 0 (π 0 v) * ((x 1 (π 1 v) * x 1 (π 1 v))⁻¹ / x 1 (π 1 v)) *
          ((sargs 1).jac.den i (0 : Fin 1) * (sargs 1).jac.den i (0 : Fin 1))
      generalize (sargs 0).jac.den i (0 : Fin 1) = l
      generalize (sargs 1).jac.den i (0 : Fin 1) = r
      have := hy v
      field_simp
      ring
    | k + 3, e, c, hc, _, _, _, _, _ => simp [divCustom] at hc

end Folx

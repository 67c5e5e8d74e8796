import Verif.Prog.Lib2
import Verif.Prog.RuleSpec
import Mathlib.Analysis.Complex.Basic

/-!
# Derivative-dropping functions, dtype conversion, real/imag/conj
(`folx/wrapped_functions.py:187-192,298-300,323,422-435`)
-/

namespace Folx

open Filter Topology

/-! ### Functions registered with `warp_without_fwd_laplacian` -/

/-- An entry `warp_without_fwd_laplacian(fn)` of the registry, applied element by element; truth values are the numbers
`0` and `1`.  `dom` (not part of the registry) is where the function is locally constant. -/
structure DropEntry where
  name : String
  arity : ℕ
  fn : (Fin arity → ℝ) → ℝ
  dom : (Fin arity → ℝ) → Prop

/-- Truth value as a number. -/
noncomputable def truth (p : Prop) : ℝ := open Classical in if p then 1 else 0

/-- The derivative-dropping entries of `_LAPLACE_FN_REGISTRY` (`wrapped_functions.py:323,422-433,435`).  Logical
operations act on truth values (`≠ 0` is true). `is_finite` is true of every real number: infinities and NaN are not
modelled. -/
noncomputable def dropTable : List DropEntry := [
  -- `:323,435`
  ⟨"sign", 1, fun z => SignType.sign (z 0), fun z => z 0 ≠ 0⟩,
  -- `:422`
  ⟨"stop_gradient", 1, fun z => z 0, fun _ => False⟩,
  -- `:423`
  ⟨"eq", 2, fun z => truth (z 0 = z 1), fun z => z 0 ≠ z 1⟩,
  -- `:424`
  ⟨"lt", 2, fun z => truth (z 0 < z 1), fun z => z 0 ≠ z 1⟩,
  -- `:425`
  ⟨"le", 2, fun z => truth (z 0 ≤ z 1), fun z => z 0 ≠ z 1⟩,
  -- `:426`
  ⟨"gt", 2, fun z => truth (z 1 < z 0), fun z => z 0 ≠ z 1⟩,
  -- `:427`
  ⟨"ge", 2, fun z => truth (z 1 ≤ z 0), fun z => z 0 ≠ z 1⟩,
  -- `:428`
  ⟨"ne", 2, fun z => truth (z 0 ≠ z 1), fun z => z 0 ≠ z 1⟩,
  -- `:429`
  ⟨"xor", 2, fun z => truth (Xor' (z 0 ≠ 0) (z 1 ≠ 0)), fun z => z 0 ≠ 0 ∧ z 1 ≠ 0⟩,
  -- `:430`
  ⟨"not", 1, fun z => truth (z 0 = 0), fun z => z 0 ≠ 0⟩,
  -- `:431`
  ⟨"and", 2, fun z => truth (z 0 ≠ 0 ∧ z 1 ≠ 0), fun z => z 0 ≠ 0 ∧ z 1 ≠ 0⟩,
  -- `:432`
  ⟨"or", 2, fun z => truth (z 0 ≠ 0 ∨ z 1 ≠ 0), fun z => z 0 ≠ 0 ∨ z 1 ≠ 0⟩,
  -- `:433`
  ⟨"is_finite", 1, fun _ => 1, fun _ => True⟩]

/-- The entry as a primitive on arrays: operand `i` has `size i` elements and is broadcast to the `out` output elements by
`π i` (`wrapper.py:141-154`). -/
noncomputable def DropEntry.prim (e : DropEntry) (size : Fin e.arity → ℕ) (out : ℕ)
    (π : (i : Fin e.arity) → Fin out → Fin (size i)) : Prim ℝ :=
  dropPrim e.arity size 1 (fun _ => out) fun x _ q => e.fn fun i => x i (π i q)

theorem eventually_ne0 {m : ℕ} (i : Fin m) (x : Fin m → ℝ) (h : x i ≠ 0) : ∀ᶠ y in 𝓝 x, y i ≠ 0 :=
  (continuous_apply i).continuousAt.eventually_ne h

theorem eventually_cmp (x : Fin 2 → ℝ) (h : x 0 ≠ x 1) :
    ∀ᶠ y in 𝓝 x, (y 0 < y 1 ↔ x 0 < x 1) ∧ (y 1 < y 0 ↔ x 1 < x 0) ∧ y 0 ≠ y 1 := by
  have c0 : Continuous fun y : Fin 2 → ℝ => y 0 := continuous_apply 0
  have c1 : Continuous fun y : Fin 2 → ℝ => y 1 := continuous_apply 1
  rcases lt_or_gt_of_ne h with h | h
  · filter_upwards [(isOpen_lt c0 c1).mem_nhds h] with y hy
    exact ⟨⟨fun _ => h, fun _ => hy⟩, ⟨fun h' => absurd h' (not_lt_of_gt hy), fun h' => absurd h' (not_lt_of_gt h)⟩,
      ne_of_lt hy⟩
  · filter_upwards [(isOpen_lt c1 c0).mem_nhds h] with y hy
    exact ⟨⟨fun h' => absurd h' (not_lt_of_gt hy), fun h' => absurd h' (not_lt_of_gt h)⟩, ⟨fun _ => h, fun _ => hy⟩,
      ne_of_gt hy⟩

/-- On its domain every entry is locally constant. -/
theorem dropTable_const (e : DropEntry) (he : e ∈ dropTable) (x : Fin e.arity → ℝ) (hx : e.dom x) :
    ∀ᶠ y in 𝓝 x, e.fn y = e.fn x := by
  unfold dropTable at he
  simp only [List.mem_cons, List.not_mem_nil, or_false] at he
  rcases he with rfl | rfl | rfl | rfl | rfl | rfl | rfl | rfl | rfl | rfl | rfl | rfl | rfl
  · have c0 : Continuous fun y : Fin 1 → ℝ => y 0 := continuous_apply 0
    have hx' : x 0 ≠ 0 := hx
    rcases lt_or_gt_of_ne hx' with h | h
    · filter_upwards [(isOpen_lt c0 continuous_const).mem_nhds h] with y hy
      rw [sign_neg hy, sign_neg h]
    · filter_upwards [(isOpen_lt continuous_const c0).mem_nhds h] with y hy
      rw [sign_pos hy, sign_pos h]
  · exact absurd hx id
  · filter_upwards [eventually_cmp x hx] with y hy
    have hx' : x 0 ≠ x 1 := hx
    simp [truth, hy.2.2, hx']
  · filter_upwards [eventually_cmp x hx] with y hy
    simp only [truth, hy.1]
  · filter_upwards [eventually_cmp x hx] with y hy
    simp only [truth, ← not_lt, hy.2.1]
  · filter_upwards [eventually_cmp x hx] with y hy
    simp only [truth, hy.2.1]
  · filter_upwards [eventually_cmp x hx] with y hy
    simp only [truth, ← not_lt, hy.1]
  · filter_upwards [eventually_cmp x hx] with y hy
    have hx' : x 0 ≠ x 1 := hx
    simp [truth, hy.2.2, hx']
  · have hx' : x 0 ≠ 0 ∧ x 1 ≠ 0 := hx
    filter_upwards [eventually_ne0 0 x hx'.1, eventually_ne0 1 x hx'.2] with y h0 h1
    simp [h0, h1, hx'.1, hx'.2]
  · have hx' : x 0 ≠ 0 := hx
    filter_upwards [eventually_ne0 0 x hx'] with y h0
    simp [truth, h0, hx']
  · have hx' : x 0 ≠ 0 ∧ x 1 ≠ 0 := hx
    filter_upwards [eventually_ne0 0 x hx'.1, eventually_ne0 1 x hx'.2] with y h0 h1
    simp [h0, h1, hx'.1, hx'.2]
  · have hx' : x 0 ≠ 0 ∨ x 1 ≠ 0 := hx
    rcases hx' with hx' | hx'
    · filter_upwards [eventually_ne0 0 x hx'] with y h0
      simp [truth, h0, hx']
    · filter_upwards [eventually_ne0 1 x hx'] with y h0
      simp [truth, h0, hx']
  · exact .of_forall fun _ => rfl

theorem drop_prim_const (e : DropEntry) (he : e ∈ dropTable) (size : Fin e.arity → ℕ) (out : ℕ)
    (π : (i : Fin e.arity) → Fin out → Fin (size i)) (x : (i : Fin e.arity) → Fin (size i) → ℝ)
    (hx : ∀ q, e.dom fun i => x i (π i q)) : ∀ᶠ y in 𝓝 x,
      (fun (_ : Fin 1) q => e.fn fun i => y i (π i q)) = fun (_ : Fin 1) q => e.fn fun i => x i (π i q) := by
  have h1 : ∀ q : Fin out, ∀ᶠ y in 𝓝 x, (e.fn fun i => y i (π i q)) = e.fn fun i => x i (π i q) := by
    intro q
    have hc : Continuous fun (y : (i : Fin e.arity) → Fin (size i) → ℝ) (i : Fin e.arity) => y i (π i q) :=
      continuous_pi fun i => (continuous_apply (π i q)).comp (continuous_apply i)
    exact hc.continuousAt.eventually (dropTable_const e he _ (hx q))
  filter_upwards [eventually_all.mpr h1] with y hy
  funext _ q
  exact hy q

/-! ### dtype conversion -/

/-- Kinds of dtypes. -/
inductive DType where
  | floating
  | complexFloating
  | integer
  | boolean
deriving DecidableEq

/-- `issubdtype(dtype, floating) or issubdtype(dtype, complexfloating)` (`api.py:283-286`). -/
def DType.inexact : DType → Bool
  | .floating => true
  | .complexFloating => true
  | _ => false

/-- Truncation towards zero. -/
noncomputable def trunc (a : ℝ) : ℤ := if 0 ≤ a then ⌊a⌋ else ⌈a⌉

/-- `x.astype(dtype)` of one number (trusted behaviour of `convert_element_type`, without rounding): the real part for
floating types, unchanged for complex types, truncation for integer types, `x ≠ 0` for booleans. -/
noncomputable def DType.cast : DType → ℂ → ℂ
  | .floating, z => (z.re : ℂ)
  | .complexFloating, z => z
  | .integer, z => ((trunc z.re : ℝ) : ℂ)
  | .boolean, z => open Classical in if z = 0 then 0 else 1

/-- `FwdLaplArray.astype` (`api.py:283-293`) with `FwdJacobian.astype` (`api.py:226-227`). -/
noncomputable def astypeLapl {m : ℕ} (d : DType) (t : Trip (Fin m) ℂ) : Opd ℂ m :=
  if d.inexact then .lapl ⟨fun p => d.cast (t.x p), t.jac.mapData d.cast, fun p => d.cast (t.lapl p)⟩
  else .plain fun p => d.cast (t.x p)

/-- `args[0].astype(new_dtype)` (`wrapped_functions.py:187-192`). -/
noncomputable def astype {m : ℕ} (d : DType) : Opd ℂ m → Opd ℂ m
  | .plain a => .plain fun p => d.cast (a p)
  | .lapl t => astypeLapl d t

/-- `dtype_conversion` (`wrapped_functions.py:187-192,434`). -/
noncomputable def convertPrim (m : ℕ) (d : DType) : Prim ℂ where
  nIn := 1
  size := fun _ => m
  nOut := 1
  outSize := fun _ => m
  fwd := fun x _ p => d.cast (x 0 p)
  rule := fun _ o => .ok fun _ => astype d (o 0)

/-- The conversion to an inexact type as a real-linear map. -/
noncomputable def DType.castL : DType → ℂ →L[ℝ] ℂ
  | .floating => Complex.ofRealCLM.comp Complex.reCLM
  | _ => ContinuousLinearMap.id ℝ ℂ

theorem castL_apply (d : DType) (hd : d.inexact = true) : ⇑d.castL = d.cast := by
  cases d with
  | floating => rfl
  | complexFloating => rfl
  | integer => simp [DType.inexact] at hd
  | boolean => simp [DType.inexact] at hd

theorem convert_eq_map (m : ℕ) (d : DType) (hd : d.inexact = true) : convertPrim m d = mapPrim m d.castL := by
  rw [castL_apply d hd]
  unfold convertPrim mapPrim
  congr 1
  funext _ o
  congr 1
  funext _
  have : ∀ o0 : Opd ℂ m, astype d o0 = mapOpd d.cast o0 := by
    intro o0
    cases o0 with
    | plain a => rfl
    | lapl t => simp [astype, astypeLapl, hd, mapOpd]
  exact this _

theorem convert_eq_drop (m : ℕ) (d : DType) (hd : d.inexact = false) :
    convertPrim m d = dropPrim 1 (fun _ => m) 1 (fun _ => m) fun x _ p => d.cast (x 0 p) := by
  unfold convertPrim dropPrim
  congr 1
  funext _ o
  congr 1
  funext _
  have : ∀ o0 : Opd ℂ m, astype d o0 = .plain fun p => d.cast (o0.x p) := by
    intro o0
    cases o0 with
    | plain a => rfl
    | lapl t => simp [astype, astypeLapl, hd, Opd.x]
  exact this _

/-- Where the conversion to a discrete type is locally constant: at non-integers and near zero for integers, away from zero
for booleans. -/
def DType.constAt : DType → ℂ → Prop
  | .integer, z => (∀ k : ℤ, z.re ≠ k) ∨ |z.re| < 1
  | .boolean, z => z ≠ 0
  | _, _ => False

theorem trunc_const (a : ℝ) (h : (∀ k : ℤ, a ≠ k) ∨ |a| < 1) : ∀ᶠ b in 𝓝 a, trunc b = trunc a := by
  have small : |a| < 1 → ∀ᶠ b in 𝓝 a, trunc b = trunc a := by
    intro h
    have key : ∀ b : ℝ, |b| < 1 → trunc b = 0 := by
      intro b hb
      rw [abs_lt] at hb
      unfold trunc
      split
      · rw [Int.floor_eq_zero_iff]
        exact ⟨by assumption, hb.2⟩
      · rw [Int.ceil_eq_iff]
        simp only [Int.cast_zero]
        exact ⟨by linarith, by linarith⟩
    rw [key a h]
    filter_upwards [(isOpen_lt continuous_abs continuous_const).mem_nhds h] with b hb
    exact key b hb
  rcases h with h | h
  · by_cases hs : |a| < 1
    · exact small hs
    · have hne : a ≠ 0 := by simpa using h 0
      rcases lt_or_gt_of_ne hne with h0 | h0
      · have h1 : (⌈a⌉ : ℝ) - 1 < a := by linarith [Int.ceil_lt_add_one a]
        have h2 : a < ⌈a⌉ := lt_of_le_of_ne (Int.le_ceil a) (h _)
        filter_upwards [lt_mem_nhds h1, gt_mem_nhds h2, gt_mem_nhds h0] with b b1 b2 b3
        unfold trunc
        rw [if_neg (not_le.mpr b3), if_neg (not_le.mpr h0), Int.ceil_eq_iff]
        exact ⟨b1, b2.le⟩
      · have h1 : (⌊a⌋ : ℝ) < a := lt_of_le_of_ne (Int.floor_le a) fun h' => h _ h'.symm
        have h2 : a < ⌊a⌋ + 1 := Int.lt_floor_add_one a
        filter_upwards [lt_mem_nhds h1, gt_mem_nhds h2, lt_mem_nhds h0] with b b1 b2 b3
        unfold trunc
        rw [if_pos b3.le, if_pos h0.le, Int.floor_eq_iff]
        exact ⟨b1.le, b2⟩
  · exact small h

theorem cast_const (d : DType) (z : ℂ) (h : d.constAt z) : ∀ᶠ y in 𝓝 z, d.cast y = d.cast z := by
  cases d with
  | floating => exact absurd h id
  | complexFloating => exact absurd h id
  | integer =>
    have := Complex.continuous_re.continuousAt.eventually (trunc_const z.re h)
    filter_upwards [this] with y hy
    simp only [DType.cast, hy]
  | boolean =>
    have h' : z ≠ 0 := h
    filter_upwards [continuousAt_id.eventually_ne h'] with y hy
    have hy' : y ≠ 0 := hy
    simp [DType.cast, h', hy']

/-! ### real, imag, conj -/

/-- `real_p: wrap_elementwise(jnp.real)` (`wrapped_functions.py:300`, `wrapper.py:157-176`). -/
noncomputable def realPrim (m : ℕ) : Prim ℂ := mapPrim m fun z => (z.re : ℂ)

/-- `imag_p: wrap_elementwise(jnp.imag)` (`wrapped_functions.py:299`, `wrapper.py:157-176`). -/
noncomputable def imagPrim (m : ℕ) : Prim ℂ := mapPrim m fun z => (z.im : ℂ)

/-- `conj_p: wrap_elementwise(jnp.conj)` (`wrapped_functions.py:298`, `wrapper.py:157-176`). -/
noncomputable def conjPrim (m : ℕ) : Prim ℂ := mapPrim m fun z => (starRingEnd ℂ) z

theorem map_sound_inv {F : Type} [RCLike F] (sp : Bool) (T n m : ℕ) (f : F →L[ℝ] F) (x : (i : Fin 1) → Fin m → F) :
    (mapPrim m f).SoundAt (jacInv sp T n) T n x := by
  apply map_sound
  cases sp with
  | true => exact mapData_big T n f
  | false => exact mapData_dense n f

end Folx

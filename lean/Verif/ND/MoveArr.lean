import Verif.ND.ArrRun
import Verif.ND.ElemTotal
import Verif.ND.CallReturns
import Verif.Prog.IndexOps
import Verif.ND.RedArr
import Verif.Prog.StdLib

/-!
# Registered functions that move or add up elements of arrays

`moveArr`: every element of the result is copied from the element `at` says (`wrapped_functions.py:360-393`, `INDEXING`); `addArr`: it is the sum of the elements that `terms`
says (`scatter_add`, `wrapped_functions.py:407-411`, `LINEAR`); `bestArr`: it is the largest or smallest of them (`scatter_max`, `scatter_min`, `:412-421`, `LINEAR`).  Index arrays are parameters here (the interpreter meets them as arrays without derivatives, `jvp.py:306-313`).
-/

namespace Folx.Layout
open Vmap Dot Filter Topology

section
variable {F : Type} [RCLike F] [Inhabited F] {m : ℕ} {shape : Fin (m + 1) → List ℕ} {out : List ℕ}

/-- The element that `r` names, if it exists. -/
def elemOf (shape : Fin (m + 1) → List ℕ) (r : Fin (m + 1) × List ℕ) : Option ((i : Fin (m + 1)) × Fin (shape i).prod) :=
  if h : ravelIdx (shape r.1) r.2 < (shape r.1).prod then some ⟨r.1, ⟨_, h⟩⟩ else none

theorem elemOf_some {r : Fin (m + 1) × List ℕ} (h : InB r.2 (shape r.1)) : elemOf shape r = some ⟨r.1, ⟨_, ravelIdx_lt h⟩⟩ := dif_pos (ravelIdx_lt h)

/-- The positions of `from` as numbers. -/
def sourceOf (shape : Fin (m + 1) → List ℕ) (out : List ℕ) (src : List ℕ → Option (Fin (m + 1) × List ℕ)) (q : Fin out.prod) : Option ((i : Fin (m + 1)) × Fin (shape i).prod) :=
  (src (unravelIdx out q)).bind (elemOf shape)

/-- The function that copies the element at `src q` to `q` (zero where there is none), as registered with `INDEXING` (`wrapped_functions.py:360-393`). -/
def moveArr (fil : Bool) (shape : Fin (m + 1) → List ℕ) (out : List ℕ) (src : List ℕ → Option (Fin (m + 1) × List ℕ)) : ArrFn F shape out :=
  takeArr fil (sourceOf shape out src) 0

/-- It in the interpreter; with sparse Jacobians it is called with integer arrays (`jvp.py:276-308`). -/
noncomputable def movePrim (fil : Bool) (shape : Fin (m + 1) → List ℕ) (out : List ℕ) (src : List ℕ → Option (Fin (m + 1) × List ℕ)) : Prim F :=
  (moveArr fil shape out src).prim fun acts => some (takeIdx (sourceOf shape out src) acts)

variable {fil : Bool} {src : List ℕ → Option (Fin (m + 1) × List ℕ)} {x : (i : Fin (m + 1)) → Fin (shape i).prod → F}

theorem move_value {q : List ℕ} (hq : InB q out) {i : Fin (m + 1)} {v : List ℕ} (h : src q = some (i, v)) (hv : InB v (shape i)) :
    (toND out ((moveArr fil shape out src).fwd x)).get q = (toND (shape i) (x i)).get v := by
  rw [toND_get _ _ hq, toND_get _ _ hv]
  show takeL (sourceOf shape out src) x _ + 0 = _
  rw [add_zero, takeL_apply]
  unfold sourceOf
  dsimp only
  rw [unravelIdx_ravelIdx hq, h]
  have : (some (i, v)).bind (elemOf shape) = some ⟨i, ⟨_, ravelIdx_lt hv⟩⟩ := elemOf_some (r := (i, v)) hv
  rw [this]

theorem move_good (hs : ∀ i, 0 ∉ shape i) (h0 : 0 ∉ out) (sp : Bool) (hm : sp = true → m ≤ 1) (n : ℕ) : ArrGood sp n (movePrim (F := F) fil shape out src) x :=
  .array _ _ _ _ x (takeArr_truthful hs h0) fun h => takeArr_safe (hm h)

theorem move_any (hs : ∀ i, 0 ∉ shape i) (h0 : 0 ∉ out) (hm : m ≤ 1) : AnyGood (movePrim (F := F) fil shape out src) x :=
  .array _ _ _ _ x (takeArr_truthful hs h0) (takeArr_safe hm) (Or.inl (by show Flags.INDEXING.has _ = true; decide))

omit [Inhabited F] in
/-- Copying from one array never raises. -/
theorem move_never {s : List ℕ} {src : List ℕ → Option (Fin 1 × List ℕ)} : (moveArr (F := F) (m := 0) fil (fun _ => s) out src).NeverRaises (m := 0) [] :=
  ⟨Or.inl rfl, by show Flags.INDEXING.has _ = false; decide, Or.inl ⟨by show Flags.INDEXING.has _ = true; decide, rfl⟩, Or.inl (by show Flags.INDEXING.has _ = true; decide)⟩

theorem move_total (hs : ∀ i, 0 ∉ shape i) (h0 : 0 ∉ out) (sp : Bool) (hm : sp = true → m = 0) (n : ℕ) : ArrTotal sp n (movePrim (F := F) fil shape out src) x := by
  cases sp with
  | false => exact .array _ _ _ _ x (takeArr_truthful hs h0) fun h => absurd h (by decide)
  | true =>
    obtain rfl := hm rfl
    refine .array _ _ _ _ x (takeArr_truthful hs h0) fun _ => ⟨takeArr_safe (by decide), Or.inl rfl, by show Flags.INDEXING.has _ = false; decide,
      Or.inl ⟨by show Flags.INDEXING.has _ = true; decide, rfl⟩, Or.inl (by show Flags.INDEXING.has _ = true; decide)⟩

/-! ### Sums of elements -/

/-- The sum of the elements that `l` names. -/
def addAt (shape : Fin (m + 1) → List ℕ) (l : List (Fin (m + 1) × List ℕ)) (y : (i : Fin (m + 1)) → Fin (shape i).prod → F) : F :=
  (l.map fun r => byCoord (shape r.1) (y r.1) r.2).sum

omit [Inhabited F] in
theorem addAt_add (l : List (Fin (m + 1) × List ℕ)) (y z : (i : Fin (m + 1)) → Fin (shape i).prod → F) : addAt shape l (y + z) = addAt shape l y + addAt shape l z := by
  unfold addAt
  induction l with
  | nil => simp
  | cons r l ih =>
    simp only [List.map_cons, List.sum_cons]
    rw [ih, show (y + z) r.1 = y r.1 + z r.1 from rfl, map_add, Pi.add_apply]
    ring

omit [Inhabited F] in
theorem addAt_smul (l : List (Fin (m + 1) × List ℕ)) (a : F) (y : (i : Fin (m + 1)) → Fin (shape i).prod → F) : addAt shape l (a • y) = a • addAt shape l y := by
  unfold addAt
  induction l with
  | nil => simp
  | cons r l ih =>
    simp only [List.map_cons, List.sum_cons]
    rw [ih, show (a • y) r.1 = a • y r.1 from rfl, map_smul, Pi.smul_apply, smul_add]

/-- The sums of the elements that `terms` names. -/
def addL (shape : Fin (m + 1) → List ℕ) (out : List ℕ) (terms : List ℕ → List (Fin (m + 1) × List ℕ)) : Deriv F shape out where
  toFun y w := addAt shape (terms (unravelIdx out w)) y
  map_add' y z := funext fun _ => addAt_add _ y z
  map_smul' a y := funext fun _ => addAt_smul _ a y

/-- The function whose element at `q` is the sum of the elements `terms q`, as registered: linear, without axes (`wrapped_functions.py:407-411`). -/
def addArr (fil : Bool) (shape : Fin (m + 1) → List ℕ) (out : List ℕ) (terms : List ℕ → List (Fin (m + 1) × List ℕ)) : ArrFn F shape out :=
  linFn Flags.LINEAR fil none (addL shape out terms) 0

variable {terms : List ℕ → List (Fin (m + 1) × List ℕ)}

theorem add_value {q : List ℕ} (hq : InB q out) (h : ∀ r ∈ terms q, InB r.2 (shape r.1)) :
    (toND out ((addArr fil shape out terms).fwd x)).get q = ((terms q).map fun r => (toND (shape r.1) (x r.1)).get r.2).sum := by
  rw [toND_get _ _ hq]
  show addAt shape (terms (unravelIdx out (ravelIdx out q))) x + 0 = _
  rw [add_zero, unravelIdx_ravelIdx hq]
  exact congrArg List.sum (List.map_congr_left fun r hr => byCoord_get (h r hr) (x r.1))

theorem add_truthful (hs : ∀ i, 0 ∉ shape i) (h0 : 0 ∉ out) :
    (addArr fil shape out terms).Truthful (fun _ => none) [] (fun _ z q => (toND out (addL shape out terms (unslice shape z) + 0)).get q) x :=
  lin_truthful hs h0 (by decide) trivial (fun h => absurd h (by decide))

theorem add_safe (h : m = 0 ∨ ∀ i, shape i ≠ []) : (addArr (F := F) fil shape out terms).SparseSafe (fun _ => none) [] :=
  ⟨Or.inl (by show Flags.LINEAR.has _ = false; decide), h.symm.imp (fun h i hc => by
    have hc : reducedAxes (shape i) ((InAxes.unset none).first (Flags.LINEAR.has Flags.SUMMATION)) = none := hc
    rw [show Flags.LINEAR.has Flags.SUMMATION = false by decide] at hc
    cases hsh : shape i with
    | nil => exact h i hsh
    | cons a l => rw [hsh] at hc; simp [InAxes.first, reducedAxes] at hc) Or.inl,
    fun h => absurd h (by show ¬ Flags.LINEAR.has _ = true; decide), fun h => absurd h (by show ¬ Flags.LINEAR.has _ = true; decide)⟩

theorem add_good (hs : ∀ i, 0 ∉ shape i) (h0 : 0 ∉ out) (sp : Bool) (hm : sp = true → m = 0 ∨ ∀ i, shape i ≠ []) (n : ℕ) :
    ArrGood sp n ((addArr (F := F) fil shape out terms).prim fun _ => none) x :=
  .array _ _ _ _ x (add_truthful hs h0) fun h => add_safe (hm h)

theorem add_any (hs : ∀ i, 0 ∉ shape i) (h0 : 0 ∉ out) (hm : m = 0 ∨ ∀ i, shape i ≠ []) : AnyGood ((addArr (F := F) fil shape out terms).prim fun _ => none) x :=
  .array _ _ _ _ x (add_truthful hs h0) (add_safe hm) (Or.inl (by show Flags.LINEAR.has _ = true; decide))

theorem add_total (hs : ∀ i, 0 ∉ shape i) (h0 : 0 ∉ out) (n : ℕ) :
    ArrTotal false n ((addArr (F := F) fil shape out terms).prim fun _ => none) x :=
  .array _ _ _ _ x (add_truthful hs h0) fun h => absurd h (by decide)

end

/-! ### The largest or the smallest of some elements -/

section
variable {m : ℕ} {shape : Fin (m + 1) → List ℕ} {out : List ℕ}

/-- `φ` of the elements that `terms` names. -/
noncomputable def bestOf (shape : Fin (m + 1) → List ℕ) (out : List ℕ) (terms : List ℕ → List (Fin (m + 1) × List ℕ)) (φ : List ℝ → ℝ) (y : (i : Fin (m + 1)) → Fin (shape i).prod → ℝ)
    (w : Fin out.prod) : ℝ := φ ((terms (unravelIdx out w)).map fun r => byCoord (shape r.1) (y r.1) r.2)

/-- The function whose element at `q` is `φ` of the elements `terms q`, as registered: linear, without axes (`wrapped_functions.py:412-421`). -/
noncomputable def bestArr (fil : Bool) (shape : Fin (m + 1) → List ℕ) (out : List ℕ) (terms : List ℕ → List (Fin (m + 1) × List ℕ)) (φ : List ℝ → ℝ) : ArrFn ℝ shape out :=
  wholeFn Flags.LINEAR fil none none shape out (bestOf shape out terms φ) (fun x => (fderiv ℝ (bestOf shape out terms φ) x).toLinearMap)
    fun x => LinearMap.mk₂ ℝ (fun u v => D2 ℝ (bestOf shape out terms φ) x u v) (fun _ _ _ => by simp) (fun _ _ _ => by simp) (fun _ _ _ => by simp) (fun _ _ _ => by simp)

variable {fil : Bool} {terms : List ℕ → List (Fin (m + 1) × List ℕ)} {φ : List ℝ → ℝ} {x : (i : Fin (m + 1)) → Fin (shape i).prod → ℝ}

theorem best_value {q : List ℕ} (hq : InB q out) (h : ∀ r ∈ terms q, InB r.2 (shape r.1)) :
    (toND out ((bestArr fil shape out terms φ).fwd x)).get q = φ ((terms q).map fun r => (toND (shape r.1) (x r.1)).get r.2) := by
  rw [toND_get _ _ hq]
  show φ ((terms (unravelIdx out (ravelIdx out q))).map fun r => byCoord (shape r.1) (x r.1) r.2) = _
  rw [unravelIdx_ravelIdx hq]
  exact congrArg φ (List.map_congr_left fun r hr => byCoord_get (h r hr) (x r.1))

/-- Everywhere one of the elements is `lt`-above the others. -/
def OneBest (lt : ℝ → ℝ → Prop) (shape : Fin (m + 1) → List ℕ) (out : List ℕ) (terms : List ℕ → List (Fin (m + 1) × List ℕ)) (x : (i : Fin (m + 1)) → Fin (shape i).prod → ℝ) : Prop :=
  ∀ w, InB w out → ∃ r ∈ terms w, ∀ r' ∈ terms w, r' ≠ r → lt ((toND (shape r'.1) (x r'.1)).get r'.2) ((toND (shape r.1) (x r.1)).get r.2)

theorem contDiff_elem (r : Fin (m + 1) × List ℕ) {n : WithTop ℕ∞} : ContDiff ℝ n fun y : (i : Fin (m + 1)) → Fin (shape i).prod → ℝ => byCoord (shape r.1) (y r.1) r.2 :=
  ((LinearMap.proj r.2).comp ((byCoord (shape r.1)).comp (LinearMap.proj (φ := fun i => Fin (shape i).prod → ℝ) r.1)) :
    ((i : Fin (m + 1)) → Fin (shape i).prod → ℝ) →ₗ[ℝ] ℝ).toContinuousLinearMap.contDiff

theorem best_near {lt : ℝ → ℝ → Prop} (hlt : ∀ (f g : ((i : Fin (m + 1)) → Fin (shape i).prod → ℝ) → ℝ), Continuous f → Continuous g → lt (f x) (g x) → ∀ᶠ y in 𝓝 x, lt (f y) (g y))
    (hφ : ∀ l : List ℝ, ∀ a ∈ l, (∀ b ∈ l, b = a ∨ lt b a) → φ l = a) (hin : ∀ w, InB w out → ∀ r ∈ terms w, InB r.2 (shape r.1)) (h : OneBest lt shape out terms x) (w : Fin out.prod) :
    ∃ r : Fin (m + 1) × List ℕ, ∀ᶠ y in 𝓝 x, bestOf shape out terms φ y w = byCoord (shape r.1) (y r.1) r.2 := by
  have hw : InB (unravelIdx out w) out := inB_unravelIdx w.2
  obtain ⟨r, hr, hmax⟩ := h _ hw
  refine ⟨r, ?_⟩
  have h1 : ∀ r' ∈ (terms (unravelIdx out w)).toFinset, ∀ᶠ y in 𝓝 x, byCoord (shape r'.1) (y r'.1) r'.2 = byCoord (shape r.1) (y r.1) r.2 ∨
      lt (byCoord (shape r'.1) (y r'.1) r'.2) (byCoord (shape r.1) (y r.1) r.2) := by
    intro r' hr'
    rw [List.mem_toFinset] at hr'
    by_cases he : r' = r
    · subst he
      exact Eventually.of_forall fun y => Or.inl rfl
    · have h2 := hmax r' hr' he
      rw [← byCoord_get (hin _ hw _ hr'), ← byCoord_get (hin _ hw _ hr)] at h2
      filter_upwards [hlt _ _ (contDiff_elem r' (n := 0)).continuous (contDiff_elem r (n := 0)).continuous h2] with y hy
      exact Or.inr hy
  filter_upwards [(Filter.eventually_all_finset _).mpr h1] with y hy
  refine hφ _ _ (List.mem_map_of_mem (f := fun r : Fin (m + 1) × List ℕ => byCoord (shape r.1) (y r.1) r.2) hr) fun b hb => ?_
  obtain ⟨r', hr', rfl⟩ := List.mem_map.mp hb
  exact hy r' (List.mem_toFinset.mpr hr')

theorem best_truthful (hs : ∀ i, 0 ∉ shape i) (h0 : 0 ∉ out)
    (h : ∀ w : Fin out.prod, ∃ r : Fin (m + 1) × List ℕ, ∀ᶠ y in 𝓝 x, bestOf shape out terms φ y w = byCoord (shape r.1) (y r.1) r.2) :
    (bestArr fil shape out terms φ).Truthful (fun _ => none) [] (fun _ z q => (toND out (bestOf shape out terms φ (unslice shape z))).get q) x := by
  choose r hr using h
  let L : ((i : Fin (m + 1)) → Fin (shape i).prod → ℝ) →ₗ[ℝ] (Fin out.prod → ℝ) :=
    LinearMap.pi fun w => (LinearMap.proj (r w).2).comp ((byCoord (shape (r w).1)).comp (LinearMap.proj (φ := fun i => Fin (shape i).prod → ℝ) (r w).1))
  have hL : bestOf shape out terms φ =ᶠ[𝓝 x] L.toContinuousLinearMap := by
    filter_upwards [eventually_all.mpr hr] with y hy
    funext w
    exact hy w
  have hsm : ContDiffAt ℝ 2 (bestOf shape out terms φ) x := L.toContinuousLinearMap.contDiff.contDiffAt.congr_of_eventuallyEq hL
  have h2 : D2 ℝ (bestOf shape out terms φ) x = 0 := by
    have e : fderiv ℝ (bestOf shape out terms φ) =ᶠ[𝓝 x] fun _ => L.toContinuousLinearMap := by
      filter_upwards [hL.eventuallyEq_nhds] with y hy
      rw [hy.fderiv_eq]
      exact ContinuousLinearMap.fderiv _
    unfold D2
    rw [e.fderiv_eq]
    simp
  obtain ⟨H, g1, g2⟩ := hasFDeriv2At_of_contDiffAt (F := ℝ) _ x hsm
  refine ⟨hs, h0, wholeFn_computes ⟨_, H, g1, fun t => rfl, fun u v => (g2 u v).trans rfl⟩, wholeFn_batch, trivial, fun h => absurd h (by show ¬ Flags.LINEAR.has _ = true; decide),
    fun _ _ _ _ _ hg => (by cases hg), Or.inl ⟨by show Flags.LINEAR.has _ = true; decide, fun v q hv hq u t => ?_⟩⟩
  cases hv
  have e : unslice shape ((bestArr fil shape out terms φ).slices [] [] x) = x := unslice_slice (ss := shape) [] [] x
  show byCoord out (D2 ℝ (bestOf shape out terms φ) (unslice shape _) _ _) q = 0
  rw [e, h2]
  show byCoord out 0 q = 0
  rw [map_zero]
  rfl

theorem best_safe (h : m = 0 ∨ ∀ i, shape i ≠ []) : (bestArr fil shape out terms φ).SparseSafe (fun _ => none) [] :=
  ⟨Or.inl (by show Flags.LINEAR.has _ = false; decide), h.symm.imp (fun h i hc => by
    have hc : reducedAxes (shape i) ((InAxes.unset none).first (Flags.LINEAR.has Flags.SUMMATION)) = none := hc
    rw [show Flags.LINEAR.has Flags.SUMMATION = false by decide] at hc
    cases hsh : shape i with
    | nil => exact h i hsh
    | cons a l => rw [hsh] at hc; simp [InAxes.first, reducedAxes] at hc) Or.inl,
    fun h => absurd h (by show ¬ Flags.LINEAR.has _ = true; decide), fun h => absurd h (by show ¬ Flags.LINEAR.has _ = true; decide)⟩

theorem scatterMax_truthful (hs : ∀ i, 0 ∉ shape i) (h0 : 0 ∉ out) (hin : ∀ w, InB w out → ∀ r ∈ terms w, InB r.2 (shape r.1)) (h : OneBest (· < ·) shape out terms x) :
    (bestArr fil shape out terms listMax).Truthful (fun _ => none) [] (fun _ z q => (toND out (bestOf shape out terms listMax (unslice shape z))).get q) x :=
  best_truthful hs h0 (best_near (fun _ _ hf hg h => hf.continuousAt.eventually_lt hg.continuousAt h)
    (fun _ _ ha h => listMax_eq ha fun b hb => (h b hb).elim (fun h => h.le) le_of_lt) hin h)

theorem scatterMin_truthful (hs : ∀ i, 0 ∉ shape i) (h0 : 0 ∉ out) (hin : ∀ w, InB w out → ∀ r ∈ terms w, InB r.2 (shape r.1)) (h : OneBest (· > ·) shape out terms x) :
    (bestArr fil shape out terms listMin).Truthful (fun _ => none) [] (fun _ z q => (toND out (bestOf shape out terms listMin (unslice shape z))).get q) x :=
  best_truthful hs h0 (best_near (fun _ _ hf hg h => hg.continuousAt.eventually_lt hf.continuousAt h)
    (fun _ _ ha h => listMin_eq ha fun b hb => (h b hb).elim (fun h => h.ge) le_of_lt) hin h)

end

end Folx.Layout

import Verif.Prog.Lib3
import Verif.Prog.Total
import Verif.Props.ProgProps
import Mathlib.Analysis.Calculus.Deriv.Abs

/-!
# C37, C38, C44, C45: the rules of the registry

`Prim.ExactRule` (`Verif/Prog/RuleSpec.lean`) says that a rule takes operands describing functions `u` (value, Jacobian and
Laplacian, or a plain array for a locally constant function) to results describing the composed function.
-/

namespace Folx

open Filter Topology

/-! ### Helpers -/

theorem Std.exactRule {F : Type} [RCLike F] (s : Std F) (sp : Bool) (T n : ℕ) (hn : 0 < n)
    (x : (i : Fin s.nIn) → Fin (s.size i) → F) (h : s.TrueAt n x) (hs : sp = true → s.SparseOk) :
    s.toWPrim.toPrim.ExactRule sp T n x := by
  apply exactRule_of_sound
  cases sp with
  | true => exact s.sound_sparse T n hn x h (hs rfl)
  | false => exact s.sound_dense T n hn x h

namespace Demo

/-- The dense state of the inputs: the operand describing the identity. -/
noncomputable def idOpd {n : ℕ} (x : Fin n → ℝ) : Opd ℝ n :=
  .lapl ⟨x, .dense (List.ofFn fun i => Pi.single i 1), fun _ => 0⟩

theorem idOpd_holds {n : ℕ} (T : ℕ) (x : Fin n → ℝ) :
    Holds (jacInv false T n) (fun _ => 1) x (idOpd x) fun z => z := by
  rw [holds_iff]
  refine ⟨⟨rfl, ?_, ContinuousLinearMap.id ℝ _, 0,
    HasFDeriv2At.linear (ContinuousLinearMap.id ℝ (Fin n → ℝ)) x, fun i => ?_, ?_⟩, rfl, ?_⟩
  · simp [Jac.Wf, inputBase]
  · have key : ∀ i : Fin n, (Jac.dense (List.ofFn fun i : Fin n => (Pi.single i 1 : Fin n → ℝ))).den i = Pi.single i 1 := by
      intro i
      show (List.ofFn fun i : Fin n => (Pi.single i 1 : Fin n → ℝ)).getD i _ = _
      rw [List.getD_eq_getElem _ _ (by simp)]
      simp
    exact key i
  · funext p
    simp
  · simp [Jac.nrows]

theorem plain_holds {n m : ℕ} (inv : ∀ m, Jac (Fin m) ℝ → Prop) (w x : Fin n → ℝ) (a : Fin m → ℝ) :
    Holds inv w x (.plain a) fun _ => a := .of_forall fun _ => rfl

end Demo

/-! ### The elementwise part of the registry -/

/-- Every elementwise entry of the registry (`elemTable`: name, function, flags, custom rule) is exact at operand values in
its domain, for all broadcast patterns, thresholds and representations. -/
theorem registry_elementwise_exact (k : ℤ) (e : ElemEntry) (he : e ∈ elemTable k) (sp : Bool) (T n : ℕ) (hn : 0 < n)
    (size : Fin e.arity → ℕ) (out : ℕ) (π : (i : Fin e.arity) → Fin out → Fin (size i))
    (same : (i : Fin e.arity) → Option (Fin out ≃ Fin (size i)))
    (hsame : ∀ i ε, same i = some ε → ∀ q, ε q = π i q) (hπ : ∀ i, Nonempty (Fin out) → Function.Surjective (π i))
    (x : (i : Fin e.arity) → Fin (size i) → ℝ) (hx : ∀ q, e.dom fun i => x i (π i q)) :
    (e.std size out π same (e.custom π)).toWPrim.toPrim.ExactRule sp T n x :=
  Std.exactRule _ sp T n hn x (elemTable_true k e he n size out π same hsame x hx)
    fun _ => elemTable_sparseOk k e he size out π same hπ

/-! ### C44 -/

section C44

/-- `abs` of real operands: `wrap_forward_laplacian(jax.lax.abs, flags=LINEAR, in_axes=())`
(`wrapped_functions.py:292-294`). -/
noncomputable def absStd (m : ℕ) : Std ℝ :=
  elemStd 1 (fun _ => m) m (fun z => |z 0|) Flags.LINEAR (fun _ q => q) (fun _ => some (Equiv.refl _))
    fun _ _ _ => none

/-- `max` of two operands broadcast by `π` (`wrapped_functions.py:394-396`). -/
noncomputable def maxStd {size : Fin 2 → ℕ} {out : ℕ} (π : (i : Fin 2) → Fin out → Fin (size i))
    (same : (i : Fin 2) → Option (Fin out ≃ Fin (size i))) : Std ℝ :=
  elemStd 2 size out (fun z => max (z 0) (z 1)) Flags.LINEAR π same fun _ _ _ => none

/-- `min` of two operands broadcast by `π` (`wrapped_functions.py:397-399`). -/
noncomputable def minStd {size : Fin 2 → ℕ} {out : ℕ} (π : (i : Fin 2) → Fin out → Fin (size i))
    (same : (i : Fin 2) → Option (Fin out ≃ Fin (size i))) : Std ℝ :=
  elemStd 2 size out (fun z => min (z 0) (z 1)) Flags.LINEAR π same fun _ _ _ => none

/-- **C44, abs.** Exact at every point where no element vanishes. -/
theorem C44_abs (sp : Bool) (T n : ℕ) (hn : 0 < n) (m : ℕ) (x : (i : Fin 1) → Fin m → ℝ) (hx : ∀ q, x 0 q ≠ 0) :
    (absStd m).toWPrim.toPrim.ExactRule sp T n x :=
  (absStd m).exactRule sp T n hn x
    (elem_linear n x (fun i ε h q => by injection h with h; subst h; rfl) fun q => abs_affine (fun i => x i q) (hx q))
    fun _ => elemStd_sparseOk (by decide) (fun _ _ => Function.surjective_id) (by decide)

/-- **C44, max.** Exact at every point where no two compared elements are equal. -/
theorem C44_max (sp : Bool) (T n : ℕ) (hn : 0 < n) {size : Fin 2 → ℕ} {out : ℕ}
    (π : (i : Fin 2) → Fin out → Fin (size i)) (same : (i : Fin 2) → Option (Fin out ≃ Fin (size i)))
    (hsame : ∀ i ε, same i = some ε → ∀ q, ε q = π i q) (hπ : ∀ i, Nonempty (Fin out) → Function.Surjective (π i))
    (x : (i : Fin 2) → Fin (size i) → ℝ) (hx : ∀ q, x 0 (π 0 q) ≠ x 1 (π 1 q)) :
    (maxStd π same).toWPrim.toPrim.ExactRule sp T n x :=
  (maxStd π same).exactRule sp T n hn x (elem_linear n x hsame fun q => max_affine _ (hx q))
    fun _ => elemStd_sparseOk (le_refl 2) hπ (by decide)

/-- **C44, min.** Exact at every point where no two compared elements are equal. -/
theorem C44_min (sp : Bool) (T n : ℕ) (hn : 0 < n) {size : Fin 2 → ℕ} {out : ℕ}
    (π : (i : Fin 2) → Fin out → Fin (size i)) (same : (i : Fin 2) → Option (Fin out ≃ Fin (size i)))
    (hsame : ∀ i ε, same i = some ε → ∀ q, ε q = π i q) (hπ : ∀ i, Nonempty (Fin out) → Function.Surjective (π i))
    (x : (i : Fin 2) → Fin (size i) → ℝ) (hx : ∀ q, x 0 (π 0 q) ≠ x 1 (π 1 q)) :
    (minStd π same).toWPrim.toPrim.ExactRule sp T n x :=
  (minStd π same).exactRule sp T n hn x (elem_linear n x hsame fun q => min_affine _ (hx q))
    fun _ => elemStd_sparseOk (le_refl 2) hπ (by decide)

/-- **C44, reduce_max.** Exact at every point where each maximum is attained once. -/
theorem C44_reduce_max {m out : ℕ} {K C : Type} [Fintype K] [DecidableEq K] [Fintype C] [Nonempty C] (hm : 0 < m)
    (same : Option (Fin out ≃ Fin m)) (oneAxis sp : Bool) (T n : ℕ) (hn : 0 < n) (split : Fin m ≃ K × C)
    (κ : Fin out → K) (hκ : Function.Surjective κ) (x : (i : Fin 1) → Fin (oneSize m i) → ℝ)
    (hx : ∀ q, ∃ c, ∀ c', c' ≠ c → x 0 (split.symm (κ q, c')) < x 0 (split.symm (κ q, c))) :
    (reduceMax m out hm split κ same oneAxis).toWPrim.toPrim.ExactRule sp T n x :=
  (reduceMax m out hm split κ same oneAxis).exactRule sp T n hn x (reduceMax_true n split κ hκ x hx) fun _ => redStd_sparseOk _ _ _ _ (by decide)

/-- **C44, reduce_min.** Exact at every point where each minimum is attained once. -/
theorem C44_reduce_min {m out : ℕ} {K C : Type} [Fintype K] [DecidableEq K] [Fintype C] [Nonempty C] (hm : 0 < m)
    (same : Option (Fin out ≃ Fin m)) (oneAxis sp : Bool) (T n : ℕ) (hn : 0 < n) (split : Fin m ≃ K × C)
    (κ : Fin out → K) (hκ : Function.Surjective κ) (x : (i : Fin 1) → Fin (oneSize m i) → ℝ)
    (hx : ∀ q, ∃ c, ∀ c', c' ≠ c → x 0 (split.symm (κ q, c)) < x 0 (split.symm (κ q, c'))) :
    (reduceMin m out hm split κ same oneAxis).toWPrim.toPrim.ExactRule sp T n x :=
  (reduceMin m out hm split κ same oneAxis).exactRule sp T n hn x (reduceMin_true n split κ hκ x hx) fun _ => redStd_sparseOk _ _ _ _ (by decide)

/-- **C44, what the rules compute.** The maximum of an array is the largest element along the reduced axes. -/
theorem C44_reduce_max_value {m out : ℕ} {K C : Type} [Fintype K] [DecidableEq K] [Fintype C] [Nonempty C] (hm : 0 < m)
    (same : Option (Fin out ≃ Fin m)) (oneAxis : Bool) (split : Fin m ≃ K × C) (κ : Fin out → K)
    (x : (i : Fin 1) → Fin (oneSize m i) → ℝ) (q : Fin out) :
    (∀ c, x 0 (split.symm (κ q, c)) ≤ (reduceMax m out hm split κ same oneAxis).whole x q) ∧
    ∃ c, (reduceMax m out hm split κ same oneAxis).whole x q = x 0 (split.symm (κ q, c)) := by
  have e : (reduceMax m out hm split κ same oneAxis).whole x q = maxFn fun c => x 0 (split.symm (κ q, c)) := rfl
  rw [e]
  refine ⟨fun c => Finset.le_sup' (fun c => x 0 (split.symm (κ q, c))) (Finset.mem_univ c), ?_⟩
  obtain ⟨c, -, hc⟩ := Finset.exists_mem_eq_sup' Finset.univ_nonempty fun c => x 0 (split.symm (κ q, c))
  exact ⟨c, hc⟩

/-- **C44, general form.** Any function wrapped elementwise with the `LINEAR` flag is exact wherever it is locally
linear. -/
theorem C44_locally_linear (sp : Bool) (T n : ℕ) (hn : 0 < n) {arity : ℕ} (h2 : arity ≤ 2) (φ : (Fin arity → ℝ) → ℝ)
    {size : Fin arity → ℕ} {out : ℕ}
    (π : (i : Fin arity) → Fin out → Fin (size i)) (same : (i : Fin arity) → Option (Fin out ≃ Fin (size i)))
    (hsame : ∀ i ε, same i = some ε → ∀ q, ε q = π i q) (hπ : ∀ i, Nonempty (Fin out) → Function.Surjective (π i))
    (x : (i : Fin arity) → Fin (size i) → ℝ)
    (hx : ∀ q, ∃ (a : Fin arity → ℝ) (b : ℝ), ∀ᶠ z in 𝓝 (fun i => x i (π i q)), φ z = ∑ i, a i * z i + b) :
    (elemStd arity size out φ Flags.LINEAR π same fun _ _ _ => none).toWPrim.toPrim.ExactRule sp T n x := by
  refine Std.exactRule _ sp T n hn x (elem_linear n x hsame fun q => ?_) fun _ => elemStd_sparseOk h2 hπ (by decide)
  obtain ⟨a, b, h⟩ := hx q
  refine ⟨∑ i, a i • ContinuousLinearMap.proj (R := ℝ) (φ := fun _ : Fin arity => ℝ) i, b, ?_⟩
  filter_upwards [h] with y hy
  rw [hy]
  simp

/-- The condition of `C44_abs` cannot be dropped: at `0` the absolute value is not differentiable, so nothing exact could be
returned. -/
theorem C44_abs_kink (w : Fin 1 → ℝ) (t : Trip (Fin 1) ℝ) :
    ¬ Exact w (fun _ => 0) t fun (z : Fin 1 → ℝ) p => |z p| := by
  intro h
  have h1 : DifferentiableAt ℝ (fun z : Fin 1 → ℝ => |z 0|) fun _ => 0 := (h.smooth 0).1.self_of_nhds
  have h2 : DifferentiableAt ℝ (fun s : ℝ => (fun _ => s : Fin 1 → ℝ)) 0 :=
    differentiableAt_pi.mpr fun _ => differentiableAt_id
  have h3 : DifferentiableAt ℝ (fun s : ℝ => |s|) 0 :=
    DifferentiableAt.comp (g := fun z : Fin 1 → ℝ => |z 0|) (f := fun s : ℝ => (fun _ => s : Fin 1 → ℝ)) (0 : ℝ) h1 h2
  exact not_differentiableAt_abs_zero h3

open Demo in
/-- `abs` of the input `(2, -3)`: the rule returns, and what it returns is exact. -/
example : ∃ r, (absStd 2).toWPrim.toPrim.rule 0 (fun _ => idOpd ![2, -3]) = .ok r ∧
    Holds (jacInv false 0 2) (fun _ => 1) ![2, -3] (r (0 : Fin 1)) fun (z : Fin 2 → ℝ) q => |z q| := by
  have hne : ∀ q : Fin 2, (![2, -3] : Fin 2 → ℝ) q ≠ 0 := by
    intro q
    fin_cases q <;> simp
  obtain ⟨r, hr⟩ := Std.total (elemStd 1 (fun _ => 2) 2 (fun z : Fin 1 → ℝ => |z 0|) Flags.LINEAR (fun _ q => q)
    (fun _ => some (Equiv.refl _)) fun _ _ _ => none) 0 2 (fun _ => ![2, -3])
    (elem_linear 2 _ (fun i ε h q => by injection h with h; subst h; rfl) fun q => abs_affine _ (hne q))
    (fun _ _ _ h => by simp [elemStd] at h) (fun _ => idOpd ![2, -3]) (fun _ => rfl) ⟨(0 : Fin 1), rfl⟩
    (fun i t h => by
      injection h with h
      subst h
      exact ⟨rfl, List.length_ofFn⟩)
  exact ⟨r, hr, C44_abs false 0 2 (by decide) 2 (fun _ => ![2, -3]) hne (fun _ => 1) ![2, -3] (fun _ => idOpd ![2, -3])
    (fun _ z => z) r (fun _ => rfl) (fun _ => idOpd_holds 0 _) ⟨(0 : Fin 1), rfl⟩ hr (0 : Fin 1)⟩

open Demo in
/-- ReLU: `max(a, 0)` with a plain second operand, at `a = (2, -3)`. -/
example : ∃ r, (maxStd (size := fun _ => 2) (out := 2) (fun _ q => q) fun _ => some (Equiv.refl _)).toWPrim.toPrim.rule 0
      (Fin.cons (idOpd ![2, -3]) fun _ => .plain fun _ => 0) = .ok r ∧
    Holds (jacInv false 0 2) (fun _ => 1) ![2, -3] (r (0 : Fin 1)) fun (z : Fin 2 → ℝ) q => max (z q) 0 := by
  let o : (i : Fin 2) → Opd ℝ 2 := Fin.cons (idOpd ![2, -3]) fun _ => .plain fun _ => 0
  let x : (i : Fin 2) → Fin 2 → ℝ := ![![2, -3], fun _ => 0]
  have hx : ∀ q : Fin 2, x 0 q ≠ x 1 q := by
    intro q
    fin_cases q <;> simp [x]
  have hsame : ∀ (i : Fin 2) (ε : Fin 2 ≃ Fin 2), (fun _ : Fin 2 => some (Equiv.refl (Fin 2))) i = some ε → ∀ q, ε q = q := by
    intro i ε h q
    injection h with h
    subst h
    rfl
  obtain ⟨r, hr⟩ := Std.total (elemStd 2 (fun _ => 2) 2 (fun z : Fin 2 → ℝ => max (z 0) (z 1)) Flags.LINEAR (fun _ q => q)
    (fun _ => some (Equiv.refl _)) fun _ _ _ => none) 0 2 x
    (elem_linear 2 _ hsame fun q => max_affine _ (hx q))
    (fun _ _ _ h => by simp [elemStd] at h) o (Fin.forall_fin_two (p := fun i => (o i).x = x i)|>.mpr ⟨rfl, rfl⟩) ⟨(0 : Fin 2), rfl⟩
    (by
      have h1 : ∀ t, o 0 = .lapl t → denseInv 2 _ t.jac := fun t h => by
        injection h with h
        subst h
        exact ⟨rfl, List.length_ofFn⟩
      have h2 : ∀ t, o 1 = .lapl t → denseInv 2 _ t.jac := fun t h => by
        have h' : (Opd.plain fun _ => 0 : Opd ℝ 2) = .lapl t := h
        simp at h'
      exact (Fin.forall_fin_two (p := fun i => ∀ t, o i = .lapl t → denseInv 2 _ t.jac)).mpr ⟨h1, h2⟩)
  refine ⟨r, hr, ?_⟩
  have := C44_max false 0 2 (by decide) (size := fun _ => 2) (out := 2) (fun _ q => q) (fun _ => some (Equiv.refl _)) hsame
    (fun _ _ => Function.surjective_id) x hx (fun _ => 1) ![2, -3] o
    (Fin.cons (fun z => z) fun _ _ _ => 0) r
    (by
      refine Fin.forall_fin_two.mpr ⟨rfl, rfl⟩)
    (Fin.forall_fin_two.mpr ⟨idOpd_holds 0 _, plain_holds _ _ _ _⟩) ⟨(0 : Fin 2), rfl⟩ hr (0 : Fin 1)
  exact this

end C44

/-! ### C45 -/

section C45

/-- **C45.** Every derivative-dropping entry of the registry returns, for any mixture of plain and derivative-carrying
operands, broadcast patterns and threshold, the ordinary value of the function of the operands' values as a plain array. -/
theorem C45_plain (e : DropEntry) (_ : e ∈ dropTable) (size : Fin e.arity → ℕ) (out : ℕ)
    (π : (i : Fin e.arity) → Fin out → Fin (size i)) (T : ℕ) (o : (i : Fin e.arity) → Opd ℝ (size i)) :
    (e.prim size out π).rule T o = .ok fun _ => .plain fun q => e.fn fun i => (o i).x (π i q) := rfl

/-- **C45, exactness.** Where the function is locally constant this is exact: the composed function is constant near the
input point. -/
theorem C45_exact (e : DropEntry) (he : e ∈ dropTable) (size : Fin e.arity → ℕ) (out : ℕ)
    (π : (i : Fin e.arity) → Fin out → Fin (size i)) (sp : Bool) (T n : ℕ)
    (x : (i : Fin e.arity) → Fin (size i) → ℝ) (hx : ∀ q, e.dom fun i => x i (π i q)) :
    (e.prim size out π).ExactRule sp T n x :=
  exactRule_of_sound (e.prim size out π) sp T n x (drop_sound _ T n (size := size) x (drop_prim_const e he size out π x hx))

/-- The domains used in `C45_exact`, spelled out. -/
theorem C45_domains (e : DropEntry) (he : e ∈ dropTable) :
    (e.name = "sign" → ∀ z, e.dom z ↔ ∃ i, i.val = 0 ∧ z i ≠ 0) ∧
    (e.name ∈ ["eq", "lt", "le", "gt", "ge", "ne"] → ∀ z, (∀ i j, i ≠ j → z i ≠ z j) → e.dom z) ∧
    (e.name ∈ ["xor", "not", "and", "or"] → ∀ z, (∀ i, z i ≠ 0) → e.dom z) ∧ (e.name = "is_finite" → ∀ z, e.dom z) ∧
    (e.name = "stop_gradient" → ∀ z, ¬ e.dom z) := by
  unfold dropTable at he
  simp only [List.mem_cons, List.not_mem_nil, or_false] at he
  have h01 : (0 : Fin 2) ≠ 1 := by decide
  rcases he with rfl | rfl | rfl | rfl | rfl | rfl | rfl | rfl | rfl | rfl | rfl | rfl | rfl
  · refine ⟨fun _ z => ⟨fun h => ⟨0, rfl, h⟩, ?_⟩, by simp, by simp, by simp, by simp⟩
    rintro ⟨i, hi, h⟩
    have : i = 0 := Fin.ext hi
    subst this
    exact h
  · exact ⟨by simp, by simp, by simp, by simp, fun _ _ h => h⟩
  · exact ⟨by simp, fun _ z h => h (0 : Fin 2) (1 : Fin 2) h01, by simp, by simp, by simp⟩
  · exact ⟨by simp, fun _ z h => h (0 : Fin 2) (1 : Fin 2) h01, by simp, by simp, by simp⟩
  · exact ⟨by simp, fun _ z h => h (0 : Fin 2) (1 : Fin 2) h01, by simp, by simp, by simp⟩
  · exact ⟨by simp, fun _ z h => h (0 : Fin 2) (1 : Fin 2) h01, by simp, by simp, by simp⟩
  · exact ⟨by simp, fun _ z h => h (0 : Fin 2) (1 : Fin 2) h01, by simp, by simp, by simp⟩
  · exact ⟨by simp, fun _ z h => h (0 : Fin 2) (1 : Fin 2) h01, by simp, by simp, by simp⟩
  · exact ⟨by simp, by simp, fun _ z h => ⟨h (0 : Fin 2), h (1 : Fin 2)⟩, by simp, by simp⟩
  · exact ⟨by simp, by simp, fun _ z h => h (0 : Fin 1), by simp, by simp⟩
  · exact ⟨by simp, by simp, fun _ z h => ⟨h (0 : Fin 2), h (1 : Fin 2)⟩, by simp, by simp⟩
  · exact ⟨by simp, by simp, fun _ z h => Or.inl (h (0 : Fin 2)), by simp, by simp⟩
  · exact ⟨by simp, by simp, by simp, fun _ _ => trivial, by simp⟩

open Demo in
/-- `lt` of the input `(2, -3)` and the constant `0`: a plain array of truth values, exact near the input. -/
example : ∃ e ∈ dropTable, e.name = "lt" ∧ ∃ (h : e.arity = 2) (r : Fin 1 → Opd ℝ 2),
    (e.prim (fun _ => 2) 2 fun _ q => q).rule 0 (fun i => if (i.cast h) = 0 then idOpd ![2, -3] else .plain fun _ => 0) = .ok r ∧
    r 0 = .plain ![0, 1] := by
  refine ⟨⟨"lt", 2, fun z => truth (z 0 < z 1), fun z => z 0 ≠ z 1⟩, ?_, rfl, rfl, _, rfl, ?_⟩
  · unfold dropTable
    simp only [List.mem_cons, true_or, or_true]
  · congr 1
    funext q
    fin_cases q
    · simp [idOpd, Opd.x, truth, DropEntry.prim]
    · simp [idOpd, Opd.x, truth, DropEntry.prim]

end C45

/-! ### C37 -/

section C37

/-- **C37, inexact types.** Conversion to a floating or complex type returns value, Jacobian and Laplacian of the
converted function, at all operand values. -/
theorem C37_inexact (d : DType) (hd : d = .floating ∨ d = .complexFloating) (m : ℕ) (sp : Bool) (T n : ℕ)
    (x : (i : Fin 1) → Fin m → ℂ) : (convertPrim m d).ExactRule sp T n x := by
  have h : d.inexact = true := by rcases hd with rfl | rfl <;> rfl
  have key : ∀ (p : Prim ℂ) (x : (i : Fin p.nIn) → Fin (p.size i) → ℂ), p = mapPrim m d.castL → p.ExactRule sp T n x := by
    rintro p x rfl
    exact exactRule_of_sound _ sp T n x (map_sound_inv sp T n m d.castL x)
  exact key (convertPrim m d) x (convert_eq_map m d h)

/-- **C37, inexact types.** All three components are converted, entry by entry, and the sparsity pattern is kept. -/
theorem C37_components (d : DType) (hd : d = .floating ∨ d = .complexFloating) {m : ℕ} (t : Trip (Fin m) ℂ) :
    ∃ t', astype d (.lapl t) = .lapl t' ∧ (∀ p, t'.x p = d.cast (t.x p)) ∧ (∀ p, t'.lapl p = d.cast (t.lapl p)) ∧
      (∀ i p, t'.jac.den i p = d.cast (t.jac.den i p)) ∧ t'.jac.weak = t.jac.weak ∧ t'.jac.nrows = t.jac.nrows := by
  have h : d.inexact = true := by rcases hd with rfl | rfl <;> rfl
  refine ⟨⟨fun p => d.cast (t.x p), t.jac.mapData d.cast, fun p => d.cast (t.lapl p)⟩, ?_, fun _ => rfl, fun _ => rfl,
    fun i p => ?_, Jac.mapData_weak _ _, Jac.mapData_nrows _ _⟩
  · simp [astype, astypeLapl, h]
  · have := Jac.mapData_den (d.castL : ℂ →+ ℂ) t.jac i p
    have e : (⇑(d.castL : ℂ →+ ℂ) : ℂ → ℂ) = d.cast := castL_apply d h
    rw [e] at this
    exact this

/-- **C37, discrete types.** Conversion to integer or boolean returns the converted value as a plain array. -/
theorem C37_discrete (d : DType) (hd : d = .integer ∨ d = .boolean) {m : ℕ} (o : Opd ℂ m) :
    astype d o = .plain fun p => d.cast (o.x p) := by
  have h : d.inexact = false := by rcases hd with rfl | rfl <;> rfl
  cases o with
  | plain a => rfl
  | lapl t => simp [astype, astypeLapl, h, Opd.x]

/-- **C37, discrete types.** This is exact wherever the conversion is locally constant. -/
theorem C37_discrete_exact (d : DType) (hd : d = .integer ∨ d = .boolean) (m : ℕ) (sp : Bool) (T n : ℕ)
    (x : (i : Fin 1) → Fin m → ℂ) (hx : ∀ q, d.constAt (x 0 q)) : (convertPrim m d).ExactRule sp T n x := by
  have h : d.inexact = false := by rcases hd with rfl | rfl <;> rfl
  suffices hk : ∀ᶠ y : (i : Fin 1) → Fin m → ℂ in 𝓝 x,
      (fun (_ : Fin 1) p => d.cast (y 0 p)) = fun (_ : Fin 1) p => d.cast (x 0 p) by
    have key : ∀ (p : Prim ℂ) (x' : (i : Fin p.nIn) → Fin (p.size i) → ℂ),
        p = dropPrim 1 (fun _ => m) 1 (fun _ => m) (fun x _ p => d.cast (x 0 p)) → HEq x' x → p.ExactRule sp T n x' := by
      rintro p x' rfl h
      obtain rfl := eq_of_heq h
      exact exactRule_of_sound _ sp T n _ (drop_sound _ T n (size := fun _ => m) x' hk)
    exact key (convertPrim m d) x (convert_eq_drop m d h) HEq.rfl
  have h1 : ∀ q : Fin m, ∀ᶠ y : (i : Fin 1) → Fin m → ℂ in 𝓝 x, d.cast (y 0 q) = d.cast (x 0 q) := by
    intro q
    have hc : Continuous fun y : (i : Fin 1) → Fin m → ℂ => y 0 q := (continuous_apply q).comp (continuous_apply 0)
    exact hc.continuousAt.eventually (cast_const d _ (hx q))
  filter_upwards [eventually_all.mpr h1] with y hy
  funext _ q
  exact hy q

/-- The conditions of `C37_discrete_exact` are met at `2.5`. -/
example : DType.constAt .integer (2.5 : ℂ) ∧ DType.constAt .boolean (2.5 : ℂ) ∧ DType.cast .integer (2.5 : ℂ) = 2 := by
  have hr : ((2.5 : ℂ)).re = 5 / 2 := by
    rw [show (2.5 : ℂ) = ((5 / 2 : ℝ) : ℂ) by norm_num]
    exact Complex.ofReal_re _
  refine ⟨Or.inl fun k hk => ?_, by norm_num [DType.constAt], ?_⟩
  · rw [hr] at hk
    have h2 : (5 : ℝ) = 2 * k := by linarith
    have h3 : (5 : ℤ) = 2 * k := by exact_mod_cast h2
    omega
  · have h0 : (0 : ℝ) ≤ 5 / 2 := by norm_num
    have hf : ⌊(5 / 2 : ℝ)⌋ = 2 := by
      rw [Int.floor_eq_iff]
      norm_num
    simp only [DType.cast, hr, trunc, h0, if_true, hf]
    norm_num

end C37

/-! ### C38 -/

section C38

/-- **C38, real.** -/
theorem C38_real (m : ℕ) (sp : Bool) (T n : ℕ) (x : (i : Fin 1) → Fin m → ℂ) : (realPrim m).ExactRule sp T n x :=
  exactRule_of_sound (realPrim m) sp T n x (map_sound_inv sp T n m (Complex.ofRealCLM.comp Complex.reCLM) x)

/-- **C38, imag.** -/
theorem C38_imag (m : ℕ) (sp : Bool) (T n : ℕ) (x : (i : Fin 1) → Fin m → ℂ) : (imagPrim m).ExactRule sp T n x :=
  exactRule_of_sound (imagPrim m) sp T n x (map_sound_inv sp T n m (Complex.ofRealCLM.comp Complex.imCLM) x)

/-- **C38, conj.** -/
theorem C38_conj (m : ℕ) (sp : Bool) (T n : ℕ) (x : (i : Fin 1) → Fin m → ℂ) : (conjPrim m).ExactRule sp T n x :=
  exactRule_of_sound (conjPrim m) sp T n x (map_sound_inv sp T n m (Complex.conjCLE : ℂ →L[ℝ] ℂ) x)

/-- What the three primitives compute, and that their rules return for every operand. -/
theorem C38_value (m : ℕ) (x : (i : Fin 1) → Fin m → ℂ) (p : Fin m) (T : ℕ) (o : (i : Fin 1) → Opd ℂ m) :
    ((realPrim m).fwd x (0 : Fin 1) p = ((x 0 p).re : ℂ) ∧ (imagPrim m).fwd x (0 : Fin 1) p = ((x 0 p).im : ℂ) ∧
      (conjPrim m).fwd x (0 : Fin 1) p = (starRingEnd ℂ) (x 0 p)) ∧
    (∃ r, (realPrim m).rule T o = .ok r) ∧ (∃ r, (imagPrim m).rule T o = .ok r) ∧ ∃ r, (conjPrim m).rule T o = .ok r :=
  ⟨⟨rfl, rfl, rfl⟩, ⟨_, rfl⟩, ⟨_, rfl⟩, ⟨_, rfl⟩⟩

/-- The operand describing `z ↦ i z²` of one real input `z`: at `3` the value is `9i`, the derivative `6i`, the Laplacian
`2i`; the rule for `imag` returns `9`, `6`, `2`. -/
example : ∃ r, (imagPrim 1).rule 0 (fun _ => .lapl ⟨fun _ => 9 * Complex.I, .dense [fun _ => 6 * Complex.I],
      fun _ => 2 * Complex.I⟩) = .ok r ∧
    r (0 : Fin 1) = .lapl ⟨fun _ => 9, .dense [fun _ => 6], fun _ => 2⟩ := by
  refine ⟨_, rfl, ?_⟩
  have h : ∀ k : ℝ, (((k * Complex.I).im : ℝ) : ℂ) = k := fun k => by simp
  have h9 : (((9 * Complex.I).im : ℝ) : ℂ) = 9 := by simpa using h 9
  have h6 : (((6 * Complex.I).im : ℝ) : ℂ) = 6 := by simpa using h 6
  have h2 : (((2 * Complex.I).im : ℝ) : ℂ) = 2 := by simpa using h 2
  show Opd.lapl (m := 1) ⟨fun _ => (((9 * Complex.I).im : ℝ) : ℂ), .dense [fun _ => (((6 * Complex.I).im : ℝ) : ℂ)],
    fun _ => (((2 * Complex.I).im : ℝ) : ℂ)⟩ = Opd.lapl (m := 1) ⟨fun _ => 9, .dense [fun _ => 6], fun _ => 2⟩
  rw [h9, h6, h2]

end C38

end Folx

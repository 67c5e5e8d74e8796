import Verif.ND.ElemTotal
import Verif.Props.WrapProps
import Verif.Props.ArrProgProps

/-!
# C61: every elementwise function of the registry, on arrays of all shapes that broadcast

`elemTable` lists the entries with the flags and the rules they are registered with; `e.arr` is the entry as a function of arrays; `ArrFn.call` models the call of the wrapped
function: the Jacobian of the result by the rules for sparse Jacobians, the second-order term by vectorisation over the elements.
-/

namespace Folx
open Vmap Dot Layout

/-- The function of arrays: `e` of the elements that broadcasting brings together. -/
noncomputable def ElemEntry.onArrays (e : ElemEntry) (shape : Fin e.arity → List ℕ) (out : List ℕ) (y : (i : Fin e.arity) → Fin (shape i).prod → ℝ) (w : Fin out.prod) : ℝ :=
  e.fn fun i => (toND (shape i) (y i)).get (bcoord (shape i) out (unravelIdx out w))

/-- The operands are in the domain of `e`, wherever broadcasting brings them together. -/
def ElemEntry.InDomain (e : ElemEntry) (shape : Fin e.arity → List ℕ) (out : List ℕ) (y : (i : Fin e.arity) → Fin (shape i).prod → ℝ) : Prop :=
  ∀ p, InB p out → e.dom fun i => (toND (shape i) (y i)).get (bcoord (shape i) out p)

end Folx

namespace Folx.Layout
open Vmap Dot

theorem arr_fwd {e : ElemEntry} {fil : Bool} {junk : ℝ} {shape : Fin e.arity → List ℕ} {out : List ℕ} (hb : Broadcasts (List.ofFn shape) out) (y : (i : Fin e.arity) → Fin (shape i).prod → ℝ) :
    (e.arr fil junk shape out).fwd y = e.onArrays shape out y :=
  funext fun w => congrArg e.fn (pickAt_get hb (inB_unravelIdx w.2) y)

section
variable {X : Type} [NormedAddCommGroup X] [NormedSpace ℝ X] {B : Base X} {k : ℤ} {e : ElemEntry} {shape : Fin e.arity → List ℕ} {out : List ℕ}
  {o : (i : Fin e.arity) → Opd ℝ (shape i).prod} {u : (i : Fin e.arity) → X → Fin (shape i).prod → ℝ}

/-- **C61 (exact).**  Operands in any mix of plain arrays, dense and sparse Jacobians; any threshold: whatever the call returns holds value, derivatives and Laplacian of the
composition.  (`junk`: what slices hold where Python raises.) -/
theorem C61_exact (T : ℕ) (he : e ∈ elemTable k) (fil : Bool) (junk : ℝ) (hn : 0 < B.n) (hs : ∀ i, 0 ∉ shape i) (h0 : 0 ∉ out) (hb : Broadcasts (List.ofFn shape) out)
    (hdom : e.InDomain shape out fun i => u i B.x0) (ho : ∀ i, OpdRep B (arrInv T B.n) (o i) (u i)) (hl : ∃ i, (o i).isLapl = true) {r : Opd ℝ out.prod}
    (h : (e.arr fil junk shape out).call (fun _ => none) T o = some r) :
    ∃ t, r = .lapl t ∧ TripRep B t (fun y => e.onArrays shape out fun i => u i y) ∧ arrInv T B.n _ t.jac := by
  have hT := elemTable_arr k e he fil junk shape out hs h0 hb _ hdom
  rw [show (fun y => e.onArrays shape out fun i => u i y) = fun y => (e.arr fil junk shape out).fwd fun i => u i y from funext fun y => (arr_fwd hb _).symm]
  obtain ⟨nm, a, fn, flags, d, dom⟩ := e
  cases a with
  | zero => exact absurd hT id
  | succ m =>
    obtain ⟨b, φ, h1, h2⟩ := hT
    obtain ⟨h3, h4⟩ := callOk_of (fun _ J hJ => hJ.1) (fun i => rfl) ho hl
    exact call_sparse hn h1 h2 h3 h4 h

/-- **C61 (sparsity disabled).**  The call returns, and the Jacobian of the result is dense again. -/
theorem C61_dense (T : ℕ) (he : e ∈ elemTable k) (fil : Bool) (junk : ℝ) (hn : 0 < B.n) (hs : ∀ i, 0 ∉ shape i) (h0 : 0 ∉ out) (hb : Broadcasts (List.ofFn shape) out)
    (hdom : e.InDomain shape out fun i => u i B.x0) (ho : ∀ i, OpdRep B (denseInv B.n) (o i) (u i)) (hl : ∃ i, (o i).isLapl = true) :
    ∃ t, (e.arr fil junk shape out).call (fun _ => none) T o = some (.lapl t) ∧ TripRep B t (fun y => e.onArrays shape out fun i => u i y) ∧ denseInv B.n _ t.jac := by
  have hT := elemTable_arr k e he fil junk shape out hs h0 hb _ hdom
  rw [show (fun y => e.onArrays shape out fun i => u i y) = fun y => (e.arr fil junk shape out).fwd fun i => u i y from funext fun y => (arr_fwd hb _).symm]
  obtain ⟨nm, a, fn, flags, d, dom⟩ := e
  cases a with
  | zero => exact absurd hT id
  | succ m =>
    obtain ⟨b, φ, h1, h2⟩ := hT
    obtain ⟨h3, h4⟩ := callOk_of (fun _ J hJ hw => absurd hw (by rw [hJ.1]; decide)) (fun i => rfl) ho hl
    exact call_dense hn h1 h3 h4

/-- **C61 (returns).**  With sparse Jacobians the call returns if all operands carry derivatives, if the function is linear in each operand, or if operands without
derivatives do not enlarge the result (else it raises: B34). -/
theorem C61_returns (T : ℕ) (he : e ∈ elemTable k) (fil : Bool) (junk : ℝ) (hn : 0 < B.n) (hs : ∀ i, 0 ∉ shape i) (h0 : 0 ∉ out) (hb : Broadcasts (List.ofFn shape) out)
    (hdom : e.InDomain shape out fun i => u i B.x0) (ho : ∀ i, OpdRep B (arrInv T B.n) (o i) (u i)) (hl : ∃ i, (o i).isLapl = true)
    (hext : (∀ i, (o i).isLapl = true) ∨ e.flags.has Flags.LINEAR_IN_ONE = true ∨ ∀ i, (o i).isLapl = true → ∃ j, out = List.replicate j 1 ++ shape i) :
    ∃ t, (e.arr fil junk shape out).call (fun _ => none) T o = some (.lapl t) ∧ TripRep B t (fun y => e.onArrays shape out fun i => u i y) ∧ arrInv T B.n _ t.jac := by
  have hT := elemTable_arr k e he fil junk shape out hs h0 hb _ hdom
  have hfl := elemTable_arity k e he
  rw [show (fun y => e.onArrays shape out fun i => u i y) = fun y => (e.arr fil junk shape out).fwd fun i => u i y from funext fun y => (arr_fwd hb _).symm]
  obtain ⟨nm, a, fn, flags, d, dom⟩ := e
  cases a with
  | zero => exact absurd hT id
  | succ m =>
    obtain ⟨b, φ, h1, h2⟩ := hT
    obtain ⟨h3, h4⟩ := callOk_of (fun _ J hJ => hJ.1) (fun i => rfl) ho hl
    exact entry_total hn hb h1 h2 h3 h4 (by have := hfl.1; dsimp only at this; omega) hfl.2 hext

end

/-- **C61 (programs).**  In programs (C59) the entries may be applied to arrays of all shapes that broadcast. -/
theorem C61_programs {k : ℤ} {e : ElemEntry} {shape : Fin e.arity → List ℕ} {out : List ℕ} (he : e ∈ elemTable k) (fil : Bool) (junk : ℝ) (hs : ∀ i, 0 ∉ shape i) (h0 : 0 ∉ out)
    (hb : Broadcasts (List.ofFn shape) out) {x : (i : Fin e.arity) → Fin (shape i).prod → ℝ} (hdom : e.InDomain shape out x) (sp : Bool) (n : ℕ) :
    ArrGood sp n ((e.arr fil junk shape out).prim fun _ => none) x :=
  true_good (elemTable_arr k e he fil junk shape out hs h0 hb x hdom) sp n

/-! ### Examples: a (2, 3) array of inputs divided by a (3,) array of inputs -/

/-- Inputs `off, …` as an operand, with a sparse or a dense Jacobian. -/
noncomputable def exOpd {n : ℕ} (x : Fin n → ℝ) (sp : Bool) (off : ℕ) (s : List ℕ) (h : off + s.prod ≤ n) : Opd ℝ s.prod :=
  .lapl (arrTrip s (inputArr sp n off (toND s (inputPart h x)) (toND s (inputPart h fun _ => 1))))

theorem exOpd_rep {n : ℕ} (x : Fin n → ℝ) (sp : Bool) (T off : ℕ) (s : List ℕ) (h : off + s.prod ≤ n) (h0 : 0 ∉ s) :
    OpdRep (inputBase x fun _ => 1) (arrInv T n) (exOpd x sp off s h) fun y => inputPart h y := by
  refine ⟨tripRep_of_arrRep (C58_input sp h h0 x _), fun hw => ?_, big_rep fun hi => ?_⟩
  · show 0 < (ArrJac.rep s _).nrows
    rw [nrows_rep]
    cases sp with
    | true => simp [inputArr, ND.ofFn]
    | false => exact absurd hw (by simp [arrTrip, inputArr, ArrJac.rep, Jac.weak])
  · cases sp with
    | true => exact absurd hi (by simp [inputArr])
    | false => exact Or.inr (le_of_eq rfl)

def exShape : Fin 2 → List ℕ := Fin.cons [2, 3] fun _ => [3]

theorem exShape_bcast : Broadcasts (List.ofFn exShape) [2, 3] := broadcastShapes_iff.mp (by decide +kernel)

noncomputable def exOps (x : Fin 9 → ℝ) (sp sp' : Bool) : (i : Fin 2) → Opd ℝ (exShape i).prod :=
  Fin.cons (α := fun i => Opd ℝ (exShape i).prod) (exOpd x sp 0 [2, 3] (by decide)) fun i => (exOpd x sp' 6 [3] (by decide) : Opd ℝ ([3] : List ℕ).prod)

noncomputable def exU : (i : Fin 2) → (Fin 9 → ℝ) → Fin (exShape i).prod → ℝ :=
  Fin.cons (α := fun i => (Fin 9 → ℝ) → Fin (exShape i).prod → ℝ) (fun y => inputPart (off := 0) (s := [2, 3]) (by decide) y)
    fun i => (fun y => inputPart (off := 6) (s := [3]) (by decide) y : (Fin 9 → ℝ) → Fin ([3] : List ℕ).prod → ℝ)

theorem exOps_rep (x : Fin 9 → ℝ) (sp sp' : Bool) (T : ℕ) (i : Fin 2) : OpdRep (inputBase x fun _ => 1) (arrInv T 9) (exOps x sp sp' i) (exU i) := by
  fin_cases i
  · exact exOpd_rep x sp T 0 [2, 3] (by decide) (by decide)
  · exact exOpd_rep x sp' T 6 [3] (by decide) (by decide)

theorem ex_dom {x : Fin 9 → ℝ} (hx : ∀ i, 6 ≤ i.val → x i ≠ 0) : divEntry.InDomain exShape [2, 3] fun i => exU i x := by
  intro p hp
  show (toND [3] (inputPart (n := 9) (off := 6) (s := [3]) (by decide) x)).get (bcoord [3] [2, 3] p) ≠ 0
  have hmem : ([3] : List ℕ) ∈ List.ofFn exShape := by decide
  have hin : InB (bcoord [3] [2, 3] p) [3] := inB_bcoord (exShape_bcast.rank_le _ hmem) (aligned_of_broadcasts exShape_bcast hmem).2 hp
  rw [toND_get _ _ hin]
  have h3 : ravelIdx [3] (bcoord [3] [2, 3] p) < 3 := ravelIdx_lt hin
  exact hx ⟨6 + ravelIdx [3] (bcoord [3] [2, 3] p), by omega⟩ (Nat.le_add_right _ _)

/-- The hypotheses of `C61_returns` hold for `div`, in every mix of sparse and dense Jacobians; the last element of the result is `x₅ / x₈`. -/
example (x : Fin 9 → ℝ) (hx : ∀ i, 6 ≤ i.val → x i ≠ 0) (sp sp' : Bool) (T : ℕ) : ∃ t v, (divEntry.arr true 0 exShape [2, 3]).call (fun _ => none) T (exOps x sp sp') = some (.lapl t) ∧
    TripRep (inputBase x fun _ => 1) t v ∧ ∀ y, v y ⟨5, by decide⟩ = y 5 / y 8 := by
  obtain ⟨t, h1, h2, -⟩ := C61_returns (k := 0) (e := divEntry) (o := exOps x sp sp') (u := exU) (B := inputBase x fun _ => 1) T (by simp [elemTable, divEntry]) true 0 (by show 0 < 9; decide)
    (show ∀ i : Fin 2, 0 ∉ exShape i by decide) (by decide) exShape_bcast (ex_dom hx) (exOps_rep x sp sp' T) ⟨(0 : Fin 2), rfl⟩ (Or.inl fun i => by
      have h : ∀ i : Fin 2, (exOps x sp sp' i).isLapl = true := fun i => by fin_cases i <;> rfl
      exact h i)
  exact ⟨t, _, h1, h2, fun y => rfl⟩

end Folx.Layout

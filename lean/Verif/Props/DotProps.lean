import Verif.Prog.DotTotal
import Verif.Props.LibProps

/-!
# C31: `dot_general` is the tensor contraction

`contraction` (`Verif/ND/DotSpec.lean`) is the specification: batch dimensions, left free dimensions, right free
dimensions, each element the sum over the contracted dimensions.
-/

namespace Folx

open Vmap Layout Dot

/-- The specification, read for matrices: `lhs @ rhs`. -/
theorem contraction_matmul {F : Type} [AddMonoid F] [Mul F] [Inhabited F] {x y : ND F} {m k n : ℕ} (hx : x.shape = [m, k])
    (hy : y.shape = [k, n]) (i j : ℕ) (hi : i < m) (hj : j < n) :
    (contraction ⟨[1], [0], [], []⟩ x y).get [i, j] =
      ((List.range k).map fun c => x.get [i, c] * y.get [c, j]).sum := by
  have f1 : freeOf x.shape.length [1] [] = [0] := by rw [hx]; rfl
  have f2 : freeOf y.shape.length [0] [] = [1] := by rw [hy]; rfl
  unfold contraction
  have hw : InB [i, j] (outShape ⟨[1], [0], [], []⟩ x.shape y.shape) := by
    have : outShape ⟨[1], [0], [], []⟩ x.shape y.shape = [m, n] := by
      rw [hx, hy]; rfl
    rw [this]
    exact .cons hi (.cons hj .nil)
  rw [ND.get_ofFn _ hw]
  unfold element
  dsimp only
  rw [f1, f2]
  have hs : sizes x.shape [1] = [k] := by rw [hx]; rfl
  rw [hs, allIdx_single, List.map_map]
  congr 1
  refine List.map_congr_left fun c _ => ?_
  simp only [Function.comp]
  rw [hx, hy]
  rfl

section Value
variable {F : Type} [AddMonoid F] [Mul F] [Inhabited F]

/-- **C31 (general path).**  Unless both operands have sparse Jacobians, `dot_general` returns the contraction, for all
shapes and well-formed dimension numbers. -/
theorem C31_general_value (dd : DotDims) {x y : ND F} (h : dd.Ok x.shape y.shape) :
    dotGeneral dd false x y = some (contraction dd x y) :=
  dotGeneral_spec dd false h (fun h => by simp at h)

/-- **C31 (fast path, `_partial`).**  Also with two sparse operands `dot_general` returns the contraction, except in the
special case "no transpositions needed" (`noTranspose`, taken if the intermediate product is not larger than the larger
operand): there only if the right operand has no free dimensions and the left operand has no free dimensions or there are
no batch dimensions.  Missing: the remaining special cases, where the result is wrong (`C31_counterexample_*`). -/
theorem C31_fast_value_partial (dd : DotDims) (allWeak : Bool) {x y : ND F} (h : dd.Ok x.shape y.shape)
    (hs : interEqIn (leftShape dd x.shape y.shape) (rightShape dd x.shape y.shape) = true →
      noTranspose dd x.shape.length y.shape.length = true →
      freeOf y.shape.length dd.rc dd.rb = [] ∧ (freeOf x.shape.length dd.lc dd.lb = [] ∨ dd.lb = [])) :
    dotGeneral dd allWeak x y = some (contraction dd x y) :=
  dotGeneral_spec dd allWeak h fun _ h1 h2 => ⟨(hs h1 h2).1, (hs h1 h2).2⟩

end Value

/-! A batched product with transpositions: `einsum('bik,kbj->bij', x, y)`, both paths. -/

namespace DotDemo

/-- An array with elements 1, 2, 3, ... -/
def count (s : List ℕ) : ND ℤ := ⟨s, (List.range s.prod).map fun i : ℕ => (i : ℤ) + 1, by simp⟩

/-- `einsum('bik,kbj->bij')`. -/
def dd1 : DotDims := ⟨[2], [0], [0], [1]⟩

example : dd1.Ok [2, 3, 2] [2, 2, 1] := ⟨by decide, by decide, by decide, by decide, by decide, by decide⟩

example : ((dotGeneral dd1 false (count [2, 3, 2]) (count [2, 2, 1])).map fun z => (z.shape, z.data)) =
    some ([2, 3, 1], [7, 15, 23, 46, 58, 70]) := by decide

/-- The product may be taken on the fast path, and there transpositions are needed. -/
example : interEqIn (leftShape dd1 [2, 3, 2] [2, 2, 1]) (rightShape dd1 [2, 3, 2] [2, 2, 1]) = true ∧
    noTranspose dd1 3 3 = false := by decide

/-- The special case without transpositions within the proved condition: `einsum('ik,k->i')`. -/
example : (⟨[1], [0], [], []⟩ : DotDims).Ok [3, 2] [2] ∧
    interEqIn (leftShape ⟨[1], [0], [], []⟩ [3, 2] [2]) (rightShape ⟨[1], [0], [], []⟩ [3, 2] [2]) = true ∧
    noTranspose ⟨[1], [0], [], []⟩ 2 1 = true ∧ freeOf 1 [0] [] = [] :=
  ⟨⟨by decide, by decide, by decide, by decide, by decide, by decide⟩, by decide, by decide, by decide⟩

/-- `einsum('ibk,bk->bi')`: batch dimension behind the free one. -/
def dd2 : DotDims := ⟨[2], [1], [1], [0]⟩

/-- `einsum('k,jk->j')`. -/
def dd3 : DotDims := ⟨[0], [1], [], []⟩

/-- `einsum('ik,jk->ij')`. -/
def dd4 : DotDims := ⟨[1], [1], [], []⟩

end DotDemo

open DotDemo in
/-- **C31 fails** for sparse operands in the special case with batch and free dimensions: the result is transposed. -/
theorem C31_counterexample_order :
    dd2.Ok [2, 2, 1] [2, 1] ∧
    ((dotGeneral dd2 true (count [2, 2, 1]) (count [2, 1])).map fun z => (z.shape, z.data)) = some ([2, 2], [1, 4, 3, 8]) ∧
    ((contraction dd2 (count [2, 2, 1]) (count [2, 1])).shape, (contraction dd2 (count [2, 2, 1]) (count [2, 1])).data) =
      ([2, 2], [1, 3, 4, 8]) :=
  ⟨⟨by decide, by decide, by decide, by decide, by decide, by decide⟩, by decide, by decide⟩

open DotDemo in
/-- **C31 fails** in shape as well: if the batch and the free dimension differ in size, the result has the wrong shape. -/
theorem C31_counterexample_shape :
    dd2.Ok [3, 2, 1] [2, 1] ∧
    ((dotGeneral dd2 true (count [3, 2, 1]) (count [2, 1])).map ND.shape) = some [3, 2] ∧
    (contraction dd2 (count [3, 2, 1]) (count [2, 1])).shape = [2, 3] :=
  ⟨⟨by decide, by decide, by decide, by decide, by decide, by decide⟩, by decide, by decide⟩

open DotDemo in
/-- **C31 fails** if the right operand has more dimensions: the contracted axis of the left operand is used for the
product, whose axes are those of the right operand. -/
theorem C31_counterexample_rank :
    dd3.Ok [2] [3, 2] ∧
    ((dotGeneral dd3 true (count [2]) (count [3, 2])).map fun z => (z.shape, z.data)) = some ([2], [9, 24]) ∧
    ((contraction dd3 (count [2]) (count [3, 2])).shape, (contraction dd3 (count [2]) (count [3, 2])).data) =
      ([3], [5, 11, 17]) :=
  ⟨⟨by decide, by decide, by decide, by decide, by decide, by decide⟩, by decide, by decide⟩

open DotDemo in
/-- **C31 fails** if both operands have free dimensions (one of them of size 1): they are merged. -/
theorem C31_counterexample_merge :
    dd4.Ok [3, 2] [1, 2] ∧
    ((dotGeneral dd4 true (count [3, 2]) (count [1, 2])).map ND.shape) = some [3] ∧
    (contraction dd4 (count [3, 2]) (count [1, 2])).shape = [3, 1] :=
  ⟨⟨by decide, by decide, by decide, by decide, by decide, by decide⟩, by decide, by decide⟩

section Rule
variable {F : Type} [RCLike F]

/-- **C31 (rule, sparsity disabled).**  For all shapes and well-formed dimension numbers, if `dot_general` returns, value,
Jacobian and Laplacian are those of the contraction of the operands' functions. -/
theorem C31_rule_dense (T n : ℕ) (hn : 0 < n) (dd : DotDims) (ls rs : List ℕ) (h : dd.Ok ls rs)
    (x : (i : Fin 2) → Fin (![ls.prod, rs.prod] i) → F) : (dotPrim dd ls rs).ExactRule false T n x :=
  exactRule_of_sound _ _ _ _ _ (dotPrim_sound_aux (stdSound_dense T n hn) h (Or.inl fun _ _ hJ => hJ.1) x)

/-- **C31 (rule, sparsity disabled).**  It does return, for operands with elements. -/
theorem C31_returns (T n : ℕ) (dd : DotDims) (ls rs : List ℕ) (h : dd.Ok ls rs) (hl : 0 < ls.prod) (hr : 0 < rs.prod)
    (x : (i : Fin 2) → Fin (![ls.prod, rs.prod] i) → F) : (dotPrim dd ls rs).TotalAt T n x :=
  dotPrim_total T n h hl hr x

/-- **C31 (rule, sparsity enabled, `_partial`).**  The same for every sparsity threshold and all representations of the
operands, on both paths.  Missing: the special cases of the fast path without transpositions that `C31_fast_value_partial`
excludes. -/
theorem C31_rule_sparse_partial (T n : ℕ) (hn : 0 < n) (dd : DotDims) (ls rs : List ℕ) (h : dd.Ok ls rs)
    (hs : interEqIn (leftShape dd ls rs) (rightShape dd ls rs) = true → noTranspose dd ls.length rs.length = true →
      freeOf rs.length dd.rc dd.rb = [] ∧ (freeOf ls.length dd.lc dd.lb = [] ∨ dd.lb = []))
    (x : (i : Fin 2) → Fin (![ls.prod, rs.prod] i) → F) : (dotPrim dd ls rs).ExactRule true T n x :=
  exactRule_of_sound _ _ _ _ _ (dotPrim_sound_aux (stdSound_sparse T n hn) h (Or.inr fun h1 h2 => ⟨(hs h1 h2).1, (hs h1 h2).2⟩) x)

end Rule

/-! The hypotheses are met: the `2 × 2` matrix of four inputs times a constant vector. -/

namespace DotDemo

/-- Operands and functions of the example. -/
noncomputable def opds (x : Fin 4 → ℝ) (v : Fin 2 → ℝ) : (i : Fin 2) → Opd ℝ (![4, 2] i) :=
  pairOpd (a := 4) (b := 2) (Demo.idOpd x) (.plain v)

/-- Matrix times constant vector: the rule returns and is exact. -/
example (x : Fin 4 → ℝ) (v : Fin 2 → ℝ) : ∃ r : (j : Fin 1) → Opd ℝ 2,
    (dotPrim (F := ℝ) ⟨[1], [0], [], []⟩ [2, 2] [2]).rule 0 (opds x v) = .ok r ∧
    ∀ j, Holds (jacInv false 0 4) (fun _ => 1) x (r j) fun z =>
      (dotPrim (F := ℝ) ⟨[1], [0], [], []⟩ [2, 2] [2]).fwd (fun i => pairFn (a := 4) (b := 2) (fun z => z) (fun _ => v) i z) j := by
  have hok : (⟨[1], [0], [], []⟩ : DotDims).Ok [2, 2] [2] := ⟨by decide, by decide, by decide, by decide, by decide, by decide⟩
  have hh : ∀ i : Fin 2, Holds (jacInv false 0 4) (fun _ => 1) x (opds x v i)
      (pairFn (a := 4) (b := 2) (fun z => z) (fun _ => v) i) := by
    intro i
    match i with
    | 0 => exact Demo.idOpd_holds 0 x
    | 1 => exact Demo.plain_holds _ _ _ v
  have hd : ∀ (i : Fin 2) t, opds x v i = .lapl t → denseInv 4 _ t.jac := by
    intro i t ht
    match i with
    | 0 =>
      have := Demo.idOpd_holds 0 x
      have e : Demo.idOpd x = .lapl t := ht
      rw [e] at this
      exact this.2.2
    | 1 =>
      have e : (Opd.plain v : Opd ℝ 2) = .lapl t := ht
      simp at e
  obtain ⟨r, hr⟩ := C31_returns (F := ℝ) 0 4 _ [2, 2] [2] hok (by decide) (by decide) (fun i => (opds x v i).x)
    (opds x v) (fun _ => rfl) ⟨(0 : Fin 2), rfl⟩ hd
  exact ⟨r, hr, C31_rule_dense (F := ℝ) 0 4 (by norm_num) _ [2, 2] [2] hok
    (fun i => pairFn (a := 4) (b := 2) (fun z => z) (fun _ => v) i x) (fun _ => 1) x _
    (pairFn (a := 4) (b := 2) (fun z => z) (fun _ => v)) r (fun _ => rfl) hh ⟨(0 : Fin 2), rfl⟩ hr⟩

end DotDemo

end Folx

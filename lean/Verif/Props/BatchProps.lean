import Verif.ND.BatchProofs

/-!
# C23, C24: batched `vmap`
-/

namespace Folx.Batch

variable {α : Type} [Inhabited α]

/-- **C23.**  For every function JAX can trace, every batch size limit `≥ 1`, every batch length, all (positive or
negative) input and output axes and any static arguments, `batched_vmap` returns exactly what `vmap` returns. -/
theorem C23_batched_vmap {fn : Grouped α → Grouped α} (hfn : Traced fn) {maxBatch B : ℕ} (hmax : 0 < maxBatch)
    {inAxes : List (Option ℤ)} {outAxes : List ℤ} {args : Grouped α} (hok : VmapOk B inAxes args)
    (hout : OutOk outAxes (shapes (fn (sliceArgs inAxes args 0)))) :
    batchedVmap fn maxBatch inAxes outAxes args = some (vmap fn B inAxes outAxes args) :=
  batchedVmap_eq hfn hmax hok hout

/-- **C23 (meaning).**  What `vmap` (hence `batched_vmap`) returns: slice `i` of every result along its output axis
is the result of `fn` on slice `i` of the mapped arguments and the static arguments, and there are `B` slices. -/
theorem C23_meaning {fn : Grouped α → Grouped α} (hfn : Traced fn) {maxBatch B : ℕ} (hmax : 0 < maxBatch)
    {inAxes : List (Option ℤ)} {outAxes : List ℤ} {args : Grouped α} (hok : VmapOk B inAxes args)
    (hout : OutOk outAxes (shapes (fn (sliceArgs inAxes args 0)))) {r : Grouped α}
    (hr : batchedVmap fn maxBatch inAxes outAxes args = some r) {g l : ℕ} {s : List ℕ}
    (hat : At (shapes (fn (sliceArgs inAxes args 0))) g l s) :
    (leafAt r g l).shape = s.insertIdx (normAxis (s.length + 1) (outAxes.getD g 0)) B ∧
    ∀ i < B, (leafAt r g l).take i (normAxis (s.length + 1) (outAxes.getD g 0)) =
      leafAt (fn (sliceArgs inAxes args i)) g l := by
  rw [C23_batched_vmap hfn hmax hok hout] at hr
  obtain rfl := Option.some.inj hr
  unfold vmap
  rw [stackGrouped_eq rfl, leafAt_grid hat]
  refine ⟨rfl, fun i hi => ?_⟩
  obtain ⟨h1, h2⟩ := hout.2 g l s hat
  have hlt := normAxis_lt h1 h2
  exact ND.take_stack (y := fun i => leafAt (fn (sliceArgs inAxes args i)) g l) hi (by omega)
    (leafAt_shape (hfn _ _ (shapes_sliceArgs inAxes args i 0)) hat)

/-- **C24 (batch size).**  Whatever the estimates say (zero, negative, huge), the batch size is at least one. -/
theorem C24_batch_size (targetMem : ℚ) (single pair : ℤ) : 1 ≤ autoBatchSize targetMem single pair := by
  unfold autoBatchSize
  simp only
  split
  · norm_num
  · have : (1 : ℤ) ≤ max ⌊(targetMem - ((single - (pair - single) : ℤ) : ℚ)) / ((pair - single : ℤ) : ℚ)⌋ 1 :=
      le_max_right _ _
    omega

/-- **C24.**  On a device that reports its memory limit, `auto_batched_vmap` returns what `vmap` returns, for every
outcome of the memory estimates: failing, zero, negative or anything else. -/
theorem C24_auto_batched_vmap (targetMem : ℚ) (estimates : Option (ℤ × ℤ)) {fn : Grouped α → Grouped α}
    (hfn : Traced fn) {B : ℕ} {inAxes : List (Option ℤ)} {outAxes : List ℤ} {args : Grouped α}
    (hok : VmapOk B inAxes args) (hout : OutOk outAxes (shapes (fn (sliceArgs inAxes args 0)))) :
    autoBatchedVmap (some targetMem) estimates fn inAxes outAxes args = some (vmap fn B inAxes outAxes args) := by
  unfold autoBatchedVmap
  rcases estimates with _ | ⟨single, pair⟩
  · exact C23_batched_vmap hfn one_pos hok hout
  · simp only [C23_batched_vmap hfn (C24_batch_size targetMem single pair) hok hout]

/-- On a device without memory statistics (the CPU backend of JAX) the decorator raises. -/
theorem C24_no_statistics (estimates : Option (ℤ × ℤ)) (fn : Grouped α → Grouped α) (inAxes : List (Option ℤ))
    (outAxes : List ℤ) (args : Grouped α) : autoBatchedVmap none estimates fn inAxes outAxes args = none := rfl

namespace Demo

/-- `lambda x, y: (x + y, [x * x])` on natural numbers with a static scalar `y`. -/
def fn (a : Grouped ℕ) : Grouped ℕ :=
  [[ND.ofFn (leafAt a 0 0).shape fun i => (leafAt a 0 0).get i + (leafAt a 1 0).get []],
   [ND.ofFn (leafAt a 0 0).shape fun i => (leafAt a 0 0).get i * (leafAt a 0 0).get i]]

theorem leafAt_shape_eq (a : Grouped ℕ) (g l : ℕ) : (leafAt a g l).shape = ((shapes a).getD g []).getD l [0] := by
  unfold leafAt shapes
  simp only [List.getD_eq_getElem?_getD, List.getElem?_map]
  rcases a[g]? with _ | leaves
  · rfl
  · simp only [Option.map_some, Option.getD_some, List.getElem?_map]
    rcases leaves[l]? with _ | x <;> rfl

theorem fn_traced : Traced fn := by
  intro a b h
  have : (leafAt a 0 0).shape = (leafAt b 0 0).shape := by rw [leafAt_shape_eq, leafAt_shape_eq, h]
  simp [shapes, fn, this]

/-- `x` has shape `(2, 5)`, mapped over its last axis; `y` is static. -/
def args : Grouped ℕ := [[⟨[2, 5], [0, 1, 2, 3, 4, 5, 6, 7, 8, 9], rfl⟩], [⟨[], [100], rfl⟩]]

theorem args_ok : VmapOk 5 [some (-1), none] args := by
  refine ⟨rfl, ?_, ⟨_, _, rfl⟩⟩
  simp [args, ND.ndim, normAxis]

theorem out_ok : OutOk [1, -2] (shapes (fn (sliceArgs [some (-1), none] args 0))) := by
  have h : shapes (fn (sliceArgs [some (-1), none] args 0)) = [[[2]], [[2]]] := rfl
  rw [h]
  refine ⟨rfl, ?_⟩
  rintro g l s ⟨ss, h1, h2⟩
  match g with
  | 0 =>
    simp only [List.length_cons, List.getElem?_cons_zero, Option.some.injEq] at h1
    subst h1
    match l with
    | 0 => simp only [List.getElem?_cons_zero, Option.some.injEq] at h2; subst h2; decide
    | l + 1 => simp at h2
  | 1 =>
    simp only [List.getElem?_cons_succ, List.getElem?_cons_zero, Option.some.injEq] at h1
    subst h1
    match l with
    | 0 => simp only [List.getElem?_cons_zero, Option.some.injEq] at h2; subst h2; decide
    | l + 1 => simp at h2
  | g + 2 => simp at h1

/-- Batch length 5 in batches of 2: one element is computed separately. -/
example : batchedVmap fn 2 [some (-1), none] [1, -2] args = some (vmap fn 5 [some (-1), none] [1, -2] args) :=
  C23_batched_vmap fn_traced (by norm_num) args_ok out_ok

example : (batchedVmap fn 2 [some (-1), none] [1, -2] args).map (fun r => r.map fun g => g.map fun x => (x.shape, x.data)) =
    some [[([2, 5], [100, 101, 102, 103, 104, 105, 106, 107, 108, 109])],
      [([5, 2], [0, 25, 1, 36, 4, 49, 9, 64, 16, 81])]] := by
  decide +kernel

example : autoBatchedVmap (some 10) (some (7, 3)) fn [some (-1), none] [1, -2] args =
    some (vmap fn 5 [some (-1), none] [1, -2] args) :=
  C24_auto_batched_vmap 10 _ fn_traced args_ok out_ok

end Demo

end Folx.Batch

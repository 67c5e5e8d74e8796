import Verif.ND.VmapBcast

/-!
# C34: vectorising over broadcast axes
-/

namespace Folx.Vmap

variable {α β : Type} [Inhabited α] [Inhabited β]

/-- **C34.**  For arrays of any ranks and shapes, excluding any axes, if the remaining shapes broadcast (numpy rules) to
`b`, then the sequence of nested `vmap`s on the squeezed arrays returns, in row-major order over `b`, the function applied
to the sub-arrays numpy broadcasting pairs up. -/
theorem C34_broadcast {f : List (ND α) → ND β} (hf : TracedFn f) {args : List (ND α × List ℕ)}
    (hs : ∀ a ∈ args, ValidSkip a.1.shape a.2) {b : List ℕ}
    (hb : Broadcasts (args.map fun a => otherShape a.1.shape a.2) b) :
    vmapped f args = some (broadcastApply f args b).data :=
  vmapped_spec f hf args hs (broadcastShapes_iff.mpr hb)

/-- **C34 (meaning).**  The element of the result at broadcast position `v` and output coordinate `o` is that element of
`f` applied to the sub-arrays at `v`. -/
theorem C34_meaning {f : List (ND α) → ND β} (hf : TracedFn f) {args : List (ND α × List ℕ)}
    (hs : ∀ a ∈ args, ValidSkip a.1.shape a.2) {b : List ℕ}
    (hb : Broadcasts (args.map fun a => otherShape a.1.shape a.2) b) {r : List β} (hr : vmapped f args = some r)
    {v o : List ℕ} (hv : InB v b) (ho : InB o (f (args.map fun a => bslice a.1 a.2 b v)).shape) :
    r.getD (ravelIdx (b ++ (f (args.map fun a => bslice a.1 a.2 b v)).shape) (v ++ o)) default =
      (f (args.map fun a => bslice a.1 a.2 b v)).get o := by
  rw [C34_broadcast hf hs hb] at hr
  obtain rfl := Option.some.inj hr
  have hsh : (f (args.map fun a => bslice a.1 a.2 b v)).shape = (f (args.map fun a => bslice a.1 a.2 b [])).shape := by
    refine hf _ _ ?_
    rw [List.map_map, List.map_map]
    exact List.map_congr_left fun a _ => rfl
  have hidx : InB (v ++ o) (b ++ (f (args.map fun a => bslice a.1 a.2 b [])).shape) :=
    List.rel_append hv (hsh ▸ ho)
  have := ND.get_ofFn (fun idx => (f (args.map fun a => bslice a.1 a.2 b (idx.take b.length))).get
    (idx.drop b.length)) hidx
  have hl := hv.length_eq
  rw [List.take_left' hl, List.drop_left' hl] at this
  rw [← this, hsh]
  rfl

/-- **C34 (coordinates).**  What a sub-array is: along the excluded axes it takes every coordinate, along the other axes
the coordinate of the position it is aligned with from the back, or 0 along axes of size 1. -/
theorem C34_slice (x : ND α) (skip b v : List ℕ) {c : List ℕ} (hc : InB c (skipShape x.shape skip)) :
    (bslice x skip b v).get c = x.get (bindex x.shape skip b v c) := ND.get_ofFn _ hc

/-- **C34 (incompatible shapes).**  If the shapes do not broadcast, the call raises. -/
theorem C34_incompatible (f : List (ND α) → ND β) (args : List (ND α × List ℕ))
    (h : ¬ ∃ b, Broadcasts (args.map fun a => otherShape a.1.shape a.2) b) : vmapped f args = none := by
  unfold vmapped vmapSequences
  rw [List.map_map]
  cases hb : broadcastShapes (args.map fun a => otherShape a.1.shape a.2) with
  | none =>
    have : broadcastShapes (args.map ((fun a => removeAxes a.1 a.2) ∘ fun a => (a.1.shape, a.2))) = none := hb
    rw [this]
  | some b => exact absurd ⟨b, broadcastShapes_iff.mp hb⟩ h

/-- **C34 (axes).**  `None` excludes all axes; a negative axis counts from the back; an axis that is too large raises. -/
theorem C34_canonicalize (ndim : ℕ) :
    canonicalize .none ndim = some ((List.range ndim).map fun (i : ℕ) => (i : ℤ)) ∧
    (∀ k : ℕ, k < ndim → canonicalize (.int (k : ℤ)) ndim = some [(k : ℤ)]) ∧
    (∀ k : ℕ, k < ndim → canonicalize (.int (-(k : ℤ) - 1)) ndim = some [((ndim - 1 - k : ℕ) : ℤ)]) ∧
    (∀ k : ℕ, ndim ≤ k → canonicalize (.int (k : ℤ)) ndim = none) := by
  refine ⟨?_, ?_, ?_, ?_⟩
  · unfold canonicalize
    have e : ((List.range ndim).map fun (i : ℕ) => (i : ℤ)).map
        (fun (i : ℤ) => if i ≥ 0 then i else i + (ndim : ℤ)) = (List.range ndim).map fun (i : ℕ) => (i : ℤ) := by
      rw [List.map_map]
      exact List.map_congr_left fun i _ => by simp
    dsimp only
    rw [e, if_pos]
    intro i hi
    obtain ⟨k, hk, rfl⟩ := List.mem_map.mp hi
    have := List.mem_range.mp hk
    omega
  · intro k hk
    unfold canonicalize
    simp [hk]
  · intro k hk
    have h1 : ¬ (-(k : ℤ) - 1 ≥ 0) := by omega
    have h2 : -(k : ℤ) - 1 + (ndim : ℤ) = ((ndim - 1 - k : ℕ) : ℤ) := by omega
    unfold canonicalize
    simp only [List.map_cons, List.map_nil, if_neg h1, h2]
    rw [if_pos]
    intro i hi
    rw [List.mem_singleton.mp hi]
    omega
  · intro k hk
    unfold canonicalize
    simp [hk]

/-! Example: rows of a `2 × 1 × 3` array against rows of a `4 × 3` array: broadcast shape `2 × 4`. -/

/-- Test function: dot product of two vectors. -/
def dotEx (xs : List (ND ℕ)) : ND ℕ :=
  ND.ofFn [] fun _ => (List.zipWith (· * ·) ((xs.getD 0 ⟨[0], [], rfl⟩).data) ((xs.getD 1 ⟨[0], [], rfl⟩).data)).sum

/-- Test arguments. -/
def argsEx : List (ND ℕ × List ℕ) :=
  [(⟨[2, 1, 3], [1, 2, 3, 4, 5, 6], rfl⟩, [2]), (⟨[4, 3], [1, 0, 0, 0, 1, 0, 0, 0, 1, 1, 1, 1], rfl⟩, [1])]

example : TracedFn dotEx := fun _ _ _ => rfl

example : ∀ a ∈ argsEx, ValidSkip a.1.shape a.2 := by
  intro a ha
  simp only [argsEx, List.mem_cons, List.not_mem_nil, or_false] at ha
  rcases ha with rfl | rfl <;> simp [ValidSkip]

example : Broadcasts (argsEx.map fun a => otherShape a.1.shape a.2) [2, 4] :=
  broadcastShapes_iff.mp (by decide)

example : vmapped dotEx argsEx = some [1, 2, 3, 6, 4, 5, 6, 15] := by decide

end Folx.Vmap

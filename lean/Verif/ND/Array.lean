import Mathlib.Data.List.Forall2
import Mathlib.Data.List.InsertIdx
import Mathlib.Data.List.GetD
import Mathlib.Algebra.BigOperators.Group.List.Basic
import Mathlib.Tactic.Ring

/-!
# n-dimensional arrays in row-major layout

The memory model of `numpy`/`jax.numpy` arrays as far as folx's axis handling needs it: a shape and the list of
elements in row-major order.
-/

namespace Folx

/-- `idx` is a valid multi-index of an array of the given shape. -/
def InB : List ℕ → List ℕ → Prop := List.Forall₂ (· < ·)

/-- Row-major position of a multi-index. -/
def ravelIdx : List ℕ → List ℕ → ℕ
  | _ :: ss, i :: is => i * ss.prod + ravelIdx ss is
  | _, _ => 0

/-- Multi-index of a row-major position. -/
def unravelIdx : List ℕ → ℕ → List ℕ
  | [], _ => []
  | _ :: ss, k => k / ss.prod :: unravelIdx ss (k % ss.prod)

@[simp] theorem InB.nil_right {i : List ℕ} : InB i [] ↔ i = [] := List.forall₂_nil_right_iff

@[simp] theorem InB.nil_left {s : List ℕ} : InB [] s ↔ s = [] := List.forall₂_nil_left_iff

@[simp] theorem InB.cons_cons {i s : ℕ} {is ss : List ℕ} : InB (i :: is) (s :: ss) ↔ i < s ∧ InB is ss :=
  List.forall₂_cons

theorem InB.length_eq {i s : List ℕ} (h : InB i s) : i.length = s.length := List.Forall₂.length_eq h

theorem InB.cons_right {i : List ℕ} {s : ℕ} {ss : List ℕ} (h : InB i (s :: ss)) :
    ∃ a is, i = a :: is ∧ a < s ∧ InB is ss := by
  obtain ⟨a, u, h1, h2, h3⟩ := List.forall₂_cons_right_iff.1 h
  exact ⟨a, u, h3, h1, h2⟩

theorem ravelIdx_lt {s i : List ℕ} (h : InB i s) : ravelIdx s i < s.prod := by
  induction s generalizing i with
  | nil => rw [InB.nil_right.1 h]; simp [ravelIdx]
  | cons s ss ih =>
    obtain ⟨a, is, rfl, ha, hi⟩ := h.cons_right
    have := ih hi
    rw [ravelIdx, List.prod_cons]
    calc a * ss.prod + ravelIdx ss is < a * ss.prod + ss.prod := by omega
      _ = (a + 1) * ss.prod := by ring
      _ ≤ s * ss.prod := Nat.mul_le_mul_right _ ha

theorem unravelIdx_ravelIdx {s i : List ℕ} (h : InB i s) : unravelIdx s (ravelIdx s i) = i := by
  induction s generalizing i with
  | nil => rw [InB.nil_right.1 h]; rfl
  | cons s ss ih =>
    obtain ⟨a, is, rfl, ha, hi⟩ := h.cons_right
    have := ravelIdx_lt hi
    rw [ravelIdx, unravelIdx]
    have h1 : (a * ss.prod + ravelIdx ss is) / ss.prod = a := by
      rw [Nat.mul_comm, Nat.mul_add_div (by omega), Nat.div_eq_of_lt this, Nat.add_zero]
    have h2 : (a * ss.prod + ravelIdx ss is) % ss.prod = ravelIdx ss is := by
      rw [Nat.mul_comm, Nat.mul_add_mod, Nat.mod_eq_of_lt this]
    rw [h1, h2, ih hi]

theorem inB_unravelIdx {s : List ℕ} {k : ℕ} (h : k < s.prod) : InB (unravelIdx s k) s := by
  induction s generalizing k with
  | nil => simp [unravelIdx]
  | cons s ss ih =>
    rw [List.prod_cons] at h
    have hp : 0 < ss.prod := Nat.pos_of_ne_zero fun h0 => by simp [h0] at h
    rw [unravelIdx, InB.cons_cons]
    exact ⟨Nat.div_lt_of_lt_mul (by rwa [Nat.mul_comm]), ih (Nat.mod_lt _ hp)⟩

theorem ravelIdx_unravelIdx {s : List ℕ} {k : ℕ} (h : k < s.prod) : ravelIdx s (unravelIdx s k) = k := by
  induction s generalizing k with
  | nil => simp only [List.prod_nil] at h; simp [unravelIdx, ravelIdx]; omega
  | cons s ss ih =>
    rw [List.prod_cons] at h
    have hp : 0 < ss.prod := Nat.pos_of_ne_zero fun h0 => by simp [h0] at h
    rw [unravelIdx, ravelIdx, ih (Nat.mod_lt _ hp), Nat.mul_comm]
    exact Nat.div_add_mod k ss.prod

/-- Inserting a coordinate. -/
theorem InB.insertIdx {i s : List ℕ} (h : InB i s) {k a b : ℕ} (hk : k ≤ s.length) (hab : a < b) :
    InB (i.insertIdx k a) (s.insertIdx k b) := by
  induction k generalizing i s with
  | zero => simpa using ⟨hab, h⟩
  | succ k ih =>
    cases s with
    | nil => simp at hk
    | cons s ss =>
      obtain ⟨c, is, rfl, hc, hi⟩ := h.cons_right
      simp only [List.insertIdx_succ_cons, InB.cons_cons]
      exact ⟨hc, ih hi (by simpa using hk)⟩

theorem InB.eraseIdx {i s : List ℕ} (h : InB i s) (k : ℕ) : InB (i.eraseIdx k) (s.eraseIdx k) := by
  induction k generalizing i s with
  | zero =>
    cases s with
    | nil => rw [InB.nil_right.1 h]; simp
    | cons s ss =>
      obtain ⟨c, is, rfl, hc, hi⟩ := h.cons_right
      simpa using hi
  | succ k ih =>
    cases s with
    | nil => rw [InB.nil_right.1 h]; simp
    | cons s ss =>
      obtain ⟨c, is, rfl, hc, hi⟩ := h.cons_right
      simp only [List.eraseIdx_cons_succ, InB.cons_cons]
      exact ⟨hc, ih hi⟩

theorem InB.getD_lt {i s : List ℕ} (h : InB i s) {k : ℕ} (hk : k < s.length) : i.getD k 0 < s.getD k 0 := by
  induction k generalizing i s with
  | zero =>
    cases s with
    | nil => simp at hk
    | cons s ss =>
      obtain ⟨c, is, rfl, hc, hi⟩ := h.cons_right
      simpa using hc
  | succ k ih =>
    cases s with
    | nil => simp at hk
    | cons s ss =>
      obtain ⟨c, is, rfl, hc, hi⟩ := h.cons_right
      simpa using ih hi (by simpa using hk)

theorem insertIdx_eraseIdx_getD {l : List ℕ} {k : ℕ} (hk : k < l.length) :
    (l.eraseIdx k).insertIdx k (l.getD k 0) = l := by
  rw [List.getD_eq_getElem _ _ hk, List.insertIdx_eraseIdx_getElem hk]

theorem getD_insertIdx_self {l : List ℕ} {k a : ℕ} (hk : k ≤ l.length) : (l.insertIdx k a).getD k 0 = a := by
  rw [List.getD_eq_getElem?_getD, List.getElem?_insertIdx_self]
  simp [hk]

/-- A row-major array. -/
structure ND (α : Type) where
  shape : List ℕ
  data : List α
  wf : data.length = shape.prod

namespace ND
variable {α β : Type}

/-- `x.ndim`. -/
def ndim (x : ND α) : ℕ := x.shape.length

/-- `x[idx]` for a full multi-index. -/
def get [Inhabited α] (x : ND α) (idx : List ℕ) : α := x.data.getD (ravelIdx x.shape idx) default

/-- The array with the given elements. -/
def ofFn (shape : List ℕ) (f : List ℕ → α) : ND α :=
  ⟨shape, (List.range shape.prod).map fun k => f (unravelIdx shape k), by simp⟩

@[simp] theorem shape_ofFn (shape : List ℕ) (f : List ℕ → α) : (ofFn shape f).shape = shape := rfl

theorem get_ofFn [Inhabited α] {shape : List ℕ} (f : List ℕ → α) {idx : List ℕ} (h : InB idx shape) :
    (ofFn shape f).get idx = f idx := by
  have := ravelIdx_lt h
  simp only [get, ofFn]
  rw [List.getD_eq_getElem _ _ (by simpa using this)]
  simp [unravelIdx_ravelIdx h]

theorem ext' {x y : ND α} (hs : x.shape = y.shape) (hd : x.data = y.data) : x = y := by
  cases x; cases y; subst hs; subst hd; rfl

/-- Arrays with the same shape and the same elements are equal. -/
theorem ext_get [Inhabited α] {x y : ND α} (hs : x.shape = y.shape)
    (h : ∀ idx, InB idx x.shape → x.get idx = y.get idx) : x = y := by
  refine ext' hs (List.ext_getElem (by rw [x.wf, y.wf, hs]) fun k h1 h2 => ?_)
  have hk : k < x.shape.prod := x.wf ▸ h1
  have := h _ (inB_unravelIdx hk)
  unfold get at this
  rw [← hs, ravelIdx_unravelIdx hk, List.getD_eq_getElem _ _ h1, List.getD_eq_getElem _ _ h2] at this
  exact this

/-- `x.reshape(shape)`: the same elements in row-major order. -/
def reshape (x : ND α) (shape : List ℕ) (h : x.shape.prod = shape.prod) : ND α :=
  ⟨shape, x.data, x.wf.trans h⟩

/-- Map over the elements. -/
def map (f : α → β) (x : ND α) : ND β := ⟨x.shape, x.data.map f, by simp [x.wf]⟩

/-- `np.moveaxis(x, src, dst)` for non-negative axes. -/
def moveaxis [Inhabited α] (x : ND α) (src dst : ℕ) : ND α :=
  ofFn ((x.shape.eraseIdx src).insertIdx dst (x.shape.getD src 0)) fun idx =>
    x.get ((idx.eraseIdx dst).insertIdx src (idx.getD dst 0))

/-- `jnp.take(x, i, axis)`: the slice of an array along an axis. -/
def take [Inhabited α] (x : ND α) (i axis : ℕ) : ND α :=
  ofFn (x.shape.eraseIdx axis) fun idx => x.get (idx.insertIdx axis i)

/-- `jnp.stack([y 0, ..., y (n-1)], axis)` for arrays of the given shape. -/
def stack [Inhabited α] (n : ℕ) (shape : List ℕ) (y : ℕ → ND α) (axis : ℕ) : ND α :=
  ofFn (shape.insertIdx axis n) fun idx => (y (idx.getD axis 0)).get (idx.eraseIdx axis)

theorem shape_take [Inhabited α] (x : ND α) (i axis : ℕ) : (x.take i axis).shape = x.shape.eraseIdx axis := rfl

theorem get_take [Inhabited α] (x : ND α) (i axis : ℕ) {idx : List ℕ} (h : InB idx (x.shape.eraseIdx axis)) :
    (x.take i axis).get idx = x.get (idx.insertIdx axis i) := get_ofFn _ h

theorem shape_stack [Inhabited α] (n : ℕ) (shape : List ℕ) (y : ℕ → ND α) (axis : ℕ) :
    (stack n shape y axis).shape = shape.insertIdx axis n := rfl

theorem get_stack [Inhabited α] (n : ℕ) (shape : List ℕ) (y : ℕ → ND α) (axis : ℕ) {idx : List ℕ}
    (h : InB idx (shape.insertIdx axis n)) :
    (stack n shape y axis).get idx = (y (idx.getD axis 0)).get (idx.eraseIdx axis) := get_ofFn _ h

/-- Stacking and slicing are inverse. -/
theorem take_stack [Inhabited α] {n : ℕ} {shape : List ℕ} {y : ℕ → ND α} {axis i : ℕ} (hi : i < n)
    (hax : axis ≤ shape.length) (hs : (y i).shape = shape) : (stack n shape y axis).take i axis = y i := by
  refine ext_get (by rw [shape_take, shape_stack, List.eraseIdx_insertIdx_self, hs]) fun idx hidx => ?_
  have hidx' := hidx
  rw [shape_take, shape_stack, List.eraseIdx_insertIdx_self] at hidx'
  have hl := hidx'.length_eq
  rw [get_take _ _ _ hidx, get_stack _ _ _ _ (hidx'.insertIdx hax hi), getD_insertIdx_self (by omega),
    List.eraseIdx_insertIdx_self]

theorem shape_moveaxis [Inhabited α] (x : ND α) (src dst : ℕ) :
    (x.moveaxis src dst).shape = (x.shape.eraseIdx src).insertIdx dst (x.shape.getD src 0) := rfl

/-- Slices along the moved axis. -/
theorem take_moveaxis [Inhabited α] (x : ND α) {src dst i : ℕ} (hs : src < x.ndim) (hd : dst < x.ndim)
    (hi : i < x.shape.getD src 0) : (x.moveaxis src dst).take i dst = x.take i src := by
  have hd' : dst ≤ (x.shape.eraseIdx src).length := by
    rw [List.length_eraseIdx]; unfold ndim at hs hd; split <;> omega
  refine ext_get (by rw [shape_take, shape_take, shape_moveaxis, List.eraseIdx_insertIdx_self]) fun idx hidx => ?_
  have hidx' := hidx
  rw [shape_take, shape_moveaxis, List.eraseIdx_insertIdx_self] at hidx'
  have hl := hidx'.length_eq
  rw [get_take _ _ _ hidx, get_take _ _ _ hidx']
  unfold moveaxis
  rw [get_ofFn _ (hidx'.insertIdx hd' hi), getD_insertIdx_self (by omega), List.eraseIdx_insertIdx_self]

/-- An array is determined by its slices along an axis. -/
theorem ext_take [Inhabited α] {x y : ND α} {axis : ℕ} (hs : x.shape = y.shape) (hax : axis < x.ndim)
    (h : ∀ i < x.shape.getD axis 0, x.take i axis = y.take i axis) : x = y := by
  refine ext_get hs fun idx hidx => ?_
  have hi := hidx.getD_lt hax
  have h1 := congrArg (fun z => z.get (idx.eraseIdx axis)) (h _ hi)
  have he := hidx.eraseIdx axis
  rw [get_take _ _ _ he, get_take _ _ _ (hs ▸ he),
    insertIdx_eraseIdx_getD (by rw [hidx.length_eq]; exact hax)] at h1
  exact h1

/-! ### Rows along the leading axis, in terms of the data -/

/-- Row `i` of an array with at least one axis: `x[i]`. -/
def row (x : ND α) (i : ℕ) (n : ℕ) (rest : List ℕ) (h : x.shape = n :: rest) (hi : i < n) : ND α :=
  ⟨rest, (x.data.drop (i * rest.prod)).take rest.prod, by
    rw [List.length_take, List.length_drop, x.wf, h, List.prod_cons]
    have : (i + 1) * rest.prod ≤ n * rest.prod := Nat.mul_le_mul_right _ hi
    have h2 : (i + 1) * rest.prod = i * rest.prod + rest.prod := by ring
    omega⟩

theorem take_zero_eq [Inhabited α] (x : ND α) {i n : ℕ} {rest : List ℕ} (h : x.shape = n :: rest) (hi : i < n) :
    x.take i 0 = x.row i n rest h hi := by
  have hs : (x.take i 0).shape = rest := by rw [shape_take, h]; rfl
  refine ext_get hs fun idx hidx => ?_
  have hidx2 := hidx
  rw [hs] at hidx
  rw [get_take _ _ _ hidx2, List.insertIdx_zero]
  have hlt := ravelIdx_lt hidx
  unfold get
  rw [h, ravelIdx]
  show _ = ((x.data.drop (i * rest.prod)).take rest.prod).getD (ravelIdx rest idx) default
  rw [List.getD_eq_getElem?_getD, List.getD_eq_getElem?_getD, List.getElem?_take, if_pos hlt, List.getElem?_drop]

theorem data_take_zero [Inhabited α] (x : ND α) {i n : ℕ} {rest : List ℕ} (h : x.shape = n :: rest) (hi : i < n) :
    (x.take i 0).data = (x.data.drop (i * rest.prod)).take rest.prod := by
  rw [take_zero_eq x h hi]; rfl

end ND

end Folx

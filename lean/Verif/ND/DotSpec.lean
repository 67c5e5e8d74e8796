import Verif.ND.Array
import Mathlib.Data.List.Nodup

/-!
# Specification: tensor contraction

XLA's DotGeneral: the output dimensions are the batch dimensions, the free dimensions of the left operand, the free
dimensions of the right operand; every element is a sum over the contracted dimensions.
-/

namespace Folx.Dot

/-- All multi-indices of a shape (row-major). -/
def allIdx (s : List ℕ) : List (List ℕ) := (List.range s.prod).map (unravelIdx s)

theorem mem_allIdx {s w : List ℕ} : w ∈ allIdx s ↔ InB w s := by
  unfold allIdx
  rw [List.mem_map]
  constructor
  · rintro ⟨k, hk, rfl⟩
    exact inB_unravelIdx (by simpa using hk)
  · intro h
    exact ⟨ravelIdx s w, by simpa using ravelIdx_lt h, unravelIdx_ravelIdx h⟩

theorem nodup_allIdx (s : List ℕ) : (allIdx s).Nodup := by
  refine List.Nodup.map_on ?_ List.nodup_range
  intro a ha b hb h
  rw [← ravelIdx_unravelIdx (s := s) (k := a) (by simpa using ha),
    ← ravelIdx_unravelIdx (s := s) (k := b) (by simpa using hb), h]

/-- The multi-index of `n` coordinates whose coordinate along `dims[j]` is `coords[j]`. -/
def place (n : ℕ) (dims coords : List ℕ) : List ℕ :=
  (List.range n).map fun d => coords.getD (dims.idxOf d) 0

/-- `dimension_numbers` of `dot_general`: contracted and batch dimensions of both operands. -/
structure DotDims where
  lc : List ℕ
  rc : List ℕ
  lb : List ℕ
  rb : List ℕ

/-- Sizes of dimensions. -/
def sizes (shape dims : List ℕ) : List ℕ := dims.map fun d => shape.getD d 0

/-- The dimensions that are neither contracted nor batch dimensions, in order. -/
def freeOf (n : ℕ) (c b : List ℕ) : List ℕ := (List.range n).filter fun d => decide (d ∉ b ++ c)

/-- Well-formed dimension numbers for operands of the given shapes: distinct existing dimensions, equal sizes. -/
structure DotDims.Ok (dd : DotDims) (ls rs : List ℕ) : Prop where
  lnodup : (dd.lb ++ dd.lc).Nodup
  rnodup : (dd.rb ++ dd.rc).Nodup
  llt : ∀ d ∈ dd.lb ++ dd.lc, d < ls.length
  rlt : ∀ d ∈ dd.rb ++ dd.rc, d < rs.length
  contract : sizes ls dd.lc = sizes rs dd.rc
  batch : sizes ls dd.lb = sizes rs dd.rb

variable {F : Type} [AddMonoid F] [Mul F] [Inhabited F]

/-- Shape of the contraction. -/
def outShape (dd : DotDims) (ls rs : List ℕ) : List ℕ :=
  sizes ls dd.lb ++ sizes ls (freeOf ls.length dd.lc dd.lb) ++ sizes rs (freeOf rs.length dd.rc dd.rb)

/-- Element of the contraction at batch coordinates `b`, left free coordinates `l` and right free coordinates `r`. -/
def element (dd : DotDims) (x y : ND F) (b l r : List ℕ) : F :=
  ((allIdx (sizes x.shape dd.lc)).map fun k =>
    x.get (place x.shape.length (dd.lb ++ freeOf x.shape.length dd.lc dd.lb ++ dd.lc) (b ++ l ++ k)) *
    y.get (place y.shape.length (dd.rb ++ freeOf y.shape.length dd.rc dd.rb ++ dd.rc) (b ++ r ++ k))).sum

/-- The contraction. -/
def contraction (dd : DotDims) (x y : ND F) : ND F :=
  ND.ofFn (outShape dd x.shape y.shape) fun idx =>
    element dd x y (idx.take dd.lb.length)
      ((idx.drop dd.lb.length).take (freeOf x.shape.length dd.lc dd.lb).length)
      ((idx.drop dd.lb.length).drop (freeOf x.shape.length dd.lc dd.lb).length)

end Folx.Dot

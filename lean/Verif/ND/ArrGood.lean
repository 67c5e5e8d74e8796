import Verif.ND.DotArrProofs

/-! # The primitives of programs over arrays -/

namespace Folx.Layout
open Vmap Dot Filter Topology

variable {F : Type} [RCLike F] [Inhabited F]

/-- The primitives of programs over arrays: array-level functions whose declarations are true; functions that drop derivatives and are constant near the point; real-linear
functions of every element (`mapPrim`); `dot_general` (with sparse Jacobians: no axes of size 1 in the result, B9, and no case of the fast path in which it is wrong, B20).  With sparsity disabled (`sp = false`) also every primitive of `Good`. -/
inductive ArrGood (sp : Bool) (n : ℕ) : (p : Prim F) → ((i : Fin p.nIn) → Fin (p.size i) → F) → Prop
  | array {m : ℕ} {shape : Fin (m + 1) → List ℕ} {out : List ℕ} (A : ArrFn F shape out) (ifwd : (acts : List (Fin (m + 1))) → Option ((Fin acts.length → ND ℤ) → ND ℤ))
      (b : List ℕ) (φ : List (ND F) → ((i : Fin (m + 1)) → Fin (A.inAxes.slice (shape i)).prod → F) → List ℕ → F) (x : (i : Fin (m + 1)) → Fin (shape i).prod → F)
      (h : A.Truthful ifwd b φ x) (hs : sp = true → A.SparseSafe ifwd b) : ArrGood sp n (A.prim ifwd) x
  | dropped (nIn : ℕ) (size : Fin nIn → ℕ) (nOut : ℕ) (outSize : Fin nOut → ℕ)
      (fwd : ((i : Fin nIn) → Fin (size i) → F) → (j : Fin nOut) → Fin (outSize j) → F)
      (x : (i : Fin nIn) → Fin (size i) → F) (h : ∀ᶠ y in 𝓝 x, fwd y = fwd x) :
      ArrGood sp n (dropPrim nIn size nOut outSize fwd) x
  | mapped (m : ℕ) (f : F →L[ℝ] F) (x : (i : Fin 1) → Fin m → F) : ArrGood sp n (mapPrim m f) x
  | dot (dd : DotDims) (ls rs : List ℕ) (h : dd.Ok ls rs) (hl : 0 ∉ ls) (hr : 0 ∉ rs)
      (hs : sp = true → 1 ∉ outShape dd ls rs ∧ (interEqIn (leftShape dd ls rs) (rightShape dd ls rs) = true → noTranspose dd ls.length rs.length = true → SpecialOk dd ls.length rs.length))
      (x : (i : Fin 2) → Fin (two ls rs i).prod → F) : ArrGood sp n (dotArrPrim dd ls rs) x
  | core (p : Prim F) (x : (i : Fin p.nIn) → Fin (p.size i) → F) (h : Good false n p x) (hs : sp = false) : ArrGood sp n p x

theorem arrGood_dense (T n : ℕ) (hn : 0 < n) (p : Prim F) (x : (i : Fin p.nIn) → Fin (p.size i) → F) (h : ArrGood false n p x) : p.SoundAt (denseInv n) T n x := by
  cases h with
  | array A ifwd b φ x h hs => exact prim_sound_dense hn h
  | dropped nIn size nOut outSize fwd x h => exact drop_sound (denseInv n) T n x h
  | mapped m f x => exact map_sound (denseInv n) T n m f (mapData_dense n f) x
  | dot dd ls rs h hl hr hs x => exact dotArr_sound (arrSound_dense T n hn) (fun _ _ _ hJ => hJ.1) h hl hr hs x
  | core p x h hs => exact good_dense T n hn p x h

theorem mapData_arr {m : ℕ} (T n : ℕ) (f : F → F) (J : Jac (Fin m) F) (h : arrInv T n m J) : arrInv T n m (J.mapData f) := by
  refine ⟨fun hw => ?_, mapData_big T n f J h.2⟩
  rw [Jac.mapData_weak] at hw
  rw [Jac.mapData_nrows]
  exact h.1 hw

theorem arrGood_sparse (T n : ℕ) (hn : 0 < n) (p : Prim F) (x : (i : Fin p.nIn) → Fin (p.size i) → F) (h : ArrGood true n p x) : p.SoundAt (arrInv T n) T n x := by
  cases h with
  | array A ifwd b φ x h hs => exact prim_sound_sparse hn h (hs rfl)
  | dropped nIn size nOut outSize fwd x h => exact drop_sound (arrInv T n) T n x h
  | mapped m f x => exact map_sound (arrInv T n) T n m f (mapData_arr T n f) x
  | dot dd ls rs h hl hr hs x => exact dotArr_sound (arrSound_sparse T n hn) (fun h => absurd h (by decide)) h hl hr hs x
  | core p x h hs => exact absurd hs (by decide)

end Folx.Layout

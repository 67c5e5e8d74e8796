import Verif.Prog.Spec
import Verif.Interp.Init
import Verif.Tree.TreeProofs

/-! # The initial state -/

namespace Folx

open Filter Topology
open Folx.Interp

theorem blocks_sizes {E : Type} (f : ℕ → E) : ∀ (sizes : List ℕ) (off : ℕ),
    (blocks f off sizes).map (fun a => a.1) = sizes
  | [], _ => rfl
  | m :: ms, off => by rw [blocks, List.map_cons, blocks_sizes f ms]

theorem blocks_flat {E : Type} (f : ℕ → E) : ∀ (sizes : List ℕ) (off : ℕ),
    ((blocks f off sizes).flatMap fun a => List.ofFn a.2) = (List.range sizes.sum).map fun i => f (off + i)
  | [], _ => rfl
  | m :: ms, off => by
    rw [blocks, List.flatMap_cons, blocks_flat f ms, List.sum_cons, List.range_add, List.map_append,
      List.map_map]
    congr 1
    · apply List.ext_getElem (by simp)
      intro i h1 h2
      simp
    · apply List.map_congr_left
      intro i _
      simp [Nat.add_assoc]

/-- `unravel` cuts into blocks. -/
theorem unravelFrom_blocks {E : Type} (f : ℕ → E) (n : ℕ) : ∀ (sizes : List ℕ) (off : ℕ), off + sizes.sum ≤ n →
    unravelFrom ((List.range n).map f) off sizes = .ok (blocks f off sizes)
  | [], _, _ => rfl
  | m :: ms, off, h => by
    rw [List.sum_cons] at h
    unfold unravelFrom
    have hl : (((List.range n).map f).drop off).length = n - off := by simp
    rw [dif_pos (by rw [List.length_take, hl]; omega), unravelFrom_blocks f n ms (off + m) (by omega)]
    simp only [blocks, Except.ok.injEq, List.cons.injEq, and_true]
    congr 1
    funext i
    simp

theorem zipLeaves_nil {A B C : Type} (f : A → B → Except Err C) : zipLeaves f [] [] = .ok [] := rfl

variable {F : Type} [RCLike F]

/-- The expected initial state. -/
noncomputable def initSpec {n : ℕ} (s : Bool) (w x : Fin n → ℝ) : ℕ → List ℕ → List (PVal F)
  | _, [] => []
  | off, m :: ms => ⟨m, .lapl ⟨fun p => coord x (off + p),
      if s then .sparse [⟨fun p => ((off + p : ℕ) : ℤ), fun p => coord w (off + p)⟩]
      else .dense ((List.range n).map fun i p => if i = off + p.val then coord w (off + p) else 0),
      fun _ => 0⟩⟩ :: initSpec s w x (off + m) ms

omit [RCLike F] in
theorem sparseLeaf_mk [Zero F] (m : ℕ) (x w : Fin m → F) (i : Fin m → ℤ) :
    sparseLeaf ⟨m, x⟩ ⟨m, w⟩ ⟨m, i⟩ = .ok ⟨m, .lapl ⟨x, .sparse [⟨i, w⟩], fun _ => 0⟩⟩ := by
  simp [sparseLeaf, castTo]

theorem zip_sparse {n : ℕ} (w x : Fin n → ℝ) : ∀ (sizes : List ℕ) (off : ℕ),
    zipLeaves (fun (x : PArr F) wi => sparseLeaf x wi.1 wi.2) (blocks (coord x) off sizes)
      ((blocks (coord w) off sizes).zip (blocks (fun i : ℕ => (i : ℤ)) off sizes)) =
      .ok (initSpec true w x off sizes)
  | [], _ => rfl
  | m :: ms, off => by
    simp only [blocks, List.zip_cons_cons, zipLeaves, zip_sparse w x ms (off + m), sparseLeaf_mk,
      initSpec, if_true]

theorem diagCol_getD (n : ℕ) (f : ℕ → F) (i j : ℕ) (hi : i < n) (hj : j < n) :
    (diagCol ((List.range n).map f) j).getD i 0 = if i = j then f j else 0 := by
  unfold diagCol
  simp [List.getD_eq_getElem?_getD, hi, hj]

theorem zip_dense {n : ℕ} (w x : Fin n → ℝ) : ∀ (sizes : List ℕ) (off : ℕ), off + sizes.sum ≤ n →
    zipLeaves (denseLeaf n) (blocks (coord x : ℕ → F) off sizes)
      (blocks (diagCol ((List.range n).map (coord w))) off sizes) = .ok (initSpec false w x off sizes)
  | [], _, _ => rfl
  | m :: ms, off, h => by
    rw [List.sum_cons] at h
    simp only [blocks, zipLeaves, zip_dense w x ms (off + m) (by omega), denseLeaf, castTo, initSpec, dite_true,
      Bool.false_eq_true, if_false, Except.ok.injEq, List.cons.injEq, and_true, Sigma.mk.injEq, heq_eq_eq,
      true_and, Opd.lapl.injEq, Trip.mk.injEq, Jac.dense.injEq]
    apply List.map_congr_left
    intro i hi
    funext p
    rw [diagCol_getD n _ i (off + p) (by simpa using hi) (by omega)]

/-- **The initial state**, for arguments of the given sizes with flattening `x` and weights with flattening
`w`. -/
theorem initState_eq {n : ℕ} (s : Bool) (weights : Weights F) (sizes : List ℕ) (hs : sizes ≠ [])
    (hn : sizes.sum = n) (w x : Fin n → ℝ) (hw : weightArrs weights sizes = .ok (unflat sizes w)) :
    initState s weights ((unflat sizes x).map PVal.ofPlain) = .ok (initSpec s w x 0 sizes) := by
  unfold initState
  have h1 : (List.map PVal.ofPlain (unflat sizes x : List (PArr F))).any (fun v => v.2.isLapl) = false := by
    rw [List.any_eq_false]
    intro v hv
    obtain ⟨a, _, rfl⟩ := List.mem_map.mp hv
    simp [PVal.ofPlain, Opd.isLapl]
  rw [h1]
  have h2 : ((List.map PVal.ofPlain (unflat sizes x : List (PArr F))).map
      fun v => (⟨v.1, v.2.x⟩ : PArr F)) = unflat sizes x := by
    rw [List.map_map]
    conv_rhs => rw [← List.map_id (unflat sizes x)]
    apply List.map_congr_left
    intro a _
    rfl
  have h3 : (unflat sizes x : List (PArr F)).map (fun a => a.1) = sizes := blocks_sizes _ _ _
  simp only [Bool.false_eq_true, if_false, h2, h3, hw]
  have hne : ∀ z : Fin n → ℝ, (unflat sizes z : List (PArr F)) ≠ [] := by
    intro z hc
    have := congrArg List.length (blocks_sizes (coord z : ℕ → F) sizes 0)
    unfold unflat at hc
    rw [hc] at this
    simp only [List.map_nil, List.length_nil] at this
    exact hs (List.length_eq_zero_iff.mp this.symm)
  have hr : ∀ z : Fin n → ℝ, ravelLeaves (unflat sizes z : List (PArr F)) =
      .ok ((List.range n).map (coord z)) := by
    intro z
    unfold ravelLeaves
    rw [if_neg (hne z)]
    unfold unflat
    rw [blocks_flat, hn]
    simp
  rw [hr, hr]
  simp only [List.length_map, List.length_range]
  cases s with
  | true =>
    simp only [if_true]
    rw [unravelFrom_blocks _ n sizes 0 (by omega)]
    exact zip_sparse w x sizes 0
  | false =>
    simp only [Bool.false_eq_true, if_false]
    rw [unravelFrom_blocks _ n sizes 0 (by omega)]
    exact zip_dense w x sizes 0 (by omega)

/-- The state represents the identity. -/
theorem initSpec_represents' {n : ℕ} (inv : ∀ m, Jac (Fin m) F → Prop) (s : Bool) (w x : Fin n → ℝ)
    (hinv : if s then ∀ m rows, rows ≠ [] → inv m (.sparse rows) else ∀ m rows, rows.length = n → inv m (.dense rows)) :
    ∀ (sizes : List ℕ) (off : ℕ), off + sizes.sum ≤ n →
    List.Forall₂ (Represents (inputBase w x) inv) (initSpec s w x off sizes) (inputFns n off sizes)
  | [], _, _ => .nil
  | m :: ms, off, h => by
    rw [List.sum_cons] at h
    refine .cons ⟨_, rfl, ⟨rfl, ?_, ?_⟩, ?_⟩ (initSpec_represents' inv s w x hinv ms (off + m) (by omega))
    · show Jac.Wf n _
      cases s with
      | true =>
        intro r hr p
        simp only [List.mem_singleton] at hr
        subst hr
        simp only
        exact ⟨by omega, fun hc => by omega⟩
      | false => simp [Jac.Wf]
    · have hlt : ∀ p : Fin m, off + p.val < n := fun p => by omega
      let L : (Fin n → ℝ) →L[ℝ] (Fin m → F) := ContinuousLinearMap.pi fun p =>
        RCLike.ofRealCLM.comp (ContinuousLinearMap.proj (⟨off + p, hlt p⟩ : Fin n))
      have hL : ∀ z p, L z p = ((z ⟨off + p, hlt p⟩ : ℝ) : F) := fun z p => by simp [L]
      refine ⟨L, 0, ?_, ?_, ?_⟩
      · have : (fun (z : Fin n → ℝ) (p : Fin m) => (coord z (off + p) : F)) = L := by
          funext z p
          rw [hL, coord, dif_pos (hlt p)]
        show HasFDeriv2At (fun (z : Fin n → ℝ) (p : Fin m) => (coord z (off + p) : F)) L 0 x
        rw [this]
        exact HasFDeriv2At.linear L x
      · suffices hsuf : ∀ i : Fin n, (if s = true then Jac.sparse [⟨fun p : Fin m => ((off + p : ℕ) : ℤ),
            fun p => coord w (off + p)⟩] else Jac.dense ((List.range n).map fun i (p : Fin m) =>
              if i = off + p.val then (coord w (off + p) : F) else 0)).den i = L (Pi.single i (w i)) from hsuf
        intro i
        funext p
        rw [hL]
        have hc : coord w (off + p.val) = ((w ⟨off + p, hlt p⟩ : ℝ) : F) := by
          rw [coord, dif_pos (hlt p)]
        have hlt' : i.val < n := i.2
        have key : ∀ j : Fin n, ((Pi.single j (w j) : Fin n → ℝ) ⟨off + p, hlt p⟩ : ℝ) =
            if j.val = off + p.val then w ⟨off + p, hlt p⟩ else 0 := by
          intro j
          by_cases hj : j.val = off + p.val
          · have : j = ⟨off + p, hlt p⟩ := Fin.ext hj
            subst this
            simp
          · rw [if_neg hj, Pi.single_eq_of_ne]
            intro hc
            exact hj (by rw [← hc])
        rw [key]
        cases s with
        | true =>
          simp only [if_true, Jac.den, List.map_cons, List.map_nil, List.sum_cons, List.sum_nil, add_zero, hc]
          by_cases hj : i.val = off + p.val
          · rw [if_pos hj, if_pos (by exact_mod_cast hj.symm)]
          · rw [if_neg hj, if_neg (by intro hc; exact hj (by exact_mod_cast hc.symm))]
            simp
        | false =>
          simp only [Bool.false_eq_true, if_false, Jac.den]
          rw [List.getD_eq_getElem _ _ (by simpa using hlt')]
          simp only [List.getElem_map, List.getElem_range, hc]
          split <;> simp
      · show (fun _ => 0) = ∑ i : Fin n, (0 : (Fin n → ℝ) →L[ℝ] (Fin n → ℝ) →L[ℝ] (Fin m → F))
          (Pi.single i (w i)) (Pi.single i (w i))
        funext p
        simp
    · cases s with
      | true => exact hinv _ _ (by simp)
      | false => exact hinv _ _ (by simp)

theorem initSpec_represents {n : ℕ} (inv : ∀ m, Jac (Fin m) F → Prop) (s : Bool) (w x : Fin n → ℝ)
    (hinv : if s then ∀ m rows, inv m (.sparse rows) else ∀ m rows, rows.length = n → inv m (.dense rows))
    (sizes : List ℕ) (off : ℕ) (h : off + sizes.sum ≤ n) :
    List.Forall₂ (Represents (inputBase w x) inv) (initSpec s w x off sizes) (inputFns n off sizes) := by
  refine initSpec_represents' inv s w x ?_ sizes off h
  cases s with
  | true => exact fun m rows _ => hinv m rows
  | false => exact hinv

end Folx

import Verif.Form.Rules

/-! # Wrapped functions: the form of the result -/

namespace Folx

open Folx.Interp (Err)

variable {k : ℕ} {P : Fin k → Type} {Q F : Type} [CommRing F]

/-- Custom rules return, or raise, alike. -/
def CustomSame {dim : Fin k → ℕ} {V O : Type} : Option (CustomRule k dim V O F) → Option (CustomRule k dim V O F) → Prop
  | none, none => True
  | some c, some c' => ∀ v args args' idx, ArgsSame args args' → ExRel (fun _ _ => True) (c v args idx) (c' v args' idx)
  | _, _ => False

namespace HInst

/-- The same function at other values. -/
abbrev revalue (I : HInst k P Q F) (fwd : ((a : Fin k) → P a → F) → Q → F)
    (jvp : ((a : Fin k) → P a → F) → ((a : Fin k) → P a → F) →ₗ[F] (Q → F)) (src : Q → Option (Σ a, P a))
    (hess : I.V → ((a : Fin k) → Fin (I.dim a) → F) →
      ((a : Fin k) → Fin (I.dim a) → F) →ₗ[F] ((a : Fin k) → Fin (I.dim a) → F) →ₗ[F] (I.O → F))
    (custom : Option (CustomRule k I.dim I.V I.O F)) : HInst k P Q F :=
  { I with fwd := fwd, jvp := jvp, src := src, hess := hess, custom := custom }

/-- Two wrapped functions that only differ in values. -/
def Like (I I' : HInst k P Q F) : Prop :=
  ∃ fwd jvp src hess custom, I' = I.revalue fwd jvp src hess custom ∧
    (I.flags.has Flags.INDEXING = true → I.static = true → I.src = src) ∧ CustomSame I.custom custom

theorem Like.toInst {I I' : HInst k P Q F} (h : I.Like I') : I.toInst.Like I'.toInst := by
  obtain ⟨f, j, s, hh, c, rfl, hs, hc⟩ := h
  exact ⟨rfl, rfl, rfl, rfl, rfl, rfl, hs, rfl, rfl, rfl⟩

end HInst

theorem constructFor_rel {P : Type} [Fintype P] {J J' : Jac P F} (h : J.Same J') (idx : Option (List ℤ)) :
    ExRel (fun a b => a.length = b.length) (J.constructFor idx) (J'.constructFor idx) := by
  unfold Jac.constructFor
  cases idx with
  | none => exact denseArray_rel h
  | some is =>
    dsimp only
    split
    · exact .ok rfl
    · rcases h.cases with ⟨r, r', rfl, rfl, hl⟩ | ⟨r, r', rfl, rfl, hl⟩
      · exact .ok (by simp only [List.length_map])
      · exact constructSparse_rel hl _

theorem reducedJacobians_rel {dim : Fin k → ℕ} {js js' : (a : Fin k) → Jac (Fin (dim a)) F}
    (h : ∀ a, (js a).Same (js' a)) (idx : Option (List ℤ)) :
    ExRel (fun x y => ∀ a, (x a).length = (y a).length) (reducedJacobians js idx) (reducedJacobians js' idx) := by
  unfold reducedJacobians
  cases idx with
  | none =>
    dsimp only
    obtain ⟨e, h1, h2⟩ | ⟨x, y, h1, h2, hxy⟩ := (seqFin_rel (fun a (r r' : List (Fin (dim a) → F)) => r.length = r'.length) _ _
      fun a => denseArray_rel (h a)).elim
    · rw [h1, h2]; exact .error e
    rw [h1, h2]
    refine .ok fun a => ?_
    rw [extendTo_length, extendTo_length, hxy a, maxLen_congr hxy]
  | some is => exact seqFin_rel _ _ _ fun a => constructFor_rel (h a) _

theorem sliceJac_same {P K : Type} {d : ℕ} (e : P ≃ K × Fin d) (u : K) {J J' : Jac P F} (h : J.Same J') :
    (sliceJac e u J).Same (sliceJac e u J') := by
  rcases h.cases with ⟨r, r', rfl, rfl, hl⟩ | ⟨r, r', rfl, rfl, hl⟩
  · exact Jac.same_dense.mpr (by simp only [List.length_map]; exact hl)
  · refine Jac.same_sparse.mpr ?_
    rw [List.map_map, List.map_map]
    exact map_idx_congr hl fun i c => i (e.symm (u, c))

namespace HInst

theorem posIdx_congr {P K : Type} {d : ℕ} (e : P ≃ K × Fin d) {J J' : Jac P F} (h : J.Same J') (u : K) :
    posIdx e J u = posIdx e J' u := by
  unfold posIdx
  rw [map_idx_congr (srows_idx h) fun i => Finset.univ.image fun c => i (e.symm (u, c))]

theorem nUnique_congr {P : Type} [Fintype P] {J J' : Jac P F} (h : J.Same J') : nUnique J = nUnique J' := by
  rcases h.cases with ⟨r, r', rfl, rfl, hl⟩ | ⟨r, r', rfl, rfl, hl⟩
  · exact hl
  · unfold nUnique
    dsimp only
    rw [map_idx_congr hl fun i => Finset.univ.image i]

theorem maxSize_congr [∀ a, Fintype (P a)] {args args' : (a : Fin k) → Trip (P a) F} (h : ArgsSame args args') :
    maxSize args = maxSize args' := by
  unfold maxSize
  congr 1
  funext a
  exact nUnique_congr (h a)

theorem mergedIdx_congr [∀ a, Fintype (P a)] (I : HInst k P Q F) {args args' : (a : Fin k) → Trip (P a) F}
    (h : ArgsSame args args') : I.mergedIdx args = I.mergedIdx args' := by
  funext v
  unfold mergedIdx
  rw [maxSize_congr h]
  have : (fun a => keptIdx (maxSize args') (posIdx (I.hsplit a) (args a).jac (I.hκ a v))) =
      fun a => keptIdx (maxSize args') (posIdx (I.hsplit a) (args' a).jac (I.hκ a v)) :=
    funext fun a => by rw [posIdx_congr _ (h a)]
  exact congrArg (fun s : Fin k → Finset ℤ => if I.flags.has Flags.LINEAR_IN_ONE then
    (Finset.univ.biUnion s).filter fun z => ∀ a, z ∈ s a else Finset.univ.biUnion s) this

theorem idxWidth_congr [∀ a, Fintype (P a)] (I : HInst k P Q F) {args args' : (a : Fin k) → Trip (P a) F}
    (h : ArgsSame args args') : I.idxWidth args = I.idxWidth args' := by
  unfold idxWidth
  rw [mergedIdx_congr I h]

theorem findOutIdx_congr [∀ a, Fintype (P a)] (I : HInst k P Q F) (T : ℕ) {args args' : (a : Fin k) → Trip (P a) F}
    (h : ArgsSame args args') : I.findOutIdx T args = I.findOutIdx T args' := by
  unfold findOutIdx
  rw [anyWeak_congr h, idxWidth_congr I h, mergedIdx_congr I h, maxSize_congr h]

theorem denseArgs_rel [∀ a, Fintype (P a)] {args args' : (a : Fin k) → Trip (P a) F} (h : ArgsSame args args') :
    ExRel ArgsSame (denseArgs args) (denseArgs args') := by
  unfold denseArgs
  obtain ⟨e, h1, h2⟩ | ⟨x, y, h1, h2, hxy⟩ := (seqFin_rel (fun a (r r' : List (P a → F)) => r.length = r'.length) _ _
    fun a => denseArray_rel (h a)).elim
  · rw [h1, h2]; exact .error e
  rw [h1, h2]
  exact .ok fun a => Jac.same_dense.mpr (hxy a)

theorem sliceArgs_same (I : HInst k P Q F) {args args' : (a : Fin k) → Trip (P a) F} (h : ArgsSame args args') (v : I.V) :
    ArgsSame (I.sliceArgs args v) (I.sliceArgs args' v) := fun a => sliceJac_same _ _ (h a)

theorem hessTransform_rel (I : HInst k P Q F) (f j s hs c) (hc : CustomSame I.custom c) (v : I.V)
    {args args' : (a : Fin k) → Trip (Fin (I.dim a)) F} (h : ArgsSame args args') (idx : Option (List ℤ)) :
    ExRel (fun _ _ => True) (I.hessTransform v args idx) ((I.revalue f j s hs c).hessTransform v args' idx) := by
  have hc' : (I.revalue f j s hs c).custom = c := rfl
  unfold hessTransform
  rw [hc']
  generalize I.custom = c0 at hc
  cases c0 with
  | some r =>
    cases c with
    | none => exact hc.elim
    | some r' => exact hc v args args' idx h
  | none =>
    cases c with
    | some r' => exact hc.elim
    | none =>
      have hred := reducedJacobians_rel (js := fun a => (args a).jac) (js' := fun a => (args' a).jac) h idx
      dsimp only
      have hfl : (I.revalue f j s hs none).flags = I.flags := rfl
      rw [hfl]
      split
      · unfold dotJHJ
        by_cases hk : k = 2
        · rw [dif_pos hk, dif_pos hk]
          obtain ⟨e, h1, h2⟩ | ⟨x, y, h1, h2, hxy⟩ := hred.elim
          · rw [h1]; erw [h2]; exact .error e
          rw [h1]; erw [h2]
          dsimp only
          by_cases hd : I.dim ⟨0, by omega⟩ = I.dim ⟨1, by omega⟩
          · rw [dif_pos hd, dif_pos (show (I.revalue f j s hs none).dim ⟨0, by omega⟩ = (I.revalue f j s hs none).dim ⟨1, by omega⟩ from hd)]
            exact .ok trivial
          · rw [dif_neg hd, dif_neg (show ¬ (I.revalue f j s hs none).dim ⟨0, by omega⟩ = (I.revalue f j s hs none).dim ⟨1, by omega⟩ from hd)]
            by_cases h3 : I.dim ⟨0, by omega⟩ = 1
            · rw [dif_pos h3, dif_pos (show (I.revalue f j s hs none).dim ⟨0, by omega⟩ = 1 from h3)]
              exact .ok trivial
            rw [dif_neg h3, dif_neg (show ¬ (I.revalue f j s hs none).dim ⟨0, by omega⟩ = 1 from h3)]
            by_cases h4 : I.dim ⟨1, by omega⟩ = 1
            · rw [dif_pos h4, dif_pos (show (I.revalue f j s hs none).dim ⟨1, by omega⟩ = 1 from h4)]
              exact .ok trivial
            rw [dif_neg h4, dif_neg (show ¬ (I.revalue f j s hs none).dim ⟨1, by omega⟩ = 1 from h4)]
            exact .error _
        · rw [dif_neg hk, dif_neg hk]; exact .error _
      · split
        · unfold offDiagJHJ
          by_cases hk : k = 2
          · rw [dif_pos hk, dif_pos hk]
            obtain ⟨e, h1, h2⟩ | ⟨x, y, h1, h2, hxy⟩ := hred.elim
            · rw [h1]; erw [h2]; exact .error e
            rw [h1]; erw [h2]
            dsimp only
            by_cases hd : I.dim ⟨0, by omega⟩ = I.dim ⟨1, by omega⟩ ∧ (I.dim ⟨0, by omega⟩ = maxLen x ∨ I.dim ⟨0, by omega⟩ = 1 ∨ maxLen x = 1)
            · rw [dif_pos hd]
              erw [dif_pos (show I.dim ⟨0, by omega⟩ = I.dim ⟨1, by omega⟩ ∧ (I.dim ⟨0, by omega⟩ = maxLen y ∨ I.dim ⟨0, by omega⟩ = 1 ∨ maxLen y = 1) from maxLen_congr hxy ▸ hd)]
              exact .ok trivial
            · rw [dif_neg hd]
              erw [dif_neg (show ¬ (I.dim ⟨0, by omega⟩ = I.dim ⟨1, by omega⟩ ∧ (I.dim ⟨0, by omega⟩ = maxLen y ∨ I.dim ⟨0, by omega⟩ = 1 ∨ maxLen y = 1)) from maxLen_congr hxy ▸ hd)]
              exact .error _
          · rw [dif_neg hk, dif_neg hk]; exact .error _
        · unfold generalJHJ
          obtain ⟨e, h1, h2⟩ | ⟨x, y, h1, h2, hxy⟩ := hred.elim
          · rw [h1]; erw [h2]; exact .error e
          rw [h1]; erw [h2]
          exact .ok trivial

/-- The last step of `vmappedJHJ`: all slices. -/
noncomputable def slices (I : HInst k P Q F) (oi : Option (I.V → List ℤ)) (d : Bool) (args : (a : Fin k) → Trip (P a) F) :
    Except Err (Q → F) :=
  let res : (v : I.V) → Except Err (I.O → F) := fun v =>
    if I.keptPos oi d v then I.hessTransform v (I.sliceArgs args v) (oi.map fun g => g v) else .ok fun _ => 0
  if ∀ v, (res v).isOk = true then .ok fun q => ((res (I.out q).1).toOption.getD fun _ => 0) (I.out q).2
  else .error .other

theorem keptPos_revalue (I : HInst k P Q F) (f j s hs c) (oi : Option (I.V → List ℤ)) (d : Bool) (v : I.V) :
    (I.revalue f j s hs c).keptPos oi d v = I.keptPos oi d v := by
  unfold keptPos
  cases oi with
  | none => rfl
  | some g => rfl

theorem slices_rel (I : HInst k P Q F) (f j s hs c) (hc : CustomSame I.custom c) (oi : Option (I.V → List ℤ)) (d : Bool)
    {args args' : (a : Fin k) → Trip (P a) F} (h : ArgsSame args args') :
    ExRel (fun _ _ => True) (I.slices oi d args) ((I.revalue f j s hs c).slices oi d args') := by
  have hres : ∀ v : I.V, (if I.keptPos oi d v then I.hessTransform v (I.sliceArgs args v) (oi.map fun g => g v)
        else .ok fun _ => 0).isOk =
      (if (I.revalue f j s hs c).keptPos oi d v then
        (I.revalue f j s hs c).hessTransform v ((I.revalue f j s hs c).sliceArgs args' v) (oi.map fun g => g v)
        else .ok fun _ => 0).isOk := by
    intro v
    by_cases hk : I.keptPos oi d v
    · have hk' : (I.revalue f j s hs c).keptPos oi d v := (keptPos_revalue I f j s hs c oi d v).symm ▸ hk
      rw [if_pos hk]
      exact (hessTransform_rel I f j s hs c hc v (sliceArgs_same I h v) _).isOk.trans
        (congrArg Except.isOk (if_pos hk').symm)
    · have hk' : ¬ (I.revalue f j s hs c).keptPos oi d v := (keptPos_revalue I f j s hs c oi d v).symm ▸ hk
      rw [if_neg hk]
      exact congrArg Except.isOk (if_neg hk').symm
  unfold slices
  dsimp only
  by_cases hall : ∀ v : I.V, (if I.keptPos oi d v then I.hessTransform v (I.sliceArgs args v) (oi.map fun g => g v)
        else .ok fun _ => 0).isOk = true
  · rw [if_pos hall]
    erw [if_pos (fun v => (hres v).symm.trans (hall v))]
    exact .ok trivial
  · rw [if_neg hall]
    erw [if_neg (fun h' => hall fun v => (hres v).trans (h' v))]
    exact .error _

theorem vmappedJHJ_eq [∀ a, Fintype (P a)] (I : HInst k P Q F) (T : ℕ) (args : (a : Fin k) → Trip (P a) F) :
    I.vmappedJHJ T args =
      match (if ((I.findOutIdx T args).2 && !I.flags.has Flags.SPARSE_JHJ) = true then denseArgs args else .ok args) with
      | .error e => .error e
      | .ok args' =>
        if (if ((I.findOutIdx T args).2 && !I.flags.has Flags.SPARSE_JHJ) = true then none
            else (I.findOutIdx T args).1).isSome = true ∧ I.idxWidth args = 0 then .ok fun _ => 0
        else I.slices (if ((I.findOutIdx T args).2 && !I.flags.has Flags.SPARSE_JHJ) = true then none
            else (I.findOutIdx T args).1) (I.findOutIdx T args).2 args' := rfl

theorem vmappedJHJ_rel [∀ a, Fintype (P a)] (I : HInst k P Q F) (f j s hs c) (hc : CustomSame I.custom c) (T : ℕ)
    {args args' : (a : Fin k) → Trip (P a) F} (h : ArgsSame args args') :
    ExRel (fun _ _ => True) (I.vmappedJHJ T args) ((I.revalue f j s hs c).vmappedJHJ T args') := by
  have key : (I.revalue f j s hs c).vmappedJHJ T args' =
      match (if ((I.findOutIdx T args).2 && !I.flags.has Flags.SPARSE_JHJ) = true then denseArgs args' else .ok args') with
      | .error e => .error e
      | .ok args' =>
        if (if ((I.findOutIdx T args).2 && !I.flags.has Flags.SPARSE_JHJ) = true then none
            else (I.findOutIdx T args).1).isSome = true ∧ I.idxWidth args = 0 then .ok fun _ => 0
        else (I.revalue f j s hs c).slices (if ((I.findOutIdx T args).2 && !I.flags.has Flags.SPARSE_JHJ) = true then none
            else (I.findOutIdx T args).1) (I.findOutIdx T args).2 args' := by
    rw [findOutIdx_congr I T h, idxWidth_congr I h]
    rfl
  rw [key, vmappedJHJ_eq]
  generalize I.findOutIdx T args = fo
  have hden : ExRel ArgsSame (if (fo.2 && !I.flags.has Flags.SPARSE_JHJ) = true then denseArgs args else .ok args)
      (if (fo.2 && !I.flags.has Flags.SPARSE_JHJ) = true then denseArgs args' else .ok args') := by
    split
    · exact denseArgs_rel h
    · exact .ok h
  obtain ⟨e, h1, h2⟩ | ⟨x, y, h1, h2, hxy⟩ := hden.elim
  · rw [h1, h2]; exact .error e
  rw [h1, h2]
  dsimp only
  by_cases hz : (if (fo.2 && !I.flags.has Flags.SPARSE_JHJ) = true then none else fo.1).isSome = true ∧ I.idxWidth args = 0
  · rw [if_pos hz, if_pos hz]; exact .ok trivial
  · rw [if_neg hz, if_neg hz]; exact slices_rel I f j s hs c hc _ _ hxy

theorem hessianTransform_rel [∀ a, Fintype (P a)] {I I' : HInst k P Q F} (hI : I.Like I') (T : ℕ)
    {args args' : (a : Fin k) → Trip (P a) F} (h : ArgsSame args args') :
    ExRel (fun _ _ => True) (I.hessianTransform T args) (I'.hessianTransform T args') := by
  obtain ⟨f, j, s, hs, c, rfl, _, hc⟩ := hI
  unfold hessianTransform
  have hfl : (I.revalue f j s hs c).flags = I.flags := rfl
  have hfi : (I.revalue f j s hs c).firstIsLapl = I.firstIsLapl := rfl
  rw [hfl, hfi]
  split
  · exact .ok trivial
  · split
    · exact .ok trivial
    · split
      · exact .ok trivial
      · exact vmappedJHJ_rel I f j s hs c hc T h

/-- A wrapped function on arguments of the same form. -/
theorem wrapped_rel [∀ a, Fintype (P a)] [∀ a, DecidableEq (P a)] [Fintype Q] [DecidableEq Q] {I I' : HInst k P Q F}
    (hI : I.Like I') (T : ℕ) {args args' : (a : Fin k) → Trip (P a) F} (h : ArgsSame args args') :
    ExRel (fun t t' => t.jac.Same t'.jac) (I.wrapped T args) (I'.wrapped T args') := by
  unfold wrapped
  obtain ⟨e, h1, h2⟩ | ⟨x, y, h1, h2, hxy⟩ := (jvpRule_rel hI.toInst T h).elim
  · rw [h1, h2]; exact .error e
  rw [h1, h2]
  dsimp only
  obtain ⟨e, h1, h2⟩ | ⟨_, _, h1, h2, _⟩ := (hessianTransform_rel hI T h).elim
  · rw [h1, h2]; exact .error e
  rw [h1, h2]
  exact .ok hxy

end HInst

end Folx

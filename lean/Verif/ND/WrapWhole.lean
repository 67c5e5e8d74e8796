import Verif.ND.WrapRed

/-! # Functions registered without axes, as wrapped functions -/

namespace Folx.Layout
open Vmap Dot

theorem skipShape_range (s : List ℕ) : skipShape s (List.range s.length) = s := by
  unfold skipShape
  rw [List.filter_eq_self.mpr fun p hp => by
    obtain ⟨-, h, -⟩ := List.mem_zipIdx hp
    exact decide_eq_true (List.mem_range.mpr (by omega))]
  exact List.zipIdx_map_fst 0 s

theorem otherShape_range (s : List ℕ) : otherShape s (List.range s.length) = [] := by
  unfold otherShape
  rw [List.filter_eq_nil_iff.mpr fun p hp => by
    obtain ⟨-, h, -⟩ := List.mem_zipIdx hp
    simp only [decide_eq_true_eq, not_not]
    exact List.mem_range.mpr (by omega)]
  rfl

theorem skipsBefore_range {n i : ℕ} (h : i < n) : skipsBefore (List.range n) i = i := by
  unfold skipsBefore
  rw [List.filter_eq_self.mpr fun d hd => decide_eq_true (List.mem_range.mpr (lt_trans (List.mem_range.mp hd) h)), List.length_range]

theorem bindex_range {s b v c : List ℕ} (h : c.length = s.length) : bindex s (List.range s.length) b v c = c := by
  unfold bindex
  refine List.ext_getElem (by simp [h]) fun i h1 h2 => ?_
  rw [List.getElem_map, List.getElem_range, if_pos (List.mem_range.mpr (by omega)), skipsBefore_range (by omega), List.getD_eq_getElem _ _ h2]

section
variable {F : Type} [RCLike F] [Inhabited F] {k : ℕ} {ss : Fin k → List ℕ} {out : List ℕ}

/-- A whole array from its only slice. -/
def unslice (ss : Fin k → List ℕ) : ((a : Fin k) → Fin (skipShape (ss a) (List.range (ss a).length)).prod → F) →L[F] ((a : Fin k) → Fin (ss a).prod → F) :=
  ContinuousLinearMap.pi fun a => ContinuousLinearMap.pi fun c =>
    (ContinuousLinearMap.proj (R := F) (φ := fun _ => F) (Fin.cast (congrArg List.prod (skipShape_range (ss a)).symm) c)).comp
      (ContinuousLinearMap.proj (R := F) (φ := fun a => Fin (skipShape (ss a) (List.range (ss a).length)).prod → F) a)

theorem unslice_slice (b v : List ℕ) (y : (a : Fin k) → Fin (ss a).prod → F) :
    unslice ss (fun a => sliceVec (ss a) (List.range (ss a).length) b v (y a)) = y := by
  funext a c
  have e : unravelIdx (skipShape (ss a) (List.range (ss a).length)) c.val = unravelIdx (ss a) c := by rw [skipShape_range]
  show (toND (ss a) (y a)).get (bindex (ss a) (List.range (ss a).length) b v (unravelIdx (skipShape (ss a) (List.range (ss a).length)) c.val)) = _
  rw [e, bindex_range (inB_unravelIdx c.2).length_eq, toND_get _ _ (inB_unravelIdx c.2)]
  exact congrArg (y a) (Fin.ext (ravelIdx_unravelIdx c.2))

/-- The elements of an array by coordinates. -/
def byCoord (out : List ℕ) : (Fin out.prod → F) →ₗ[F] (List ℕ → F) :=
  LinearMap.pi fun q => if h : ravelIdx out q < out.prod then LinearMap.proj (R := F) (φ := fun _ : Fin out.prod => F) ⟨_, h⟩ else 0

theorem byCoord_get {q : List ℕ} (hq : InB q out) (r : Fin out.prod → F) : byCoord out r q = (toND out r).get q := by
  rw [toND_get _ _ hq]
  show (if h : ravelIdx out q < out.prod then LinearMap.proj (R := F) (φ := fun _ : Fin out.prod => F) ⟨_, h⟩ else 0) r = _
  rw [dif_pos (ravelIdx_lt hq)]
  rfl

/-- Any function `f` of whole arrays (registered without `in_axes`; `kw`: the keyword argument `axes`), with first derivative `f'` and second derivative `f''`. -/
def wholeFn (flags : Flags) (firstIsLapl : Bool) (kw : Option (List ℕ)) (ifwd : Option ((Fin k → ND ℤ) → ND ℤ)) (ss : Fin k → List ℕ) (out : List ℕ)
    (f : ((a : Fin k) → Fin (ss a).prod → F) → Fin out.prod → F) (f' : ((a : Fin k) → Fin (ss a).prod → F) → Deriv F ss out)
    (f'' : ((a : Fin k) → Fin (ss a).prod → F) → ((a : Fin k) → Fin (ss a).prod → F) →ₗ[F] ((a : Fin k) → Fin (ss a).prod → F) →ₗ[F] (Fin out.prod → F)) : ArrFn F ss out where
  flags := flags
  inAxes := .unset kw
  firstIsLapl := firstIsLapl
  c2r := false
  fwd := f
  deriv := f'
  ifwd := ifwd
  sliceOut := out
  hess _ z := ((f'' (unslice ss z)).compl₁₂ (unslice ss).toLinearMap (unslice ss).toLinearMap).compr₂ (byCoord out)
  junk := 0

variable {flags : Flags} {fil : Bool} {kw : Option (List ℕ)} {ifwd : Option ((Fin k → ND ℤ) → ND ℤ)} {f : ((a : Fin k) → Fin (ss a).prod → F) → Fin out.prod → F}
  {f' : ((a : Fin k) → Fin (ss a).prod → F) → Deriv F ss out}
  {f'' : ((a : Fin k) → Fin (ss a).prod → F) → ((a : Fin k) → Fin (ss a).prod → F) →ₗ[F] ((a : Fin k) → Fin (ss a).prod → F) →ₗ[F] (Fin out.prod → F)}

theorem whole_exact {E E' G : Type} [NormedAddCommGroup E] [NormedSpace ℝ E] [NormedAddCommGroup E'] [NormedSpace ℝ E'] [NormedAddCommGroup G] [NormedSpace ℝ G]
    {f : E → G} {D H} (L : E' →L[ℝ] E) (M : G →L[ℝ] F) {z : E'} (h : HasFDeriv2At f D H (L z)) :
    ∃ D' H', HasFDeriv2At (fun z => M (f (L z))) D' H' z ∧ ∀ s t, H' s t = M (H (L s) (L t)) := by
  obtain ⟨H1, h1, h2⟩ := HasFDeriv2At.comp h (HasFDeriv2At.linear L z)
  obtain ⟨H2, h3, h4⟩ := HasFDeriv2At.clm_comp M h1
  exact ⟨_, H2, h3, fun s t => by rw [h4, h2]; simp⟩

theorem wholeFn_computes {x : (a : Fin k) → Fin (ss a).prod → F}
    (hf : ∃ D H, HasFDeriv2At f D H x ∧ (∀ t, D t = f' x t) ∧ ∀ s t, H s t = f'' x s t) :
    (wholeFn flags fil kw ifwd ss out f f' f'').Computes [] [] (fun _ z q => (toND out (f (unslice ss z))).get q) x := by
  obtain ⟨D, H, h1, h2, h3⟩ := hf
  refine ⟨rfl, fun y v q hv hq => ?_, ⟨D, h1.hasFDerivAt, h2⟩, fun v q hv hq => ?_, fun _ g hg => by cases hg⟩
  · cases hv
    exact congrArg (fun y => (toND out (f y)).get q) (unslice_slice [] [] y).symm
  · cases hv
    have e : unslice ss (fun a => sliceVec (ss a) (List.range (ss a).length) [] [] (x a)) = x := unslice_slice [] [] x
    obtain ⟨D', H', h4, h5⟩ := whole_exact (f := f) ((unslice ss).restrictScalars ℝ) (ContinuousLinearMap.proj (R := ℝ) (φ := fun _ : Fin out.prod => F) ⟨_, ravelIdx_lt hq⟩)
      (z := fun a => sliceVec (ss a) (List.range (ss a).length) [] [] (x a)) (D := D) (H := H) (by
        show HasFDeriv2At f D H (unslice ss _)
        rw [e]
        exact h1)
    refine ⟨D', H', ?_, fun s t => ?_⟩
    · have e2 : (fun z => (toND out (f (unslice ss z))).get q) = fun z => f (unslice ss z) ⟨_, ravelIdx_lt hq⟩ := funext fun z => toND_get _ _ hq
      show HasFDeriv2At (fun z => (toND out (f (unslice ss z))).get q) D' H' _
      rw [e2]
      exact h4
    · refine (h5 s t).trans ?_
      show H (unslice ss s) (unslice ss t) _ = byCoord out (f'' (unslice ss fun a => sliceVec (ss a) (List.range (ss a).length) [] [] (x a)) (unslice ss s) (unslice ss t)) q
      rw [e]
      refine Eq.trans ?_ (byCoord_get (out := out) hq _).symm
      exact ((congrFun (h3 (unslice ss s) (unslice ss t)).symm _).symm.trans (toND_get out (f'' x (unslice ss s) (unslice ss t)) hq).symm :)

theorem bcast_nils {l : List (List ℕ)} (h : ∀ s ∈ l, s = []) : Broadcasts l [] := by
  refine ⟨fun s hs => by rw [h s hs], Or.inl rfl, fun s hs j => Or.inl ?_, fun j => Or.inl ?_⟩
  · rw [h s hs]
    rfl
  · rfl

theorem wholeFn_batch : (wholeFn flags fil kw ifwd ss out f f' f'').Batch [] [] [] := by
  have e : ∀ s ∈ (List.ofFn fun a => otherShape (ss a) ((wholeFn flags fil kw ifwd ss out f f' f'').inAxes.second (ss a).length)), s = [] := by
    intro s hs
    obtain ⟨a, rfl⟩ := List.mem_ofFn.mp hs
    exact otherShape_range (ss a)
  refine ⟨fun l hl => (by cases hl), fun a => List.nodup_range, by simp, by simp, bcast_nils e, ?_⟩
  rw [List.map_nil, List.append_nil]
  exact bcast_nils e

end

end Folx.Layout

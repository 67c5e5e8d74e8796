import Verif.ND.ElemTotal
import Verif.ND.ArrGood
import Verif.Prog.TotalInv

/-! # Array-level functions whose rules return, with sparse Jacobians too -/

namespace Folx.Layout
open Vmap Dot Filter Topology

section
variable {F : Type} [RCLike F] [Inhabited F] {m : ℕ} {shape : Fin (m + 1) → List ℕ} {out : List ℕ}

/-- Functions that avoid the three ways in which a call with sparse Jacobians raises: at most two operands (for two: indexing or elementwise); no dot product (B41); no
reduction other than a sum or indexing of one array (B32); and it is linear in each operand or no operand is broadcast to a larger shape (B34).  `b`: the shape of the batch. -/
structure ArrFn.NeverRaises (A : ArrFn F shape out) (b : List ℕ) : Prop where
  ops : m = 0 ∨ (m ≤ 1 ∧ (A.flags.has Flags.INDEXING = true ∨ A.inAxes = .axes []))
  dot : A.flags.has Flags.DOT_PRODUCT = false
  red : (A.flags.has Flags.INDEXING = true ∧ m = 0) ∨ ∀ i, reducedAxes (shape i) (A.inAxes.first (A.flags.has Flags.SUMMATION)) = none
  size : A.flags.has Flags.LINEAR_IN_ONE = true ∨ ∀ i, ∃ j, b = List.replicate j 1 ++ otherShape (shape i) (A.inAxes.second (shape i).length)

variable {T n : ℕ} {A : ArrFn F shape out} {ifwd : (acts : List (Fin (m + 1))) → Option ((Fin acts.length → ND ℤ) → ND ℤ)} {b : List ℕ}
  {φ : List (ND F) → ((i : Fin (m + 1)) → Fin (A.inAxes.slice (shape i)).prod → F) → List ℕ → F} {x : (i : Fin (m + 1)) → Fin (shape i).prod → F}

theorem rule_of_call {o : (i : Fin (m + 1)) → Opd F (shape i).prod} {r : Opd F out.prod} (h : A.call ifwd T o = some r) : ∃ r, (A.prim ifwd).rule T o = .ok r := by
  refine ⟨fun _ => r, ?_⟩
  show (match A.call ifwd T o with | none => Except.error Interp.Err.other | some r => .ok fun _ => r) = _
  rw [h]
  rfl

theorem prim_returns_dense (hn : 0 < n) (hT : A.Truthful ifwd b φ x) : (A.prim ifwd).ReturnsWith (denseInv n) T n x := by
  intro X _ _ B o u hB hx ho hl
  subst hB
  obtain ⟨h1, h2⟩ := callOk_of (fun _ J hJ hw => absurd hw (by rw [hJ.1]; decide)) hx ho hl
  obtain ⟨t, h3, -⟩ := call_dense (T := T) hn hT h1 h2
  exact rule_of_call h3

theorem prim_returns_sparse (hn : 0 < n) (hT : A.Truthful ifwd b φ x) (hs : A.SparseSafe ifwd b) (hr : A.NeverRaises b) : (A.prim ifwd).ReturnsWith (arrInv T n) T n x := by
  intro X _ _ B o u hB hx ho hl
  subst hB
  obtain ⟨h1, h2⟩ := callOk_of (fun _ J hJ => hJ.1) hx ho hl
  obtain ⟨t, h3, -⟩ := call_total (T := T) hn hT hs h1 h2 hr.ops hr.dot (hr.red.imp id fun hr i t _ ⟨dims, mm, h, _⟩ => absurd ((hr i).symm.trans h) (by simp)) (hr.size.imp id fun h b' hb' => by
    refine batch_ones hb'.argShape ?_ fun s hs => ?_
    · obtain ⟨i, hi⟩ := h1.some
      have hp : 0 < (actsOf o).length := List.length_pos_of_mem ((mem_actsOf o i).mpr hi)
      intro hnil
      have := congrArg List.length hnil
      rw [List.length_ofFn, List.length_nil] at this
      exact absurd this hp.ne'
    · obtain ⟨a, rfl⟩ := (List.mem_ofFn' _ _).mp hs
      exact h ((actsOf o).get a))
  exact rule_of_call h3

/-- The primitives of programs that return: array-level functions whose declarations are true and (with sparse Jacobians) avoid the calls that raise; functions that drop
derivatives and are constant near the point; real-linear functions of every element; with sparsity disabled, `dot_general` and every primitive of `Good` whose rule returns. -/
inductive ArrTotal (sp : Bool) (n : ℕ) : (p : Prim F) → ((i : Fin p.nIn) → Fin (p.size i) → F) → Prop
  | array {m : ℕ} {shape : Fin (m + 1) → List ℕ} {out : List ℕ} (A : ArrFn F shape out) (ifwd : (acts : List (Fin (m + 1))) → Option ((Fin acts.length → ND ℤ) → ND ℤ))
      (b : List ℕ) (φ : List (ND F) → ((i : Fin (m + 1)) → Fin (A.inAxes.slice (shape i)).prod → F) → List ℕ → F) (x : (i : Fin (m + 1)) → Fin (shape i).prod → F)
      (h : A.Truthful ifwd b φ x) (hs : sp = true → A.SparseSafe ifwd b ∧ A.NeverRaises b) : ArrTotal sp n (A.prim ifwd) x
  | dropped (nIn : ℕ) (size : Fin nIn → ℕ) (nOut : ℕ) (outSize : Fin nOut → ℕ)
      (fwd : ((i : Fin nIn) → Fin (size i) → F) → (j : Fin nOut) → Fin (outSize j) → F)
      (x : (i : Fin nIn) → Fin (size i) → F) (h : ∀ᶠ y in 𝓝 x, fwd y = fwd x) :
      ArrTotal sp n (dropPrim nIn size nOut outSize fwd) x
  | mapped (m : ℕ) (f : F →L[ℝ] F) (x : (i : Fin 1) → Fin m → F) : ArrTotal sp n (mapPrim m f) x
  | dot (dd : DotDims) (ls rs : List ℕ) (h : dd.Ok ls rs) (hl : 0 ∉ ls) (hr : 0 ∉ rs) (hs : sp = false) (x : (i : Fin 2) → Fin (two ls rs i).prod → F) : ArrTotal sp n (dotArrPrim dd ls rs) x
  | core (p : Prim F) (x : (i : Fin p.nIn) → Fin (p.size i) → F) (h : Good false n p x) (ht : ∀ T, p.TotalAt T n x) (hs : sp = false) : ArrTotal sp n p x

theorem ArrTotal.good {sp : Bool} {n : ℕ} {p : Prim F} {x : (i : Fin p.nIn) → Fin (p.size i) → F} (h : ArrTotal sp n p x) : ArrGood sp n p x := by
  cases h with
  | array A ifwd b φ x h hs => exact .array A ifwd b φ x h fun h => (hs h).1
  | dropped nIn size nOut outSize fwd x h => exact .dropped _ _ _ _ _ _ h
  | mapped m f x => exact .mapped m f x
  | dot dd ls rs h hl hr hs x => exact .dot dd ls rs h hl hr (fun h => absurd (hs.symm.trans h) (by decide)) x
  | core p x h ht hs => exact .core p x h hs

omit [Inhabited F] in
theorem totalAt_returns {T n : ℕ} {p : Prim F} {x : (i : Fin p.nIn) → Fin (p.size i) → F} (h : p.TotalAt T n x) : p.ReturnsWith (denseInv n) T n x :=
  fun B o u _ hx ho hl => h o (fun i => (opdRep_x B _ _ _ (ho i)).trans (hx i)) hl fun i t ht => by
    have := ho i
    rw [ht] at this
    exact this.2

theorem ArrTotal.returns (T : ℕ) {sp : Bool} {n : ℕ} (hn : 0 < n) {p : Prim F} {x : (i : Fin p.nIn) → Fin (p.size i) → F} (h : ArrTotal sp n p x) :
    p.ReturnsWith (if sp then arrInv T n else denseInv n) T n x := by
  cases h with
  | array A ifwd b φ x h hs =>
    cases sp with
    | true => exact prim_returns_sparse hn h (hs rfl).1 (hs rfl).2
    | false => exact prim_returns_dense hn h
  | dropped nIn size nOut outSize fwd x h => exact fun {X} _ _ _ _ _ _ _ _ _ => ⟨_, rfl⟩
  | mapped m f x => exact fun {X} _ _ _ _ _ _ _ _ _ => ⟨_, rfl⟩
  | dot dd ls rs h hl hr hs x =>
    subst hs
    exact dotArr_returns hn h hl hr x
  | core p x h ht hs =>
    subst hs
    exact totalAt_returns (ht T)

/-! ### Functions that never raise -/

omit [Inhabited F] in
theorem ew_never {flags : Flags} {fil : Bool} {g : (Fin (m + 1) → F) → F} {g' : (Fin (m + 1) → F) → (Fin (m + 1) → F) →ₗ[F] F} {g'' : (Fin (m + 1) → F) → (Fin (m + 1) → F) →ₗ[F] (Fin (m + 1) → F) →ₗ[F] F}
    (hm : m ≤ 1) (hdot : flags.has Flags.DOT_PRODUCT = false) (h : flags.has Flags.LINEAR_IN_ONE = true ∨ ∀ i, ∃ j, out = List.replicate j 1 ++ shape i) :
    (ewFn flags fil shape out g g' g'').NeverRaises out :=
  ⟨Or.inr ⟨hm, Or.inr rfl⟩, hdot, Or.inr fun _ => rfl, h.imp id fun h i => (h i).imp fun j hj => hj.trans (congrArg (fun s => List.replicate j 1 ++ s) (otherShape_nil _).symm)⟩

theorem sumArr_never {fil : Bool} {s dims : List ℕ} : (sumArr (F := F) fil s dims).NeverRaises (m := 0) [] :=
  ⟨Or.inl rfl, by show Flags.SUMMATION.has _ = false; decide, Or.inr fun _ => by
    show reducedAxes s (InAxes.first (Flags.SUMMATION.has Flags.SUMMATION) (.unset (some dims))) = none
    rw [show Flags.SUMMATION.has Flags.SUMMATION = true by decide]
    rfl, Or.inl (by show Flags.SUMMATION.has _ = true; decide)⟩

omit [Inhabited F] in
/-- Indexing of one array. -/
theorem takeArr_never {s : List ℕ} {fil : Bool} {src : Fin out.prod → Option ((_ : Fin 1) × Fin s.prod)} {c : Fin out.prod → F} :
    (takeArr (F := F) (m := 0) (shape := fun _ => s) fil src c).NeverRaises (m := 0) [] :=
  ⟨Or.inl rfl, by show Flags.INDEXING.has _ = false; decide, Or.inl ⟨by show Flags.INDEXING.has _ = true; decide, rfl⟩, Or.inl (by show Flags.INDEXING.has _ = true; decide)⟩

end

end Folx.Layout

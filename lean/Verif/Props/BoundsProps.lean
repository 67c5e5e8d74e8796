import Verif.Prog.Bounds
import Verif.Props.BuiltInProps
import Verif.Props.InitProps

/-!
# C46: sparse storage stays within bounds

No differentiability, no domain condition and no exclusion of defective rules: the bounds hold also where results are wrong.
-/

namespace Folx

open Folx.Interp Vmap Dot

attribute [local instance] instInhabitedScalar

/-- The call of `p` with operands `o` is the call of a registered function whose index operands carry no derivatives, or of a
function wrapped with `wrap_forward_laplacian` whose declared axes are true. -/
inductive StoredCall : (p : Prim ℝ) → ((i : Fin p.nIn) → Opd ℝ (p.size i)) → Prop
  | registered {name : String} {p : Prim ℝ} {dom : ((i : Fin p.nIn) → Fin (p.size i) → ℝ) → Prop} {index : Fin p.nIn → Bool}
      {sp : Prop} (hb : BuiltIn name p dom index sp) (o : (i : Fin p.nIn) → Opd ℝ (p.size i))
      (hi : ∀ i, index i = true → (o i).isLapl = false) : StoredCall p o
  | wrapped (s : Std ℝ) (o : (i : Fin s.nIn) → Opd ℝ (s.size i)) (h : s.Declared (WPrim.laplEmb o) fun i => (o i).x) :
      StoredCall s.toWPrim.toPrim o

theorem StoredCall.bounded {p : Prim ℝ} {o : (i : Fin p.nIn) → Opd ℝ (p.size i)} (h : StoredCall p o) (T n : ℕ) :
    p.BoundedFor T n o := by
  cases h with
  | registered hb o hi => exact hb.bounded T n o hi
  | wrapped s o h => exact s.prim_bounded T n o h

/-- If the value carries a sparse Jacobian, its indices lie between `-1` and `n - 1`, and the entries at `-1` are zero. -/
def StoredWithin {F : Type} [Zero F] (n : ℕ) (v : PVal F) : Prop :=
  ∀ t rows, v.2 = .lapl t → t.jac = .sparse rows →
    ∀ r ∈ rows, ∀ p, -1 ≤ r.idx p ∧ r.idx p ≤ n - 1 ∧ (r.idx p = -1 → r.val p = 0)

theorem storedWithin_iff {F : Type} [RCLike F] (n : ℕ) (v : PVal F) : StoredWithin n v ↔ v.2.Bounded n := by
  constructor
  · intro h t ht hw
    match hj : t.jac with
    | .dense rows => rw [hj] at hw; simp [Jac.weak] at hw
    | .sparse rows =>
      intro r hr p
      obtain ⟨h1, h2, h3⟩ := h t rows ht hj r hr p
      exact ⟨by omega, fun hneg => ⟨by omega, h3 (by omega)⟩⟩
  · intro h t rows ht hj r hr p
    have := h t ht (by rw [hj]; rfl)
    rw [hj] at this
    exact inBounds_of_wf n (.sparse rows) this r hr p

/-- **C46 (programs, from any state).** A program whose calls are calls of registered functions or of wrapped functions with
true declarations, run on arguments within bounds with any threshold, returns values within bounds.  All values met in a run
are covered: each is the output of a shorter program. -/
theorem C46_resume (reg : String → Option (Prim ℝ)) (junk : List (PVal ℝ) → PVal ℝ)
    (hjunk : ∀ col, (∀ v ∈ col, ¬ v.isSparse) → ¬ (junk col).isSparse) (T n d : ℕ)
    (j : Jaxpr (Op d ℝ) (PArr ℝ)) (consts : List (PArr ℝ)) (args ys : List (PVal ℝ)) (hargs : ∀ v ∈ args, StoredWithin n v)
    (hd : DomProg (evLapl reg junk T d) (DomB reg junk T StoredCall d) (j.map PVal.ofPlain) (consts.map PVal.ofPlain) args)
    (h : evalLapl reg junk T d j consts args = .ok ys) : ∀ v ∈ ys, StoredWithin n v := by
  intro v hv
  rw [storedWithin_iff]
  exact evalRC_all (fun v => v.2.Bounded n) (ofPlain_bounded n) _ _ j
    (fun e _ => evLapl_bounded n reg junk hjunk T StoredCall (fun p o h => h.bounded T n) d e.op) consts args ys
    (fun v hv => (storedWithin_iff n v).mp (hargs v hv)) hd h v hv

/-- **C46 (`forward_laplacian`).** -/
theorem C46_program (reg : String → Option (Prim ℝ)) (junk : List (PVal ℝ) → PVal ℝ)
    (hjunk : ∀ col, (∀ v ∈ col, ¬ v.isSparse) → ¬ (junk col).isSparse) (t : ℚ) {n : ℕ} (hn : 0 < n) (sizes : List ℕ)
    (hs : sizes.sum = n) (d : ℕ) (j : Jaxpr (Op d ℝ) (PArr ℝ)) (consts : List (PArr ℝ)) (weights : Weights ℝ) (w x : Fin n → ℝ)
    (hw : weightArrs weights sizes = .ok (unflat sizes w))
    (hd : ∀ args, initState (decide (0 < threshold t n)) weights (plainArgs sizes x) = .ok args →
      DomProg (evLapl reg junk (threshold t n).toNat d) (DomB reg junk (threshold t n).toNat StoredCall d)
        (j.map PVal.ofPlain) (consts.map PVal.ofPlain) args)
    (ys : List (PVal ℝ)) (h : forwardLaplacian reg junk t d j consts weights (plainArgs sizes x) = .ok ys) :
    ∀ v ∈ ys, StoredWithin n v := by
  have hne : sizes ≠ [] := by
    rintro rfl
    simp at hs
    omega
  unfold plainArgs at hd
  unfold forwardLaplacian at h
  rw [sizes_plainArgs, hs] at h
  dsimp only at h
  unfold plainArgs at h
  rw [initState_eq _ weights sizes hne hs w x hw] at h hd
  dsimp only at h
  have hinit : List.Forall₂ (Represents (inputBase w x) (fun _ _ => True))
      (initSpec (decide (0 < threshold t n)) w x 0 sizes : List (PVal ℝ)) (inputFns n 0 sizes) := by
    apply initSpec_represents _ _ w x _ sizes 0 (by omega)
    cases decide (0 < threshold t n) with
    | true => exact fun _ _ => trivial
    | false => exact fun _ rows hr => trivial
  refine C46_resume reg junk hjunk _ n d j consts _ ys (fun v hv => ?_) (hd _ rfl) h
  obtain ⟨i, hi, rfl⟩ := List.getElem_of_mem hv
  have hi' : i < (inputFns n 0 sizes : List (FArr (Fin n → ℝ) ℝ)).length := by rw [← hinit.length_eq]; exact hi
  obtain ⟨u, -, hu⟩ := (List.forall₂_iff_get.mp hinit).2 i hi hi'
  rw [storedWithin_iff]
  intro tr htr _
  have hu' : OpdRep (inputBase w x) (fun _ _ => True) (initSpec (decide (0 < threshold t n)) w x 0 sizes)[i].2 u := hu
  rw [htr] at hu'
  exact hu'.1.wf

/-- **C46 (number of rows).** `reduce_sum` along at least one axis returns at most `T` Jacobian rows, or a dense Jacobian.
(`T` is the threshold.) -/
theorem C46_rows_sum (s dims : List ℕ) (hs : 0 < s.prod) (hp : (keptDims s.length dims ++ dims).Perm (List.range s.length))
    (hne : dims ≠ []) (T n : ℕ) (o : (i : Fin 1) → Opd ℝ (oneSize s.prod i)) (ho : ∀ i, StoredWithin n ⟨_, o i⟩)
    (r : (j : Fin 1) → Opd ℝ (sizes s (keptDims s.length dims)).prod)
    (hr : (reduceSumOp ℝ s dims hs hp).toWPrim.toPrim.rule T o = .ok r) (t) (ht : r 0 = .lapl t) (rows)
    (hrows : t.jac = .sparse rows) : rows.length ≤ T := by
  have := axesRed_rows hs hp hne _ (by decide) (by decide) T n o (fun i => (storedWithin_iff n _).mp (ho i)) r hr 0 t ht
    (by rw [hrows]; rfl)
  rwa [hrows] at this

/-- **C46 (number of rows).** The same for `reduce_prod`. -/
theorem C46_rows_prod (s dims : List ℕ) (hs : 0 < s.prod) (hp : (keptDims s.length dims ++ dims).Perm (List.range s.length))
    (hne : dims ≠ []) (T n : ℕ) (o : (i : Fin 1) → Opd ℝ (oneSize s.prod i)) (ho : ∀ i, StoredWithin n ⟨_, o i⟩)
    (r : (j : Fin 1) → Opd ℝ (sizes s (keptDims s.length dims)).prod)
    (hr : (reduceProdOp ℝ s dims hs hp).toWPrim.toPrim.rule T o = .ok r) (t) (ht : r 0 = .lapl t) (rows)
    (hrows : t.jac = .sparse rows) : rows.length ≤ T := by
  have := axesRed_rows hs hp hne _ (by decide) (by decide) T n o (fun i => (storedWithin_iff n _).mp (ho i)) r hr 0 t ht
    (by rw [hrows]; rfl)
  rwa [hrows] at this

/-- **C46 (number of rows).** The same for `reduce_max`. -/
theorem C46_rows_max (s dims : List ℕ) (hs : 0 < s.prod) (hp : (keptDims s.length dims ++ dims).Perm (List.range s.length))
    (hne : dims ≠ []) (T n : ℕ) (o : (i : Fin 1) → Opd ℝ (oneSize s.prod i)) (ho : ∀ i, StoredWithin n ⟨_, o i⟩)
    (r : (j : Fin 1) → Opd ℝ (sizes s (keptDims s.length dims)).prod)
    (hr : (reduceMaxOp s dims hs hp).toWPrim.toPrim.rule T o = .ok r) (t) (ht : r 0 = .lapl t) (rows)
    (hrows : t.jac = .sparse rows) : rows.length ≤ T := by
  have := axesRed_rows hs hp hne _ (by decide) (by decide) T n o (fun i => (storedWithin_iff n _).mp (ho i)) r hr 0 t ht
    (by rw [hrows]; rfl)
  rwa [hrows] at this

/-- **C46 (number of rows).** The same for `reduce_min`. -/
theorem C46_rows_min (s dims : List ℕ) (hs : 0 < s.prod) (hp : (keptDims s.length dims ++ dims).Perm (List.range s.length))
    (hne : dims ≠ []) (T n : ℕ) (o : (i : Fin 1) → Opd ℝ (oneSize s.prod i)) (ho : ∀ i, StoredWithin n ⟨_, o i⟩)
    (r : (j : Fin 1) → Opd ℝ (sizes s (keptDims s.length dims)).prod)
    (hr : (reduceMinOp s dims hs hp).toWPrim.toPrim.rule T o = .ok r) (t) (ht : r 0 = .lapl t) (rows)
    (hrows : t.jac = .sparse rows) : rows.length ≤ T := by
  have := axesRed_rows hs hp hne _ (by decide) (by decide) T n o (fun i => (storedWithin_iff n _).mp (ho i)) r hr 0 t ht
    (by rw [hrows]; rfl)
  rwa [hrows] at this

/-- **C46 (number of rows).** A wrapped function with `k` operands, all reduced along axes, returns at most `k * T` rows. -/
theorem C46_rows (s : Std ℝ) (T n : ℕ) (o : (i : Fin s.nIn) → Opd ℝ (s.size i))
    (h : s.Declared (WPrim.laplEmb o) fun i => (o i).x) (hel : s.elem = false) (hi : s.flags.has Flags.INDEXING = false)
    (hax : ∀ i, ∃ r, s.ax i = .red r) (ho : ∀ i, StoredWithin n ⟨_, o i⟩)
    (r : (j : Fin 1) → Opd ℝ s.out) (hr : s.toWPrim.toPrim.rule T o = .ok r) (t) (ht : r 0 = .lapl t) (rows)
    (hrows : t.jac = .sparse rows) : rows.length ≤ s.nIn * T := by
  have := s.prim_rows T n o h hel hi hax (fun i => (storedWithin_iff n _).mp (ho i)) r hr 0 t ht (by rw [hrows]; rfl)
  rwa [hrows] at this

/-! ### Examples -/

/-- `tanh(y @ y.T).sum()` at every point, with every threshold and weights. -/
example (junk : List (PVal ℝ) → PVal ℝ) (hjunk : ∀ col, (∀ v ∈ col, ¬ v.isSparse) → ¬ (junk col).isSparse) (t : ℚ)
    (w x : Fin 4 → ℝ) (weights : Weights ℝ)
    (hw : weightArrs weights [4] = .ok (unflat [4] w)) (ys : List (PVal ℝ))
    (h : forwardLaplacian Demo.reg junk t 1 Demo.gram [] weights (plainArgs [4] x) = .ok ys) :
    ∀ v ∈ ys, StoredWithin 4 v :=
  C46_program Demo.reg junk hjunk t (n := 4) (by decide) [4] rfl 1 Demo.gram [] weights w x hw
    (fun args _ s _ => Demo.domRun_all _ _ _ _ fun e he xs => by
      obtain ⟨e0, he0, rfl⟩ := List.mem_map.mp he
      obtain ⟨p, hp, _, _, _, _, hb, hsp, hx, hi⟩ := Demo.gram_ok e0 he0
      have hp' : (Eqn.map PVal.ofPlain e0).op = OpStep.prim p := hp
      rw [hp']
      exact fun _ o _ => .registered hb o fun i h => absurd ((hi i).symm.trans h) (by simp)) ys h

end Folx

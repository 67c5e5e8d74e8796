import Verif.ND.ReduceRuleProofs

/-!
# The general reduction rule on arrays refines the rule on positions
-/

namespace Folx.Layout
open Vmap Dot

variable {F : Type} [CommRing F] [Inhabited F]

theorem broadcasts_self (s : List ℕ) : Broadcasts [s, s] s :=
  ⟨fun t ht => by simp at ht; rw [ht], Or.inr ⟨s, by simp, rfl⟩, fun t ht j => by simp at ht; rw [ht]; exact Or.inr rfl,
    fun j => Or.inr ⟨s, by simp, rfl⟩⟩

theorem get_row0 {x : ND F} {K : ℕ} {s : List ℕ} (hx : x.shape = K :: s) {k : ℕ} {w : List ℕ} (hw : InB w s) :
    (row0 x k).get w = x.get (k :: w) := by
  unfold row0
  rw [hx]
  exact ND.get_ofFn _ hw

theorem shape_row0 {x : ND F} {K : ℕ} {s : List ℕ} (hx : x.shape = K :: s) (k : ℕ) : (row0 x k).shape = s := by
  unfold row0
  rw [hx]
  rfl

theorem vecOf_eq {α : Type} [Inhabited α] {x : ND α} {s : List ℕ} (hx : x.shape = s) :
    vecOf x s.prod = fun q : Fin s.prod => x.get (unravelIdx s q) := by
  funext q
  rw [← toND_vecOf x s hx, vecOf_toND, toND_get _ _ (inB_unravelIdx q.2)]
  congr 1
  exact Fin.ext (ravelIdx_unravelIdx q.2).symm

/-- The tangents of the rule: the rows of the materialised Jacobian, then the Laplacian. -/
theorem tangent_spec {G lapl : ND F} {N : ℕ} {s : List ℕ} (hG : G.shape = N :: s) (hl : lapl.shape = s) :
    (concat0 G (expand0 lapl)).shape = (N + 1) :: s ∧
    (∀ k < N, row0 (concat0 G (expand0 lapl)) k = row0 G k) ∧ row0 (concat0 G (expand0 lapl)) N = lapl := by
  have he : (expand0 lapl).shape = 1 :: s := by unfold expand0; rw [hl]; rfl
  have h1 : (concat0 G (expand0 lapl)).shape = (N + 1) :: s := by
    unfold concat0
    rw [hG, he]
    rfl
  have hget : ∀ k w, k < N + 1 → InB w s → (concat0 G (expand0 lapl)).get (k :: w) =
      if k < N then G.get (k :: w) else (expand0 lapl).get ((k - N) :: w) := by
    intro k w hk hw
    unfold concat0
    rw [hG, he]
    exact ND.get_ofFn _ (List.Forall₂.cons hk hw)
  refine ⟨h1, fun k hk => ND.ext_get ((shape_row0 h1 k).trans (shape_row0 hG k).symm) fun w hw => ?_,
    ND.ext_get ((shape_row0 h1 N).trans hl.symm) fun w hw => ?_⟩
  · rw [shape_row0 h1] at hw
    rw [get_row0 h1 hw, get_row0 hG hw, hget k w (by omega) hw, if_pos hk]
  · rw [shape_row0 h1] at hw
    rw [get_row0 h1 hw, hget N w (by omega) hw, if_neg (lt_irrefl _), Nat.sub_self]
    unfold expand0
    rw [hl]
    exact ND.get_ofFn _ (List.Forall₂.cons Nat.one_pos hw)

theorem broadcastMask_some {M : ND ℤ} {N : ℕ} {kept o : List ℕ} (hM : M.shape = N :: kept) (hb : Broadcasts [kept, o] o) :
    broadcastMask M (N :: o) = some (ND.ofFn (N :: o) fun w => M.get (w.getD 0 0 :: bcoord kept o w.tail)) := by
  unfold broadcastMask
  rw [hM, if_neg (by simp), if_neg (by
    simp only [List.tail_cons, ne_eq, not_not]
    exact broadcastShapes_iff.mpr hb)]
  rfl

theorem broadcastMask_none {M : ND ℤ} {N : ℕ} {kept o : List ℕ} (hM : M.shape = N :: kept) (hb : ¬ Broadcasts [kept, o] o) :
    broadcastMask M (N :: o) = none := by
  unfold broadcastMask
  rw [hM, if_neg (by simp), if_pos]
  intro e
  exact hb (broadcastShapes_iff.mp e)

/-- The rule on arrays, in terms of the materialised Jacobian `G` and mask `M`. -/
theorem sparseReduceArr_step (T : ℕ) {push : ND F → ND F} {o : List ℕ} {lapl data : ND F} {x0 : ND ℤ} {axes : AxesArg}
    {G : ND F} {M : ND ℤ} {N : ℕ} {s kept : List ℕ} (hl : lapl.shape = s) (hj : jacForReduction data x0 axes = some (G, M))
    (hG : G.shape = N :: s) (hM : M.shape = N :: kept) :
    (T < N ∧ sparseReduceArr T push o lapl data x0 axes = some .dense) ∨
    (N ≤ T ∧ ¬ Broadcasts [kept, o] o ∧ sparseReduceArr T push o lapl data x0 axes = none) ∨
    (N ≤ T ∧ Broadcasts [kept, o] o ∧ ∃ g m l, sparseReduceArr T push o lapl data x0 axes = some (.sparse ⟨g, some m⟩ l) ∧
      g.shape = N :: o ∧ m.shape = N :: o ∧ l.shape = o ∧
      (∀ k w, k < N → InB w o → g.get (k :: w) = (push (row0 G k)).get w) ∧
      (∀ k w, k < N → InB w o → m.get (k :: w) = M.get (k :: bcoord kept o w)) ∧
      (∀ w, InB w o → l.get w = (push lapl).get w)) := by
  have he : (expand0 lapl).shape = 1 :: s := by unfold expand0; rw [hl]; rfl
  unfold sparseReduceArr
  rw [hj]
  simp only [Option.bind_eq_bind, Option.bind_some, hM, List.getD_cons_zero]
  by_cases hT : T < N
  · left
    exact ⟨hT, if_pos hT⟩
  right
  rw [if_neg hT, hG, he]
  simp only [List.tail_cons, broadcastShapes_iff.mpr (broadcasts_self s), Option.bind_some, bexcept_self hG, bexcept_self he]
  obtain ⟨t1, t2, t3⟩ := tangent_spec hG hl
  obtain ⟨y, hy⟩ : ∃ y, y = vmap0 push o (concat0 G (expand0 lapl)) := ⟨_, rfl⟩
  have hys : y.shape = (N + 1) :: o := by rw [hy]; unfold vmap0; rw [t1]; rfl
  have hyg : ∀ k w, k < N + 1 → InB w o → y.get (k :: w) = (push (row0 (concat0 G (expand0 lapl)) k)).get w := by
    intro k w hk hw
    rw [hy]
    unfold vmap0
    rw [t1]
    exact ND.get_ofFn _ (List.Forall₂.cons hk hw)
  have hgs : (initRows y).shape = N :: o := by unfold initRows; rw [hys]; rfl
  rw [← hy]
  rw [hgs]
  by_cases hb : Broadcasts [kept, o] o
  · right
    rw [broadcastMask_some hM hb]
    refine ⟨Nat.le_of_not_lt hT, hb, initRows y, _, lastRow y, rfl, hgs, rfl, ?_, ?_, ?_, ?_⟩
    · unfold lastRow; exact shape_row0 hys _
    · intro k w hk hw
      unfold initRows
      rw [hys]
      show (ND.ofFn ((N + 1 - 1) :: o) fun w => y.get w).get (k :: w) = _
      rw [ND.get_ofFn _ (List.Forall₂.cons (show k < N + 1 - 1 by omega) hw), hyg k w (by omega) hw, t2 k hk]
    · intro k w hk hw
      exact ND.get_ofFn _ (List.Forall₂.cons hk hw)
    · intro w hw
      unfold lastRow
      rw [get_row0 hys hw, hys]
      show y.get (N :: w) = _
      rw [hyg N w (by omega) hw, t3]
  · left
    rw [broadcastMask_none hM hb]
    exact ⟨Nat.le_of_not_lt hT, hb, rfl⟩

/-- **Refinement.** If the axes name one argument and the mask of the kept axes broadcasts to the output, the rule on arrays is
the rule on positions of `Verif/Core/Jvp.lean`, where an output element belongs to the kept position it is broadcast from. -/
theorem sparseReduceArr_refines (T : ℕ) {lapl data : ND F} {x0 : ND ℤ} {s dims o : List ℕ} {K : ℕ} {axes : AxesArg}
    (hl : lapl.shape = s) (hd : data.shape = K :: s) (hi : x0.shape = K :: s) (h0 : 0 ∉ s)
    (ha : singleAxes s.length axes = some dims) (hk : 0 < (sizes s (keptDims s.length dims)).prod)
    (hb : Broadcasts [sizes s (keptDims s.length dims), o] o)
    (I : Inst 1 (fun _ => Fin s.prod) (Fin o.prod) F) (hm : I.multi = false) (x : Fin s.prod → F) {push : ND F → ND F}
    (hpush : ∀ t : ND F, t.shape = s → push t = toND o (I.jvp (fun _ => x) fun _ => vecOf t s.prod)) :
    let r := axesRedK s dims (singleAxes_perm ha) (bpos (sizes s (keptDims s.length dims)) o hk)
    let arg : Trip (Fin s.prod) F := ⟨x, ArrJac.rep s ⟨data, some x0⟩, vecOf lapl s.prod⟩
    (sparseReduceArr T push o lapl data x0 axes = none ∧ ∃ e, sparseReduce I r T arg = .error e) ∨
    (sparseReduceArr T push o lapl data x0 axes = some .dense ∧ sparseReduce I r T arg = denseJvp I fun _ => arg) ∨
    ∃ j l, sparseReduceArr T push o lapl data x0 axes = some (.sparse j l) ∧ (∃ N, j.data.shape = N :: o) ∧ l.shape = o ∧
      (∃ m, j.idx = some m ∧ m.shape = j.data.shape) ∧ j.data.shape.getD 0 0 ≤ T ∧
      sparseReduce I r T arg = .ok ⟨I.fwd fun _ => x, j.rep o, vecOf l o.prod⟩ := by
  intro r arg
  rcases jacForReduction_refines hd hi h0 ha (bpos (sizes s (keptDims s.length dims)) o hk) with ⟨h1, e, h2⟩ | ⟨G, M, N, hN, h1, h2, h3, h4⟩
  · left
    refine ⟨?_, e, ?_⟩
    · unfold sparseReduceArr
      rw [h1]
      rfl
    · unfold sparseReduce
      exact (by rw [show jacobianForReduction r arg.jac.srows = .error e from h2])
  right
  have hcore : sparseReduce I r T arg = if (rowsOf M (sizes s (keptDims s.length dims))).length > T then denseJvp I (fun _ => arg)
      else if I.multi then .error .type else .ok
        { y := I.fwd fun _ => arg.x
          jac := .sparse (((rowsOf M (sizes s (keptDims s.length dims))).zip (rowsOf G s)).map fun mg =>
            ⟨fun q => mg.1 (r.κ q), I.jvp (fun _ => arg.x) fun _ => mg.2⟩)
          lapl := I.jvp (fun _ => arg.x) fun _ => arg.lapl } := by
    unfold sparseReduce
    rw [show jacobianForReduction r arg.jac.srows = .ok (rowsOf G s, rowsOf M (sizes s (keptDims s.length dims))) from h4]
  have hlen : (rowsOf M (sizes s (keptDims s.length dims))).length = N := by
    unfold rowsOf
    rw [h3, List.length_map, List.length_range]
    rfl
  rcases sparseReduceArr_step T (push := push) (o := o) hl h1 h2 h3 with ⟨hT, e⟩ | ⟨-, hnb, -⟩ | ⟨hT, -, g, m, l, e, hg, hm', hl', eg, em, el⟩
  · left
    refine ⟨e, hcore.trans ?_⟩
    rw [if_pos (by rw [hlen]; exact hT)]
  · exact absurd hb hnb
  · right
    refine ⟨⟨g, some m⟩, l, e, ⟨_, hg⟩, hl', ⟨m, rfl, hm'.trans hg.symm⟩, by rw [hg]; exact hT, hcore.trans ?_⟩
    rw [if_neg (by rw [hlen]; omega), hm]
    simp only [Bool.false_eq_true, if_false]
    have hjac : (((rowsOf M (sizes s (keptDims s.length dims))).zip (rowsOf G s)).map fun mg =>
            (⟨fun q => mg.1 (r.κ q), I.jvp (fun _ => arg.x) fun _ => mg.2⟩ : Row (Fin o.prod) F)) =
        (List.range N).map fun k => ⟨fun q => m.get (k :: unravelIdx o q), fun q => g.get (k :: unravelIdx o q)⟩ := by
      unfold rowsOf
      rw [h3, h2]
      simp only [List.getD_cons_zero]
      rw [List.zip_map', List.map_map]
      refine List.map_congr_left fun k hk' => ?_
      have hk' : k < N := by simpa using hk'
      simp only [Function.comp]
      congr 1
      · funext q
        rw [em k _ hk' (inB_unravelIdx q.2)]
        obtain ⟨hin, hq⟩ := bpos_eq hb (by simp) hk q
        show M.get (k :: unravelIdx _ (bpos (sizes s (keptDims s.length dims)) o hk q)) = _
        rw [hq]
        show M.get (k :: unravelIdx _ (ravelIdx _ _)) = _
        rw [unravelIdx_ravelIdx hin]
      · funext q
        rw [eg k _ hk' (inB_unravelIdx q.2), hpush _ (shape_row0 h2 k), vecOf_eq (shape_row0 h2 k),
          toND_get _ _ (inB_unravelIdx q.2)]
        have e1 : (fun p : Fin s.prod => (row0 G k).get (unravelIdx s p)) = fun p : Fin s.prod => G.get (k :: unravelIdx s p) := by
          funext p
          exact get_row0 h2 (inB_unravelIdx p.2)
        rw [e1]
        exact congrArg _ (Fin.ext (ravelIdx_unravelIdx q.2).symm)
    have hlap : vecOf l o.prod = I.jvp (fun _ => arg.x) fun _ => arg.lapl := by
      rw [vecOf_eq hl']
      funext q
      rw [el _ (inB_unravelIdx q.2), hpush _ hl, toND_get _ _ (inB_unravelIdx q.2)]
      exact congrArg _ (Fin.ext (ravelIdx_unravelIdx q.2))
    rw [hjac, ← hlap]
    unfold ArrJac.rep
    simp only [hg, List.getD_cons_zero]
    rfl

end Folx.Layout

import Verif.ND.FirstDiag

/-!
# The rule for indexing functions of sparse Jacobians on arrays
-/

namespace Folx.Layout
open Vmap Dot

variable {F : Type} [CommRing F] [Inhabited F] {k : ℕ} {ss : Fin (k + 1) → List ℕ} {o : List ℕ}

theorem broadcastDim_spec {α : Type} [Inhabited α] (fill : α) {xs : Fin (k + 1) → ND α} {K : Fin (k + 1) → ℕ} (h : ∀ a, (xs a).shape = K a :: ss a) :
    (∀ a, (broadcastDim fill xs a).shape = ((List.ofFn K).foldr max 0) :: ss a) ∧
    ∀ a r p, r < (List.ofFn K).foldr max 0 → InB p (ss a) →
      (broadcastDim fill xs a).get (r :: p) = if r < K a then (xs a).get (r :: p) else fill := by
  have hK : (fun a => (xs a).shape.getD 0 0) = K := funext fun a => by rw [h a]; rfl
  have hK' : ∀ a, (xs a).shape.getD 0 0 = K a := congrFun hK
  set N := (List.ofFn K).foldr max 0 with hN
  have hle : ∀ a, K a ≤ N := fun a => foldr_max_le (List.mem_ofFn.mpr ⟨a, rfl⟩)
  have hsh : ∀ a, (ND.ofFn ((N - K a) :: (xs a).shape.tail) fun _ => fill).shape = (N - K a) :: ss a := fun a => by rw [h a]; rfl
  have hdef : ∀ a, broadcastDim fill xs a = concat0 (xs a) (ND.ofFn ((N - K a) :: (xs a).shape.tail) fun _ => fill) := by
    intro a
    unfold broadcastDim
    rw [hK, hK']
  have hc := fun a => concat0_spec (h a) (hsh a)
  refine ⟨fun a => ?_, fun a r p hr hp => ?_⟩
  · rw [hdef, (hc a).1, Nat.add_sub_cancel' (hle a)]
  · have := hle a
    rw [hdef, (hc a).2 r p (by omega) hp]
    split
    · rfl
    · rw [h a]
      exact ND.get_ofFn _ (List.Forall₂.cons (by omega) hp)

/-- The rule for indexing functions of sparse arguments. -/
theorem sparseIndexArr_spec {n : ℕ} (hn : 0 < n) {args : Fin (k + 1) → ArrTrip F} (hargs : ∀ a, ArgFor n (ss a) (args a))
    (hs : ∀ a, (args a).jac.idx ≠ none) {D : Deriv F ss o} {ew : Bool} (hD : ew = true → Elementwise D) (join : Bool)
    {ifwd : Option ((Fin (k + 1) → ND ℤ) → ND ℤ)} (hf : ∀ f, ifwd = some f → Indexing D f) :
    ∃ r, sparseIndexArr ew join D ifwd args = some r ∧ (r.1.idx = none ↔ ifwd = none) ∧ IsPush n D args r := by
  cases ifwd with
  | none =>
    obtain ⟨r, h1, h2, h3⟩ := denseJvpArr_spec hn hargs hD join
    exact ⟨r, h1, by simp [h2], h3⟩
  | some f =>
    have hI := hf f rfl
    choose ms hms using fun a => Option.ne_none_iff_exists'.mp (hs a)
    have hmask : (fun a => (args a).jac.mask) = ms := funext fun a => by unfold ArrJac.mask; rw [hms a]
    have hfor : ∀ a, (ms a).shape = (args a).jac.data.shape ∧ ∀ k p, k < hd (args a).jac.data → InB p (ss a) →
        (ms a).get (k :: p) < n ∧ ((ms a).get (k :: p) < 0 → (ms a).get (k :: p) = -1 ∧ (args a).jac.data.get (k :: p) = 0) := by
      intro a
      have := (hargs a).jac.2
      rw [hms a] at this
      exact this
    set K : Fin (k + 1) → ℕ := fun a => hd (args a).jac.data with hKdef
    obtain ⟨hM1, hM2⟩ := broadcastDim_spec (-1 : ℤ) (xs := ms) (ss := ss) (K := K) fun a => (hfor a).1.trans (data_shape hargs a)
    obtain ⟨hd1, hd2⟩ := broadcastDim_spec (0 : F) (xs := fun a => (args a).jac.data) (ss := ss) (K := K) fun a => data_shape hargs a
    set N := (List.ofFn K).foldr max 0 with hN
    have hKN : ∀ a, K a ≤ N := fun a => foldr_max_le (List.mem_ofFn.mpr ⟨a, rfl⟩)
    obtain ⟨r, h1, h2, h3, h4, h5⟩ := joint_spec D hd1 fun a => (hargs a).lapl
    set MS := broadcastDim (-1) ms with hMS
    set DS := broadcastDim (0 : F) (fun a => (args a).jac.data) with hDS
    have hrow : ∀ i, ∀ a, (row0 (MS a) i).shape = ss a := fun i a => shape_row0 (hM1 a) i
    set mask := ND.ofFn (N :: o) fun w => (f fun a => row0 (MS a) (w.getD 0 0)).get w.tail with hmaskdef
    have hmget : ∀ i q, i < N → InB q o → mask.get (i :: q) = (f fun a => row0 (MS a) i).get q := by
      intro i q hi hq
      rw [hmaskdef, ND.get_ofFn _ (List.Forall₂.cons hi hq)]
      rfl
    refine ⟨(⟨initRows r, some mask⟩, lastRow r), ?_, by simp, ⟨⟨⟨N, h2⟩, ?_⟩, fun _ => ?_, fun i q hq => ?_, h4, h5⟩⟩
    · unfold sparseIndexArr
      dsimp only
      rw [hmask, ← hMS, hM1 0, List.getD_cons_zero, hI.shape _ (hrow 0), ← hDS, ← hmaskdef]
      show (vmapPush D _).bind _ = _
      rw [h1]
      show (if (initRows r).shape ≠ mask.shape then none else _) = _
      rw [if_neg (by rw [h2]; simp [hmaskdef, ND.shape_ofFn])]
      rfl
    · refine ⟨h2.symm, fun i q hi hq => ?_⟩
      have hi : i < N := by
        have : i < (initRows r).shape.getD 0 0 := hi
        rw [h2] at this
        exact this
      show mask.get (i :: q) < n ∧ (mask.get (i :: q) < 0 → mask.get (i :: q) = -1 ∧ (initRows r).get (i :: q) = 0)
      rw [hmget i q hi hq, h3 i q hi hq]
      rcases hI.src q hq with ⟨a, p, hp, ht, hx⟩ | ⟨ht, hx⟩
      · rw [hx _ (hrow i), get_row0 (hM1 a) hp, ht, hM2 a i p hi hp, toND_get _ _ hp]
        dsimp only
        rw [unravelIdx_ravelIdx hp, hd2 a i p hi hp]
        split
        · rename_i hK
          exact (hfor a).2 i p hK hp
        · exact ⟨by omega, fun _ => ⟨rfl, rfl⟩⟩
      · rw [hx _ (hrow i), ht]
        exact ⟨by omega, fun _ => ⟨rfl, rfl⟩⟩
    · show 0 < (initRows r).shape.getD 0 0
      rw [h2]
      exact lt_of_lt_of_le ((hargs 0).rows (hs 0)) (hKN 0)
    · show ((List.range ((initRows r).shape.getD 0 0)).map fun u => if mask.get (u :: q) = (i : ℤ) then (initRows r).get (u :: q) else 0).sum = _
      rw [h2, List.getD_cons_zero, range_sum]
      rcases hI.src q hq with ⟨a, p, hp, ht, hx⟩ | ⟨ht, hx⟩
      · rw [ht, toND_get _ _ hp]
        unfold derivsOf
        dsimp only
        rw [unravelIdx_ravelIdx hp]
        unfold ArrJac.entry
        rw [hms a]
        dsimp only
        rw [range_sum]
        show _ = ∑ u ∈ Finset.range (K a), _
        obtain ⟨c, hc⟩ := Nat.exists_eq_add_of_le (hKN a)
        rw [hc, Finset.sum_range_add, Finset.sum_eq_zero (s := Finset.range c), add_zero]
        · refine Finset.sum_congr rfl fun u hu => ?_
          have hu := Finset.mem_range.mp hu
          have huN : u < N := by omega
          rw [hmget u q huN hq, hx _ (hrow u), get_row0 (hM1 a) hp, hM2 a u p huN hp, if_pos hu, h3 u q huN hq, ht, toND_get _ _ hp]
          dsimp only
          rw [unravelIdx_ravelIdx hp, hd2 a u p huN hp, if_pos hu]
        · intro u hu
          have hu := Finset.mem_range.mp hu
          have huN : K a + u < N := by omega
          have hneg : ¬ (K a + u < K a) := by omega
          rw [h3 _ q huN hq, ht, toND_get _ _ hp]
          dsimp only
          rw [unravelIdx_ravelIdx hp, hd2 a _ p huN hp, if_neg hneg, ite_self]
      · rw [ht]
        refine Finset.sum_eq_zero fun u hu => ?_
        rw [h3 u q (Finset.mem_range.mp hu) hq, ht, ite_self]

end Folx.Layout

import Verif.ND.VmapMain

namespace Folx.Vmap

variable {α β : Type}

theorem mapM_of_forall₂ {γ δ : Type} (f : γ → Option δ) {l : List γ} {r : List δ}
    (h : List.Forall₂ (fun x y => f x = some y) l r) : l.mapM f = some r := by
  induction h with
  | nil => rfl
  | cons h1 _ ih => rw [List.mapM_cons, h1, ih]; rfl

theorem bcastDim_iff {l : List ℕ} {d : ℕ} :
    bcastDim l = some d ↔ (∀ e ∈ l, e = 1 ∨ e = d) ∧ (d = 1 ∨ d ∈ l) := by
  constructor
  · intro h
    refine ⟨fun e he => bcastDim_mem h he, ?_⟩
    unfold bcastDim at h
    split at h
    · exact Or.inl (Option.some.inj h).symm
    · rename_i d' ds heq
      split at h
      · right
        rw [← Option.some.inj h]
        have : d' ∈ l.filter (· ≠ 1) := by rw [heq]; simp
        exact (List.mem_filter.mp this).1
      · simp at h
  · rintro ⟨h1, h2⟩
    by_cases hd : d = 1
    · subst hd
      exact bcastDim_one fun e he => by rcases h1 e he with h | h <;> exact h
    · have hm : d ∈ l := by rcases h2 with h | h <;> [exact absurd h hd; exact h]
      have hall : ∀ e ∈ l.filter (· ≠ 1), e = d := by
        intro e he
        obtain ⟨he1, he2⟩ := List.mem_filter.mp he
        rcases h1 e he1 with h | h
        · simp [h] at he2
        · exact h
      have hne : d ∈ l.filter (· ≠ 1) := List.mem_filter.mpr ⟨hm, by simpa using hd⟩
      unfold bcastDim
      split
      · rename_i heq; rw [heq] at hne; simp at hne
      · rename_i d' ds heq
        rw [heq] at hall
        have h0 : d' = d := hall d' (by simp)
        rw [if_pos fun e he => (hall e (by simp [he])).trans h0.symm, h0]

theorem padded_getD {s : List ℕ} {n i : ℕ} (hs : s.length ≤ n) (hi : i < n) :
    (List.replicate (n - s.length) 1 ++ s).getD i 1 = dimBack s (n - 1 - i) := by
  unfold dimBack
  by_cases h : i < n - s.length
  · rw [List.getD_append _ _ _ _ (by simpa using h), List.getD_eq_getElem _ _ (by simpa using h),
      List.getD_eq_default _ _ (by rw [List.length_reverse]; omega)]
    simp
  · rw [List.getD_append_right _ _ _ _ (by simpa using h), List.length_replicate,
      List.getD_eq_getElem _ _ (by omega), List.getD_eq_getElem _ _ (by rw [List.length_reverse]; omega),
      List.getElem_reverse]
    congr 1
    omega

theorem foldr_max_eq {l : List ℕ} {n : ℕ} (h1 : ∀ a ∈ l, a ≤ n) (h2 : n = 0 ∨ n ∈ l) : l.foldr max 0 = n := by
  apply le_antisymm
  · clear h2
    induction l with
    | nil => simp
    | cons a l ih => exact max_le (h1 a (by simp)) (ih fun b hb => h1 b (by simp [hb]))
  · rcases h2 with h | h
    · omega
    · exact foldr_max_le h

theorem foldr_max_mem (l : List ℕ) : l.foldr max 0 = 0 ∨ l.foldr max 0 ∈ l := by
  induction l with
  | nil => exact Or.inl rfl
  | cons a l ih =>
    rw [List.foldr_cons]
    rcases le_total a (l.foldr max 0) with h | h
    · rw [max_eq_right h]
      rcases ih with h0 | h0
      · exact Or.inl h0
      · exact Or.inr (List.mem_cons_of_mem _ h0)
    · rw [max_eq_left h]
      exact Or.inr (by simp)

theorem dimBack_of_le {s : List ℕ} {j : ℕ} (h : s.length ≤ j) : dimBack s j = 1 := by
  unfold dimBack
  exact List.getD_eq_default _ _ (by simpa using h)

/-- The model of `jnp.broadcast_shapes` follows the broadcasting rules. -/
theorem broadcastShapes_iff {shapes : List (List ℕ)} {b : List ℕ} :
    broadcastShapes shapes = some b ↔ Broadcasts shapes b := by
  constructor
  · intro h
    have hf : List.Forall₂ _ _ b := mapM_some _ h
    have hlen : b.length = (shapes.map List.length).foldr max 0 := by
      rw [← hf.length_eq, List.length_range]
    rw [← hlen] at hf
    have hle : ∀ s ∈ shapes, s.length ≤ b.length := fun s hs => by
      rw [hlen]; exact foldr_max_le (List.mem_map_of_mem hs)
    have hget : ∀ i (hi : i < b.length),
        bcastDim ((shapes.map fun s => List.replicate (b.length - s.length) 1 ++ s).map fun s => s.getD i 1) =
          some b[i] := by
      intro i hi
      have := List.Forall₂.get hf (by simpa using hi) hi
      simpa only [List.get_eq_getElem, List.getElem_range] using this
    have hdim : ∀ j (hj : j < b.length),
        bcastDim (shapes.map fun s => dimBack s j) = some (dimBack b j) := by
      intro j hj
      have := hget (b.length - 1 - j) (by omega)
      rw [List.map_map] at this
      have e : (shapes.map ((fun s => s.getD (b.length - 1 - j) 1) ∘
          fun s => List.replicate (b.length - s.length) 1 ++ s)) = shapes.map fun s => dimBack s j := by
        refine List.map_congr_left fun s hs => ?_
        rw [Function.comp_apply, padded_getD (hle s hs) (by omega)]
        congr 1; omega
      rw [e] at this
      rw [this]
      unfold dimBack
      rw [List.getD_eq_getElem _ _ (by simpa using hj), List.getElem_reverse]
    refine ⟨hle, ?_, ?_, ?_⟩
    · rcases foldr_max_mem (shapes.map List.length) with h0 | h0
      · left; rw [← hlen] at h0; exact List.length_eq_zero_iff.mp h0
      · right
        rw [← hlen] at h0
        obtain ⟨s, hs, e⟩ := List.mem_map.mp h0
        exact ⟨s, hs, e⟩
    · intro s hs j
      by_cases hj : j < b.length
      · exact (bcastDim_iff.mp (hdim j hj)).1 _ (List.mem_map_of_mem hs)
      · exact Or.inl (dimBack_of_le (le_trans (hle s hs) (by omega)))
    · intro j
      by_cases hj : j < b.length
      · rcases (bcastDim_iff.mp (hdim j hj)).2 with h0 | h0
        · exact Or.inl h0
        · obtain ⟨s, hs, e⟩ := List.mem_map.mp h0
          exact Or.inr ⟨s, hs, e⟩
      · exact Or.inl (dimBack_of_le (by omega))
  · intro h
    have hlen : (shapes.map List.length).foldr max 0 = b.length := by
      refine foldr_max_eq ?_ ?_
      · intro a ha
        obtain ⟨s, hs, rfl⟩ := List.mem_map.mp ha
        exact h.rank_le s hs
      · rcases h.rank_eq with h0 | ⟨s, hs, e⟩
        · left; rw [h0]; rfl
        · right; exact List.mem_map.mpr ⟨s, hs, e⟩
    unfold broadcastShapes
    dsimp only
    rw [hlen]
    refine mapM_of_forall₂ _ ?_
    rw [List.forall₂_iff_get]
    refine ⟨by simp, fun i h1 h2 => ?_⟩
    rw [List.get_eq_getElem, List.get_eq_getElem, List.getElem_range, List.map_map]
    have e : (shapes.map ((fun s => s.getD i 1) ∘
        fun s => List.replicate (b.length - s.length) 1 ++ s)) = shapes.map fun s => dimBack s (b.length - 1 - i) := by
      refine List.map_congr_left fun s hs => ?_
      rw [Function.comp_apply, padded_getD (h.rank_le s hs) h2]
    have e2 : b[i] = dimBack b (b.length - 1 - i) := by
      unfold dimBack
      rw [List.getD_eq_getElem _ _ (by rw [List.length_reverse]; omega), List.getElem_reverse]
      congr 1; omega
    rw [e, e2, bcastDim_iff]
    refine ⟨?_, ?_⟩
    · intro d hd
      obtain ⟨s, hs, rfl⟩ := List.mem_map.mp hd
      exact h.compat s hs _
    · rcases h.tight (b.length - 1 - i) with h0 | ⟨s, hs, e⟩
      · exact Or.inl h0
      · exact Or.inr (List.mem_map.mpr ⟨s, hs, e⟩)

end Folx.Vmap

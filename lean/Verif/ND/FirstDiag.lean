import Verif.ND.FirstProofs

/-!
# The rule for elementwise functions of sparse Jacobians on arrays
-/

namespace Folx.Layout
open Vmap Dot

theorem range_sum {G : Type} [AddCommMonoid G] (n : ℕ) (f : ℕ → G) : ((List.range n).map f).sum = ∑ i ∈ Finset.range n, f i := rfl

theorem ite_sum_zero {G ι : Type} [AddCommMonoid G] (P : Prop) [Decidable P] (t : Finset ι) (f : ι → G) :
    (if P then ∑ r ∈ t, f r else 0) = ∑ r ∈ t, if P then f r else 0 := by
  split <;> simp

/-- Rows of a concatenation. -/
theorem sum_offsets {G : Type} [AddCommMonoid G] : ∀ (Ks : List ℕ) (f : ℕ → G),
    ∑ r ∈ Finset.range Ks.sum, f r = ∑ i ∈ Finset.range Ks.length, ∑ r ∈ Finset.range (Ks.getD i 0), f ((Ks.take i).sum + r)
  | [], f => by simp
  | K :: Ks, f => by
    rw [List.sum_cons, Finset.sum_range_add, sum_offsets Ks fun r => f (K + r), List.length_cons, Finset.sum_range_succ']
    rw [add_comm]
    congr 1
    · refine Finset.sum_congr rfl fun i _ => ?_
      rw [List.getD_cons_succ]
      refine Finset.sum_congr rfl fun r _ => ?_
      rw [List.take_succ_cons, List.sum_cons, add_assoc]
    · simp

theorem locate : ∀ (Ks : List ℕ) {r : ℕ}, r < Ks.sum → ∃ i < Ks.length, ∃ r' < Ks.getD i 0, r = (Ks.take i).sum + r'
  | [], r, h => by simp at h
  | K :: Ks, r, h => by
    by_cases hr : r < K
    · exact ⟨0, by simp, r, by simpa using hr, by simp⟩
    · rw [List.sum_cons] at h
      obtain ⟨i, hi, r', hr', e⟩ := locate Ks (r := r - K) (by omega)
      refine ⟨i + 1, by simpa using hi, r', by simpa using hr', ?_⟩
      rw [List.take_succ_cons, List.sum_cons]
      omega

theorem offset_lt : ∀ (Ks : List ℕ) {i r : ℕ}, i < Ks.length → r < Ks.getD i 0 → (Ks.take i).sum + r < Ks.sum
  | [], i, r, h, _ => by simp at h
  | K :: Ks, 0, r, _, h => by simp at h ⊢; omega
  | K :: Ks, i + 1, r, hi, h => by
    have := offset_lt Ks (i := i) (r := r) (by simpa using hi) (by simpa using h)
    rw [List.take_succ_cons, List.sum_cons, List.sum_cons]
    omega

/-- Number of rows. -/
def hd {α : Type} (x : ND α) : ℕ := x.shape.getD 0 0

theorem concatAll_spec {α : Type} [Inhabited α] {s : List ℕ} : ∀ {xs : List (ND α)}, xs ≠ [] → (∀ x ∈ xs, x.shape = hd x :: s) →
    (concatAll xs).shape = (xs.map hd).sum :: s ∧
    ∀ i (h : i < xs.length) r p, r < hd xs[i] → InB p s → (concatAll xs).get ((((xs.map hd).take i).sum + r) :: p) = xs[i].get (r :: p)
  | [], h, _ => absurd rfl h
  | [x], _, h => by
    refine ⟨by simpa [concatAll] using h x (by simp), fun i hi r p _ _ => ?_⟩
    obtain rfl : i = 0 := by simpa using hi
    simp [concatAll]
  | x :: y :: l, _, h => by
    obtain ⟨h1, h2⟩ := concatAll_spec (xs := y :: l) (by simp) fun z hz => h z (by simp [hz])
    obtain ⟨h3, h4⟩ := concat0_spec (h x (by simp)) h1
    refine ⟨h3, fun i hi r p hr hp => ?_⟩
    show (concat0 x (concatAll (y :: l))).get _ = _
    cases i with
    | zero =>
      simp only [List.take_zero, List.sum_nil, zero_add, List.getElem_cons_zero] at hr ⊢
      rw [h4 r p (by omega) hp, if_pos hr]
    | succ i =>
      have hi' : i < (y :: l).length := by simpa using hi
      have hr' : r < hd ((y :: l)[i]) := hr
      have := offset_lt ((y :: l).map hd) (i := i) (r := r) (by simpa using hi') (by
        rw [List.getD_eq_getElem _ _ (by simpa using hi'), List.getElem_map]; exact hr')
      rw [List.map_cons, List.take_succ_cons, List.sum_cons, h4 _ p (by omega) hp, if_neg (by omega)]
      have e : hd x + ((List.map hd (y :: l)).take i).sum + r - hd x = ((List.map hd (y :: l)).take i).sum + r := by omega
      rw [e, h2 i hi' r p hr' hp]
      rfl

/-! ### `np.unique` along the row axis -/

theorem row_eq {x : ND ℤ} {K : ℕ} {s : List ℕ} (hx : x.shape = K :: s) {r : ℕ} {p : List ℕ} (hp : InB p s) :
    ((row0 x r).data).getD (ravelIdx s p) default = x.get (r :: p) := by
  rw [← get_row0 hx hp]
  unfold ND.get
  rw [shape_row0 hx]

theorem mem_distinct {x : ND ℤ} {r : ℕ} (hr : r < x.shape.getD 0 0) : (rowsList x).getD r [] ∈ distinctRows x := by
  unfold distinctRows
  rw [Finset.mem_sort, List.mem_toFinset, List.getD_eq_getElem _ _ (by simpa [rowsList] using hr)]
  exact List.getElem_mem _

theorem uniqueInv_lt {x : ND ℤ} {r : ℕ} (hr : r < x.shape.getD 0 0) : uniqueInv x r < (distinctRows x).length :=
  List.idxOf_lt_length_of_mem (mem_distinct hr)

theorem uniqueMask_shape {x : ND ℤ} {K : ℕ} {s : List ℕ} (hx : x.shape = K :: s) : (uniqueMask x).shape = (distinctRows x).length :: s := by
  unfold uniqueMask
  rw [hx]
  rfl

theorem uniqueMask_get {x : ND ℤ} {K : ℕ} {s : List ℕ} (hx : x.shape = K :: s) {r : ℕ} {p : List ℕ} (hr : r < K) (hp : InB p s) :
    (uniqueMask x).get (uniqueInv x r :: p) = x.get (r :: p) := by
  have hr' : r < x.shape.getD 0 0 := by rw [hx]; exact hr
  have hu := uniqueInv_lt hr'
  unfold uniqueMask
  rw [hx, List.tail_cons, ND.get_ofFn _ (List.Forall₂.cons hu hp)]
  simp only [List.getD_cons_zero, List.tail_cons]
  have e : (distinctRows x).getD (uniqueInv x r) [] = (rowsList x).getD r [] := by
    show (distinctRows x).getD (List.idxOf _ _) [] = _
    rw [List.getD_eq_getElem _ _ (List.idxOf_lt_length_of_mem (mem_distinct hr')), List.getElem_idxOf]
  have e' : (rowsList x).getD r [] = (row0 x r).data := by
    rw [List.getD_eq_getElem _ _ (by simpa [rowsList] using hr')]
    simp [rowsList]
  rw [← row_eq hx hp, e, e']

theorem uniqueInv_surj {x : ND ℤ} {u : ℕ} (hu : u < (distinctRows x).length) : ∃ r < x.shape.getD 0 0, uniqueInv x r = u := by
  have hm : (distinctRows x)[u] ∈ rowsList x := by
    have : (distinctRows x)[u] ∈ distinctRows x := List.getElem_mem _
    unfold distinctRows at this
    rwa [Finset.mem_sort, List.mem_toFinset] at this
  obtain ⟨r, hr, e⟩ := List.getElem_of_mem hm
  refine ⟨r, by simpa [rowsList] using hr, ?_⟩
  unfold uniqueInv
  rw [List.getD_eq_getElem _ _ hr, e]
  exact List.Nodup.idxOf_getElem (Finset.sort_nodup _ _) u hu

/-! ### Broadcasting several shapes to one -/

theorem broadcasts_trans {shapes : List (List ℕ)} {o : List ℕ} (h : ∀ s ∈ shapes, Broadcasts [s, o] o) :
    ∃ m, Broadcasts shapes m ∧ Broadcasts [m, o] o := by
  classical
  set L := (shapes.map List.length).foldr max 0 with hL
  have hLe : ∀ s ∈ shapes, s.length ≤ L := fun s hs => foldr_max_le (List.mem_map.mpr ⟨s, hs, rfl⟩)
  have hLo : L ≤ o.length := foldr_max_le' fun x hx => by
    obtain ⟨s, hs, rfl⟩ := List.mem_map.mp hx
    exact (h s hs).rank_le s (by simp)
  set d : ℕ → ℕ := fun j => if ∃ s ∈ shapes, dimBack s j ≠ 1 then dimBack o j else 1 with hd
  set m := ((List.range L).map d).reverse with hm
  have hdim : ∀ j, dimBack m j = d j := by
    intro j
    unfold dimBack
    rw [hm, List.reverse_reverse]
    by_cases hj : j < L
    · rw [List.getD_eq_getElem _ _ (by simpa using hj)]
      simp
    · rw [List.getD_eq_default _ _ (by simpa using hj), hd]
      dsimp only
      rw [if_neg]
      rintro ⟨s, hs, h1⟩
      exact h1 (dimBack_of_le (by have := hLe s hs; omega))
  have hmo : ∀ j, dimBack m j = 1 ∨ dimBack m j = dimBack o j := by
    intro j
    rw [hdim, hd]
    dsimp only
    split
    · exact Or.inr rfl
    · exact Or.inl rfl
  have hlen : m.length = L := by simp [hm]
  refine ⟨m, ⟨fun s hs => hlen ▸ hLe s hs, ?_, fun s hs j => ?_, fun j => ?_⟩, ⟨fun s hs => ?_, Or.inr ⟨o, by simp, rfl⟩, fun s hs j => ?_, fun j => Or.inr ⟨o, by simp, rfl⟩⟩⟩
  · by_cases h0 : L = 0
    · exact Or.inl (List.length_eq_zero_iff.mp (hlen.trans h0))
    · right
      have : ∀ l : List ℕ, l.foldr max 0 ≠ 0 → l.foldr max 0 ∈ l := by
        intro l
        induction l with
        | nil => simp
        | cons a l ih =>
          intro hne
          rw [List.foldr_cons] at hne ⊢
          rcases le_total a (l.foldr max 0) with h1 | h1
          · rw [max_eq_right h1] at hne ⊢
            exact List.mem_cons_of_mem _ (ih hne)
          · rw [max_eq_left h1]
            exact List.mem_cons_self
      obtain ⟨s, hs, e⟩ := List.mem_map.mp (this _ h0)
      exact ⟨s, hs, by rw [e, hlen]⟩
  · rw [hdim, hd]
    dsimp only
    by_cases h1 : dimBack s j = 1
    · exact Or.inl h1
    · rw [if_pos ⟨s, hs, h1⟩]
      exact (h s hs).compat s (by simp) j
  · rw [hdim, hd]
    dsimp only
    split
    · rename_i h1
      obtain ⟨s, hs, h1⟩ := h1
      rcases (h s hs).compat s (by simp) j with h2 | h2
      · exact absurd h2 h1
      · exact Or.inr ⟨s, hs, h2⟩
    · exact Or.inl rfl
  · rcases List.mem_cons.mp hs with rfl | hs
    · omega
    · rw [List.mem_singleton.mp hs]
  · rcases List.mem_cons.mp hs with rfl | hs
    · exact hmo j
    · rw [List.mem_singleton.mp hs]
      exact Or.inr rfl

theorem bcoord_comp {s m o p : List ℕ} (hl : s.length ≤ m.length) (hml : m.length ≤ o.length)
    (h : ∀ i < s.length, s.getD i 0 = 1 ∨ s.getD i 0 = m.getD (m.length - s.length + i) 0) :
    bcoord s m (bcoord m o p) = bcoord s o p := by
  refine ext_getD (by simp [bcoord_length]) fun i hi => ?_
  rw [bcoord_length] at hi
  rw [bcoord_getD hi, bcoord_getD hi]
  split
  · rfl
  · rename_i hne
    rw [bcoord_getD (by omega), if_neg]
    · congr 1; omega
    · intro h1
      rcases h i hi with h2 | h2
      · exact hne h2
      · exact hne (h2.trans h1)

/-! ### The rule -/

variable {F : Type} [CommRing F] [Inhabited F] {k : ℕ} {ss : Fin (k + 1) → List ℕ} {o : List ℕ}

/-- Number of rows of the arguments. -/
def rowCounts (args : Fin (k + 1) → ArrTrip F) : List ℕ := List.ofFn fun a => hd (args a).jac.data

/-- First row of argument `a` in the concatenation. -/
def offset (args : Fin (k + 1) → ArrTrip F) (a : Fin (k + 1)) : ℕ := ((rowCounts args).take a).sum

/-- Row `r` of the Jacobian of argument `a` as a tangent of all arguments. -/
def rowAt (ss : Fin (k + 1) → List ℕ) (args : Fin (k + 1) → ArrTrip F) (a : Fin (k + 1)) (r : ℕ) : (b : Fin (k + 1)) → Fin (ss b).prod → F :=
  Pi.single a fun c => (args a).jac.data.get (r :: unravelIdx (ss a) c)

theorem rowCounts_getD (args : Fin (k + 1) → ArrTrip F) (a : Fin (k + 1)) : (rowCounts args).getD a 0 = hd (args a).jac.data := by
  unfold rowCounts
  rw [List.getD_eq_getElem _ _ (by rw [List.length_ofFn]; exact a.2), List.getElem_ofFn]

theorem sum_rows {G : Type} [AddCommMonoid G] (args : Fin (k + 1) → ArrTrip F) (f : ℕ → G) :
    ∑ r ∈ Finset.range (rowCounts args).sum, f r = ∑ a, ∑ r ∈ Finset.range (hd (args a).jac.data), f (offset args a + r) := by
  have hl : (rowCounts args).length = k + 1 := by simp [rowCounts]
  rw [sum_offsets, hl, Finset.sum_range]
  refine Finset.sum_congr rfl fun a _ => ?_
  rw [rowCounts_getD]
  rfl

section
variable {n : ℕ} {args : Fin (k + 1) → ArrTrip F} (hargs : ∀ a, ArgFor n (ss a) (args a))

include hargs in
theorem data_shape (a : Fin (k + 1)) : (args a).jac.data.shape = hd (args a).jac.data :: ss a := by
  obtain ⟨K, hK⟩ := (hargs a).jac.1
  unfold hd
  rw [hK]
  rfl

include hargs in
theorem oneHot_shape (i j : Fin (k + 1)) : (oneHotJac args i j).shape = hd (args i).jac.data :: ss j := by
  unfold oneHotJac
  split
  · rename_i h; subst h; exact data_shape hargs i
  · unfold zerosND
    rw [ND.shape_ofFn, data_shape hargs i, data_shape hargs j]
    rfl

include hargs in
theorem oneHot_get (i j : Fin (k + 1)) {r : ℕ} (hr : r < hd (args i).jac.data) (c : Fin (ss j).prod) :
    (oneHotJac args i j).get (r :: unravelIdx (ss j) c) = rowAt ss args i r j c := by
  unfold oneHotJac rowAt
  split
  · rename_i h; subst h; rw [Pi.single_eq_same]
  · rename_i h
    rw [Pi.single_eq_of_ne (Ne.symm h)]
    unfold zerosND
    rw [data_shape hargs i, data_shape hargs j]
    exact ND.get_ofFn _ (List.Forall₂.cons hr (inB_unravelIdx c.2))

include hargs in
theorem diagGrad_spec {D : Deriv F ss o} (hD : Elementwise D) : ∃ g l, diagGrad D args = some (g, l) ∧ g.shape = (rowCounts args).sum :: o ∧
    (∀ a r q, r < hd (args a).jac.data → InB q o → g.get ((offset args a + r) :: q) = (toND o (D (rowAt ss args a r))).get q) ∧
    l.shape = o ∧ ∀ q, InB q o → l.get q = (toND o (D (laplsOf ss args))).get q := by
  unfold diagGrad
  split
  · rename_i h
    obtain ⟨rfl, ho⟩ := h
    have ho : ss 0 = o := (hargs 0).x.symm.trans ho.symm
    have hd' := data_shape hargs 0
    refine ⟨_, _, rfl, ?_, fun a r q hr hq => ?_, (hargs 0).lapl.trans ho, fun q hq => ?_⟩
    · show (args 0).jac.data.shape = _
      rw [hd', ho]
      simp [rowCounts]
    · obtain rfl : a = 0 := Subsingleton.elim (α := Fin 1) _ _
      have hq' : InB q (ss 0) := ho ▸ hq
      have h0 : offset args 0 = 0 := rfl
      rw [vjpOnes_spec hD ho hq, h0, Nat.zero_add r, mulRows_spec hd' hr hq', toND_get (ss 0) _ hq']
      unfold rowAt
      rw [Pi.single_eq_same]
      dsimp only
      rw [unravelIdx_ravelIdx hq']
    · rw [vjpOnes_spec hD ho hq]
      have hq' : InB q (ss 0) := ho ▸ hq
      unfold mulND
      rw [(hargs 0).lapl, ND.get_ofFn _ hq', toND_get (ss 0) _ hq']
      unfold laplsOf
      rw [unravelIdx_ravelIdx hq']
  · set L : Fin (k + 1) → List (ND F) := fun j => (List.ofFn fun i => oneHotJac args i j) ++ [expand0 (args j).lapl] with hL
    have he : ∀ j, (expand0 (args j).lapl).shape = 1 :: ss j := fun j => by unfold expand0; rw [(hargs j).lapl]; rfl
    have hlen : ∀ j, (L j).length = k + 2 := fun j => by simp [hL]
    have hmap : ∀ j, (L j).map hd = rowCounts args ++ [1] := by
      intro j
      rw [hL]
      dsimp only
      rw [List.map_append, List.map_ofFn]
      congr 1
      unfold rowCounts
      congr 1
      funext i
      show hd (oneHotJac args i j) = _
      unfold hd
      rw [oneHot_shape hargs i j]
      rfl
    have hsh : ∀ j, ∀ x ∈ L j, x.shape = hd x :: ss j := by
      intro j x hx
      rcases List.mem_append.mp hx with hx | hx
      · obtain ⟨i, rfl⟩ := List.mem_ofFn.mp hx
        unfold hd
        rw [oneHot_shape hargs i j]
        rfl
      · rw [List.mem_singleton.mp hx]
        unfold hd
        rw [he j]
        rfl
    have hc := fun j => concatAll_spec (xs := L j) (by simp [hL]) (hsh j)
    have hlc : (rowCounts args).length = k + 1 := by simp [rowCounts]
    obtain ⟨r, h1, h2, h3⟩ := vmapPush_spec D (ts := fun j => concatAll (L j)) (N := (rowCounts args).sum + 1) fun j => by
      rw [(hc j).1, hmap j, List.sum_append]
      rfl
    refine ⟨initRows r, lastRow r, by show (vmapPush D _).bind _ = _; rw [h1]; rfl, (initRows_spec h2).1, fun a i q hi hq => ?_, (lastRow_spec h2).1, fun q hq => ?_⟩
    · have hlt : offset args a + i < (rowCounts args).sum := offset_lt _ (by rw [hlc]; exact a.2) (by rw [rowCounts_getD]; exact hi)
      rw [(initRows_spec h2).2 _ q hlt hq, h3 _ q (by omega) hq]
      congr 3
      funext j c
      have ha : (a : ℕ) < (L j).length := by rw [hlen]; have := a.2; omega
      have hel : (L j)[(a : ℕ)] = oneHotJac args a j := by
        simp only [hL]
        rw [List.getElem_append_left (by rw [List.length_ofFn]; exact a.2), List.getElem_ofFn]
      have hoff : (((L j).map hd).take a).sum = offset args a := by
        rw [hmap j, List.take_append_of_le_length (by rw [hlc]; exact a.2.le)]
        rfl
      have := (hc j).2 a ha i (unravelIdx (ss j) c) (by rw [hel]; unfold hd; rw [oneHot_shape hargs a j]; exact hi) (inB_unravelIdx c.2)
      rw [hoff, hel] at this
      rw [this, oneHot_get hargs a j hi c]
    · rw [(lastRow_spec h2).2 q hq, h3 _ q (by omega) hq]
      congr 3
      funext j c
      have hel : (L j)[k + 1]'(by rw [hlen]; omega) = expand0 (args j).lapl := by
        simp only [hL]
        rw [List.getElem_append_right (by simp)]
        simp
      have hoff : (((L j).map hd).take (k + 1)).sum = (rowCounts args).sum := by
        rw [hmap j, List.take_append_of_le_length (by rw [hlc]), List.take_of_length_le (by rw [hlc])]
      have := (hc j).2 (k + 1) (by rw [hlen]; omega) 0 (unravelIdx (ss j) c) (by rw [hel]; unfold hd; rw [he j]; exact Nat.one_pos) (inB_unravelIdx c.2)
      rw [hoff, hel, add_zero] at this
      rw [this]
      unfold expand0 laplsOf
      rw [(hargs j).lapl]
      exact ND.get_ofFn _ (List.Forall₂.cons Nat.one_pos (inB_unravelIdx c.2))

/-- The summed rows and their masks: at every position of the result, rows are summed with the rows that have the same index there. -/
structure MaskSpec (ss : Fin (k + 1) → List ℕ) (o : List ℕ) (args : Fin (k + 1) → ArrTrip F) (masks : Fin (k + 1) → ND ℤ) (g : ND F) (M : ND ℤ) (G : ND F) (U : ℕ) (m : List ℕ) : Prop where
  mask : M.shape = U :: m
  grad : G.shape = U :: o
  bcast : Broadcasts [m, o] o
  pos : 0 < (rowCounts args).sum → 0 < U
  sum : ∀ (z : ℤ) q, InB q o → ∑ u ∈ Finset.range U, (if M.get (u :: bcoord m o q) = z then G.get (u :: q) else 0) =
    ∑ a, ∑ r ∈ Finset.range (hd (args a).jac.data), if (masks a).get (r :: bcoord (ss a) o q) = z then g.get ((offset args a + r) :: q) else 0
  from_ : ∀ u q, u < U → InB q o → (∃ a, ∃ r < hd (args a).jac.data, (masks a).get (r :: bcoord (ss a) o q) = M.get (u :: bcoord m o q)) ∧
    ((∀ a r, r < hd (args a).jac.data → (masks a).get (r :: bcoord (ss a) o q) = M.get (u :: bcoord m o q) → g.get ((offset args a + r) :: q) = 0) →
      G.get (u :: q) = 0)

theorem diagMask_spec {masks : Fin (k + 1) → ND ℤ} (hm : ∀ a, (masks a).shape = hd (args a).jac.data :: ss a)
    (hb : ∀ a, Broadcasts [ss a, o] o) {grad : ND F} (hg : grad.shape = (rowCounts args).sum :: o) :
    ∃ M G U m, diagMask masks grad = some (M, G) ∧ MaskSpec ss o args masks grad M G U m := by
  unfold diagMask
  split
  · rename_i h
    subst h
    have h0 : offset args 0 = 0 := rfl
    have hR : (rowCounts args).sum = hd (args 0).jac.data := by simp [rowCounts]
    refine ⟨_, _, hd (args 0).jac.data, ss 0, rfl, hm 0, hg.trans (by rw [hR]), hb 0, fun h => hR ▸ h, fun z q hq => ?_, fun u q hu hq => ⟨⟨0, u, hu, rfl⟩, fun h => ?_⟩⟩
    · rw [Fin.sum_univ_one]
      refine Finset.sum_congr rfl fun u _ => ?_
      rw [h0, Nat.zero_add u]
    · have := h 0 u hu rfl
      rwa [h0, Nat.zero_add u] at this
  · obtain ⟨m, hbm, hmo⟩ := broadcasts_trans (shapes := List.ofFn ss) (o := o) (by
      intro s hs
      obtain ⟨a, rfl⟩ := List.mem_ofFn.mp hs
      exact hb a)
    have htail : (fun a => (masks a).shape.tail) = ss := funext fun a => by rw [hm a]; rfl
    rw [htail, broadcastShapes_iff.mpr hbm]
    set L := List.ofFn fun a => bexcept m (masks a) with hL
    have hal := fun a => aligned_of_broadcasts hbm (List.mem_ofFn.mpr ⟨a, rfl⟩ : ss a ∈ _)
    have hmo' := aligned_of_broadcasts hmo (List.mem_cons_self : m ∈ [m, o])
    have hbe := fun a => bexcept_spec (hm a) (hal a).1 (hal a).2
    have hmap : L.map hd = rowCounts args := by
      rw [hL, List.map_ofFn]
      unfold rowCounts
      congr 1
      funext a
      show hd (bexcept m (masks a)) = _
      unfold hd
      rw [(hbe a).1]
      rfl
    obtain ⟨h1, h2⟩ := concatAll_spec (xs := L) (s := m) (by simp [hL]) (by
      intro x hx
      obtain ⟨a, rfl⟩ := List.mem_ofFn.mp hx
      unfold hd
      rw [(hbe a).1]
      rfl)
    rw [hmap] at h1 h2
    set cat := concatAll L with hcat
    have hget : ∀ a r q, r < hd (args a).jac.data → InB q o →
        cat.get ((offset args a + r) :: bcoord m o q) = (masks a).get (r :: bcoord (ss a) o q) := by
      intro a r q hr hq
      have hq' := inB_bcoord hmo'.1 hmo'.2 hq
      have hel : L[(a : ℕ)]'(by rw [hL, List.length_ofFn]; exact a.2) = bexcept m (masks a) := by
        simp only [hL]
        rw [List.getElem_ofFn]
      have := h2 a (by rw [hL, List.length_ofFn]; exact a.2) r (bcoord m o q) (by rw [hel]; unfold hd; rw [(hbe a).1]; exact hr) hq'
      rw [hel, (hbe a).2 r _ hr hq', bcoord_comp (hal a).1 hmo'.1 (aligned_getD (hal a).1 (hal a).2)] at this
      exact this
    have hlc : (rowCounts args).length = k + 1 := by simp [rowCounts]
    have hlt : ∀ a r, r < hd (args a).jac.data → offset args a + r < (rowCounts args).sum := fun a r hr =>
      offset_lt _ (by rw [hlc]; exact a.2) (by rw [rowCounts_getD]; exact hr)
    have hseg : ∀ u q, u < (distinctRows cat).length → InB q o → (segRows grad (uniqueInv cat) (distinctRows cat).length).get (u :: q) =
        ∑ r ∈ Finset.range (rowCounts args).sum, if uniqueInv cat r = u then grad.get (r :: q) else 0 := by
      intro u q hu hq
      unfold segRows
      rw [hg, List.tail_cons, ND.get_ofFn _ (List.Forall₂.cons hu hq)]
      rfl
    have hcat0 : cat.shape.getD 0 0 = (rowCounts args).sum := by rw [h1]; rfl
    have huni : ∀ r q, r < (rowCounts args).sum → InB q o → (uniqueMask cat).get (uniqueInv cat r :: bcoord m o q) = cat.get (r :: bcoord m o q) :=
      fun r q hr hq => uniqueMask_get h1 hr (inB_bcoord hmo'.1 hmo'.2 hq)
    refine ⟨_, _, (distinctRows cat).length, m, rfl, uniqueMask_shape h1, by unfold segRows; rw [hg]; rfl, hmo, fun h => Nat.lt_of_le_of_lt (Nat.zero_le _) (uniqueInv_lt (x := cat) (r := 0) (by rw [hcat0]; exact h)), fun z q hq => ?_, fun u q hu hq => ⟨?_, fun h => ?_⟩⟩
    · have e1 : ∀ u ∈ Finset.range (distinctRows cat).length, (if (uniqueMask cat).get (u :: bcoord m o q) = z then
          (segRows grad (uniqueInv cat) (distinctRows cat).length).get (u :: q) else 0) =
          ∑ r ∈ Finset.range (rowCounts args).sum, if uniqueInv cat r = u then (if cat.get (r :: bcoord m o q) = z then grad.get (r :: q) else 0) else 0 := by
        intro u hu
        have hu := Finset.mem_range.mp hu
        rw [hseg u q hu hq, ite_sum_zero]
        refine Finset.sum_congr rfl fun r hr => ?_
        by_cases h : uniqueInv cat r = u
        · rw [if_pos h, if_pos h, ← h, huni r q (Finset.mem_range.mp hr) hq]
        · rw [if_neg h, if_neg h, ite_self]
      rw [Finset.sum_congr rfl e1, Finset.sum_comm]
      have e2 : ∀ r ∈ Finset.range (rowCounts args).sum, (∑ u ∈ Finset.range (distinctRows cat).length,
          if uniqueInv cat r = u then (if cat.get (r :: bcoord m o q) = z then grad.get (r :: q) else 0) else 0) =
          if cat.get (r :: bcoord m o q) = z then grad.get (r :: q) else 0 := by
        intro r hr
        rw [Finset.sum_ite_eq, if_pos]
        exact Finset.mem_range.mpr (uniqueInv_lt (by rw [hcat0]; exact Finset.mem_range.mp hr))
      rw [Finset.sum_congr rfl e2, sum_rows]
      refine Finset.sum_congr rfl fun a _ => Finset.sum_congr rfl fun r hr => ?_
      rw [hget a r q (Finset.mem_range.mp hr) hq]
    · obtain ⟨r, hr, e⟩ := uniqueInv_surj hu
      rw [hcat0] at hr
      obtain ⟨i, hi, r', hr', e'⟩ := locate _ hr
      rw [hlc] at hi
      have hr'' : r' < hd (args ⟨i, hi⟩).jac.data := by rwa [← rowCounts_getD]
      refine ⟨⟨i, hi⟩, r', hr'', ?_⟩
      rw [← hget _ r' q hr'' hq, ← e, huni r q hr hq, e']
      rfl
    · rw [hseg u q hu hq, sum_rows]
      refine Finset.sum_eq_zero fun a _ => Finset.sum_eq_zero fun r hr => ?_
      have hr := Finset.mem_range.mp hr
      split
      · rename_i e
        refine h a r hr ?_
        rw [← hget a r q hr hq, ← huni _ q (hlt a r hr) hq, e]
      · rfl

include hargs in
/-- The rule for elementwise functions of sparse arguments. -/
theorem sparseDiagArr_spec {D : Deriv F ss o} (hD : Elementwise D) (hs : ∀ a, (args a).jac.idx ≠ none) :
    ∃ r, sparseDiagArr D args = some r ∧ r.1.idx ≠ none ∧ IsPush n D args r := by
  obtain ⟨g, l, h1, h2, h3, h4, h5⟩ := diagGrad_spec hargs hD
  choose ms hms using fun a => Option.ne_none_iff_exists'.mp (hs a)
  have hmask : (fun a => (args a).jac.mask) = ms := funext fun a => by unfold ArrJac.mask; rw [hms a]
  have hfor : ∀ a, (ms a).shape = (args a).jac.data.shape ∧ ∀ k p, k < hd (args a).jac.data → InB p (ss a) →
      (ms a).get (k :: p) < n ∧ ((ms a).get (k :: p) < 0 → (ms a).get (k :: p) = -1 ∧ (args a).jac.data.get (k :: p) = 0) := by
    intro a
    have := (hargs a).jac.2
    rw [hms a] at this
    exact this
  obtain ⟨M, G, U, m, h6, hM⟩ := diagMask_spec (args := args) (ss := ss) (o := o) (fun a => (hfor a).1.trans (data_shape hargs a)) hD.bcast h2
  have hbm := broadcastMask_some hM.mask hM.bcast
  have halo := fun a => aligned_of_broadcasts (hD.bcast a) (List.mem_cons_self : ss a ∈ [ss a, o])
  -- the row `r` of argument `a` at `q` vanishes if the data vanish where `q` comes from
  have hzero : ∀ a r q, r < hd (args a).jac.data → InB q o → (args a).jac.data.get (r :: bcoord (ss a) o q) = 0 → g.get ((offset args a + r) :: q) = 0 := by
    intro a r q hr hq h
    rw [h3 a r q hr hq]
    refine hD.dep _ q hq fun b c e => ?_
    unfold rowAt
    by_cases hab : b = a
    · subst hab
      rw [Pi.single_eq_same, e, h]
    · rw [Pi.single_eq_of_ne hab]
      rfl
  refine ⟨(⟨G, some (ND.ofFn (U :: o) fun w => M.get (w.getD 0 0 :: bcoord m o w.tail))⟩, l), ?_, by simp, ⟨⟨⟨U, hM.grad⟩, ?_⟩, fun _ => ?_, fun i q hq => ?_, h4, h5⟩⟩
  · unfold sparseDiagArr
    rw [h1, hmask]
    show (diagMask ms g).bind _ = _
    rw [h6]
    show (broadcastMask M G.shape).bind _ = _
    rw [hM.grad, hbm]
    rfl
  · refine ⟨hM.grad.symm, fun u q hu hq => ?_⟩
    have hu : u < U := by rw [hM.grad] at hu; exact hu
    rw [ND.get_ofFn _ (List.Forall₂.cons hu hq)]
    simp only [List.getD_cons_zero, List.tail_cons]
    obtain ⟨⟨a, r, hr, e⟩, hz⟩ := hM.from_ u q hu hq
    have hqa := inB_bcoord (halo a).1 (halo a).2 hq
    rw [← e]
    refine ⟨((hfor a).2 r _ hr hqa).1, fun hneg => ⟨(((hfor a).2 r _ hr hqa).2 hneg).1, hz fun b r' hr' e' => ?_⟩⟩
    refine hzero b r' q hr' hq ?_
    have hqb := inB_bcoord (halo b).1 (halo b).2 hq
    exact (((hfor b).2 r' _ hr' hqb).2 (by rw [e', ← e]; exact hneg)).2
  · show 0 < G.shape.getD 0 0
    rw [hM.grad]
    refine hM.pos ?_
    have := offset_lt (rowCounts args) (i := 0) (r := 0) (by simp [rowCounts]) (by
      have e := rowCounts_getD args 0
      exact lt_of_lt_of_eq ((hargs 0).rows (hs 0)) e.symm)
    omega
  · show ((List.range (G.shape.getD 0 0)).map fun u => if _ = (i : ℤ) then G.get (u :: q) else 0).sum = _
    rw [hM.grad, List.getD_cons_zero, range_sum]
    have e1 : ∀ u ∈ Finset.range U, (if (ND.ofFn (U :: o) fun w => M.get (w.getD 0 0 :: bcoord m o w.tail)).get (u :: q) = (i : ℤ) then G.get (u :: q) else 0) =
        if M.get (u :: bcoord m o q) = (i : ℤ) then G.get (u :: q) else 0 := by
      intro u hu
      rw [ND.get_ofFn _ (List.Forall₂.cons (Finset.mem_range.mp hu) hq)]
      rfl
    rw [Finset.sum_congr rfl e1, hM.sum _ q hq]
    -- both sides as values of the derivative at `q`
    have e2 : (∑ a, ∑ r ∈ Finset.range (hd (args a).jac.data), if (ms a).get (r :: bcoord (ss a) o q) = (i : ℤ) then g.get ((offset args a + r) :: q) else 0) =
        atq D hq (∑ a, ∑ r ∈ Finset.range (hd (args a).jac.data), if (ms a).get (r :: bcoord (ss a) o q) = (i : ℤ) then rowAt ss args a r else 0) := by
      rw [map_sum]
      refine Finset.sum_congr rfl fun a _ => ?_
      rw [map_sum]
      refine Finset.sum_congr rfl fun r hr => ?_
      rw [h3 a r q (Finset.mem_range.mp hr) hq, get_push D hq]
      split
      · rfl
      · rw [map_zero]
    rw [e2, get_push D hq, ← sub_eq_zero, ← map_sub, ← get_push D hq]
    refine hD.dep _ q hq fun a c e => ?_
    have e3 : ∀ (b : Fin (k + 1)) (r : ℕ) , (if (ms b).get (r :: bcoord (ss b) o q) = (i : ℤ) then rowAt ss args b r else 0) a c =
        if b = a then (if (ms a).get (r :: bcoord (ss a) o q) = (i : ℤ) then (args a).jac.data.get (r :: bcoord (ss a) o q) else 0) else 0 := by
      intro b r
      by_cases hab : b = a
      · subst hab
        rw [if_pos rfl]
        split
        · unfold rowAt
          rw [Pi.single_eq_same, e]
        · rfl
      · rw [if_neg hab]
        split
        · unfold rowAt
          rw [Pi.single_eq_of_ne (Ne.symm hab)]
          rfl
        · rfl
    rw [Pi.sub_apply, Pi.sub_apply, sub_eq_zero, Finset.sum_apply, Finset.sum_apply]
    have e4 : ∀ b, (∑ r ∈ Finset.range (hd (args b).jac.data), if (ms b).get (r :: bcoord (ss b) o q) = (i : ℤ) then rowAt ss args b r else 0) a c =
        if b = a then (args a).jac.entry i (bcoord (ss a) o q) else 0 := by
      intro b
      rw [Finset.sum_apply, Finset.sum_apply, Finset.sum_congr rfl fun r _ => e3 b r]
      by_cases hab : b = a
      · subst hab
        rw [if_pos rfl]
        simp only [if_true]
        unfold ArrJac.entry
        rw [hms b]
        rfl
      · simp only [if_neg hab, Finset.sum_const_zero]
    rw [Finset.sum_congr rfl fun b _ => e4 b, Finset.sum_ite_eq', if_pos (Finset.mem_univ _)]
    unfold derivsOf
    rw [e]

end

end Folx.Layout

import Verif.ND.ReduceRule
import Verif.ND.SumRuleMain
import Verif.Props.LayoutProps

/-!
# Proofs about the general reduction rule on arrays
-/

namespace Folx.Layout
open Vmap Dot

variable {α F : Type} [Inhabited α]

theorem aligned_refl : ∀ s : List ℕ, Aligned s s
  | [] => List.Forall₂.nil
  | _ :: s => List.Forall₂.cons (Or.inr rfl) (aligned_refl s)

theorem bexcept_self {x : ND α} {K : ℕ} {s : List ℕ} (hx : x.shape = K :: s) : bexcept s x = x := by
  obtain ⟨h1, h2⟩ := bexcept_spec hx (le_refl s.length) (by rw [Nat.sub_self]; exact aligned_refl s)
  refine ND.ext_get (h1.trans hx.symm) fun w hw => ?_
  rw [h1] at hw
  obtain ⟨k, p, rfl, hk, hp⟩ := hw.cons_right
  rw [h2 k p hk hp, Folx.Layout.bcoord_self hp]

theorem validAxes_spec {n : ℕ} {a : List ℤ} {dims : List ℕ} (h : validAxes n a = some dims) :
    dims.Nodup ∧ (∀ d ∈ dims, d < n) ∧ a = dims.map fun d : ℕ => (d : ℤ) := by
  unfold validAxes at h
  split at h
  · rename_i hv
    obtain rfl := Option.some.inj h
    refine ⟨?_, ?_, ?_⟩
    · refine List.Nodup.map_on ?_ hv.1
      intro i hi j hj e
      have := hv.2 i hi
      have := hv.2 j hj
      omega
    · intro d hd
      obtain ⟨i, hi, rfl⟩ := List.mem_map.mp hd
      have := hv.2 i hi
      omega
    · have e : (a.map Int.toNat).map (fun d : ℕ => (d : ℤ)) = a := by
        rw [List.map_map]
        conv_rhs => rw [← List.map_id a]
        refine List.map_congr_left fun i hi => ?_
        have := hv.2 i hi
        show ((i.toNat : ℕ) : ℤ) = i
        omega
      exact e.symm
  · cases h

theorem singleAxes_perm {n : ℕ} {axes : AxesArg} {dims : List ℕ} (h : singleAxes n axes = some dims) :
    (keptDims n dims ++ dims).Perm (List.range n) := by
  unfold singleAxes at h
  split at h
  · obtain ⟨h1, h2, -⟩ := validAxes_spec h
    exact keptDims_perm h1 h2
  · cases h

/-- The axes `kept + 1, dims + 1, 0`. -/
theorem redOrder_eq (n : ℕ) (dims : List ℕ) :
    ((List.range (n + 1)).filter fun i => decide (i ∉ (dims.map fun i => i + 1) ++ [0])) =
      (keptDims n dims).map fun i => i + 1 := by
  rw [List.range_succ_eq_map, List.filter_cons]
  rw [if_neg (by simp), keptDims, List.filter_map]
  congr 1
  refine List.filter_congr fun d _ => ?_
  by_cases h : d ∈ dims <;> simp [h]
  exact fun x hx e => h (e ▸ hx)

theorem redOrder_perm {n : ℕ} {dims : List ℕ} (hp : (keptDims n dims ++ dims).Perm (List.range n)) :
    ((keptDims n dims).map (fun i => i + 1) ++ ((dims.map fun i => i + 1) ++ [0])).Perm (List.range (n + 1)) := by
  rw [← List.append_assoc, ← List.map_append]
  exact (List.perm_append_singleton 0 _).trans (succ_perm hp)

theorem ravelIdx_zeros {n : ℕ} : ravelIdx (List.replicate n 1) (List.replicate n 0) = 0 := by
  have := ravelIdx_lt (inB_replicate n)
  simpa using this

/-- Row-major positions do not see axes of size 1. -/
theorem ravelIdx_filter (P : ℕ → Bool) (f g : ℕ → ℕ) : ∀ L : List ℕ, (∀ d ∈ L, P d = false → f d = 1 ∧ g d = 0) →
    ravelIdx (L.map f) (L.map g) = ravelIdx ((L.filter P).map f) ((L.filter P).map g) ∧
      (L.map f).prod = ((L.filter P).map f).prod
  | [], _ => ⟨rfl, rfl⟩
  | d :: L, h => by
    obtain ⟨h1, h2⟩ := ravelIdx_filter P f g L fun d hd => h d (List.mem_cons_of_mem _ hd)
    by_cases hd : P d = true
    · rw [List.filter_cons_of_pos hd]
      simp only [List.map_cons, List.prod_cons]
      refine ⟨?_, by rw [h2]⟩
      show g d * (L.map f).prod + _ = g d * ((L.filter P).map f).prod + _
      rw [h1, h2]
    · have hd' : P d = false := by simpa using hd
      obtain ⟨e1, e2⟩ := h d (by simp) hd'
      rw [List.filter_cons_of_neg hd]
      simp only [List.map_cons, List.prod_cons]
      refine ⟨?_, by rw [e1, one_mul, h2]⟩
      show g d * (L.map f).prod + _ = _
      rw [e2, zero_mul, zero_add, h1]

theorem foldr_max_sup (n : ℕ) (f : ℕ → ℕ) : ((List.range n).map f).foldr max 0 = (Finset.range n).sup f := by
  have h1 : ∀ l : List ℕ, (l.map f).foldr max 0 = l.toFinset.sup f := by
    intro l
    induction l with
    | nil => rfl
    | cons a l ih => rw [List.toFinset_cons, Finset.sup_insert, List.map_cons, List.foldr_cons, ih]
  rw [h1, List.toFinset_range]

theorem broadcasts_oneAt (a s : List ℕ) : Broadcasts [oneAt a s, s] s := by
  have hl := oneAt_length a s
  refine ⟨?_, Or.inr ⟨s, by simp, rfl⟩, ?_, fun j => Or.inr ⟨s, by simp, rfl⟩⟩
  · intro t ht
    simp only [List.mem_cons, List.not_mem_nil, or_false] at ht
    rcases ht with rfl | rfl
    · exact hl.le
    · exact le_refl _
  · intro t ht j
    simp only [List.mem_cons, List.not_mem_nil, or_false] at ht
    rcases ht with rfl | rfl
    · by_cases hj : j < s.length
      · have e := dimBack_getD (s := oneAt a s) (i := s.length - 1 - j) (by rw [hl]; omega)
        have e2 := dimBack_getD (s := s) (i := s.length - 1 - j) (by omega)
        rw [hl, show s.length - 1 - (s.length - 1 - j) = j by omega] at e
        rw [show s.length - 1 - (s.length - 1 - j) = j by omega] at e2
        rw [← e, ← e2, oneAt_getD _ _ (by omega)]
        split
        · exact Or.inl rfl
        · exact Or.inr rfl
      · left
        unfold dimBack
        rw [List.getD_eq_default _ _ (by simp [hl]; omega)]
    · exact Or.inr rfl

theorem bcoord_oneAt {a s p : List ℕ} (hp : InB p s) : bcoord (oneAt a s) s p = zeroAt a p := by
  have hl := oneAt_length a s
  have hpl := hp.length_eq
  refine ext_getD (by rw [bcoord_length, hl, zeroAt_length, hpl]) fun i hi => ?_
  rw [bcoord_length, hl] at hi
  have := hp.getD_lt hi
  rw [bcoord_getD (by omega), oneAt_getD _ _ hi, zeroAt_getD _ _ (by omega), hl, Nat.sub_self, zero_add]
  split
  · simp
  · split
    · omega
    · rfl

variable [CommRing F] [Inhabited F]

/-- The axes of the reduction by positions, with a map of the output positions. -/
abbrev axesRedK (s dims : List ℕ) (hp : (keptDims s.length dims ++ dims).Perm (List.range s.length)) {Q : Type}
    (κ : Q → Fin (sizes s (keptDims s.length dims)).prod) : Red (Fin s.prod) Q :=
  ⟨_, _, axesSplit s _ dims hp, κ⟩

/-- The rows of an array of shape `(N, s)`, by positions. -/
def rowsOf {β : Type} [Inhabited β] (x : ND β) (s : List ℕ) : List (Fin s.prod → β) :=
  (List.range (x.shape.getD 0 0)).map fun k p => x.get (k :: unravelIdx s p)

/-- `get_jacobian_for_reduction` on arrays is, by positions, the model in `Verif/Core/Jvp.lean`. -/
theorem jacForReduction_refines {data : ND F} {x0 : ND ℤ} {s dims : List ℕ} {K : ℕ} {axes : AxesArg} (hd : data.shape = K :: s)
    (hi : x0.shape = K :: s) (h0 : 0 ∉ s) (ha : singleAxes s.length axes = some dims) {Q : Type}
    (κ : Q → Fin (sizes s (keptDims s.length dims)).prod) :
    (jacForReduction data x0 axes = none ∧ ∃ e, jacobianForReduction (axesRedK s dims (singleAxes_perm ha) κ)
      (ArrJac.rep s ⟨data, some x0⟩ : Jac _ F).srows = .error e) ∨
    ∃ G M N, 0 < N ∧ jacForReduction data x0 axes = some (G, M) ∧ G.shape = N :: s ∧
      M.shape = N :: sizes s (keptDims s.length dims) ∧
      jacobianForReduction (axesRedK s dims (singleAxes_perm ha) κ) (ArrJac.rep s ⟨data, some x0⟩ : Jac _ F).srows =
        .ok (rowsOf G s, rowsOf M (sizes s (keptDims s.length dims))) := by
  have hp := singleAxes_perm ha
  obtain ⟨r, hr⟩ : ∃ r, r = axesRedK s dims (singleAxes_perm ha) κ := ⟨_, rfl⟩
  have hs0 : s.prod ≠ 0 := by rwa [Ne, List.prod_eq_zero_iff]
  have hnz : ∀ L : List ℕ, (∀ d ∈ L, d < s.length) → (sizes s L).prod ≠ 0 ∧ 0 ∉ sizes s L := by
    intro L hL
    have : 0 ∉ sizes s L := by
      intro h
      obtain ⟨d, hd, e⟩ := List.mem_map.mp h
      rw [List.getD_eq_getElem _ _ (hL d hd)] at e
      exact h0 (e ▸ List.getElem_mem _)
    exact ⟨by rwa [Ne, List.prod_eq_zero_iff], this⟩
  have hlt : ∀ d ∈ keptDims s.length dims ++ dims, d < s.length := fun d hd' => by
    have := hp.subset hd'
    simpa using this
  obtain ⟨hn, ho⟩ := hnz (keptDims s.length dims) fun d h => hlt d (by simp [h])
  obtain ⟨hN, -⟩ := hnz dims fun d h => hlt d (by simp [h])
  have hperm := redOrder_perm hp
  obtain ⟨order, horder⟩ : ∃ o, o = (keptDims s.length dims).map (fun i => i + 1) ++ ((dims.map fun i => i + 1) ++ [0]) :=
    ⟨_, rfl⟩
  rw [← horder] at hperm
  have hpx : order.Perm (List.range x0.shape.length) := by rw [hi]; simpa using hperm
  have hordmap : ∀ (k : ℕ) (p : List ℕ), (order.map fun b => (k :: p).getD b 0) =
      ((keptDims s.length dims).map fun d => p.getD d 0) ++ ((dims.map fun d => p.getD d 0) ++ [k]) := by
    intro k p
    rw [horder, List.map_append, List.map_append, List.map_map, List.map_map]
    rfl
  have hsh : (x0.transpose order).shape = sizes s (keptDims s.length dims) ++ (sizes s dims ++ [K]) := by
    rw [ND.shape_transpose, hi, hordmap]
    rfl
  have hpr : (x0.transpose order).shape.prod / ((sizes s (keptDims s.length dims)).prod * (sizes s dims).prod) = K := by
    rw [hsh, List.prod_append, List.prod_append, ← mul_assoc]
    simp only [List.prod_cons, List.prod_nil, mul_one]
    exact Nat.mul_div_cancel_left _ (Nat.pos_of_ne_zero (mul_ne_zero hn hN))
  have hresh : (x0.transpose order).shape.prod = [(sizes s (keptDims s.length dims)).prod, (sizes s dims).prod, K].prod := by
    rw [hsh, List.prod_append, List.prod_append]
    simp
  obtain ⟨m, hm⟩ : ∃ m, m = (x0.transpose order).reshape _ hresh := ⟨_, rfl⟩
  have hms : m.shape = [(sizes s (keptDims s.length dims)).prod, (sizes s dims).prod, K] := by rw [hm]; rfl
  have hmget : ∀ (q : Fin (sizes s (keptDims s.length dims)).prod) (c : Fin (sizes s dims).prod) (k : ℕ), k < K →
      m.get [q, c, k] = x0.get (k :: unravelIdx s ((axesSplit s _ dims hp).symm (q, c) : Fin s.prod)) := by
    intro q c k hk
    have hq := inB_unravelIdx q.2
    have hc := inB_unravelIdx c.2
    rw [unravel_split hp q c k, hm, ND.get_reshape _ _ _ _ (unravelIdx _ q ++ (unravelIdx _ c ++ [k])) (by
      rw [hsh, ravelIdx_append _ _ _ _ hq.length_eq, ravelIdx_append _ _ _ _ hc.length_eq, ravelIdx_unravelIdx q.2,
        ravelIdx_unravelIdx c.2]
      simp [ravelIdx])]
    have := ND.get_transpose x0 hpx (w := entry s dims k (unravelIdx _ q) (unravelIdx _ c)) (by
      rw [hi]; exact entry_inB hp hk hq hc)
    rw [← this]
    congr 1
    have hlen : (unravelIdx (sizes s (keptDims s.length dims)) q ++ unravelIdx (sizes s dims) c).length = s.length := by
      have := (inB_append hq hc).length_eq
      rw [this, ← sizes_append, sizes_length, hp.length_eq, List.length_range]
    have hd2 := place_dims hp hlen
    rw [List.map_append] at hd2
    obtain ⟨h1, h2⟩ := List.append_inj hd2 (by rw [List.length_map, hq.length_eq, sizes_length])
    unfold entry
    rw [hordmap, h1, h2]
  obtain ⟨rows, hrows⟩ : ∃ rows : List (Row (Fin s.prod) F), rows = (List.range K).map fun k =>
    ⟨fun p => x0.get (k :: unravelIdx s p), fun p => data.get (k :: unravelIdx s p)⟩ := ⟨_, rfl⟩
  have hrep : (ArrJac.rep s ⟨data, some x0⟩ : Jac (Fin s.prod) F).srows = rows := by
    unfold ArrJac.rep
    simp only [Jac.srows]
    rw [hd, hrows]
    rfl
  have hmapR : ∀ {β : Type} (f : Row (Fin s.prod) F → β), rows.map f = (List.range K).map fun k =>
      f ⟨fun p => x0.get (k :: unravelIdx s p), fun p => data.get (k :: unravelIdx s p)⟩ := by
    intro β f
    rw [hrows, List.map_map]
    rfl
  have hblock : ∀ q : Fin (sizes s (keptDims s.length dims)).prod,
      blockIdx m q = redIdx (axesRedK s dims (singleAxes_perm ha) κ) rows q := by
    intro q
    ext a
    rw [mem_redIdx]
    unfold blockIdx
    rw [Finset.mem_erase, List.mem_toFinset, List.mem_map, hms]
    refine and_congr_right fun _ => ?_
    constructor
    · rintro ⟨w, hw, rfl⟩
      have hw := mem_allIdx.mp hw
      obtain ⟨c, w', rfl, hc, hw'⟩ := InB.cons_right hw
      obtain ⟨k, w'', rfl, hk, hw''⟩ := InB.cons_right hw'
      obtain rfl : w'' = [] := by cases hw''; rfl
      refine ⟨_, by rw [hrows]; exact List.mem_map.mpr ⟨k, by simpa using hk, rfl⟩, ⟨c, hc⟩, ?_⟩
      exact (hmget q ⟨c, hc⟩ k hk).symm
    · rintro ⟨row, hrow, c, rfl⟩
      rw [hrows] at hrow
      obtain ⟨k, hk, rfl⟩ := List.mem_map.mp hrow
      have hk : k < K := by simpa using hk
      have hc : (c : Fin (sizes s dims).prod).val < _ := (c : Fin (sizes s dims).prod).2
      refine ⟨[(c : Fin (sizes s dims).prod).val, k], mem_allIdx.mpr ?_, hmget q c k hk⟩
      exact List.Forall₂.cons hc (List.Forall₂.cons hk List.Forall₂.nil)
  obtain ⟨N, hNdef⟩ : ∃ N, N = ((List.range (sizes s (keptDims s.length dims)).prod).map fun u => (blockIdx m u).card).foldr max 0 :=
    ⟨_, rfl⟩
  have hNsup : N = Finset.univ.sup fun u : (axesRedK s dims (singleAxes_perm ha) κ).K =>
      (redIdx (axesRedK s dims (singleAxes_perm ha) κ) rows u).card := by
    rw [hNdef, foldr_max_sup]
    refine le_antisymm (Finset.sup_le fun q hq => ?_) (Finset.sup_le fun q _ => ?_)
    · rw [hblock ⟨q, Finset.mem_range.mp hq⟩]
      exact Finset.le_sup (f := fun u : (axesRedK s dims (singleAxes_perm ha) κ).K =>
        (redIdx (axesRedK s dims (singleAxes_perm ha) κ) rows u).card) (Finset.mem_univ _)
    · have := hblock q
      rw [← this]
      exact Finset.le_sup (f := fun u => (blockIdx m u).card) (Finset.mem_range.mpr (q : Fin _).2)
  have hcard : ¬ Fintype.card (axesRedK s dims (singleAxes_perm ha) κ).K = 0 := by
    show ¬ Fintype.card (Fin (sizes s (keptDims s.length dims)).prod) = 0
    rwa [Fintype.card_fin]
  -- the mask of the outputs
  have hlM : [(sizes s (keptDims s.length dims)).prod, N].prod / (sizes s (keptDims s.length dims)).prod = N := by
    simp only [List.prod_cons, List.prod_nil, mul_one]
    exact Nat.mul_div_cancel_left _ (Nat.pos_of_ne_zero hn)
  obtain ⟨outM, houtM⟩ : ∃ o, o = ND.ofFn [(sizes s (keptDims s.length dims)).prod, N] fun w =>
    ((blockIdx m (w.getD 0 0)).sort (· ≤ ·)).getD (w.getD 1 0) (-1) := ⟨_, rfl⟩
  have houtS : outM.shape = [(sizes s (keptDims s.length dims)).prod, N] := by rw [houtM]; rfl
  have hpo : outM.shape.prod = (sizes s (keptDims s.length dims) ++ List.replicate dims.length 1 ++ [N]).prod := by
    rw [houtS]; simp
  have hkd : ∀ d ∈ keptDims s.length dims, d < s.length ∧ d ∉ dims := by
    intro d h
    have := List.mem_filter.mp h
    simpa using this
  have hordS : (outM.reshape _ hpo).shape = order.map fun b => (N :: oneAt dims s).getD b 0 := by
    rw [hordmap]
    show sizes s (keptDims s.length dims) ++ List.replicate dims.length 1 ++ [N] = _
    rw [List.append_assoc]
    congr 1
    · refine List.map_congr_left fun d hd => ?_
      obtain ⟨h1, h2⟩ := hkd d hd
      rw [oneAt_getD _ _ h1, if_neg h2]
    · congr 1
      symm
      rw [List.eq_replicate_iff]
      refine ⟨by simp, fun b hb => ?_⟩
      obtain ⟨d, hd, rfl⟩ := List.mem_map.mp hb
      rw [oneAt_getD _ _ (hlt d (by simp [hd])), if_pos hd]
  have hperm' : order.Perm (List.range (N :: oneAt dims s).length) := by
    rw [List.length_cons, oneAt_length]; exact hperm
  obtain ⟨out, hout⟩ : ∃ o, o = (outM.reshape _ hpo).transpose (argsort order) := ⟨_, rfl⟩
  have houtsh : out.shape = N :: oneAt dims s := by rw [hout]; exact transpose_inv_shape _ hperm' hordS
  have houtget : ∀ j < N, ∀ p, InB p s → out.get (j :: zeroAt dims p) =
      ((blockIdx m (ravelIdx (sizes s (keptDims s.length dims)) ((keptDims s.length dims).map fun d => p.getD d 0))).sort
        (· ≤ ·)).getD j (-1) := by
    intro j hj p hpB
    have hkB := (sizes_split hp hpB).1
    rw [hout, transpose_inv_get _ hperm' hordS (List.Forall₂.cons hj (inB_zeroAt hpB)), hordmap,
      ND.get_reshape _ _ _ _ [ravelIdx (sizes s (keptDims s.length dims)) ((keptDims s.length dims).map fun d => p.getD d 0), j] (by
        rw [houtS]
        have e1 : ((keptDims s.length dims).map fun d => (zeroAt dims p).getD d 0) =
            (keptDims s.length dims).map fun d => p.getD d 0 := List.map_congr_left fun d hd => by
          obtain ⟨h1, h2⟩ := hkd d hd
          rw [zeroAt_getD _ _ (by rw [hpB.length_eq]; exact h1), if_neg h2]
        have e2 : (dims.map fun d => (zeroAt dims p).getD d 0) = List.replicate dims.length 0 := by
          rw [List.eq_replicate_iff]
          refine ⟨by simp, fun b hb => ?_⟩
          obtain ⟨d, hd, rfl⟩ := List.mem_map.mp hb
          rw [zeroAt_getD _ _ (by rw [hpB.length_eq]; exact hlt d (by simp [hd])), if_pos hd]
        rw [e1, e2, List.append_assoc, ravelIdx_append _ _ _ _ hkB.length_eq, ravelIdx_append _ _ _ _ (by simp),
          ravelIdx_zeros]
        simp [ravelIdx])]
    rw [houtM, ND.get_ofFn _ (List.Forall₂.cons (ravelIdx_lt hkB) (List.Forall₂.cons hj List.Forall₂.nil))]
    rfl
  have hdn : data.ndim - 1 = s.length := by unfold ND.ndim; rw [hd]; rfl
  have hxn : x0.ndim = s.length + 1 := by unfold ND.ndim; rw [hi]; rfl
  have hxt : x0.shape.tail = s := by rw [hi]; rfl
  have hsz : sizes x0.shape ((keptDims s.length dims).map fun i => i + 1) = sizes s (keptDims s.length dims) := by
    unfold sizes; rw [hi, List.map_map]; rfl
  have hstep : jacForReduction data x0 axes = (getIndexMask x0 out).bind fun ids => (materialize true data ids N).bind fun jac =>
      (reshapeLead out (sizes s (keptDims s.length dims))).bind fun om => some (jac, om) := by
    unfold jacForReduction
    simp only [hdn, ha, Option.bind_eq_bind, Option.bind_some, hxt, bexcept_self hi, hxn, redOrder_eq, hsz, ← horder,
      if_neg (mul_ne_zero hn hN), hpr, ND.reshape?_eq _ _ hresh, ← hm, ← hNdef, ← houtM]
    have e3 : outM.shape.prod / (sizes s (keptDims s.length dims)).prod = N := by rw [houtS]; exact hlM
    rw [e3, ND.reshape?_eq _ _ hpo]
    simp only [Option.bind_some, ← hout]
    rfl
  rw [hrep, hstep]
  have hb := broadcasts_oneAt dims s
  have hcore : jacobianForReduction (axesRedK s dims (singleAxes_perm ha) κ) rows =
      match Jac.getIndexMask rows (((List.range N).map fun (j : ℕ) u =>
        ((redIdx (axesRedK s dims (singleAxes_perm ha) κ) rows u).sort (· ≤ ·)).getD j (-1)).map fun m p =>
          m ((axesSplit s _ dims hp) p).1) with
      | .error e => .error e
      | .ok ids => .ok (Jac.materializeForIdx rows ids N, (List.range N).map fun (j : ℕ) u =>
        ((redIdx (axesRedK s dims (singleAxes_perm ha) κ) rows u).sort (· ≤ ·)).getD j (-1)) := by
    unfold jacobianForReduction
    rw [if_neg hcard, hNsup]
    dsimp only
    generalize Jac.getIndexMask rows _ = z
    cases z <;> rfl
  by_cases hN0 : N = 0
  · left
    constructor
    · have : getIndexMask x0 out = none := by
        unfold getIndexMask
        rw [houtsh, hi]
        show (match broadcastShapes [oneAt dims s, s] with | none => none | some m => _) = none
        rw [broadcastShapes_iff.mpr hb]
        simp only [List.getD_cons_zero]
        rw [if_pos (Or.inr hN0)]
      rw [this]
      rfl
    · refine ⟨.emptyArgmax, ?_⟩
      rw [hcore, hN0]
      rfl
  · right
    have hNpos : 0 < N := Nat.pos_of_ne_zero hN0
    obtain ⟨ids, hi1, hi2, hi3⟩ := getIndexMask_spec hi houtsh hb h0 hNpos
    obtain ⟨G, hG1, hG2, hG3⟩ := C35_same_shape (M := N) true hd hi2 h0
    have hfil := ravelIdx_filter (fun d => decide (d ∉ dims)) (fun d => (oneAt dims s).getD d 0)
    have hrange : (List.range s.length).map (fun d => (oneAt dims s).getD d 0) = oneAt dims s := by
      conv_rhs => rw [← map_range_getD (oneAt dims s), oneAt_length]
    have hfk : ((keptDims s.length dims).map fun d => (oneAt dims s).getD d 0) = sizes s (keptDims s.length dims) :=
      List.map_congr_left fun d hd => by
        obtain ⟨h1, h2⟩ := hkd d hd
        rw [oneAt_getD _ _ h1, if_neg h2]
    have hf1 : ∀ d ∈ List.range s.length, decide (d ∉ dims) = false → (oneAt dims s).getD d 0 = 1 := by
      intro d hd h
      rw [oneAt_getD _ _ (by simpa using hd), if_pos (by simpa using h)]
    have hpo2 : (oneAt dims s).prod = (sizes s (keptDims s.length dims)).prod := by
      have := (hfil (fun _ => 0) (List.range s.length) fun d hd h => ⟨hf1 d hd h, rfl⟩).2
      rw [hrange] at this
      rw [this]
      exact congrArg List.prod hfk
    have hro : out.shape.prod = N * (sizes s (keptDims s.length dims)).prod := by
      rw [houtsh, List.prod_cons, hpo2]
    rw [hi1]
    simp only [Option.bind_some, hG1]
    rw [reshapeLead_eq out _ N hn hro, Option.bind_some]
    refine ⟨G, _, N, hNpos, rfl, hG2, rfl, ?_⟩
    rw [hcore]
    have hne : ¬ ((List.range N).map fun (j : ℕ) u =>
        ((redIdx (axesRedK s dims (singleAxes_perm ha) κ) rows u).sort (· ≤ ·)).getD j (-1)).map (fun m p =>
          m ((axesSplit s _ dims hp) p).1) = [] := by simp; omega
    unfold Jac.getIndexMask
    rw [if_neg hne]
    simp only
    congr 2
    · unfold rowsOf Jac.materializeForIdx Folx.segSum
      rw [hG2]
      simp only [List.getD_cons_zero]
      refine List.map_congr_left fun i hi' => ?_
      have hiN : i < N := by simpa using hi'
      funext p
      have hpB := inB_unravelIdx p.2
      rw [hG3 i _ hiN hpB, List.zip_map', List.map_map, hmapR]
      congr 1
      refine List.map_congr_left fun k hk => ?_
      have hk : k < K := by simpa using hk
      have : ids.get (k :: unravelIdx s p) = Folx.matchIdx
          (((List.range N).map fun (j : ℕ) u =>
            ((redIdx (axesRedK s dims (singleAxes_perm ha) κ) rows u).sort (· ≤ ·)).getD j (-1)).map fun m =>
              m ((axesSplit s _ dims hp) p).1) (x0.get (k :: unravelIdx s p)) := by
        rw [hi3 k _ hk hpB, bget_eq x0 hi, Folx.Layout.bcoord_self hpB, List.map_map]
        have e : (List.range N).map (fun j => bget out s j (unravelIdx s p)) =
            (List.range N).map ((fun m => m ((axesSplit s _ dims hp) p).1) ∘ fun (j : ℕ) u =>
              ((redIdx (axesRedK s dims (singleAxes_perm ha) κ) rows u).sort (· ≤ ·)).getD j (-1)) := by
          refine List.map_congr_left fun j hj => ?_
          rw [bget_eq out houtsh, bcoord_oneAt hpB, houtget j (by simpa using hj) _ hpB]
          have hv : ravelIdx (sizes s (keptDims s.length dims)) ((keptDims s.length dims).map fun d => (unravelIdx s p).getD d 0) =
            (((axesSplit s _ dims hp) p).1 : Fin _).val := rfl
          rw [hv]
          exact congrArg (fun z => (Finset.sort z (· ≤ ·)).getD j (-1)) (hblock _)
        rw [e]
        rfl
      rw [this]
      simp only [Function.comp, List.map_map]
      rfl
    · unfold rowsOf
      show _ = (List.range N).map _
      refine List.map_congr_left fun j hj => ?_
      have hj : j < N := by simpa using hj
      funext u
      have hu := inB_unravelIdx (s := sizes s (keptDims s.length dims)) (u : Fin _).2
      have hc0 : 0 < (sizes s dims).prod := Nat.pos_of_ne_zero hN
      obtain ⟨p, hpdef⟩ : ∃ p, p = unravelIdx s ((axesSplit s _ dims hp).symm ((u : Fin _), ⟨0, hc0⟩) : Fin s.prod) := ⟨_, rfl⟩
      have hpB : InB p s := by rw [hpdef]; exact inB_unravelIdx (Fin.isLt _)
      have hku : ((keptDims s.length dims).map fun d => p.getD d 0) = unravelIdx (sizes s (keptDims s.length dims)) (u : Fin _) := by
        have h1 : ((axesSplit s _ dims hp) ((axesSplit s _ dims hp).symm ((u : Fin _), ⟨0, hc0⟩))).1 = u := by
          rw [Equiv.apply_symm_apply]
        have h2 : ravelIdx (sizes s (keptDims s.length dims)) ((keptDims s.length dims).map fun d => p.getD d 0) = (u : Fin _).val := by
          rw [hpdef]
          exact congrArg Fin.val h1
        rw [← h2, unravelIdx_ravelIdx (sizes_split hp hpB).1]
      rw [ND.get_reshape _ _ _ _ (j :: zeroAt dims p) (by
        rw [houtsh]
        show j * (sizes s (keptDims s.length dims)).prod + ravelIdx (sizes s (keptDims s.length dims)) (unravelIdx _ (u : Fin _)) =
          j * (oneAt dims s).prod + ravelIdx (oneAt dims s) (zeroAt dims p)
        rw [hpo2]
        congr 1
        have hz : (List.range s.length).map (fun d => (zeroAt dims p).getD d 0) = zeroAt dims p := by
          conv_rhs => rw [← map_range_getD (zeroAt dims p), zeroAt_length, hpB.length_eq]
        have := (hfil (fun d => (zeroAt dims p).getD d 0) (List.range s.length) fun d hd h => ⟨hf1 d hd h, by
          rw [zeroAt_getD _ _ (by rw [hpB.length_eq]; simpa using hd), if_pos (by simpa using h)]⟩).1
        rw [hrange, hz] at this
        rw [this, ← hku]
        have e1 : ((keptDims s.length dims).map fun d => (zeroAt dims p).getD d 0) =
            (keptDims s.length dims).map fun d => p.getD d 0 := List.map_congr_left fun d hd => by
          obtain ⟨h1, h2⟩ := hkd d hd
          rw [zeroAt_getD _ _ (by rw [hpB.length_eq]; exact h1), if_neg h2]
        rw [← e1]
        exact congrArg (fun z => ravelIdx z _) hfk.symm), houtget j hj p hpB, hku, ravelIdx_unravelIdx (u : Fin _).2, ← hblock]

end Folx.Layout

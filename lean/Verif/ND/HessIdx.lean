import Verif.ND.HessProofs

/-!
# Proofs: the compressed index array
-/

namespace Folx.Vmap
open Layout

variable {α : Type} [Inhabited α]

/-- Coordinates along the mapped axes. -/
def sel : List (Option ℕ) → List ℕ → List ℕ
  | some _ :: ms, i :: is => i :: sel ms is
  | none :: ms, _ :: is => sel ms is
  | _, _ => []

theorem sel_spread (b v : List ℕ) (seq : List (Option ℕ)) (hv : v.length = b.length) :
    sel (spread b seq) v = sel seq (sqz b v) := by
  induction b generalizing v seq with
  | nil =>
    obtain rfl : v = [] := by simpa using hv
    cases seq with
    | nil => rfl
    | cons o os => cases o <;> rfl
  | cons b bs ih =>
    cases v with
    | nil => simp at hv
    | cons i is =>
      unfold spread sqz
      by_cases hb : b = 1
      · rw [if_pos hb, if_pos hb]
        exact ih is seq (by simpa using hv)
      · rw [if_neg hb, if_neg hb]
        cases seq with
        | nil =>
          show sel (none :: spread bs []) _ = sel [] _
          rw [sel, ih is [] (by simpa using hv)]
          rfl
        | cons o os =>
          cases o with
          | none => exact ih is os (by simpa using hv)
          | some a => exact congrArg _ (ih is os (by simpa using hv))

theorem spread_mem {b : List ℕ} {seq : List (Option ℕ)} (h : ∀ o ∈ seq, o = none ∨ o = some 1) :
    ∀ o ∈ spread b seq, o = none ∨ o = some 1 := by
  induction b generalizing seq with
  | nil => intro o ho; simp [spread] at ho
  | cons b bs ih =>
    intro o ho
    unfold spread at ho
    split at ho
    · rcases List.mem_cons.mp ho with rfl | ho
      · exact Or.inl rfl
      · exact ih h o ho
    · rcases List.mem_cons.mp ho with rfl | ho
      · cases seq with
        | nil => exact Or.inl rfl
        | cons o os => exact h _ (by simp)
      · exact ih (fun o ho => h o (List.mem_of_mem_tail ho)) o ho

theorem inB_sel {ms : List (Option ℕ)} {v b : List ℕ} (h : InB v b) : InB (sel ms v) (sel ms b) := by
  induction ms generalizing v b with
  | nil => exact List.Forall₂.nil
  | cons o ms ih =>
    cases b with
    | nil =>
      obtain rfl := InB.nil_right.mp h
      cases o <;> exact List.Forall₂.nil
    | cons c cs =>
      obtain ⟨j, js, rfl, hj, hjs⟩ := h.cons_right
      cases o with
      | none => exact ih hjs
      | some _ => exact List.Forall₂.cons hj (ih hjs)

/-- Slicing the second axis repeatedly. -/
theorem peel_one {ms : List (Option ℕ)} {b : List ℕ} {x : ND α} {w : ℕ} (hl : ms.length = b.length)
    (hm : ∀ o ∈ ms, o = none ∨ o = some 1) (hx : x.shape = w :: sel ms b) :
    ShapeOK ms b x.shape ∧ ∀ v, v.length = b.length → (peel ms v x).shape = [w] ∧
      (InB v b → ∀ k < w, (peel ms v x).get [k] = x.get (k :: sel ms v)) := by
  induction ms generalizing b x with
  | nil =>
    obtain rfl : b = [] := by simpa using hl.symm
    refine ⟨trivial, fun v hv => ?_⟩
    obtain rfl : v = [] := by simpa using hv
    exact ⟨hx, fun _ k _ => rfl⟩
  | cons o ms ih =>
    cases b with
    | nil => simp at hl
    | cons b bs =>
      rcases hm o (by simp) with rfl | rfl
      · obtain ⟨h1, h2⟩ := ih (b := bs) (x := x) (by simpa using hl) (fun o ho => hm o (by simp [ho])) hx
        refine ⟨h1, fun v hv => ?_⟩
        cases v with
        | nil => simp at hv
        | cons i v =>
          obtain ⟨g1, g2⟩ := h2 v (by simpa using hv)
          exact ⟨g1, fun hi => g2 (InB.cons_cons.mp hi).2⟩
      · have hx' : x.shape = w :: b :: sel ms bs := hx
        have hsh : ∀ i, (x.take i 1).shape = w :: sel ms bs := fun i => by rw [ND.shape_take, hx']; rfl
        refine ⟨⟨by rw [hx']; rfl, ?_⟩, fun v hv => ?_⟩
        · have := (ih (b := bs) (x := x.take 0 1) (by simpa using hl) (fun o ho => hm o (by simp [ho])) (hsh 0)).1
          rw [ND.shape_take] at this
          exact this
        · cases v with
          | nil => simp at hv
          | cons i v =>
            obtain ⟨g1, g2⟩ := (ih (b := bs) (x := x.take i 1) (by simpa using hl) (fun o ho => hm o (by simp [ho])) (hsh i)).2 v
              (by simpa using hv)
            refine ⟨g1, fun hi k hk => (g2 (InB.cons_cons.mp hi).2 k hk).trans ?_⟩
            have hin : InB (sel ms v) (sel ms bs) := inB_sel (InB.cons_cons.mp hi).2
            rw [ND.get_take _ _ _ (by
              show InB _ (x.take i 1).shape
              rw [hsh]
              exact List.Forall₂.cons hk hin)]
            rfl

/-! ### Removing the compressed axes -/

theorem erase_sel (p : ℕ → Bool) (l pre : List ℕ) :
    ((List.range' pre.length l.length).filter p).foldr (fun d l => l.eraseIdx d) (pre ++ l) =
      pre ++ sel ((List.range' pre.length l.length).map fun i => if p i then none else some 1) l := by
  induction l generalizing pre with
  | nil => simp [sel]
  | cons a l ih =>
    have h := ih (pre ++ [a])
    rw [List.length_append, List.length_singleton, List.append_assoc, List.singleton_append] at h
    rw [List.length_cons, List.range'_succ]
    by_cases hp : p pre.length = true
    · rw [List.filter_cons_of_pos hp, List.foldr_cons, h, List.map_cons, if_pos hp, List.append_assoc,
        List.singleton_append]
      show _ = pre ++ sel _ l
      rw [List.eraseIdx_append_of_length_le (le_refl _), Nat.sub_self, List.eraseIdx_cons_zero]
    · rw [List.filter_cons_of_neg hp, h, List.map_cons, if_neg hp, List.append_assoc]
      rfl

theorem getD_foldr_erase (cs w : List ℕ) (c : ℕ) (h : ∀ d ∈ cs, c < d) :
    (cs.foldr (fun d l => l.eraseIdx d) w).getD c 0 = w.getD c 0 := by
  induction cs with
  | nil => rfl
  | cons d cs ih =>
    rw [List.foldr_cons, ← ih fun e he => h e (by simp [he])]
    rw [List.getD_eq_getElem?_getD, List.getD_eq_getElem?_getD, List.getElem?_eraseIdx_of_lt (h d (by simp))]

theorem length_foldr_erase (cs w : List ℕ) (c : ℕ) (h : ∀ d ∈ cs, c < d) (hc : c < w.length) :
    c < (cs.foldr (fun d l => l.eraseIdx d) w).length := by
  induction cs with
  | nil => exact hc
  | cons d cs ih =>
    rw [List.foldr_cons, List.length_eraseIdx]
    have := ih fun e he => h e (by simp [he])
    split
    · have := h d (by simp)
      omega
    · exact this

theorem foldr_take {cs : List ℕ} (hs : cs.Pairwise (· < ·)) (x : ND α) (hlt : ∀ c ∈ cs, c < x.shape.length) {w : List ℕ}
    (hw : InB w x.shape) (h0 : ∀ c ∈ cs, w.getD c 0 = 0) :
    (cs.foldr (fun d y => y.take 0 d) x).shape = cs.foldr (fun d l => l.eraseIdx d) x.shape ∧
    InB (cs.foldr (fun d l => l.eraseIdx d) w) (cs.foldr (fun d l => l.eraseIdx d) x.shape) ∧
    (cs.foldr (fun d y => y.take 0 d) x).get (cs.foldr (fun d l => l.eraseIdx d) w) = x.get w := by
  induction cs with
  | nil => exact ⟨rfl, hw, rfl⟩
  | cons c cs ih =>
    obtain ⟨hc, hs'⟩ := List.pairwise_cons.mp hs
    obtain ⟨h1, h2, h3⟩ := ih hs' (fun d hd => hlt d (by simp [hd])) fun d hd => h0 d (by simp [hd])
    rw [List.foldr_cons, List.foldr_cons, List.foldr_cons]
    refine ⟨by rw [ND.shape_take, h1], h2.eraseIdx c, ?_⟩
    rw [ND.get_take _ _ _ (by rw [h1]; exact h2.eraseIdx c), ← h3]
    congr 1
    have e : (cs.foldr (fun d l => l.eraseIdx d) w).getD c 0 = 0 := by
      rw [getD_foldr_erase _ _ _ hc, h0 c (by simp)]
    have := insertIdx_eraseIdx_getD (l := cs.foldr (fun d l => l.eraseIdx d) w) (k := c)
      (length_foldr_erase _ _ _ hc (by rw [hw.length_eq]; exact hlt c (by simp)))
    rwa [e] at this

theorem filter_mem_of_sublist {cs l : List ℕ} (h : List.Sublist cs l) (hnd : l.Nodup) : (l.filter fun d => decide (d ∈ cs)) = cs := by
  induction h with
  | slnil => rfl
  | @cons cs l a h ih =>
    obtain ⟨h1, h2⟩ := List.nodup_cons.mp hnd
    have : ¬ (decide (a ∈ cs) = true) := by simpa using fun hm => h1 (h.subset hm)
    rw [List.filter_cons_of_neg (p := fun d => decide (d ∈ cs)) this, ih h2]
  | @cons_cons cs l a h ih =>
    obtain ⟨h1, h2⟩ := List.nodup_cons.mp hnd
    rw [List.filter_cons_of_pos (by simp)]
    congr 1
    conv_rhs => rw [← ih h2]
    refine List.filter_congr fun d hd => ?_
    have : d ≠ a := fun e => h1 (e ▸ hd)
    simp [this]

theorem range_filter_ne (n : ℕ) : ((List.range (n + 1)).filter fun d => decide (d ≠ 0)) = List.range' 1 n := by
  rw [List.range_eq_range', List.range'_succ, List.filter_cons_of_neg (by simp)]
  refine List.filter_eq_self.mpr fun d hd => ?_
  have := List.mem_range'_1.mp hd
  simp
  omega

theorem sel_congr (cs : List ℕ) (r off n : ℕ) (u u' : List ℕ) (hu : u.length = n) (hu' : u'.length = n)
    (h : ∀ j < n, u'.getD j 0 = if off + j ∈ cs then r else u.getD j 0) :
    sel ((List.range' off n).map fun i => if decide (i ∈ cs) = true then (none : Option ℕ) else some 1) u' =
    sel ((List.range' off n).map fun i => if decide (i ∈ cs) = true then (none : Option ℕ) else some 1) u := by
  induction n generalizing off u u' with
  | zero => rfl
  | succ n ih =>
    cases u with
    | nil => simp at hu
    | cons a u =>
      cases u' with
      | nil => simp at hu'
      | cons a' u' =>
        rw [List.range'_succ, List.map_cons]
        have ih' := ih (off + 1) u u' (by simpa using hu) (by simpa using hu') fun j hj => by
          have := h (j + 1) (by omega)
          rw [List.getD_cons_succ, List.getD_cons_succ] at this
          rw [this, Nat.add_right_comm, Nat.add_assoc off j 1]
        by_cases hm : off ∈ cs
        · rw [if_pos (by simpa using hm)]
          exact ih'
        · rw [if_neg (by simpa using hm)]
          have := h 0 (by omega)
          rw [Nat.add_zero, if_neg hm, List.getD_cons_zero, List.getD_cons_zero] at this
          rw [this]
          exact congrArg (List.cons a) ih'

theorem exists_inB {s : List ℕ} (h0 : 0 ∉ s) : ∃ u, InB u s := by
  induction s with
  | nil => exact ⟨[], List.Forall₂.nil⟩
  | cons a kb ih =>
    obtain ⟨u, hu⟩ := ih fun h => h0 (by simp [h])
    exact ⟨0 :: u, List.Forall₂.cons (Nat.pos_of_ne_zero fun e => h0 (by simp [e])) hu⟩

/-- The compressed index array and its sequence. -/
theorem compressIdx_spec {idx : ND ℤ} {w : ℕ} {kb : List ℕ} (hi : idx.shape = w :: kb) (hw : 0 < w) (h0 : 0 ∉ kb) :
    ∃ x seq, compressIdx idx kb.length = some (x, seq) ∧ seq.length = kb.length ∧ (∀ o ∈ seq, o = none ∨ o = some 1) ∧
      x.shape = w :: sel seq kb ∧ ∀ u, InB u kb → ∀ k < w, x.get (k :: sel seq u) = idx.get (k :: u) := by
  have hc := compact_spec idx
  obtain ⟨c, hcdef⟩ : ∃ c, c = compact idx := ⟨_, rfl⟩
  rw [← hcdef] at hc
  have hnd : idx.ndim = kb.length + 1 := by unfold ND.ndim; rw [hi]; rfl
  have hsub : List.Sublist c.2 (List.range' 1 kb.length) := by
    have := hc.sub
    rwa [hnd, range_filter_ne] at this
  have hpw : c.2.Pairwise (· < ·) := List.Pairwise.sublist hsub (List.pairwise_lt_range')
  have hmem : ∀ d ∈ c.2, 1 ≤ d ∧ d < 1 + kb.length := fun d hd => List.mem_range'_1.mp (hsub.subset hd)
  have hfil := filter_mem_of_sublist hsub (List.nodup_range')
  -- the fold
  have hfold : ∀ cs : List ℕ, (∀ d ∈ cs, 1 ≤ d ∧ d < 1 + kb.length) →
      cs.foldr (fun c acc => match acc with
        | none => none
        | some (x, seq) => if c - 1 < seq.length then some (x.take 0 c, seq.set (c - 1) none) else none)
        (some (c.1, List.replicate kb.length (some 1))) =
      some (cs.foldr (fun d y => y.take 0 d) c.1,
        (List.range' 1 kb.length).map fun i => if decide (i ∈ cs) = true then (none : Option ℕ) else some 1) := by
    intro cs
    induction cs with
    | nil =>
      intro _
      simp only [List.foldr_nil, List.not_mem_nil, decide_false, Bool.false_eq_true, if_false]
      congr 2
      rw [List.map_const', List.length_range']
    | cons d cs ih =>
      intro h
      rw [List.foldr_cons, ih fun e he => h e (by simp [he])]
      dsimp only
      have hd := h d (by simp)
      rw [if_pos (by rw [List.length_map, List.length_range']; omega), List.foldr_cons]
      congr 2
      refine List.ext_getElem (by simp) fun i h1 h2 => ?_
      rw [List.getElem_set, List.getElem_map, List.getElem_map, List.getElem_range']
      by_cases he : d - 1 = i
      · have : 1 + 1 * i = d := by omega
        rw [if_pos he, if_pos (by rw [this]; simp)]
      · have hne : ¬ (1 + 1 * i = d) := by omega
        rw [if_neg he]
        simp only [List.mem_cons, hne, false_or]
  have hone : ∀ u, InB u kb → ∀ k < w, InB (k :: u) idx.shape := fun u hu k hk => by
    rw [hi]; exact List.Forall₂.cons hk hu
  have hsel : ∀ l : List ℕ, l.length = kb.length → ∀ k, c.2.foldr (fun d l => l.eraseIdx d) (k :: l) =
      k :: sel ((List.range' 1 kb.length).map fun i => if decide (i ∈ c.2) = true then (none : Option ℕ) else some 1) l := by
    intro l hl k
    have := erase_sel (fun i => decide (i ∈ c.2)) l [k]
    rw [List.length_singleton, hl, hfil] at this
    exact this
  have hz : ∀ u, InB u kb → ∀ k < w, ∀ d ∈ c.2, (zeroAt c.2 (k :: u)).getD d 0 = 0 := by
    intro u hu k hk d hd
    have := hmem d hd
    rw [zeroAt_getD _ _ (by rw [List.length_cons, hu.length_eq]; omega), if_pos hd]
  have hsel0 : ∀ u, InB u kb → ∀ k, c.2.foldr (fun d l => l.eraseIdx d) (zeroAt c.2 (k :: u)) =
      c.2.foldr (fun d l => l.eraseIdx d) (k :: u) := by
    intro u hu k
    have hlen : (zeroAt c.2 (k :: u)).length = kb.length + 1 := by rw [zeroAt_length, List.length_cons, hu.length_eq]
    obtain ⟨k', u', he⟩ : ∃ k' u', zeroAt c.2 (k :: u) = k' :: u' := by
      cases h : zeroAt c.2 (k :: u) with
      | nil => rw [h] at hlen; simp at hlen
      | cons a l => exact ⟨a, l, rfl⟩
    rw [he, hsel u' (by rw [he] at hlen; simpa using hlen), hsel u hu.length_eq]
    have hk : k' = k := by
      have := zeroAt_getD c.2 (k :: u) (j := 0) (by simp)
      rw [he, if_neg (fun hm => by have := hmem 0 hm; omega)] at this
      exact this
    have hval : ∀ j < kb.length, u'.getD j 0 = if j + 1 ∈ c.2 then 0 else u.getD j 0 := by
      intro j hj
      have := zeroAt_getD c.2 (k :: u) (j := j + 1) (by rw [List.length_cons, hu.length_eq]; omega)
      rw [he] at this
      simpa using this
    rw [hk]
    congr 1
    have hu' : u'.length = kb.length := by rw [he] at hlen; simpa using hlen
    have hul := hu.length_eq
    exact sel_congr c.2 0 1 kb.length u u' hul hu' fun j hj => by rw [Nat.add_comm 1 j]; exact hval j hj
  have hzin : ∀ u, InB u kb → ∀ k < w, InB (zeroAt c.2 (k :: u)) c.1.shape := fun u hu k hk => by
    rw [hc.shape]; exact inB_zeroAt (hone u hu k hk)
  have hlt : ∀ d ∈ c.2, d < c.1.shape.length := fun d hd => by
    rw [hc.shape, oneAt_length, hi, List.length_cons]
    have := hmem d hd
    omega
  have hres : compressIdx idx kb.length = some (c.2.foldr (fun d y => y.take 0 d) c.1,
        (List.range' 1 kb.length).map fun i => if decide (i ∈ c.2) = true then (none : Option ℕ) else some 1) := by
    unfold compressIdx
    rw [← hcdef]
    exact hfold c.2 hmem
  refine ⟨_, _, hres, ?_, ?_, ?_, ?_⟩
  · simp
  · intro o ho
    obtain ⟨i, _, rfl⟩ := List.mem_map.mp ho
    split
    · exact Or.inl rfl
    · exact Or.inr rfl
  · -- the shape
    obtain ⟨u0, hu0⟩ := exists_inB h0
    have := (foldr_take hpw c.1 hlt (hzin u0 hu0 0 hw) (hz u0 hu0 0 hw)).1
    rw [this, hc.shape, hi]
    -- the sizes that were set to one are removed
    have hlen : (oneAt c.2 (w :: kb)).length = kb.length + 1 := by rw [oneAt_length, List.length_cons]
    obtain ⟨k', u', he⟩ : ∃ k' u', oneAt c.2 (w :: kb) = k' :: u' := by
      cases h : oneAt c.2 (w :: kb) with
      | nil => rw [h] at hlen; simp at hlen
      | cons a l => exact ⟨a, l, rfl⟩
    rw [he, hsel u' (by rw [he] at hlen; simpa using hlen)]
    have hk : k' = w := by
      have := oneAt_getD c.2 (w :: kb) (j := 0) (by simp)
      rw [he, if_neg (fun hm => by have := hmem 0 hm; omega)] at this
      exact this
    have hval : ∀ j < kb.length, u'.getD j 0 = if 1 + j ∈ c.2 then 1 else kb.getD j 0 := by
      intro j hj
      have := oneAt_getD c.2 (w :: kb) (j := j + 1) (by rw [List.length_cons]; omega)
      rw [he] at this
      rw [Nat.add_comm 1 j]
      simpa using this
    rw [hk]
    congr 1
    have hu' : u'.length = kb.length := by rw [he] at hlen; simpa using hlen
    exact sel_congr c.2 1 1 kb.length kb u' rfl hu' hval
  · intro u hu k hk
    have h3 := (foldr_take hpw c.1 hlt (hzin u hu k hk) (hz u hu k hk)).2.2
    rw [hsel0 u hu k, hsel u hu.length_eq k, hc.get _ (hone u hu k hk)] at h3
    exact h3

end Folx.Vmap

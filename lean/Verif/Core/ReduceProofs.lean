import Verif.Core.SparseProofs

namespace Folx

open Folx.Interp (Err)

variable {k : ℕ} {P : Fin k → Type} {P₀ Q F : Type} [CommRing F]

theorem mem_foldr_union {β γ : Type} [DecidableEq γ] (l : List β) (f : β → Finset γ) (z : γ) :
    z ∈ (l.map f).foldr (· ∪ ·) ∅ ↔ ∃ x ∈ l, z ∈ f x := by
  induction l with
  | nil => simp
  | cons a l ih => simp [ih]

theorem mem_sumIdx (r : Red P₀ Q) (rows : List (Row P₀ F)) (q : Q) (z : ℤ) :
    z ∈ sumIdx r rows q ↔ ∃ row ∈ rows, ∃ c, row.idx (r.split.symm (r.κ q, c)) = z := by
  unfold sumIdx
  rw [mem_foldr_union]
  simp

theorem mem_redIdx (r : Red P₀ Q) (rows : List (Row P₀ F)) (u : r.K) (z : ℤ) :
    z ∈ redIdx r rows u ↔ z ≠ -1 ∧ ∃ row ∈ rows, ∃ c, row.idx (r.split.symm (u, c)) = z := by
  unfold redIdx
  rw [mem_foldr_union]
  simp only [Finset.mem_erase, Finset.mem_image, Finset.mem_univ, true_and]
  tauto

theorem list_sum_finset_comm {β γ : Type} (l : List β) (s : Finset γ) (f : β → γ → F) :
    (l.map fun x => ∑ c ∈ s, f x c).sum = ∑ c ∈ s, (l.map fun x => f x c).sum := by
  induction l with
  | nil => simp
  | cons a l ih => simp [ih, Finset.sum_add_distrib]

theorem list_finset_sum_single {β : Type} (l : List β) (m : ℕ) (g : β → ℕ) (c : ℕ → Prop)
    [DecidablePred c] (v : β → F) (hg : ∀ x ∈ l, g x < m) :
    ((List.range m).map fun s => if c s then (l.map fun x => if g x = s then v x else 0).sum else 0).sum
      = (l.map fun x => if c (g x) then v x else 0).sum := by
  rw [list_range_sum_eq]
  induction l with
  | nil => simp
  | cons a l ih =>
    simp only [List.map_cons, List.sum_cons]
    rw [← ih fun x hx => hg x (by simp [hx])]
    have : ∀ s, (if c s then (if g a = s then v a else 0) +
        (l.map fun x => if g x = s then v x else 0).sum else 0)
      = (if g a = s then (if c s then v a else 0) else 0) +
        (if c s then (l.map fun x => if g x = s then v x else 0).sum else 0) := by
      intro s
      split_ifs <;> simp
    simp only [this]
    rw [Finset.sum_add_distrib, Finset.sum_ite_eq]
    simp [hg a (by simp)]

/-! ### summation -/

/-- Elements summed into `q`, as a flat list of (row, contracted position). -/
theorem sum_rows_c (r : Red P₀ Q) (rows : List (Row P₀ F)) (f : Row P₀ F → r.C → F) :
    (rows.map fun row => ∑ c : r.C, f row c).sum = ∑ c : r.C, (rows.map fun row => f row c).sum :=
  list_sum_finset_comm rows Finset.univ f

theorem argmaxIdx_of_mem {outs : List ℤ} {z : ℤ} (h : z ∈ outs) : argmaxIdx outs z = (outs.idxOf z : ℤ) := by
  simp [argmaxIdx, h]

theorem sparseSum_spec [Fintype P₀] [Fintype Q] (n : ℕ) (I : Inst 1 (fun _ => P₀) Q F)
    (r : Red P₀ Q) (T : ℕ) (arg : Trip P₀ F)
    (hsum : ∀ t q, I.jvp (fun _ => arg.x) (fun _ => t) q = ∑ c : r.C, t (r.split.symm (r.κ q, c)))
    (hfwd : ∀ q, I.fwd (fun _ => arg.x) q = ∑ c : r.C, arg.x (r.split.symm (r.κ q, c)))
    (hwf : arg.jac.Wf n) (o : JvpOut Q F) (h : sparseSum r T arg = .ok o) :
    JvpSpec n I (fun _ => arg) o ∧ (∀ rows, o.jac = .sparse rows → rows.length ≤ T) := by
  have hw := srows_wf _ hwf
  have hden : ∀ (i : ℕ) p, (arg.jac.srows.map fun row => if row.idx p = (i : ℤ) then row.val p else 0).sum
      = arg.jac.den i p := fun i p => srows_den arg.jac i p
  unfold sparseSum at h
  simp only at h
  split at h
  · simp at h
  set rows := arg.jac.srows with hrows
  set maxOut := Finset.univ.sup fun q : Q => max 1 (sumIdx r rows q).card with hmax
  split at h
  · split at h
    · simp at h
    · rename_i m hm
      simp only [Except.ok.injEq] at h
      subst h
      refine ⟨⟨?_, ?_, ?_, ?_⟩, ?_⟩
      · funext q; rw [hfwd]
      · intro i q
        rw [hsum]
        simp only [Jac.den]
        by_cases hi : i < (m + 1).toNat
        · rw [List.getD_eq_getElem _ _ (by simpa using hi)]
          simp only [List.getElem_map, List.getElem_range]
          rw [sum_rows_c]
          apply Finset.sum_congr rfl
          intro c _
          rw [hden]; rfl
        · rw [List.getD_eq_default _ _ (by simpa using hi)]
          symm
          apply Finset.sum_eq_zero
          intro c _
          show arg.jac.den i _ = 0
          rw [← hden]
          apply list_sum_eq_zero
          intro row hrow
          rw [if_neg]
          have := Jac.le_maxN rows row hrow (r.split.symm (r.κ q, c))
          rw [hm] at this
          have this := WithBot.coe_le_coe.mp this
          omega
      · funext q; rw [hsum]
      · show ((List.range _).map _).length ≤ n
        rw [List.length_map, List.length_range]
        have := Jac.maxN_lt rows n (fun row hrow p => (hw row hrow p).1) m hm
        omega
      · intro rows' h'; cases h'
  · rename_i hT
    simp only [Except.ok.injEq] at h
    subst h
    set col : Q → List ℤ := fun q =>
      (sumIdx r rows q).sort (· ≤ ·) ++ List.replicate (maxOut - ((sumIdx r rows q).sort (· ≤ ·)).length) (-1)
      with hcol
    have hcard : ∀ q, (sumIdx r rows q).card ≤ maxOut := fun q =>
      le_trans (le_max_right 1 _)
        (Finset.le_sup (f := fun q : Q => max 1 (sumIdx r rows q).card) (Finset.mem_univ q))
    have hcl : ∀ q, (col q).length = maxOut := by
      intro q
      have := hcard q
      simp only [hcol, List.length_append, List.length_replicate, Finset.length_sort]
      omega
    have hmemcol : ∀ q row, row ∈ rows → ∀ c, row.idx (r.split.symm (r.κ q, c)) ∈ col q := by
      intro q row hrow c
      simp only [hcol, List.mem_append, Finset.mem_sort]
      left
      rw [mem_sumIdx]
      exact ⟨row, hrow, c, rfl⟩
    have hcolsrc : ∀ q z, z ∈ col q → z < n ∧ (z < 0 → z = -1) := by
      intro q z hz
      simp only [hcol, List.mem_append, Finset.mem_sort] at hz
      rcases hz with hz | hz
      · rw [mem_sumIdx] at hz
        obtain ⟨row, hrow, c, rfl⟩ := hz
        exact ⟨(hw row hrow _).1, fun h0 => ((hw row hrow _).2 h0).1⟩
      · rw [List.mem_replicate] at hz
        omega
    refine ⟨⟨?_, ?_, ?_, ?_⟩, ?_⟩
    · funext q; rw [hfwd]
    · intro i q
      rw [hsum]
      simp only [Jac.den, List.map_map, Function.comp_def]
      have h1 : ∀ s : ℕ, (rows.map fun row => ∑ c : r.C,
           if argmaxIdx (col q) (row.idx (r.split.symm (r.κ q, c))) = (s : ℤ) then
            row.val (r.split.symm (r.κ q, c)) else 0).sum =
          ∑ c : r.C, (rows.map fun row =>
           if (col q).idxOf (row.idx (r.split.symm (r.κ q, c))) = s then
            row.val (r.split.symm (r.κ q, c)) else 0).sum := by
        intro s
        rw [sum_rows_c]
        apply Finset.sum_congr rfl
        intro c _
        apply list_sum_congr
        intro row hrow
        rw [argmaxIdx_of_mem (hmemcol q row hrow c)]
        simp only [Nat.cast_inj]
      have h2 : ∀ s : ℕ, (if (col q).getD s (-1) = (i : ℤ) then (rows.map fun row => ∑ c : r.C,
           if argmaxIdx (col q) (row.idx (r.split.symm (r.κ q, c))) = (s : ℤ) then
            row.val (r.split.symm (r.κ q, c)) else 0).sum else 0) =
          ∑ c : r.C, if (col q).getD s (-1) = (i : ℤ) then (rows.map fun row =>
           if (col q).idxOf (row.idx (r.split.symm (r.κ q, c))) = s then
            row.val (r.split.symm (r.κ q, c)) else 0).sum else 0 := by
        intro s
        rw [h1]
        split <;> simp
      rw [List.map_congr_left (fun s _ => h2 s), list_sum_finset_comm]
      apply Finset.sum_congr rfl
      intro c _
      rw [list_finset_sum_single rows maxOut
        (fun row => (col q).idxOf (row.idx (r.split.symm (r.κ q, c))))
        (fun s => (col q).getD s (-1) = (i : ℤ))
        (fun row => row.val (r.split.symm (r.κ q, c)))]
      · show _ = arg.jac.den i _
        rw [← hden]
        apply list_sum_congr
        intro row hrow
        have hm := hmemcol q row hrow c
        have hlt := List.idxOf_lt_length_of_mem hm
        rw [List.getD_eq_getElem _ _ hlt, List.getElem_idxOf]
      · intro row hrow
        rw [← hcl q]
        exact List.idxOf_lt_length_of_mem (hmemcol q row hrow c)
    · funext q; rw [hsum]
    · intro ro hro q
      rw [List.mem_map] at hro
      obtain ⟨s, hs, rfl⟩ := hro
      rw [List.mem_range] at hs
      have hs' : s < (col q).length := by rw [hcl]; exact hs
      simp only
      have hget : (col q).getD s (-1) = (col q)[s] := List.getD_eq_getElem _ _ hs'
      constructor
      · show (col q).getD s (-1) < _
        rw [hget]
        exact (hcolsrc q _ (List.getElem_mem hs')).1
      · intro hneg
        have hneg : (col q).getD s (-1) < 0 := hneg
        rw [hget] at hneg
        refine ⟨?_, ?_⟩
        · show (col q).getD s (-1) = -1
          rw [hget]
          exact (hcolsrc q _ (List.getElem_mem hs')).2 hneg
        apply list_sum_eq_zero
        intro row hrow
        apply Finset.sum_eq_zero
        intro c _
        split
        · rename_i he
          have hm := hmemcol q row hrow c
          have he : argmaxIdx (col q) (row.idx (r.split.symm (r.κ q, c))) = (s : ℤ) := he
          rw [argmaxIdx_of_mem hm, Nat.cast_inj] at he
          have hlt := List.idxOf_lt_length_of_mem hm
          refine ((hw row hrow _).2 ?_).2
          have := List.getElem_idxOf hlt
          rw [← this]
          simp only [he]
          exact hneg
        · rfl
    · intro rows' h'
      simp only [Jac.sparse.injEq] at h'
      rw [← h', List.length_map, List.length_range]
      omega

/-! ### general reductions -/

theorem sparseReduce_spec [Fintype P₀] [DecidableEq P₀] [Fintype Q] (n : ℕ) (hn : 0 < n)
    (I : Inst 1 (fun _ => P₀) Q F)
    (r : Red P₀ Q) (T : ℕ) (arg : Trip P₀ F)
    (hloc : ∀ t q, (∀ c, t (r.split.symm (r.κ q, c)) = 0) → I.jvp (fun _ => arg.x) (fun _ => t) q = 0)
    (hlocE : I.elem = true → ∀ a e, I.same a = some e → ∀ t q, t (e q) = 0 →
      I.jvp (fun _ => arg.x) (Pi.single a t) q = 0)
    (hwf : arg.jac.Wf n) (o : JvpOut Q F) (h : sparseReduce I r T arg = .ok o) :
    JvpSpec n I (fun _ => arg) o ∧ (∀ rows, o.jac = .sparse rows → rows.length ≤ T) := by
  have hw := srows_wf _ hwf
  have hden : ∀ (i : ℕ) p, (arg.jac.srows.map fun row => if row.idx p = (i : ℤ) then row.val p else 0).sum
      = arg.jac.den i p := fun i p => srows_den arg.jac i p
  unfold sparseReduce at h
  split at h
  · simp at h
  rename_i gradTan outMask hj
  split at h
  · refine ⟨denseJvp_spec n hn I (fun _ => arg) hlocE (fun _ => hwf) o h, ?_⟩
    intro rows hrows
    exfalso
    unfold denseJvp at h
    split at h
    · simp at h
    · split at h
      · simp only [Except.ok.injEq] at h
        subst h
        unfold denseElementwise at hrows
        split at hrows <;> simp [denseSplit] at hrows
      · split at h <;> (simp only [Except.ok.injEq] at h; subst h; simp [denseJoint, denseSplit] at hrows)
  rename_i hT
  split at h
  · simp at h
  simp only [Except.ok.injEq] at h
  set rows := arg.jac.srows with hrows
  unfold jacobianForReduction at hj
  split at hj
  · simp at hj
  simp only at hj
  set maxU := Finset.univ.sup fun u : r.K => (redIdx r rows u).card with hmaxU
  set om : List (r.K → ℤ) := (List.range maxU).map fun (s : ℕ) u =>
    ((redIdx r rows u).sort (· ≤ ·)).getD s (-1) with hom
  split at hj
  · simp at hj
  rename_i ids hids
  simp only [Except.ok.injEq, Prod.mk.injEq] at hj
  obtain ⟨hg, ho⟩ := hj
  subst ho
  have holen : om.length = maxU := by simp [hom]
  unfold Jac.getIndexMask at hids
  split at hids
  · simp at hids
  rename_i hne
  simp only [Except.ok.injEq] at hids
  -- the list of output indices at a kept position
  set outs : r.K → List ℤ := fun u => om.map (· u) with houts
  have houtsp : ∀ p, (om.map fun m p => m (r.split p).1).map (· p) = outs (r.split p).1 := by
    intro p; simp only [houts, List.map_map, Function.comp_def]
  have houtlen : ∀ u, (outs u).length = maxU := by intro u; simp [houts, holen]
  have hcard : ∀ u, (redIdx r rows u).card ≤ maxU := fun u =>
    Finset.le_sup (f := fun u : r.K => (redIdx r rows u).card) (Finset.mem_univ u)
  have houtget : ∀ u s (hs : s < (outs u).length), (outs u)[s] = ((redIdx r rows u).sort (· ≤ ·)).getD s (-1) := by
    intro u s hs; simp [houts, hom]
  have hglen : gradTan.length = maxU := by rw [← hg]; simp [Jac.materializeForIdx, segSum]
  -- materialised tangents
  have hgrad : ∀ s (hs : s < gradTan.length) p, gradTan[s] p =
      (rows.map fun row => if row.idx p ∈ outs (r.split p).1 ∧
        (outs (r.split p).1).idxOf (row.idx p) = s then row.val p else 0).sum := by
    intro s hs p
    have h1 : gradTan[s] p = gradTan.getD s (fun _ => 0) p := by rw [List.getD_eq_getElem _ _ hs]
    rw [h1, ← hg]
    unfold Jac.materializeForIdx
    rw [segSum_getD, if_pos (by omega), ← hids]
    rw [List.zip_map']
    simp only [List.map_map, Function.comp_def]
    apply list_sum_congr
    intro row _
    have := houtsp p
    simp only [List.map_map, Function.comp_def] at this
    rw [this]
    simp only [matchIdx_eq_iff]
  -- membership
  have hmem : ∀ u row, row ∈ rows → ∀ c, row.idx (r.split.symm (u, c)) ≠ -1 →
      row.idx (r.split.symm (u, c)) ∈ outs u := by
    intro u row hrow c hne1
    have hz : row.idx (r.split.symm (u, c)) ∈ (redIdx r rows u).sort (· ≤ ·) := by
      rw [Finset.mem_sort, mem_redIdx]; exact ⟨hne1, row, hrow, c, rfl⟩
    obtain ⟨s, hs, hsz⟩ := List.getElem_of_mem hz
    have hs2 : s < maxU := lt_of_lt_of_le hs (by rw [Finset.length_sort]; exact hcard u)
    rw [← hsz]
    have : ((redIdx r rows u).sort (· ≤ ·))[s] = (outs u)[s]'(by rw [houtlen]; exact hs2) := by
      rw [houtget u s (by rw [houtlen]; exact hs2), List.getD_eq_getElem _ _ hs]
    rw [this]
    exact List.getElem_mem _
  have hnd : ∀ u, ((outs u).filter (fun z => 0 ≤ z)).Nodup := by
    intro u
    have hsplit : outs u = (redIdx r rows u).sort (· ≤ ·) ++ List.replicate (maxU - (redIdx r rows u).card) (-1) := by
      apply List.ext_getElem
      · rw [houtlen, List.length_append, Finset.length_sort, List.length_replicate]
        have := hcard u; omega
      · intro s h1 h2
        rw [houtget u s h1]
        by_cases hlt : s < ((redIdx r rows u).sort (· ≤ ·)).length
        · rw [List.getD_eq_getElem _ _ hlt, List.getElem_append_left]
        · rw [List.getD_eq_default _ _ (by omega), List.getElem_append_right (by omega)]
          simp
    rw [hsplit, List.filter_append]
    have : (List.replicate (maxU - (redIdx r rows u).card) (-1 : ℤ)).filter (fun z => decide (0 ≤ z)) = [] := by
      rw [List.filter_eq_nil_iff]
      intro z hz
      rw [List.mem_replicate] at hz
      simp [hz.2]
    rw [this, List.append_nil]
    exact (Finset.sort_nodup _ _).filter _
  have hbound : ∀ u s (hs : s < (outs u).length), (outs u)[s] < n ∧ ((outs u)[s] < 0 → (outs u)[s] = -1) := by
    intro u s hs
    rw [houtget u s hs]
    by_cases hlt : s < ((redIdx r rows u).sort (· ≤ ·)).length
    · rw [List.getD_eq_getElem _ _ hlt]
      have := List.getElem_mem hlt
      rw [Finset.mem_sort, mem_redIdx] at this
      obtain ⟨_, row, hrow, c, he⟩ := this
      rw [← he]
      exact ⟨(hw row hrow _).1, fun h0 => ((hw row hrow _).2 h0).1⟩
    · rw [List.getD_eq_default _ _ (by omega)]; omega
  -- rows of the result
  have hzip : ∀ {β : Type} (f : (r.K → ℤ) × (P₀ → F) → β), (om.zip gradTan).map f =
      (List.range maxU).map fun s => f (om.getD s (fun _ => -1), gradTan.getD s (fun _ => 0)) := by
    intro β f
    apply List.ext_getElem
    · simp [holen, hglen]
    · intro s h1 h2
      have h3 : s < maxU := by simpa using h2
      simp only [List.getElem_map, List.getElem_zip, List.getElem_range]
      rw [List.getD_eq_getElem _ _ (by omega), List.getD_eq_getElem _ _ (by omega)]
  have hlocal_congr : ∀ t t' q, (∀ c, t (r.split.symm (r.κ q, c)) = t' (r.split.symm (r.κ q, c))) →
      I.jvp (fun _ => arg.x) (fun _ => t) q = I.jvp (fun _ => arg.x) (fun _ => t') q := by
    intro t t' q hc
    have := hloc (t - t') q (fun c => by simp [hc c])
    have e : (fun _ : Fin 1 => t - t') = (fun _ => t) - (fun _ => t') := rfl
    rw [e, map_sub, Pi.sub_apply, sub_eq_zero] at this
    exact this
  have homget : ∀ s (hs : s < maxU) u, om.getD s (fun _ => -1) u = (outs u)[s]'(by rw [houtlen]; exact hs) := by
    intro s hs u
    rw [List.getD_eq_getElem _ _ (by omega)]
    simp [houts]
  subst h
  refine ⟨⟨rfl, ?_, rfl, ?_⟩, ?_⟩
  · intro i q
    simp only [Jac.den]
    rw [hzip]
    simp only [List.map_map, Function.comp_def]
    set u := r.κ q with hu
    by_cases hex : (i : ℤ) ∈ outs u
    · -- the unique slot of `i`
      obtain ⟨s, hs, hsz⟩ := List.getElem_of_mem hex
      have hs' : s < maxU := by rw [← houtlen u]; exact hs
      have huniq : ∀ s' (hs' : s' < (outs u).length), (outs u)[s'] = (i : ℤ) → s' = s := by
        intro s' hs' he
        have h1 := idxOf_getElem_of_filter_nodup (outs u) _ (hnd u) s hs (by rw [hsz]; simp)
        have h2 := idxOf_getElem_of_filter_nodup (outs u) _ (hnd u) s' hs' (by rw [he]; simp)
        rw [← h1, ← h2, hsz, he]
      rw [list_range_sum_eq, Finset.sum_eq_single s]
      · rw [homget s hs' u, if_pos hsz, List.getD_eq_getElem _ _ (by omega)]
        apply hlocal_congr
        intro c
        rw [hgrad s (by omega)]
        rw [← hden]
        apply list_sum_congr
        intro row hrow
        rw [Equiv.apply_symm_apply]
        have hfirst : (outs u).idxOf (outs u)[s] = s :=
          idxOf_getElem_of_filter_nodup (outs u) _ (hnd u) s hs (by rw [hsz]; simp)
        have := idxOf_eq_iff (outs u) (row.idx (r.split.symm (u, c))) s hs hfirst
        rw [hsz] at this
        exact if_congr this rfl rfl
      · intro s' hs'' hne'
        rw [Finset.mem_range] at hs''
        rw [homget s' hs'' u, if_neg]
        intro he
        exact hne' (huniq s' _ he)
      · intro hn'
        exact absurd (Finset.mem_range.mpr hs') hn'
    · -- nothing depends on `i`
      have hz : I.jvp (fun _ => arg.x) (fun _ => arg.jac.den i) q = 0 := by
        apply hloc
        intro c
        rw [← hden]
        apply list_sum_eq_zero
        intro row hrow
        rw [if_neg]
        intro he
        apply hex
        rw [← he]
        apply hmem u row hrow c
        rw [he]; omega
      show _ = I.jvp (fun _ => arg.x) (fun _ => arg.jac.den i) q
      rw [hz]
      apply list_sum_eq_zero
      intro s hs
      rw [List.mem_range] at hs
      rw [homget s hs u, if_neg]
      intro he
      exact hex (he ▸ List.getElem_mem _)
  · intro ro hro q
    rw [hzip, List.mem_map] at hro
    obtain ⟨s, hs, rfl⟩ := hro
    rw [List.mem_range] at hs
    simp only
    rw [homget s hs]
    refine ⟨(hbound _ _ _).1, fun hneg => ⟨(hbound _ _ _).2 hneg, ?_⟩⟩
    apply hloc
    intro c
    rw [List.getD_eq_getElem _ _ (by omega), hgrad s (by omega)]
    apply list_sum_eq_zero
    intro row hrow
    split
    · rename_i he
      rw [Equiv.apply_symm_apply] at he
      obtain ⟨hm, hidx⟩ := he
      refine ((hw row hrow _).2 ?_).2
      have := List.getElem_idxOf (List.idxOf_lt_length_of_mem hm)
      rw [← this]
      simp only [hidx]
      exact hneg
    · rfl
  · intro rows' h'
    simp only [Jac.sparse.injEq] at h'
    rw [← h', hzip, List.length_map, List.length_range]
    omega

end Folx

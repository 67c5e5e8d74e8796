import Verif.Core.DispatchProofs

namespace Folx

open Folx.Interp (Err)

variable {k : ℕ} {P : Fin k → Type} {P₀ Q F : Type} [CommRing F]

theorem denseJvp_dense [∀ a, Fintype (P a)] [∀ a, DecidableEq (P a)] [Fintype Q]
    (I : Inst k P Q F) (args : (a : Fin k) → Trip (P a) F) (o : JvpOut Q F)
    (h : denseJvp I args = .ok o) : ∃ rows, o.jac = .dense rows := by
  unfold denseJvp at h
  split at h
  · simp at h
  · split at h
    · simp only [Except.ok.injEq] at h
      subst h
      unfold denseElementwise
      split <;> exact ⟨_, rfl⟩
    · split at h <;> (simp only [Except.ok.injEq] at h; subst h; exact ⟨_, rfl⟩)

/-! ### the masks of reductions are tight -/

theorem sorted_getD_ne {s : Finset ℤ} (h : 2 ≤ s.card) :
    (s.sort (· ≤ ·)).getD 0 (-1) ≠ (s.sort (· ≤ ·)).getD 1 (-1) := by
  have hl : (s.sort (· ≤ ·)).length = s.card := Finset.length_sort _
  rw [List.getD_eq_getElem _ _ (by omega), List.getD_eq_getElem _ _ (by omega)]
  intro he
  have := (List.Nodup.getElem_inj_iff (Finset.sort_nodup s (· ≤ ·)) (hi := by omega) (hj := by omega)).mp he
  omega

theorem sparseSum_tight [Fintype P₀] [Fintype Q] (r : Red P₀ Q) (T : ℕ) (arg : Trip P₀ F)
    (o : JvpOut Q F) (h : sparseSum r T arg = .ok o) : o.jac.Tight := by
  unfold sparseSum at h
  simp only at h
  split at h
  · simp at h
  rename_i hQ
  have hne : Nonempty Q := by
    by_contra hn
    rw [not_nonempty_iff] at hn
    exact hQ Fintype.card_eq_zero
  split at h
  · split at h
    · simp at h
    · simp only [Except.ok.injEq] at h
      subst h
      trivial
  · simp only [Except.ok.injEq] at h
    subst h
    obtain ⟨q, _, hq⟩ := Finset.exists_mem_eq_sup (Finset.univ : Finset Q) Finset.univ_nonempty
      (fun q : Q => max 1 (sumIdx r arg.jac.srows q).card)
    right
    rw [hq]
    have h1 : 1 ≤ max 1 (sumIdx r arg.jac.srows q).card := le_max_left _ _
    refine ⟨by rw [← List.length_pos_iff, List.length_map, List.length_range]; omega, fun h2 => ?_⟩
    rw [List.length_map, List.length_range] at h2
    have hc : 2 ≤ (sumIdx r arg.jac.srows q).card := by
      rcases max_choice 1 (sumIdx r arg.jac.srows q).card with hm | hm <;> omega
    refine ⟨_, List.mem_map_of_mem (List.mem_range.mpr (show 0 < _ by omega)), _,
      List.mem_map_of_mem (List.mem_range.mpr (show 1 < _ by omega)), q, ?_⟩
    simp only
    have hl : ((sumIdx r arg.jac.srows q).sort (· ≤ ·)).length = (sumIdx r arg.jac.srows q).card :=
      Finset.length_sort _
    rw [List.getD_append _ _ _ _ (by omega), List.getD_append _ _ _ _ (by omega)]
    exact sorted_getD_ne hc

theorem sparseReduce_tight [Fintype P₀] [DecidableEq P₀] [Fintype Q]
    (I : Inst 1 (fun _ => P₀) Q F) (r : Red P₀ Q) (hsurj : Nonempty Q → Function.Surjective r.κ)
    (T : ℕ) (arg : Trip P₀ F)
    (o : JvpOut Q F) (h : sparseReduce I r T arg = .ok o) : o.jac.Tight := by
  unfold sparseReduce at h
  split at h
  · simp at h
  rename_i gradTan outMask hj
  split at h
  · obtain ⟨rows, hr⟩ := denseJvp_dense I _ o h
    rw [hr]; trivial
  split at h
  · simp at h
  simp only [Except.ok.injEq] at h
  subst h
  unfold jacobianForReduction at hj
  split at hj
  · simp at hj
  rename_i hK
  have hne : Nonempty r.K := by
    by_contra hn
    rw [not_nonempty_iff] at hn
    exact hK Fintype.card_eq_zero
  simp only at hj
  split at hj
  · simp at hj
  rename_i ids hids
  simp only [Except.ok.injEq, Prod.mk.injEq] at hj
  obtain ⟨hg, ho⟩ := hj
  by_cases hQ : IsEmpty Q
  · exact Or.inl hQ
  rw [not_isEmpty_iff] at hQ
  right
  set maxU := Finset.univ.sup fun u : r.K => (redIdx r arg.jac.srows u).card with hmaxU
  have hol : outMask.length = maxU := by rw [← ho]; simp
  have hgl : gradTan.length = maxU := by rw [← hg]; simp [Jac.materializeForIdx, segSum]
  have hpos : 0 < maxU := by
    unfold Jac.getIndexMask at hids
    split at hids
    · simp at hids
    · rename_i hne'
      have hne'' := List.length_pos_iff.mpr hne'
      rw [ho, List.length_map] at hne''
      omega
  have hlen : ((outMask.zip gradTan).map fun mg =>
      (⟨fun q => mg.1 (r.κ q), I.jvp (fun _ => arg.x) fun _ => mg.2⟩ : Row Q F)).length = maxU := by
    simp [hol, hgl]
  refine ⟨by rw [← List.length_pos_iff, hlen]; exact hpos, fun h2 => ?_⟩
  rw [hlen] at h2
  obtain ⟨u, _, hu⟩ := Finset.exists_mem_eq_sup (Finset.univ : Finset r.K) Finset.univ_nonempty
    (fun u : r.K => (redIdx r arg.jac.srows u).card)
  obtain ⟨q, hq⟩ := hsurj hQ u
  refine ⟨_, List.getElem_mem (show 0 < _ by rw [hlen]; omega), _,
    List.getElem_mem (show 1 < _ by rw [hlen]; omega), q, ?_⟩
  simp only [List.getElem_map, List.getElem_zip]
  rw [hq]
  have hget : ∀ s (hs : s < outMask.length), outMask[s] u =
      ((redIdx r arg.jac.srows u).sort (· ≤ ·)).getD s (-1) := by
    intro s hs
    subst ho
    simp
  rw [hget, hget]
  apply sorted_getD_ne
  omega

/-! ### single arguments -/

theorem Inst.single_fwd (I : Inst k P Q F) (x : (a : Fin k) → P a → F) (a : Fin k) :
    (I.single x a).fwd (fun _ => x a) = I.fwd x := by
  simp [Inst.single]

theorem Inst.single_jvp (I : Inst k P Q F) (x : (a : Fin k) → P a → F) (a : Fin k) (t : P a → F) :
    (I.single x a).jvp (fun _ => x a) (fun _ => t) = I.jvp x (Pi.single a t) := by
  simp [Inst.single]

theorem Inst.single_jvp' (I : Inst k P Q F) (x : (a : Fin k) → P a → F) (a : Fin k) (t : P a → F) (b : Fin 1) :
    (I.single x a).jvp (fun _ => x a) (Pi.single b t) = I.jvp x (Pi.single a t) := by
  have e : (Pi.single b t : Fin 1 → P a → F) = fun _ => t := by
    funext c
    have : b = c := Subsingleton.elim _ _
    subst this; simp
  rw [e, Inst.single_jvp]

/-- What a single-argument rule delivers, in terms of the original function. -/
structure SingleSpec (n : ℕ) (I : Inst k P Q F) (x : (a : Fin k) → P a → F) (a : Fin k)
    (arg : Trip (P a) F) (o : JvpOut Q F) : Prop where
  y : o.y = I.fwd x
  jac : ∀ i q, o.jac.den i q = I.jvp x (Pi.single a (arg.jac.den i)) q
  lapl : o.lapl = I.jvp x (Pi.single a arg.lapl)
  wf : o.jac.Wf n

theorem SingleSpec.of (n : ℕ) (I : Inst k P Q F) (x : (a : Fin k) → P a → F) (a : Fin k)
    (arg : Trip (P a) F) (harg : arg.x = x a) (o : JvpOut Q F)
    (h : JvpSpec n (I.single x a) (fun _ => arg) o) : SingleSpec n I x a arg o := by
  obtain ⟨h1, h2, h3, h4⟩ := h
  simp only [harg] at h1 h2 h3
  refine ⟨by rw [h1, Inst.single_fwd], fun i q => ?_, by rw [h3, Inst.single_jvp], h4⟩
  rw [h2 i q, Inst.single_jvp]

theorem sparseSingle_spec [∀ a, Fintype (P a)] [∀ a, DecidableEq (P a)] [Fintype Q] [DecidableEq Q]
    (n : ℕ) (hn : 0 < n) (I : Inst k P Q F) (x : (a : Fin k) → P a → F) (hI : I.Lawful x) (T : ℕ)
    (a : Fin k) (arg : Trip (P a) F) (harg : arg.x = x a) (hwf : arg.jac.Wf n) (o : JvpOut Q F)
    (h : sparseSingle (I.single x a) T arg = .ok o) :
    SingleSpec n I x a arg o ∧ (∀ r, I.ax a = .red r → o.jac.Tight ∧
      ∀ rows, o.jac = .sparse rows → rows.length ≤ T) := by
  have hlocE : (I.single x a).elem = true → ∀ b e, (I.single x a).same b = some e → ∀ t q, t (e q) = 0 →
      (I.single x a).jvp (fun _ => arg.x) (Pi.single b t) q = 0 := by
    intro he b e hs t q ht
    rw [harg, Inst.single_jvp']
    have he : I.elem = true := he
    have hs : I.same a = some e := hs
    apply hI.single_elem he
    rw [← hI.same_elem he a e hs]
    exact ht
  unfold sparseSingle at h
  cases hax : I.ax a with
  | elem π =>
    have hax' : (I.single x a).ax 0 = .elem π := hax
    rw [hax'] at h
    simp only at h
    refine ⟨SingleSpec.of n I x a arg harg o ?_, fun r hr => by cases hr⟩
    have hsp := sparseDiag_spec n { I.single x a with π := fun _ => π } (fun _ => arg)
      (by
        intro b t q ht
        show (I.single x a).jvp (fun _ => arg.x) (Pi.single b t) q = 0
        rw [harg, Inst.single_jvp']
        exact hI.ax_elem a π hax t q ht)
      (by
        intro b e hs q
        exact hI.same_ax a π hax e hs q)
      (fun _ => hwf) o h
    exact ⟨hsp.y, hsp.jac, hsp.lapl, hsp.wf⟩
  | red r =>
    have hax' : (I.single x a).ax 0 = .red r := hax
    rw [hax'] at h
    simp only at h
    have hsc : (I.single x a).flags.has Flags.SCATTER = false := hI.noScatter
    rw [hsc] at h
    simp only [Bool.false_eq_true, if_false] at h
    split at h
    · rename_i hsum
      have hsum : I.flags.has Flags.SUMMATION = true := hsum
      obtain ⟨s1, s2⟩ := hI.sum hsum a r hax
      obtain ⟨h1, h2⟩ := sparseSum_spec n (I.single x a) r T arg
        (by
          intro t q
          rw [harg, Inst.single_jvp]
          exact s1 t q)
        (by
          intro q
          rw [harg]
          exact s2 (x a) q)
        hwf o h
      refine ⟨SingleSpec.of n I x a arg harg o h1, ?_⟩
      intro r' hr'
      exact ⟨sparseSum_tight r T arg o h, h2⟩
    · obtain ⟨h1, h2⟩ := sparseReduce_spec n hn (I.single x a) r T arg
        (by
          intro t q ht
          rw [harg, Inst.single_jvp]
          exact hI.ax_red a r hax t q ht)
        hlocE hwf o h
      refine ⟨SingleSpec.of n I x a arg harg o h1, ?_⟩
      intro r' hr'
      exact ⟨sparseReduce_tight _ r (hI.ax_surj a r hax) T arg o h, h2⟩

theorem singleJvp_spec [∀ a, Fintype (P a)] [∀ a, DecidableEq (P a)] [Fintype Q] [DecidableEq Q]
    (n : ℕ) (hn : 0 < n) (I : Inst k P Q F) (x : (a : Fin k) → P a → F) (hI : I.Lawful x) (T : ℕ)
    (a : Fin k) (arg : Trip (P a) F) (harg : arg.x = x a) (hwf : arg.jac.Wf n) (o : JvpOut Q F)
    (h : singleJvp (I.single x a) T arg = .ok o) :
    SingleSpec n I x a arg o ∧ (arg.jac.weak = false → o.jac.weak = false) ∧
      (∀ r, I.ax a = .red r → o.jac.Tight) := by
  unfold singleJvp at h
  split at h
  · rename_i hw
    obtain ⟨h1, h2⟩ := sparseSingle_spec n hn I x hI T a arg harg hwf o h
    exact ⟨h1, fun hw' => by rw [hw] at hw'; simp at hw', fun r hr => (h2 r hr).1⟩
  · obtain ⟨rows, hr⟩ := denseJvp_dense (I.single x a) (fun _ => arg) o h
    refine ⟨SingleSpec.of n I x a arg harg o
      (denseJvp_spec n hn (I.single x a) (fun _ => arg) ?_ (fun _ => hwf) o h),
      fun _ => by rw [hr]; rfl, fun r _ => by rw [hr]; trivial⟩
    intro he b e hs t q ht
    rw [harg, Inst.single_jvp']
    have he : I.elem = true := he
    have hs : I.same a = some e := hs
    apply hI.single_elem he
    rw [← hI.same_elem he a e hs]
    exact ht

/-! ### one argument at a time -/

/-- Situations in which the sparse one-argument results can be added faithfully: at most one of the
arguments is sparse, or the sparse ones are all reduced along axes. -/
def OneByOneOk (I : Inst k P Q F) (args : (a : Fin k) → Trip (P a) F) : Prop :=
  (∀ a b, (args a).jac.weak = true → (args b).jac.weak = true → a = b) ∨
  ∀ a, (args a).jac.weak = true → ∃ r, I.ax a = .red r

theorem oneByOne_spec [∀ a, Fintype (P a)] [∀ a, DecidableEq (P a)] [Fintype Q] [DecidableEq Q]
    (n : ℕ) (hn : 0 < n) (I : Inst k P Q F) (T : ℕ) (args : (a : Fin k) → Trip (P a) F)
    (hI : I.Lawful fun a => (args a).x) (hok : OneByOneOk I args)
    (hwf : ∀ a, (args a).jac.Wf n) (o : JvpOut Q F) (h : oneByOne I T args = .ok o) :
    JvpSpec n I args o := by
  set x := fun a => (args a).x with hx
  unfold oneByOne at h
  set f : Fin k → Except Err (JvpOut Q F) := fun a => singleJvp (I.single x a) T (args a) with hf
  have hspec : ∀ a o, f a = .ok o → SingleSpec n I x a (args a) o ∧
      ((args a).jac.weak = false → o.jac.weak = false) ∧ (∀ r, I.ax a = .red r → o.jac.Tight) :=
    fun a o ho => singleJvp_spec n hn I x hI T a (args a) rfl (hwf a) o ho
  rw [List.ofFn_eq_map] at h
  have hpair : (List.finRange k).Pairwise fun a b =>
      ∀ o o', f a = .ok o → f b = .ok o' → o.jac.Compat o'.jac := by
    apply List.Pairwise.imp _ (List.nodup_finRange k)
    intro a b hab o o' ho ho'
    obtain ⟨_, wa, ta⟩ := hspec a o ho
    obtain ⟨_, wb, tb⟩ := hspec b o' ho'
    by_cases ha : (args a).jac.weak = true
    · by_cases hb : (args b).jac.weak = true
      · rcases hok with hok | hok
        · exact absurd (hok a b ha hb) hab
        · obtain ⟨r, hr⟩ := hok a ha
          obtain ⟨r', hr'⟩ := hok b hb
          exact Or.inr (Or.inr ⟨ta r hr, tb r' hr'⟩)
      · exact Or.inr (Or.inl (wb (by simpa using hb)))
    · exact Or.inl (wa (by simpa using ha))
  split at h
  · simp at h
  · simp at h
  rename_i o' hacc
  simp only [Except.ok.injEq] at h
  subst h
  -- peel off the first argument
  have hcons : ∃ a0 as, List.finRange k = a0 :: as := by
    cases hL : List.finRange k with
    | nil => rw [hL] at hacc; simp [accumulate] at hacc
    | cons a0 as => exact ⟨a0, as, rfl⟩
  obtain ⟨a0, as, hL⟩ := hcons
  have hsumL : ∀ g : Fin k → F, g a0 + (as.map g).sum = ∑ a, g a := by
    intro g
    rw [← List.sum_ofFn, List.ofFn_eq_map, hL, List.map_cons, List.sum_cons]
  rw [hL] at hacc hpair
  rw [List.map_cons] at hacc
  cases hf0 : f a0 with
  | error e => rw [hf0] at hacc; simp [accumulate] at hacc
  | ok o0 =>
    rw [hf0] at hacc
    simp only [accumulate] at hacc
    obtain ⟨hs0, _, _⟩ := hspec a0 o0 hf0
    rw [List.pairwise_cons] at hpair
    obtain ⟨o2, hr, hy, hD, hLp, hw⟩ := accumulate_spec n hn as f
      (fun a i q => I.jvp x (Pi.single a ((args a).jac.den i)) q)
      (fun a => I.jvp x (Pi.single a (args a).lapl))
      (fun a _ o ho => ⟨(hspec a o ho).1.jac, (hspec a o ho).1.lapl, (hspec a o ho).1.wf⟩)
      hpair.2 o0 hs0.wf (fun a ha o ho => hpair.1 a ha o0 o hf0 ho) _ hacc
    simp only [Option.some.injEq] at hr
    subst hr
    refine ⟨by rw [hy, hs0.y], ?_, ?_, hw⟩
    · intro i q
      rw [hD i q, hs0.jac i q, hsumL fun a => I.jvp x (Pi.single a ((args a).jac.den i)) q,
        jvp_decompose, Finset.sum_apply]
    · funext q
      rw [hLp q, hs0.lapl, hsumL fun a => I.jvp x (Pi.single a (args a).lapl) q,
        jvp_decompose I x fun a => (args a).lapl, Finset.sum_apply]

/-! ### the dispatcher -/

theorem parallelJvp_spec [∀ a, Fintype (P a)] [∀ a, DecidableEq (P a)] [Fintype Q] [DecidableEq Q]
    (n : ℕ) (hn : 0 < n) (I : Inst k P Q F) (T : ℕ) (args : (a : Fin k) → Trip (P a) F)
    (hI : I.Lawful fun a => (args a).x)
    (hwf : ∀ a, (args a).jac.Wf n) (o : JvpOut Q F) (h : parallelJvp I T args = .ok o) :
    JvpSpec n I args o := by
  have hlocE : I.elem = true → ∀ a e, I.same a = some e → ∀ t q, t (e q) = 0 →
      I.jvp (fun a => (args a).x) (Pi.single a t) q = 0 := by
    intro he a e hs t q ht
    apply hI.single_elem he
    rw [← hI.same_elem he a e hs]
    exact ht
  unfold parallelJvp at h
  split at h
  · exact denseJvp_spec n hn I args hlocE hwf o h
  split at h
  · rename_i hidx
    exact sparseIndex_spec n hn I args hlocE (fun hs => hI.index hidx hs) hwf o h
  split at h
  · rename_i he
    exact sparseDiag_spec n I args (fun a t q ht => hI.single_elem he a t q ht)
      (fun a e hs q => hI.same_elem he a e hs q) hwf o h
  split at h
  · rename_i hk
    generalize ha : (⟨0, by omega⟩ : Fin k) = a at h
    obtain ⟨⟨h1, h2, h3, h4⟩, _⟩ := sparseSingle_spec n hn I (fun a => (args a).x) hI T a (args a) rfl
      (hwf a) o h
    refine ⟨h1, fun i q => ?_, ?_, h4⟩
    · rw [h2 i q, single_of_unique hk a (fun a => (args a).jac.den i)]
    · rw [h3, single_of_unique hk a (fun a => (args a).lapl)]
  · exact denseJvp_spec n hn I args hlocE hwf o h

/-- The first-order rule is exact. -/
theorem jvpRule_spec [∀ a, Fintype (P a)] [∀ a, DecidableEq (P a)] [Fintype Q] [DecidableEq Q]
    (n : ℕ) (hn : 0 < n) (I : Inst k P Q F) (T : ℕ) (args : (a : Fin k) → Trip (P a) F)
    (hI : I.Lawful fun a => (args a).x) (hok : OneByOneOk I args)
    (hwf : ∀ a, (args a).jac.Wf n) (o : JvpOut Q F) (h : jvpRule I T args = .ok o) :
    JvpSpec n I args o := by
  unfold jvpRule at h
  split at h
  · exact parallelJvp_spec n hn I T args hI hwf o h
  · exact oneByOne_spec n hn I T args hI hok hwf o h

end Folx

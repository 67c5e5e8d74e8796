import Verif.Prog.CAbs
import Verif.Prog.SlogdetProofs
import Verif.Core.CustomProofs

/-! # Proofs about the absolute value of complex arrays -/

namespace Folx

open Filter Topology
open Folx.Interp (Err)

variable {F : Type} [RCLike F]

/-- At no position is an input index stored twice (dense Jacobians: always true). -/
def Jac.NoRepeat {P : Type} : Jac P F → Prop
  | .dense _ => True
  | .sparse rows => ∀ p, ((rows.map fun r => r.idx p).filter fun z => decide (0 ≤ z)).Nodup

theorem sparse_data_sum {P : Type} (n : ℕ) (p : P) (f : F → ℝ) (hf : f 0 = 0) : ∀ rows : List (Row P F),
    (Jac.sparse rows).Wf n → (((rows.map fun r => r.idx p).filter fun z => decide (0 ≤ z)).Nodup) →
    (rows.map fun r => f (r.val p)).sum = ∑ i ∈ Finset.range n, f ((Jac.sparse rows).den i p)
  | [], _, _ => by simp [Jac.den, hf]
  | r :: rows, hwf, hnd => by
    have hwf' : (Jac.sparse rows).Wf n := fun r' hr' => hwf r' (by simp [hr'])
    obtain ⟨h1, h2⟩ := hwf r (by simp) p
    have hden : ∀ i : ℕ, (Jac.sparse (r :: rows)).den i p =
        (if r.idx p = (i : ℤ) then r.val p else 0) + (Jac.sparse rows).den i p := fun i => by simp [Jac.den]
    rw [List.map_cons, List.sum_cons]
    by_cases h0 : 0 ≤ r.idx p
    · rw [List.map_cons, List.filter_cons_of_pos (by simpa using h0), List.nodup_cons] at hnd
      rw [sparse_data_sum n p f hf rows hwf' hnd.2]
      obtain ⟨k, hk⟩ := Int.eq_ofNat_of_zero_le h0
      have hkn : k < n := by rw [hk] at h1; exact_mod_cast h1
      have hzero : (Jac.sparse rows).den k p = 0 := by
        simp only [Jac.den]
        apply List.sum_eq_zero
        intro x hx
        obtain ⟨r', hr', rfl⟩ := List.mem_map.mp hx
        rw [if_neg]
        intro he
        apply hnd.1
        rw [List.mem_filter]
        exact ⟨List.mem_map.mpr ⟨r', hr', by rw [he, hk]⟩, by simpa using h0⟩
      rw [← Finset.add_sum_erase _ (fun i => f ((Jac.sparse rows).den i p)) (Finset.mem_range.mpr hkn),
        ← Finset.add_sum_erase _ (fun i => f ((Jac.sparse (r :: rows)).den i p)) (Finset.mem_range.mpr hkn)]
      rw [hzero, hf, zero_add, hden k, hzero, if_pos hk, add_zero]
      congr 1
      refine Finset.sum_congr rfl fun i hi => ?_
      rw [hden i, if_neg, zero_add]
      rw [hk]
      intro he
      exact (Finset.mem_erase.mp hi).1 (by exact_mod_cast he.symm)
    · rw [List.map_cons, List.filter_cons_of_neg (by simpa using h0)] at hnd
      rw [sparse_data_sum n p f hf rows hwf' hnd, (h2 (by omega)).2, hf, zero_add]
      refine Finset.sum_congr rfl fun i _ => ?_
      rw [hden i, if_neg (by omega), zero_add]

theorem dense_data_sum {P : Type} (n : ℕ) (p : P) (f : F → ℝ) (hf : f 0 = 0) (rows : List (P → F))
    (hlen : rows.length ≤ n) :
    (rows.map fun r => f (r p)).sum = ∑ i ∈ Finset.range n, f ((Jac.dense rows).den i p) := by
  have e1 : (rows.map fun r => f (r p)).sum = ∑ i ∈ Finset.range rows.length, f ((Jac.dense rows).den i p) := by
    rw [Finset.sum_range, ← List.sum_ofFn]
    congr 1
    apply List.ext_getElem (by simp)
    intro i a1 a2
    simp only [List.getElem_map, List.getElem_ofFn, Jac.den]
    rw [List.getD_eq_getElem?_getD, List.getElem?_eq_getElem (by simpa using a1)]
    rfl
  rw [e1]
  refine Finset.sum_subset (by simpa using hlen) fun i _ hi => ?_
  have : (Jac.dense rows).den i p = 0 := by
    simp only [Jac.den]
    rw [List.getD_eq_getElem?_getD, List.getElem?_eq_none (by simpa using hi)]
    rfl
  rw [this, hf]

/-- Summing over the stored data is summing over the inputs, if no index is stored twice. -/
theorem Jac.data_sum {P : Type} (n : ℕ) (p : P) (f : F → ℝ) (hf : f 0 = 0) (J : Jac P F) (hwf : J.Wf n)
    (hnr : J.NoRepeat) : (J.data.map fun r => f (r p)).sum = ∑ i ∈ Finset.range n, f (J.den i p) := by
  cases J with
  | dense rows => exact dense_data_sum n p f hf rows hwf
  | sparse rows =>
    rw [← sparse_data_sum n p f hf rows hwf (hnr p)]
    simp only [Jac.data, List.map_map]
    rfl

theorem absInst_lawful (m : ℕ) (x : (a : Fin 1) → Fin m → F) : (absInst (F := F) m).toInst.Lawful x :=
  elemH_lawful _ _ _ _ _ _ _ _ _ (by decide) (by decide) (fun a e h q => by
    obtain rfl := Option.some.inj h
    rfl) x

theorem absInst_jvp (m : ℕ) (x t : (a : Fin 1) → Fin m → F) (q : Fin m) :
    (absInst (F := F) m).jvp x t q = absPull (x 0 q) * t 0 q := by
  show (∑ a : Fin 1, absPull (x 0 q) * t a q) = _
  simp

/-- What the wrapped function returns, before the final cast. -/
theorem abs_wrapped (m n : ℕ) (hn : 0 < n) (T : ℕ) (t c : Trip (Fin m) F) (hwf : t.jac.Wf n) (hnr : t.jac.NoRepeat)
    (h : (absInst m).wrapped T (fun _ => t) = .ok c) :
    c.jac.Wf n ∧ ∀ q, c.x q = ((‖t.x q‖ : ℝ) : F) ∧ (∀ i, c.jac.den i q = absPull (t.x q) * t.jac.den i q) ∧
      c.lapl q = absPull (t.x q) * t.lapl q + ((∑ i ∈ Finset.range n, (‖t.jac.den i q‖ ^ 2 / ‖t.x q‖ -
        reDot (t.x q) (t.jac.den i q) ^ 2 / ‖t.x q‖ ^ 3) : ℝ) : F) := by
  unfold HInst.wrapped at h
  split at h
  · simp at h
  rename_i o ho
  split at h
  · simp at h
  rename_i r hr
  obtain rfl := Except.ok.inj h
  obtain ⟨s1, s2, s3, s4⟩ := jvpRule_spec' n hn (absInst (F := F) m).toInst T (fun _ => t) (absInst_lawful m _)
    (fun h => absurd h (not_oneByOne_single _ rfl _)) (fun _ => hwf) o ho
  refine ⟨s4, fun q => ⟨congrFun s1 q, fun i => (s2 i q).trans (absInst_jvp m _ _ q), ?_⟩⟩
  show o.lapl q + r q = _
  have s3q : o.lapl q = absPull (t.x q) * t.lapl q := by rw [s3]; exact absInst_jvp m _ _ q
  rw [s3q]
  congr 1
  unfold HInst.hessianTransform at hr
  rw [if_neg (by simp [absInst, elemHInst]; decide), if_neg (by simp [absInst, elemHInst]; decide),
    if_neg (by simp [absInst, elemHInst]; decide)] at hr
  obtain ⟨args', idx, hA, hAA, hv⟩ := (absInst (F := F) m).vmapped_calls' n hn T (fun _ => t) (by decide)
    (fun _ => hwf) (by
      by_cases hw : t.jac.weak = true
      · left; simp [allWeak, hw]
      · right; left; simpa [anyWeak] using hw) (by simp [absInst, elemHInst]; decide) r hr
  obtain ⟨hx', hwf', hden'⟩ := hA 0
  rcases hv q with ⟨h1, h2⟩ | ⟨-, rr, h1, h2⟩
  · rw [h2 q rfl]
    have hz : ∀ i, t.jac.den i q = 0 := by
      intro i
      have h3 := h1 i
      rw [if_neg (by simp [absInst, elemHInst]; decide)] at h3
      exact congrFun (h3 0) (0 : Fin 1)
    simp [hz, reDot]
  · rw [h2 q rfl]
    have hnr' : (args' 0).jac.NoRepeat := by
      rcases hAA with rfl | hd
      · exact hnr
      · have := hd 0
        cases hj : (args' 0).jac with
        | dense _ => trivial
        | sparse _ => rw [hj] at this; simp [Jac.weak] at this
    obtain rfl := Except.ok.inj h1
    have hdata : ∀ f : F → ℝ, (Jac.data (F := F) ((absInst (F := F) m).sliceArgs args' q 0).jac).map (fun r => f (r (0 : Fin 1)))
        = ((args' 0).jac.data.map fun r => f (r q)) := by
      intro f
      show (Jac.data (sliceJac _ _ (args' 0).jac)).map _ = _
      cases (args' 0).jac with
      | dense rows => simp only [sliceJac, Jac.data, List.map_map]; rfl
      | sparse rows => simp only [sliceJac, Jac.data, List.map_map]; rfl
    have hpt : ((absInst (F := F) m).sliceArgs args' q 0).x (0 : Fin 1) = t.x q := congrFun hx' q
    show ((( (((absInst (F := F) m).sliceArgs args' q 0).jac.data.map fun r => ‖r (0 : Fin 1)‖ * ‖r (0 : Fin 1)‖).sum / _ -
      ((((absInst (F := F) m).sliceArgs args' q 0).jac.data.map fun r => reDot _ (r (0 : Fin 1))).map
        fun a => a * a).sum / _ : ℝ)) : F) = _
    rw [hpt, hdata fun z => ‖z‖ * ‖z‖, hdata fun z => reDot (t.x q) z, List.map_map]
    congr 1
    rw [Jac.data_sum n q (fun z => ‖z‖ * ‖z‖) (by simp) _ hwf' hnr']
    have := Jac.data_sum n q (fun z : F => reDot (t.x q) z * reDot (t.x q) z) (by simp [reDot]) _ hwf' hnr'
    rw [show (List.map ((fun a => a * a) ∘ fun r => reDot (t.x q) (r q)) (args' 0).jac.data).sum = _ from this]
    rw [Finset.sum_sub_distrib, Finset.sum_div, Finset.sum_div]
    congr 1
    · exact Finset.sum_congr rfl fun i _ => by rw [hden', sq]
    · exact Finset.sum_congr rfl fun i _ => by rw [hden', sq]

/-- The rule in terms of the wrapped function. -/
theorem cabs_rule (m T : ℕ) (t : Trip (Fin m) F) (r : Fin 1 → Opd F m)
    (hr : (cabsPrim F m).rule T (fun _ => .lapl t) = .ok r) :
    ∃ c, (absInst m).wrapped T (fun _ => t) = .ok c ∧ r = fun _ => .lapl
      ⟨c.x, c.jac.mapAt fun _ z => ((RCLike.re z : ℝ) : F), fun q => ((RCLike.re (c.lapl q) : ℝ) : F)⟩ := by
  simp only [cabsPrim] at hr
  cases hw : (absInst m).wrapped T (fun _ => t) with
  | error e => rw [hw] at hr; simp at hr
  | ok c =>
    rw [hw] at hr
    exact ⟨c, rfl, (Except.ok.inj hr).symm⟩

theorem re_absPull (z t : F) : RCLike.re (absPull z * t) = reDot z t / ‖z‖ := by
  rw [reDot_eq, absPull, div_mul_eq_mul_div, RCLike.div_re_ofReal]

/-- What the rule returns. -/
theorem cabs_formula (m n : ℕ) (hn : 0 < n) (T : ℕ) (t : Trip (Fin m) F) (hwf : t.jac.Wf n) (hnr : t.jac.NoRepeat)
    (r : Fin 1 → Opd F m) (hr : (cabsPrim F m).rule T (fun _ => .lapl t) = .ok r) :
    ∃ c, r 0 = .lapl c ∧ c.jac.Wf n ∧ ∀ q, c.x q = ((‖t.x q‖ : ℝ) : F) ∧
      (∀ i, c.jac.den i q = ((reDot (t.x q) (t.jac.den i q) / ‖t.x q‖ : ℝ) : F)) ∧
      c.lapl q = ((reDot (t.x q) (t.lapl q) / ‖t.x q‖ + ∑ i ∈ Finset.range n, (‖t.jac.den i q‖ ^ 2 / ‖t.x q‖ -
        reDot (t.x q) (t.jac.den i q) ^ 2 / ‖t.x q‖ ^ 3) : ℝ) : F) := by
  obtain ⟨c, hc, rfl⟩ := cabs_rule m T t r hr
  obtain ⟨h1, h2⟩ := abs_wrapped m n hn T t c hwf hnr hc
  let g : Fin m → F →+ F := fun _ => (((RCLike.ofRealCLM (K := F)).comp RCLike.reCLM : F →L[ℝ] F) : F →+ F)
  refine ⟨_, rfl, Jac.mapAt_wf g _ _ h1, fun q => ⟨(h2 q).1, fun i => ?_, ?_⟩⟩
  · refine (Jac.mapAt_den g c.jac i q).trans ?_
    rw [(h2 q).2.1 i]
    show ((RCLike.re (absPull (t.x q) * t.jac.den i q) : ℝ) : F) = _
    rw [re_absPull]
  · show ((RCLike.re (c.lapl q) : ℝ) : F) = _
    rw [(h2 q).2.2, map_add, re_absPull, RCLike.ofReal_re]

/-- The result represents `|u|` wherever `u ≠ 0`. -/
theorem cabs_rep {X : Type} [NormedAddCommGroup X] [NormedSpace ℝ X] (B : Base X) (hn : 0 < B.n) (m T : ℕ)
    (t : Trip (Fin m) F) (u : X → Fin m → F) (hrep : TripRep B t u) (h0 : ∀ q, t.x q ≠ 0) (hnr : t.jac.NoRepeat)
    (r : Fin 1 → Opd F m) (hr : (cabsPrim F m).rule T (fun _ => .lapl t) = .ok r) :
    ∃ c, r 0 = .lapl c ∧ TripRep B c fun y q => ((‖u y q‖ : ℝ) : F) := by
  obtain ⟨c, hc, hwf, hf⟩ := cabs_formula m B.n hn T t hrep.wf hnr r hr
  obtain ⟨hx, _, D, H, h3, h4, h5⟩ := hrep
  have key : ∀ q, ∃ DD HH, HasFDeriv2At (fun y => ((‖u y q‖ : ℝ) : F)) DD HH B.x0 ∧
      (∀ v, DD v = ((reDot (t.x q) (D v q) / ‖t.x q‖ : ℝ) : F)) ∧
      ∀ v w, HH v w = ((reDot (D v q) (D w q) / ‖t.x q‖ - reDot (t.x q) (D v q) * reDot (t.x q) (D w q) / ‖t.x q‖ ^ 3
        : ℝ) : F) + ((reDot (t.x q) (H v w q) / ‖t.x q‖ : ℝ) : F) := by
    intro q
    obtain ⟨Dn, Hn, n1, n2, n3⟩ := norm_deriv2 (t.x q) (h0 q)
    obtain ⟨H1, a1, a2⟩ := HasFDeriv2At.proj h3 q
    obtain ⟨H3, c1, c2⟩ := HasFDeriv2At.comp (g := fun y => u y q) (f := fun z : F => ((‖z‖ : ℝ) : F))
      (by rw [← hx]; exact n1) a1
    refine ⟨_, H3, c1, fun v => n2 _, fun v w => ?_⟩
    rw [c2, n3, a2, n2]
    rfl
  choose DD HH k1 k2 k3 using key
  obtain ⟨HF, q1, q2⟩ := HasFDeriv2At.pi k1
  refine ⟨c, hc, ?_, hwf, _, HF, q1, fun i => ?_, ?_⟩
  · funext q
    rw [(hf q).1, hx]
  · funext q
    rw [(hf q).2.1, h4]
    exact (k2 q _).symm
  · funext q
    rw [(hf q).2.2, h5, Finset.sum_apply, Finset.sum_apply]
    have hre : ∀ (s : Fin B.n → F), reDot (t.x q) (∑ i, s i) = ∑ i, reDot (t.x q) (s i) := by
      intro s
      simp only [reDot, map_sum, Finset.mul_sum, Finset.sum_add_distrib]
    rw [hre, Finset.sum_div, Finset.sum_range, ← Finset.sum_add_distrib, RCLike.ofReal_sum]
    refine Finset.sum_congr rfl fun i _ => ?_
    rw [q2, k3, h4, ← RCLike.ofReal_add, reDot_self]
    congr 1
    ring

/-- The absolute value is exact away from `0`, as long as no index is stored twice. -/
theorem cabs_sound (inv : ∀ m, Jac (Fin m) F → Prop) (T n : ℕ) (hn : 0 < n) (m : ℕ)
    (x : (i : Fin 1) → Fin m → F) (h0 : ∀ q, x 0 q ≠ 0) (hnr : ∀ J : Jac (Fin m) F, inv m J → J.NoRepeat)
    (hinv : ∀ (t c : Trip (Fin m) F), inv m t.jac → (absInst m).wrapped T (fun _ => t) = .ok c →
      ∀ f, inv m (c.jac.mapAt f)) :
    (cabsPrim F m).SoundAt inv T n x := by
  intro X _ _ B o u r hB hx ho hl hr j
  suffices hs : ∀ (o0 : Opd F m) (u0 : X → Fin m → F) (r : Fin 1 → Opd F m), u0 B.x0 = x 0 →
      OpdRep B inv o0 u0 → o0.isLapl = true → (cabsPrim F m).rule T (fun _ => o0) = .ok r →
      OpdRep B inv (r 0) fun y q => ((‖u0 y q‖ : ℝ) : F) by
    have : j = (0 : Fin 1) := Subsingleton.elim (α := Fin 1) _ _
    subst this
    refine hs (o (0 : Fin 1)) (u (0 : Fin 1)) r (hx (0 : Fin 1)) (ho (0 : Fin 1)) ?_ hr
    obtain ⟨i, hi⟩ := hl
    have : i = (0 : Fin 1) := Subsingleton.elim (α := Fin 1) _ _
    subst this
    exact hi
  clear hl hr ho hx
  intro o0 u0 r hx ho hl hr
  cases o0 with
  | plain a => simp [Opd.isLapl] at hl
  | lapl t =>
    obtain ⟨hrep, hin⟩ := ho
    obtain ⟨c, hc, hrepc⟩ := cabs_rep B (hB ▸ hn) m T t u0 hrep (by rw [hrep.x, hx]; exact h0) (hnr _ hin) r hr
    obtain ⟨c', hc', rfl⟩ := cabs_rule m T t r hr
    have hc := Opd.lapl.inj hc
    subst hc
    exact ⟨hrepc, hinv t c' hin hc' fun _ z => ((RCLike.re z : ℝ) : F)⟩

theorem abs_denseInv (m T n : ℕ) (t c : Trip (Fin m) F) (ht : denseInv n _ t.jac)
    (h : (absInst m).wrapped T (fun _ => t) = .ok c) : denseInv n _ c.jac := by
  obtain ⟨o', h1, h2⟩ := jvpRule_dense (absInst (F := F) m).toInst T n (by decide) (fun _ => t) (fun _ => ht)
  unfold HInst.wrapped at h
  split at h
  · simp at h
  · rename_i o ho
    rw [h1] at ho
    obtain rfl := Except.ok.inj ho
    split at h
    · simp at h
    · simp only [Except.ok.injEq] at h
      subst h
      exact h2

theorem cabs_sound_dense (T n : ℕ) (hn : 0 < n) (m : ℕ) (x : (i : Fin 1) → Fin m → F) (h0 : ∀ q, x 0 q ≠ 0) :
    (cabsPrim F m).SoundAt (denseInv n) T n x :=
  cabs_sound (denseInv n) T n hn m x h0
    (fun J hJ => by
      cases J with
      | dense _ => trivial
      | sparse _ => exact absurd hJ.1 (by simp [Jac.weak]))
    fun t c ht hc f => mapAt_denseInv n f _ (abs_denseInv m T n t c ht hc)

end Folx

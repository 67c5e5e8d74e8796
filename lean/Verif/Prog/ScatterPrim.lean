import Verif.Core.ScatterProofs
import Verif.Prog.CAbsProofs

/-!
# `scatter_p` in programs (`wrapped_functions.py:400-404`)
-/

namespace Folx

open Folx.Interp (Err)
open Filter Topology

variable {F : Type} [RCLike F] {size : Fin 2 → ℕ}

/-- `scatter_p` with the indices captured: operand `0` is the array written to, operand `1` the updates.  Which of
the three wrapped functions is applied depends on which operands carry derivatives (`wrapper.py:97-116`). -/
def scatterPrim (c : Scatter (Fin (size 0)) (Fin (size 1))) (π : (a : Fin 2) → Fin (size 0) → Fin (size a)) :
    Prim F where
  nIn := 2
  size := size
  nOut := 1
  outSize := fun _ => size 0
  fwd := fun x _ => scatterSet c.hit (x 0) (x 1)
  rule := fun T o =>
    match o 0, o 1 with
    | .plain a, .plain b => .ok fun _ => .plain (scatterSet c.hit a b)
    | .lapl s, .plain b => ((scatterOperand c b).wrapped T fun _ => s).map fun t _ => .lapl t
    | .plain a, .lapl s => ((scatterUpdates c a (π 1)).wrapped T fun _ => s).map fun t _ => .lapl t
    | .lapl _, .lapl _ => ((scatterInst (P := fun a => Fin (size a)) c π).wrapped T fun a => (o a).trip).map
        fun t _ => .lapl t

/-- Selecting elements of two represented arrays. -/
theorem scatterSet_rep {X : Type} [NormedAddCommGroup X] [NormedSpace ℝ X] (B : Base X) {N K : ℕ}
    (hit : Fin N → Option (Fin K)) (t0 : Trip (Fin N) F) (t1 : Trip (Fin K) F) (u0 : X → Fin N → F)
    (u1 : X → Fin K → F) (h0 : TripRep B t0 u0) (h1 : TripRep B t1 u1) (t : Trip (Fin N) F)
    (hx : t.x = scatterSet hit t0.x t1.x) (hw : t.jac.Wf B.n)
    (hj : ∀ i q, t.jac.den i q = scatterSet hit (t0.jac.den i) (t1.jac.den i) q)
    (hl : ∀ q, t.lapl q = scatterSet hit t0.lapl t1.lapl q) :
    TripRep B t fun y => scatterSet hit (u0 y) (u1 y) := by
  obtain ⟨x0, _, D0, H0, d0, j0, l0⟩ := h0
  obtain ⟨x1, _, D1, H1, d1, j1, l1⟩ := h1
  have key : ∀ q, ∃ DD HH, HasFDeriv2At (fun y => scatterSet hit (u0 y) (u1 y) q) DD HH B.x0 ∧
      (∀ v, DD v = scatterSet hit (D0 v) (D1 v) q) ∧ ∀ v w, HH v w = scatterSet hit (H0 v w) (H1 v w) q := by
    intro q
    cases hq : hit q with
    | none =>
      obtain ⟨HH, a1, a2⟩ := HasFDeriv2At.proj d0 q
      refine ⟨(ContinuousLinearMap.proj q).comp D0, HH, ?_, fun v => ?_, fun v w => ?_⟩
      · simpa only [scatterSet, hq] using a1
      · simp [scatterSet, hq]
      · rw [a2]; simp [scatterSet, hq]
    | some u =>
      obtain ⟨HH, a1, a2⟩ := HasFDeriv2At.proj d1 u
      refine ⟨(ContinuousLinearMap.proj u).comp D1, HH, ?_, fun v => ?_, fun v w => ?_⟩
      · simpa only [scatterSet, hq] using a1
      · simp [scatterSet, hq]
      · rw [a2]; simp [scatterSet, hq]
  choose DD HH k1 k2 k3 using key
  obtain ⟨HF, q1, q2⟩ := HasFDeriv2At.pi k1
  refine ⟨?_, hw, _, HF, q1, fun i => ?_, ?_⟩
  · rw [hx, x0, x1]
  · funext q
    rw [hj, j0, j1]
    exact (k2 q _).symm
  · funext q
    rw [hl, l0, l1, Finset.sum_apply]
    simp only [q2, k3]
    unfold scatterSet
    cases hit q <;> simp

/-- A plain array is a triple without derivatives. -/
theorem plain_rep {X : Type} [NormedAddCommGroup X] [NormedSpace ℝ X] (B : Base X) {m : ℕ} (a : Fin m → F)
    (u : X → Fin m → F) (h : a = u B.x0) (hu : u =ᶠ[𝓝 B.x0] fun _ => a) :
    TripRep B (⟨a, .dense [], fun _ => 0⟩ : Trip (Fin m) F) u := by
  refine ⟨h, by simp [Jac.Wf], 0, 0, (HasFDeriv2At.const a B.x0).of_eventuallyEq hu, fun i => ?_, ?_⟩
  · funext q; simp [Jac.den]
  · funext q; simp

theorem wrapped_denseInv {k out : ℕ} {size : Fin k → ℕ} (I : HInst k (fun a => Fin (size a)) (Fin out) F) (hk : 0 < k)
    (T n : ℕ) (args : (a : Fin k) → Trip (Fin (size a)) F) (ht : ∀ a, denseInv n _ (args a).jac) (c : Trip (Fin out) F)
    (h : I.wrapped T args = .ok c) : denseInv n _ c.jac := by
  obtain ⟨o', h1, h2⟩ := jvpRule_dense I.toInst T n hk args ht
  unfold HInst.wrapped at h
  split at h
  · simp at h
  · rename_i o ho
    rw [h1] at ho
    obtain rfl := Except.ok.inj ho
    split at h
    · simp at h
    · simp only [Except.ok.injEq] at h
      subst h
      exact h2

/-- With dense Jacobians `scatter_p` is exact. -/
theorem scatter_sound_dense (T n : ℕ) (hn : 0 < n) (c : Scatter (Fin (size 0)) (Fin (size 1))) (hc : c.Ok)
    (π : (a : Fin 2) → Fin (size 0) → Fin (size a)) (x : (i : Fin 2) → Fin (size i) → F) :
    (scatterPrim c π).SoundAt (denseInv n) T n x := by
  intro X _ _ B o u r hB hx ho hl hr j
  subst hB
  suffices hs : ∀ (o : (i : Fin 2) → Opd F (size i)) (u : (i : Fin 2) → X → Fin (size i) → F)
      (r : Fin 1 → Opd F (size 0)), (∀ i, OpdRep B (denseInv B.n) (o i) (u i)) → (∃ i, (o i).isLapl = true) →
      (scatterPrim (F := F) c π).rule T o = .ok r →
      OpdRep B (denseInv B.n) (r 0) fun y => scatterSet c.hit (u 0 y) (u 1 y) by
    have : j = (0 : Fin 1) := Subsingleton.elim (α := Fin 1) _ _
    subst this
    exact hs o u r ho hl hr
  clear hl hr ho hx r u o x
  intro o u r ho hl hr
  have ho0 := ho 0
  have ho1 := ho 1
  simp only [scatterPrim] at hr
  split at hr
  · rename_i a b h0 h1
    obtain ⟨i, hi⟩ := hl
    exfalso
    fin_cases i
    · have hi : (o 0).isLapl = true := hi
      rw [h0] at hi; simp [Opd.isLapl] at hi
    · have hi : (o 1).isLapl = true := hi
      rw [h1] at hi; simp [Opd.isLapl] at hi
  · rename_i s b h0 h1
    rw [h0] at ho0
    rw [h1] at ho1
    obtain ⟨hr0, hi0⟩ := ho0
    cases hw : (scatterOperand c b).wrapped T (fun _ => s) with
    | error e => rw [hw] at hr; simp [Except.map] at hr
    | ok t =>
      rw [hw] at hr
      obtain rfl : (fun _ => Opd.lapl t) = r := Except.ok.inj hr
      obtain ⟨w1, w2, w3, w4⟩ := wrapped_nonstatic (scatterOperand c b) (show scatterFlags.has Flags.INDEXING = true by decide) rfl rfl B.n hn T (fun _ => s)
        (fun _ => hr0.wf) t hw
      refine ⟨scatterSet_rep B c.hit s _ (u 0) (u 1) hr0 (plain_rep B b (u 1) ho1.1 ho1.2) t w1 w2 (fun i q => ?_)
        (fun q => ?_), wrapped_denseInv _ (by decide) T B.n (fun _ => s) (fun _ => hi0) t hw⟩
      · rw [w3]
        show scatterSet c.hit (s.jac.den i) (fun _ => 0) q = _
        simp only [scatterSet, Jac.den]
        cases c.hit q <;> simp
      · rw [w4]; rfl
  · rename_i a s h0 h1
    rw [h0] at ho0
    rw [h1] at ho1
    obtain ⟨hr1, hi1⟩ := ho1
    cases hw : (scatterUpdates c a (π 1)).wrapped T (fun _ => s) with
    | error e => rw [hw] at hr; simp [Except.map] at hr
    | ok t =>
      rw [hw] at hr
      obtain rfl : (fun _ => Opd.lapl t) = r := Except.ok.inj hr
      obtain ⟨w1, w2, w3, w4⟩ := wrapped_nonstatic (scatterUpdates c a (π 1)) (show scatterFlags.has Flags.INDEXING = true by decide) rfl rfl B.n hn T (fun _ => s)
        (fun _ => hr1.wf) t hw
      refine ⟨scatterSet_rep B c.hit _ s (u 0) (u 1) (plain_rep B a (u 0) ho0.1 ho0.2) hr1 t w1 w2 (fun i q => ?_)
        (fun q => ?_), wrapped_denseInv _ (by decide) T B.n (fun _ => s) (fun _ => hi1) t hw⟩
      · rw [w3]
        show scatterSet c.hit (fun _ => 0) (s.jac.den i) q = _
        simp only [scatterSet, Jac.den]
        cases c.hit q <;> simp
      · rw [w4]; rfl
  · rename_i s0 s1 h0 h1
    rw [h0] at ho0
    rw [h1] at ho1
    obtain ⟨hr0, hi0⟩ := ho0
    obtain ⟨hr1, hi1⟩ := ho1
    cases hw : (scatterInst (F := F) (P := fun a => Fin (size a)) c π).wrapped T (fun a => (o a).trip) with
    | error e => rw [hw] at hr; simp [Except.map] at hr
    | ok t =>
      rw [hw] at hr
      obtain rfl : (fun _ => Opd.lapl t) = r := Except.ok.inj hr
      have hd : ∀ a, denseInv B.n _ (o a).trip.jac := by
        intro a
        fin_cases a
        · show denseInv B.n _ (o 0).trip.jac; rw [h0]; exact hi0
        · show denseInv B.n _ (o 1).trip.jac; rw [h1]; exact hi1
      have hwf : ∀ a, (o a).trip.jac.Wf B.n := by
        intro a
        fin_cases a
        · show (o 0).trip.jac.Wf B.n; rw [h0]; exact hr0.wf
        · show (o 1).trip.jac.Wf B.n; rw [h1]; exact hr1.wf
      obtain ⟨w1, w2, w3⟩ := scatter_rule (P := fun a => Fin (size a)) c π hc B.n hn T (fun a => (o a).trip) hwf
        (fun _ hw1 => absurd ((hd 1).1) (by rw [hw1]; simp)) t hw
      rw [if_neg (fun hh => absurd ((hd 0).1) (by rw [hh.1]; simp))] at w3
      simp only [h0, h1, Opd.trip] at w1 w3
      exact ⟨scatterSet_rep B c.hit s0 s1 (u 0) (u 1) hr0 hr1 t w1 w2 w3.1 w3.2,
        wrapped_denseInv _ (by decide) T B.n _ hd t hw⟩

end Folx

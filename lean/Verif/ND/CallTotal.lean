import Verif.ND.CallMain

/-! # Calls with sparse Jacobians that return -/

namespace Folx.Layout
open Vmap Dot Filter Topology

section
variable {X : Type} [NormedAddCommGroup X] [NormedSpace ℝ X] {F : Type} [RCLike F] [Inhabited F] {m : ℕ} {shape : Fin (m + 1) → List ℕ} {out : List ℕ}
variable {B : Base X} {T : ℕ} {A : ArrFn F shape out} {ifwd : (acts : List (Fin (m + 1))) → Option ((Fin acts.length → ND ℤ) → ND ℤ)} {b : List ℕ}
  {φ : List (ND F) → ((i : Fin (m + 1)) → Fin (A.inAxes.slice (shape i)).prod → F) → List ℕ → F} {x : (i : Fin (m + 1)) → Fin (shape i).prod → F}
  {o : (i : Fin (m + 1)) → Opd F (shape i).prod} {uo : (i : Fin (m + 1)) → X → Fin (shape i).prod → F}

/-- The call returns, unless an argument of a reduction depends on no input (B32; not for indexing of one array) or other arguments enlarge the batch (B34). -/
theorem call_total (hn : 0 < B.n) (hT : A.Truthful ifwd b φ x) (hsafe : A.SparseSafe ifwd b) (hc : CallOk B o uo x)
    (hd : ∀ i t, o i = .lapl t → arrInv T B.n _ t.jac)
    (hm : m = 0 ∨ (m ≤ 1 ∧ (A.flags.has Flags.INDEXING = true ∨ A.inAxes = .axes [])))
    (hdot : A.flags.has Flags.DOT_PRODUCT = false)
    (hdep : (A.flags.has Flags.INDEXING = true ∧ m = 0) ∨ ∀ i t, o i = .lapl t → ¬ NoDeps (A.inAxes.first (A.flags.has Flags.SUMMATION)) (shape i) (tripArr (shape i) t).jac)
    (hext : A.flags.has Flags.LINEAR_IN_ONE = true ∨ ∀ b', (A.restrict ifwd (actsOf o) x).Batch (A.extrasOf (actsOf o) x) b' b → ∃ j, b = List.replicate j 1 ++ b') :
    ∃ t, A.call ifwd T o = some (.lapl t) ∧ TripRep B t (fun y => A.fwd fun i => uo i y) ∧ arrInv T B.n _ t.jac := by
  obtain ⟨r, hr⟩ : ∃ r, A.call ifwd T o = some r := by
    obtain ⟨a0, rest, ha, hx, hs, hrep⟩ := call_parts hn hT hc
    rw [ha] at hext
    have hnd : (a0 :: rest).Nodup := hs.imp fun h => ne_of_lt h
    rw [call_eq ha hx]
    choose tt ht hrep using hrep
    have hbig : ∀ a, (tripArr (shape ((a0 :: rest).get a)) (o ((a0 :: rest).get a)).trip).jac.Big T B.n := fun a =>
      big_jacArr (by rw [ht a]; exact (hd _ _ (ht a)).2)
    have hS := (restrict_second (T := T) hT hs hrep fun a => hc.val _).2.2 hdot hsafe.jhj hbig hext
    have hA' := restrict_computes' hT hc hs
    obtain ⟨b', hb'⟩ := restrict_batch (ifwd := ifwd) (acts := a0 :: rest) (x := x) hT.batch hT.argSize
    have hax := restrict_axes hT hc hnd
    have hlen : rest.length ≤ m := by
      have := hnd.length_le_card
      simp at this
      omega
    obtain ⟨h1, h2⟩ := first_total (k := rest.length) (ifwd := (A.restrict ifwd (a0 :: rest) x).ifwd) T hn hT.outSize (A.flags.has Flags.INDEXING) (A.flags.has Flags.JOIN_JVP)
      (fun a => (hrep a).arg) hax (restrict_index hT hc hnd) (by
        by_cases h3 : (tripArr (shape ((a0 :: rest).get (0 : Fin (rest.length + 1)))) (o ((a0 :: rest).get (0 : Fin (rest.length + 1)))).trip).jac.idx = none
        · exact Or.inr (Or.inr (Or.inl h3))
        · rcases hm with h1 | ⟨h1, h2⟩
          · have h0 : rest.length = 0 := by omega
            refine Or.inr (Or.inl ⟨fun a => ?_, Or.inr (Or.inr h0)⟩)
            obtain rfl : a = 0 := Fin.ext (by have := a.2; show a.val = 0; omega)
            exact h3
          · by_cases h4 : ∃ h : 1 < rest.length + 1, (tripArr (shape ((a0 :: rest).get (⟨1, h⟩ : Fin (rest.length + 1)))) (o ((a0 :: rest).get (⟨1, h⟩ : Fin (rest.length + 1)))).trip).jac.idx = none
            · exact Or.inr (Or.inr (Or.inr h4))
            · refine Or.inr (Or.inl ⟨fun a => ?_, h2.imp id fun h => Or.inl (by rw [h]; rfl)⟩)
              by_cases ha0 : a.val = 0
              · obtain rfl : a = 0 := Fin.ext ha0
                exact h3
              · have ha1 : a.val = 1 := by have := a.2; omega
                intro h5
                refine h4 ⟨by have := a.2; omega, ?_⟩
                have : a = ⟨1, by have := a.2; omega⟩ := Fin.ext ha1
                rw [← this]
                exact h5)
    have hw := wrapped_iff (k := rest.length) hrep hA' hT.outSize (fits_batch (k := rest.length) hb') hS h2
    cases hwt : (A.restrict ifwd (a0 :: rest) x).wrapped (k := rest.length) T (fun a => tripArr (shape ((a0 :: rest).get a)) (o ((a0 :: rest).get a)).trip)
        (A.extrasOf (a0 :: rest) x) with
    | none =>
      obtain ⟨⟨a, h3⟩, h4⟩ := h1.mp (hw.1.mp hwt)
      rcases hdep with ⟨hI, hm0⟩ | hdep
      · refine absurd ⟨hI, fun a' => ?_⟩ h4
        have h0 : rest.length = 0 := by omega
        obtain rfl : a' = a := Fin.ext (by have := a.2; have := a'.2; omega)
        obtain ⟨_, mm, _, h5, _⟩ := h3
        rw [h5]
        exact Option.some_ne_none mm
      refine absurd ?_ (hdep _ _ (ht a))
      have e : (o ((a0 :: rest).get a)).trip = tt a := by rw [ht a]; rfl
      rw [← e]
      exact h3
    | some t => exact ⟨.lapl (arrTrip out t), rfl⟩
  obtain ⟨t, rfl, h1, h2⟩ := call_sparse hn hT hsafe hc hd hr
  exact ⟨t, hr, h1, h2⟩

end

end Folx.Layout

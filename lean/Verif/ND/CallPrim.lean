import Verif.ND.CallMain
import Verif.Prog.Good
import Verif.Prog.Total

/-! # Array-level functions as primitives of programs: soundness and totality of their rules -/

namespace Folx.Layout
open Vmap Dot Filter Topology

variable {F : Type} [RCLike F] [Inhabited F] {m : ℕ} {shape : Fin (m + 1) → List ℕ} {out : List ℕ}
variable {T n : ℕ} {A : ArrFn F shape out} {ifwd : (acts : List (Fin (m + 1))) → Option ((Fin acts.length → ND ℤ) → ND ℤ)} {b : List ℕ}
  {φ : List (ND F) → ((i : Fin (m + 1)) → Fin (A.inAxes.slice (shape i)).prod → F) → List ℕ → F} {x : (i : Fin (m + 1)) → Fin (shape i).prod → F}

theorem callOk_of {X : Type} [NormedAddCommGroup X] [NormedSpace ℝ X] {B : Base X} {inv : ∀ m, Jac (Fin m) F → Prop} (hinv : ∀ m J, inv m J → J.weak = true → 0 < J.nrows)
    {o : (i : Fin (m + 1)) → Opd F (shape i).prod} {u : (i : Fin (m + 1)) → X → Fin (shape i).prod → F} (hx : ∀ i, u i B.x0 = x i)
    (ho : ∀ i, OpdRep B inv (o i) (u i)) (hl : ∃ i, (o i).isLapl = true) :
    CallOk B o u x ∧ ∀ i t, o i = .lapl t → inv _ t.jac := by
  refine ⟨⟨hx, fun i a h => ?_, fun i t h => ?_, hl⟩, fun i t h => ?_⟩
  · have := ho i
    rw [h] at this
    exact this
  · have := ho i
    rw [h] at this
    exact ⟨this.1, hinv _ _ this.2⟩
  · have := ho i
    rw [h] at this
    exact this.2

theorem prim_rule_ok {o : (i : Fin (m + 1)) → Opd F (shape i).prod} {r : Fin 1 → Opd F out.prod} (h : (A.prim ifwd).rule T o = .ok r) :
    ∃ r0, A.call ifwd T o = some r0 ∧ r = fun _ => r0 := by
  change (match A.call ifwd T o with | none => Except.error Interp.Err.other | some r => .ok fun _ => r) = .ok r at h
  cases hc : A.call ifwd T o with
  | none => rw [hc] at h; simp at h
  | some r0 => rw [hc] at h; exact ⟨r0, rfl, (Except.ok.inj h).symm⟩

/-- Sparsity disabled. -/
theorem prim_sound_dense (hn : 0 < n) (hT : A.Truthful ifwd b φ x) : (A.prim ifwd).SoundAt (denseInv n) T n x := by
  intro X _ _ B o u r hB hx ho hl hr j
  subst hB
  obtain ⟨h1, h2⟩ := callOk_of (fun _ J hJ hw => absurd hw (by rw [hJ.1]; decide)) hx ho hl
  obtain ⟨t, h3, h4, h5⟩ := call_dense (T := T) hn hT h1 h2
  obtain ⟨r0, h6, rfl⟩ := prim_rule_ok hr
  obtain rfl : r0 = .lapl t := Option.some.inj (h6.symm.trans h3)
  exact ⟨h4, h5⟩

/-- Sparsity enabled. -/
theorem prim_sound_sparse (hn : 0 < n) (hT : A.Truthful ifwd b φ x) (hs : A.SparseSafe ifwd b) : (A.prim ifwd).SoundAt (arrInv T n) T n x := by
  intro X _ _ B o u r hB hx ho hl hr j
  subst hB
  obtain ⟨h1, h2⟩ := callOk_of (fun _ J hJ => hJ.1) hx ho hl
  obtain ⟨r0, h6, rfl⟩ := prim_rule_ok hr
  obtain ⟨t, rfl, h4, h5⟩ := call_sparse (T := T) hn hT hs h1 h2 h6
  exact ⟨h4, h5⟩

/-- With sparsity disabled the rule does not raise. -/
theorem prim_total (hn : 0 < n) (hT : A.Truthful ifwd b φ x) : (A.prim ifwd).TotalAt T n x := by
  intro o hx hl hd
  have hex : ∀ i, ∃ u : (Fin n → ℝ) → Fin (shape i).prod → F, OpdRep (unitBase n) (denseInv n) (o i) u ∧ u 0 = x i := by
    intro i
    cases ho : o i with
    | plain a =>
      refine ⟨fun _ => a, ⟨rfl, EventuallyEq.rfl⟩, ?_⟩
      have := hx i
      rw [ho] at this
      exact this
    | lapl t =>
      have hj := hd i t ho
      obtain ⟨u, hu⟩ := exists_rep hn t (by
        revert hj
        cases t.jac with
        | dense rows => exact fun hj => le_of_eq hj.2
        | sparse rows => exact fun hj => absurd hj.1 (by simp [Jac.weak]))
      refine ⟨u, ⟨hu, hj⟩, hu.x.symm.trans ?_⟩
      have := hx i
      rw [ho] at this
      exact this
  choose u hu hux using hex
  obtain ⟨h1, h2⟩ := callOk_of (B := unitBase n) (fun _ J hJ hw => absurd hw (by rw [hJ.1]; decide)) hux hu hl
  obtain ⟨t, h3, -⟩ := call_dense (B := unitBase n) (T := T) hn hT h1 h2
  refine ⟨fun _ => .lapl t, ?_⟩
  show (match A.call ifwd T o with | none => Except.error Interp.Err.other | some r => .ok fun _ => r) = _
  rw [h3]
  rfl

end Folx.Layout

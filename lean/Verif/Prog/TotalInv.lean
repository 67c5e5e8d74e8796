import Verif.Prog.Total

/-! # Runs that return, for any invariant of the stored Jacobians -/

namespace Folx

open Filter Topology
open Folx.Interp

variable {F : Type} [RCLike F]

/-- `p`'s rule returns for operands that represent functions with values `x` at the point. -/
def Prim.ReturnsWith (p : Prim F) (inv : ∀ m, Jac (Fin m) F → Prop) (T n : ℕ) (x : (i : Fin p.nIn) → Fin (p.size i) → F) : Prop :=
  ∀ {X : Type} [NormedAddCommGroup X] [NormedSpace ℝ X] (B : Base X) (o : (i : Fin p.nIn) → Opd F (p.size i)) (u : (i : Fin p.nIn) → X → Fin (p.size i) → F),
    B.n = n → (∀ i, u i B.x0 = x i) → (∀ i, OpdRep B inv (o i) (u i)) → (∃ i, (o i).isLapl = true) → ∃ r, p.rule T o = .ok r

section
variable {X : Type} [NormedAddCommGroup X] [NormedSpace ℝ X]

theorem evLapl_returnsInv (B : Base X) (inv : ∀ m, Jac (Fin m) F → Prop) (reg : String → Option (Prim F)) (junk : List (PVal F) → PVal F) (T : ℕ)
    (good : (p : Prim F) → ((i : Fin p.nIn) → Fin (p.size i) → F) → Prop)
    (hgood : ∀ p x, good p x → p.SoundAt inv T B.n x)
    (hgoodT : ∀ p x, good p x → p.ReturnsWith inv T B.n x) :
    ∀ (d : ℕ) (op : Op d F) (vals : List (PVal F)) (gs : List (FArr X F)) (zs : List (PArr F)),
      NoScan reg d op → List.Forall₂ (Represents B inv) vals gs →
      DomP reg good d op (gs.map fun g => g.at B.x0) → evPlain d op (gs.map fun g => g.at B.x0) = .ok zs →
      ∃ ys, evLapl reg junk T d op vals = .ok ys := by
  intro d
  induction d with
  | zero => intro op; exact nomatch op
  | succ d ih =>
    intro op vals gs zs hns hr hd he
    have hx := forall2_x B inv vals gs hr
    unfold evLapl
    split
    · rw [hx, he]
      exact ⟨_, rfl⟩
    · rename_i hall
      have hex : ∃ v ∈ vals, v.2.isLapl = true := by
        by_contra hc
        push Not at hc
        apply hall
        rw [List.all_eq_true]
        intro v hv
        simpa using hc v hv
      have hcall : ∀ p : Prim F, (∀ x, unpack (β := fun m => Fin m → F) p.size (gs.map fun g => g.at B.x0) = .ok x →
          good p x) → (∃ zs, p.bind (gs.map fun g => g.at B.x0) = .ok zs) → ∃ ys, p.call T vals = .ok ys := by
        rintro p hg ⟨zs, hb⟩
        unfold Prim.bind at hb
        split at hb
        · simp at hb
        · rename_i x hux
          obtain ⟨o, h1, h2, h3⟩ := unpack_vals B inv p.size vals gs hr x hux
          have hexo : ∃ i, (o i).isLapl = true := by
            obtain ⟨v, hv, hvl⟩ := hex
            rw [(unpack_eq _ _ _).mp h1, List.mem_ofFn] at hv
            obtain ⟨i, rfl⟩ := hv
            exact ⟨i, hvl⟩
          obtain ⟨u, -, hrep⟩ := repr_unpack B inv p.size vals gs hr o h1
          have hu : ∀ i, u i B.x0 = x i := by
            intro i
            have h4 := hrep i
            rw [← h2 i]
            cases ho : o i with
            | plain a => rw [ho] at h4; exact h4.1.symm
            | lapl t => rw [ho] at h4; exact h4.1.x.symm
          obtain ⟨r, hrr⟩ := hgoodT p x (hg x hux) B o u rfl hu hrep hexo
          unfold Prim.call
          rw [h1]
          simp only [hrr]
          exact ⟨_, rfl⟩
      cases op with
      | prim p =>
        dsimp only
        exact hcall p hd ⟨zs, he⟩
      | pjit name j consts =>
        simp only [DomP, NoScan] at hd hns
        dsimp only
        cases hreg : reg name with
        | some p =>
          simp only [hreg] at hd hns ⊢
          exact hcall p hd.1 (hns _ zs he)
        | none =>
          simp only [hreg] at hd hns ⊢
          have := prog_total (at' := fun (g : FArr X F) x => g.at x) (R := Represents B inv)
            (lit := PVal.ofPlain) (cst := fun a => (⟨a.1, fun _ => a.2⟩ : FArr X F))
            (fun p => represents_const B _ p) (fun _ _ => rfl) B.x0 (evPlain d) (evLapl reg junk T d)
            (DomP reg good d) (Dom reg junk T good d) j
            (fun e _ => evLapl_rel B _ reg junk T good hgood d e.op)
            (fun e _ => dom_of_plain B _ reg junk T good hgood d e.op)
            (fun e hme vals gs zs hr hd he => ih e.op vals gs zs (hns.1 e hme) hr hd he) consts vals gs hr hd zs he
          rwa [C06_refcount_never_loses_values _ _ _ _ (fun v hv => by
            rw [readsOf_map]; exact hns.2 v (mem_map_var _ _ v hv))]
      | scan s => exact hns.elim

/-- With sparsity disabled the interpreter returns if the ordinary run does. -/
theorem evalLapl_returnsInv (B : Base X) (inv : ∀ m, Jac (Fin m) F → Prop) (reg : String → Option (Prim F)) (junk : List (PVal F) → PVal F) (T : ℕ)
    (good : (p : Prim F) → ((i : Fin p.nIn) → Fin (p.size i) → F) → Prop)
    (hgood : ∀ p x, good p x → p.SoundAt inv T B.n x)
    (hgoodT : ∀ p x, good p x → p.ReturnsWith inv T B.n x) (d : ℕ) (j : Jaxpr (Op d F) (PArr F))
    (hns : ∀ e ∈ j.eqns, NoScan reg d e.op)
    (hbound : ∀ v, Atom.var v ∈ j.outvars → (readsOf j.eqns j.outvars).count v ≤ 2147483647)
    (consts : List (PArr F)) (args : List (PVal F)) (gs : List (FArr X F)) (zs : List (PArr F))
    (hargs : List.Forall₂ (Represents B inv) args gs)
    (hd : DomProg (evPlain d) (DomP reg good d) j consts (gs.map fun g => g.at B.x0))
    (he : evalPlain d j consts (gs.map fun g => g.at B.x0) = .ok zs) :
    ∃ ys, evalLapl reg junk T d j consts args = .ok ys := by
  have := prog_total (at' := fun (g : FArr X F) x => g.at x) (R := Represents B inv)
    (lit := PVal.ofPlain) (cst := fun a => (⟨a.1, fun _ => a.2⟩ : FArr X F))
    (fun p => represents_const B _ p) (fun _ _ => rfl) B.x0 (evPlain d) (evLapl reg junk T d)
    (DomP reg good d) (Dom reg junk T good d) j
    (fun e _ => evLapl_rel B _ reg junk T good hgood d e.op)
    (fun e _ => dom_of_plain B _ reg junk T good hgood d e.op)
    (fun e hme vals gs zs hr hd he => evLapl_returnsInv B inv reg junk T good hgood hgoodT d e.op vals gs zs (hns e hme) hr hd he)
    consts args gs hargs hd zs he
  unfold evalLapl
  rwa [C06_refcount_never_loses_values _ _ _ _ (fun v hv => by
    rw [readsOf_map]; exact hbound v (mem_map_var _ _ v hv))]

end

end Folx

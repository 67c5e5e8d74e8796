import Verif.Props.RunProps
import Verif.Props.BuiltInProps

/-!
# C42 for runs that hit none of the known defects, and why it fails in general
-/

namespace Folx

open Filter Topology
open Folx.Interp

variable {F : Type} [RCLike F]

/-- Two runs in a row, each with its own threshold, the first from the inputs. -/
theorem compose_run (inv inv' : ∀ m, Jac (Fin m) F → Prop) (himp : ∀ m J, inv m J → inv' m J)
    (goodf goodg : (p : Prim F) → ((i : Fin p.nIn) → Opd F (p.size i)) → Prop)
    (reg : String → Option (Prim F)) (junk : List (PVal F) → PVal F) (t t' : ℚ) {n : ℕ}
    (hn : 0 < n) (sizes : List ℕ) (hs : sizes.sum = n) (d d' : ℕ)
    (f : Jaxpr (Op d F) (PArr F)) (cf : List (PArr F)) (g : Jaxpr (Op d' F) (PArr F)) (cg : List (PArr F))
    (weights weights' : Weights F) (w x : Fin n → ℝ) (hw : weightArrs weights sizes = .ok (unflat sizes w))
    (hinv : if decide (0 < threshold t n) then ∀ m rows, inv m (.sparse rows)
      else ∀ m rows, rows.length = n → inv m (.dense rows))
    (hgf : ∀ p o, goodf p o → p.SoundForI inv (threshold t n).toNat n o)
    (ys zs : List (PVal F))
    (hgg : ∀ p o, goodg p o → p.SoundForI inv' (threshold t' (ys.map fun v => v.1).sum).toNat n o)
    (hf : ∀ args, initState (decide (0 < threshold t n)) weights (plainArgs sizes x) = .ok args →
      DomProg (evLapl reg junk (threshold t n).toNat d) (DomR reg junk (threshold t n).toNat goodf d)
        (f.map PVal.ofPlain) (cf.map PVal.ofPlain) args)
    (hg : DomProg (evLapl reg junk (threshold t' (ys.map fun v => v.1).sum).toNat d')
      (DomR reg junk (threshold t' (ys.map fun v => v.1).sum).toNat goodg d') (g.map PVal.ofPlain) (cg.map PVal.ofPlain) ys)
    (h : forwardLaplacian reg junk t d f cf weights (plainArgs sizes x) = .ok ys)
    (hlapl : ∃ v ∈ ys, v.2.isLapl = true)
    (h' : forwardLaplacian reg junk t' d' g cg weights' ys = .ok zs) :
    ∃ gf : List (FArr (Fin n → ℝ) F),
      (∀ z, evalComp d d' f cf g cg (unflat sizes z) = .ok (gf.map fun u => u.at z)) ∧
      List.Forall₂ (ExactVal w x) zs gf := by
  have hne : sizes ≠ [] := by
    rintro rfl
    simp at hs
    omega
  unfold plainArgs at hf
  unfold forwardLaplacian at h
  rw [sizes_plainArgs, hs] at h
  dsimp only at h
  unfold plainArgs at h
  rw [initState_eq _ weights sizes hne hs w x hw] at h hf
  dsimp only at h
  have hinit : List.Forall₂ (Represents (inputBase w x) inv)
      (initSpec (decide (0 < threshold t n)) w x 0 sizes : List (PVal F)) (inputFns n 0 sizes) :=
    initSpec_represents _ _ w x hinv sizes 0 (by omega)
  obtain ⟨outs, h1, h2⟩ := evalLapl_run (inputBase w x) inv reg junk _ goodf hgf d f cf _ _ ys hinit (hf _ rfl) h
  unfold forwardLaplacian at h'
  dsimp only at h'
  rw [C05_resume _ _ _ hlapl] at h'
  dsimp only at h'
  obtain ⟨gf, h3, h4⟩ := evalLapl_run (inputBase w x) inv' reg junk _ goodg hgg d' g cg _ _ zs
    (h2.imp fun v g hv => represents_mono _ _ _ himp v g hv) hg h'
  refine ⟨gf, fun z => ?_, h4.imp fun v u hv => exactVal_of_represents _ x _ v u hv⟩
  have e1 := h1 z
  rw [inputFns_at] at e1
  unfold evalComp
  have e1 : evalPlain d f cf (unflat sizes z) = .ok (outs.map fun g => g.at z) := e1
  rw [e1]
  exact h3 z

/-- **C42 (partial).** For every `f`, `g`, thresholds, weights and input: if both calls return, no equation of the two runs
hits a known defect, and the result of `f` carries derivatives, the result is exact for `z ↦ g(f(z))`.  The last condition
cannot be dropped: `C42_counterexample`. -/
theorem C42_run_partial (reg : String → Option (Prim F)) (junk : List (PVal F) → PVal F) (t t' : ℚ) {n : ℕ}
    (hn : 0 < n) (sizes : List ℕ) (hs : sizes.sum = n) (d d' : ℕ)
    (f : Jaxpr (Op d F) (PArr F)) (cf : List (PArr F)) (g : Jaxpr (Op d' F) (PArr F)) (cg : List (PArr F))
    (weights weights' : Weights F) (w x : Fin n → ℝ) (hw : weightArrs weights sizes = .ok (unflat sizes w))
    (hf : RunOk reg junk t d f cf weights sizes x) (ys zs : List (PVal F))
    (hg : DomProg (evLapl reg junk (threshold t' (ys.map fun v => v.1).sum).toNat d')
      (DomR reg junk (threshold t' (ys.map fun v => v.1).sum).toNat
        (GoodCall (threshold t' (ys.map fun v => v.1).sum).toNat n) d') (g.map PVal.ofPlain) (cg.map PVal.ofPlain) ys)
    (h : forwardLaplacian reg junk t d f cf weights (plainArgs sizes x) = .ok ys)
    (hlapl : ∃ v ∈ ys, v.2.isLapl = true)
    (h' : forwardLaplacian reg junk t' d' g cg weights' ys = .ok zs) :
    ∃ gf : List (FArr (Fin n → ℝ) F),
      (∀ z, evalComp d d' f cf g cg (unflat sizes z) = .ok (gf.map fun u => u.at z)) ∧
      List.Forall₂ (ExactVal w x) zs gf :=
  compose_run (fun _ _ => True) (fun _ _ => True) (fun _ _ h => h) _ _ reg junk t t' hn sizes hs d d' f cf g cg weights weights' w x hw
    (by cases decide (0 < threshold t n) <;> exact fun _ _ => by simp) (fun p o ho => ho.sound hn p o) ys zs
    (fun p o ho => ho.sound hn p o) hf hg h hlapl h'

/-- **C42 for registered functions (partial).** As C51: programs of registered functions, whose sparse rules are not known to
be defective, at points of their domains.  A larger threshold for `g` than for `f` can produce dense Jacobians shorter than
the threshold (C17). -/
theorem C42_registered_partial (reg : String → Option (Prim ℝ)) (junk : List (PVal ℝ) → PVal ℝ) (t t' : ℚ) {n : ℕ}
    (hn : 0 < n) (sizes : List ℕ) (hs : sizes.sum = n) (d d' : ℕ)
    (f : Jaxpr (Op d ℝ) (PArr ℝ)) (cf : List (PArr ℝ)) (g : Jaxpr (Op d' ℝ) (PArr ℝ)) (cg : List (PArr ℝ))
    (weights weights' : Weights ℝ) (w x : Fin n → ℝ) (hw : weightArrs weights sizes = .ok (unflat sizes w))
    (hf : RegisteredRun reg junk t d f cf weights sizes x) (ys zs : List (PVal ℝ))
    (ht' : threshold t' (ys.map fun v => v.1).sum ≤ threshold t n)
    (hg : DomProg (evLapl reg junk (threshold t' (ys.map fun v => v.1).sum).toNat d')
      (DomR reg junk (threshold t' (ys.map fun v => v.1).sum).toNat RegisteredCall d') (g.map PVal.ofPlain)
        (cg.map PVal.ofPlain) ys)
    (h : forwardLaplacian reg junk t d f cf weights (plainArgs sizes x) = .ok ys)
    (hlapl : ∃ v ∈ ys, v.2.isLapl = true)
    (h' : forwardLaplacian reg junk t' d' g cg weights' ys = .ok zs) :
    ∃ gf : List (FArr (Fin n → ℝ) ℝ),
      (∀ z, evalComp d d' f cf g cg (unflat sizes z) = .ok (gf.map fun u => u.at z)) ∧
      List.Forall₂ (ExactVal w x) zs gf := by
  refine compose_run (bigInv (threshold t n).toNat n) (bigInv (threshold t' (ys.map fun v => v.1).sum).toNat n) ?_
    RegisteredCall RegisteredCall reg junk t t' hn sizes hs d d' f cf g cg weights weights' w x hw ?_
    (fun p o ⟨_, _, _, _, hb, hsp, hx, hi⟩ => hb.sparseOk hsp _ n hn o hx hi) ys zs
    (fun p o ⟨_, _, _, _, hb, hsp, hx, hi⟩ => hb.sparseOk hsp _ n hn o hx hi) hf hg h hlapl h'
  · intro m J hJ
    unfold bigInv at *
    cases J with
    | sparse rows => exact hJ
    | dense rows =>
      simp only [Jac.Big] at *
      omega
  · cases decide (0 < threshold t n) with
    | true => exact fun _ _ => trivial
    | false => exact fun _ rows hr => Or.inr hr.ge

namespace Demo

/-- `tanh` of one number. -/
noncomputable def tanhOne : Prim ℝ :=
  (tanhE.std (fun _ => 1) 1 (fun _ q => q) (fun _ => none) (tanhE.custom fun _ q => q)).toWPrim.toPrim

/-- `lambda y: jnp.tanh(y)` for one number. -/
noncomputable def tanhProg : Jaxpr (Op 1 ℝ) (PArr ℝ) where
  constvars := []
  invars := [0]
  eqns := [⟨OpStep.prim tanhOne, [.var 0], [1]⟩]
  outvars := [.var 1]

theorem gram_run (junk : List (PVal ℝ) → PVal ℝ) (t : ℚ) (weights : Weights ℝ) (x : Fin 4 → ℝ) :
    RegisteredRun reg junk t 1 gram [] weights [4] x :=
  fun args _ s _ => domRun_all _ _ _ _ fun e he xs => by
    obtain ⟨e0, he0, rfl⟩ := List.mem_map.mp he
    obtain ⟨p, hp, _, _, _, _, hb, hsp, hx, hi⟩ := gram_ok e0 he0
    have hp' : (Eqn.map PVal.ofPlain e0).op = OpStep.prim p := hp
    rw [hp']
    exact fun _ o _ => ⟨_, _, _, _, hb, hsp, hx _, fun i h => absurd ((hi i).symm.trans h) (by simp)⟩

theorem tanhProg_run (junk : List (PVal ℝ) → PVal ℝ) (T : ℕ) (ys : List (PVal ℝ)) :
    DomProg (evLapl reg junk T 1) (DomR reg junk T RegisteredCall 1) (tanhProg.map PVal.ofPlain) [] ys :=
  fun s _ => domRun_all _ _ _ _ fun e he xs => by
    obtain ⟨e0, he0, rfl⟩ := List.mem_map.mp he
    simp only [tanhProg, List.mem_cons, List.not_mem_nil, or_false] at he0
    subst he0
    exact fun _ o _ => ⟨_, _, _, _, .elem 0 tanhE (by simp [elemTable, tanhE]) (fun _ => 1) 1 (fun _ q => q) (fun _ => none)
      (by simp), fun _ _ => Function.surjective_id, fun _ => trivial, fun i h => absurd h (by simp)⟩

/-- `f = gram`, `g = tanh`, threshold 6 for both. -/
example (junk : List (PVal ℝ) → PVal ℝ) (x : Fin 4 → ℝ) (v : Opd ℝ 1) (zs : List (PVal ℝ))
    (h : forwardLaplacian reg junk 6 1 gram [] .absent (plainArgs [4] x) = .ok [⟨1, v⟩]) (hv : v.isLapl = true)
    (h' : forwardLaplacian reg junk 6 1 tanhProg [] .absent [⟨1, v⟩] = .ok zs) :
    ∃ gf, (∀ z, evalComp 1 1 gram [] tanhProg [] (unflat [4] z) = .ok (gf.map fun u => u.at z)) ∧
      List.Forall₂ (ExactVal (fun _ => 1) x) zs gf := by
  have ht : threshold 6 1 ≤ threshold 6 4 := by decide
  exact C42_registered_partial reg junk 6 6 (n := 4) (by decide) [4] rfl 1 1 gram [] tanhProg [] .absent .absent (fun _ => 1)
    x (weights_absent [4] rfl) (gram_run junk 6 .absent x) [⟨1, v⟩] zs ht (tanhProg_run junk _ _) h
    ⟨_, List.mem_cons_self, hv⟩ h'

end Demo

/-! ### The condition on `f` -/

namespace Demo

/-- `lambda x: jnp.sign(x)` for one input. -/
noncomputable def signProg : Jaxpr (Op 1 ℝ) (PArr ℝ) where
  constvars := []
  invars := [0]
  eqns := [⟨OpStep.prim (signPrim 1), [.var 0], [1]⟩]
  outvars := [.var 1]

/-- `lambda y: y`. -/
def idProg : Jaxpr (Op 1 ℝ) (PArr ℝ) where
  constvars := []
  invars := [0]
  eqns := []
  outvars := [.var 0]

end Demo

/-- The starting state of a call on plain inputs. -/
theorem forward_start (reg : String → Option (Prim F)) (junk : List (PVal F) → PVal F) (t : ℚ) {n : ℕ} (d : ℕ)
    (j : Jaxpr (Op d F) (PArr F)) (cs : List (PArr F)) (sizes : List ℕ) (hne : sizes ≠ []) (hs : sizes.sum = n)
    (weights : Weights F) (w x : Fin n → ℝ) (hw : weightArrs weights sizes = .ok (unflat sizes w)) :
    forwardLaplacian reg junk t d j cs weights (plainArgs sizes x) =
      evalLapl reg junk (threshold t n).toNat d j cs (initSpec (decide (0 < threshold t n)) w x 0 sizes) := by
  unfold forwardLaplacian
  rw [sizes_plainArgs, hs]
  dsimp only
  unfold plainArgs
  rw [initState_eq _ weights sizes hne hs w x hw]

open Demo in
/-- **C42 is false of the code** if the result of `f` carries no derivatives: for `f = sign` and the identity `g`, both calls
return, and the returned Jacobian is `1` although `g(f(z))` is constant near `x = 1` (`g` is differentiated with respect to
the intermediate value). -/
theorem C42_counterexample (reg : String → Option (Prim ℝ)) (junk : List (PVal ℝ) → PVal ℝ) :
    ∃ ys zs, forwardLaplacian reg junk 0 1 signProg [] .absent (plainArgs [1] (fun _ : Fin 1 => (1 : ℝ))) = .ok ys ∧
      forwardLaplacian reg junk 0 1 idProg [] .absent ys = .ok zs ∧
      ¬∃ gf : List (FArr (Fin 1 → ℝ) ℝ),
        (∀ z, evalComp 1 1 signProg [] idProg [] (unflat [1] z) = .ok (gf.map fun u => u.at z)) ∧
        List.Forall₂ (Correct fun _ => 1) zs gf := by
  have ht : threshold 0 1 = 0 := by simp [threshold, pyInt]
  have hc : ∀ q : Fin 1, coord (F := ℝ) (fun _ : Fin 1 => (1 : ℝ)) (0 + q.1) = 1 := by
    intro q
    have : q = 0 := Subsingleton.elim _ _
    subst this
    simp [coord]
  have key : ∀ j : Jaxpr (Op 1 ℝ) (PArr ℝ),
      forwardLaplacian reg junk 0 1 j [] .absent (plainArgs [1] (fun _ : Fin 1 => (1 : ℝ))) =
      evalLapl reg junk 0 1 j [] (initSpec false (fun _ : Fin 1 => 1) (fun _ => 1) 0 [1]) := by
    intro j
    have e := forward_start (n := 1) reg junk 0 1 j [] [1] (by simp) rfl .absent (fun _ : Fin 1 => 1) (fun _ => 1) (weights_absent [1] rfl)
    rw [ht] at e
    exact e
  have h1 : forwardLaplacian reg junk 0 1 signProg [] .absent (plainArgs [1] (fun _ : Fin 1 => (1 : ℝ))) =
      .ok (plainArgs [1] (fun _ : Fin 1 => (1 : ℝ))) := by
    rw [key]
    have h2 : evalLapl reg junk 0 1 signProg [] (initSpec false (fun _ : Fin 1 => 1) (fun _ => 1) 0 [1]) =
        .ok [⟨1, .plain fun q => ((SignType.sign (coord (F := ℝ) (fun _ : Fin 1 => (1 : ℝ)) (0 + q.1)) : SignType) : ℝ)⟩] := rfl
    rw [h2]
    unfold plainArgs unflat
    simp only [hc, blocks, List.map_cons, List.map_nil, PVal.ofPlain]
    simp
  have h3 : forwardLaplacian reg junk 0 1 idProg [] .absent (plainArgs [1] (fun _ : Fin 1 => (1 : ℝ))) =
      .ok (initSpec false (fun _ : Fin 1 => 1) (fun _ => 1) 0 [1]) := by
    rw [key]
    rfl
  refine ⟨_, _, h1, h3, ?_⟩
  rintro ⟨gf, g1, g2⟩
  have hsg : ∀ z : Fin 1 → ℝ, evalComp 1 1 signProg [] idProg [] (unflat [1] z) =
      .ok (([⟨1, fun z q => ((SignType.sign (coord (F := ℝ) z (0 + q.1)) : SignType) : ℝ)⟩] :
        List (FArr (Fin 1 → ℝ) ℝ)).map fun u => u.at z) := fun z => rfl
  obtain rfl := farr_ext _ _ fun z => Except.ok.inj ((g1 z).symm.trans (hsg z))
  have hcor := (List.forall₂_cons.mp g2).1
  have hj := (correct_trip _ _ _ hcor).1.jacobian 0 0
  have hr : partialD (F := ℝ) (0 : Fin 1) (fun z => ((SignType.sign (coord (F := ℝ) z (0 + 0)) : SignType) : ℝ)) (fun _ => 1) = 0 := by
    refine partialD_const 0 _ _ 1 ?_
    have : ∀ᶠ z : Fin 1 → ℝ in 𝓝 (fun _ => 1), 0 < z 0 :=
      (continuous_apply (0 : Fin 1)).continuousAt.eventually (lt_mem_nhds (by norm_num))
    filter_upwards [this] with z hz
    simp [coord, hz]
  have hl := hj.symm.symm.trans hr
  revert hl
  simp [Opd.trip, Jac.den, coord]

end Folx

import Verif.Prog.ScanTotal
import Verif.Props.FormProps
import Verif.Props.ArrReturnProps

/-!
# C67, C68: when programs with scans return

C67: a program with scans (loops of at least one step, nested or not) over functions that never raise is right or rejected: it returns the derivatives, or raises one of
the three errors with which `eval_scan` rejects a loop.

C68: whether a loop is rejected is decided by one evaluation of its body: it does not depend on the number of iterations.
-/

namespace Folx
open Filter Topology
open Folx.Interp Folx.Layout Folx.Vmap

section
variable {F : Type} [RCLike F]

/-- **C67**, array-level functions, every threshold. -/
theorem C67_correct [Inhabited F] (reg : String → Option (Prim F)) (junk : List (PVal F) → PVal F) (t : ℚ) {n : ℕ}
    (hn : 0 < n) (sizes : List ℕ) (hs : sizes.sum = n) (d : ℕ) (j : Jaxpr (Op d F) (PArr F)) (consts : List (PArr F)) (x : Fin n → ℝ)
    (hd : DomProg (evPlain d) (DomS reg (ArrTotal (decide (0 < threshold t n)) n) d) j consts (unflat sizes x))
    (hc : ∀ e ∈ j.eqns, CountOk reg d e.op)
    (hbound : ∀ v, Atom.var v ∈ j.outvars → (readsOf j.eqns j.outvars).count v ≤ 2147483647)
    (zs : List (PArr F)) (he : evalPlain d j consts (unflat sizes x) = .ok zs) :
    (∃ ys, forwardLaplacian reg junk t d j consts .absent (plainArgs sizes x) = .ok ys ∧
      ∃ f : List (FArr (Fin n → ℝ) F), (∀ z, evalPlain d j consts (unflat sizes z) = .ok (f.map fun g => g.at z)) ∧ List.Forall₂ (Correct x) ys f) ∨
    ∃ e, forwardLaplacian reg junk t d j consts .absent (plainArgs sizes x) = .error e ∧ (e = .scanInput ∨ e = .scanType ∨ e = .scanSparsity) := by
  have hne : sizes ≠ [] := by
    rintro rfl
    simp at hs
    omega
  have key : OkOr ScanRejected (forwardLaplacian reg junk t d j consts .absent (plainArgs sizes x)) := by
    unfold forwardLaplacian
    rw [sizes_plainArgs, hs]
    dsimp only
    generalize hsp : decide (0 < threshold t n) = sp at hd ⊢
    unfold plainArgs
    rw [initState_eq sp .absent sizes hne hs (fun _ => 1) x (weights_absent sizes hs)]
    dsimp only
    refine evalLapl_returnsE (inputBase (fun _ => 1) x) (if sp then arrInv (threshold t n).toNat n else denseInv n) reg junk _ (ArrTotal sp n)
      (fun p v hv => ?_) (fun p v hv => hv.returns _ hn) d j hc hbound consts _ (inputFns n 0 sizes) zs ?_ ?_ ?_
    · cases sp with
      | true => exact arrGood_sparse _ n hn p v hv.good
      | false => exact arrGood_dense _ n hn p v hv.good
    · apply initSpec_represents' _ sp _ x _ sizes 0 (by omega)
      cases sp with
      | true => exact fun _ rows h => ⟨fun _ => List.length_pos_of_ne_nil h, trivial⟩
      | false => exact fun _ rows hr => ⟨rfl, hr⟩
    · rw [inputFns_unflat]; exact hd
    · rw [inputFns_unflat]; exact he
  refine key.imp (fun ⟨ys, hys⟩ => ⟨ys, hys, C59_correct reg junk t hn sizes hs d j consts x ?_ ys hys⟩) id
  exact fun s hs => domRun_mono _ _ _ (fun op xs h => DomP.mono reg _ _ (fun p v => ArrTotal.good) d op xs h.domP) _ _ (hd s hs)

/-- **C67**, sparsity disabled: any functions with correct rules that do not raise. -/
theorem C67_dense (reg : String → Option (Prim F)) (junk : List (PVal F) → PVal F) (t : ℚ) {n : ℕ}
    (hn : 0 < n) (sizes : List ℕ) (hs : sizes.sum = n) (ht : threshold t n ≤ 0) (d : ℕ)
    (j : Jaxpr (Op d F) (PArr F)) (consts : List (PArr F)) (x : Fin n → ℝ)
    (hd : DomProg (evPlain d) (DomS reg (fun p v => Good false n p v ∧ p.TotalAt 0 n v) d) j consts (unflat sizes x))
    (hc : ∀ e ∈ j.eqns, CountOk reg d e.op)
    (hbound : ∀ v, Atom.var v ∈ j.outvars → (readsOf j.eqns j.outvars).count v ≤ 2147483647)
    (zs : List (PArr F)) (he : evalPlain d j consts (unflat sizes x) = .ok zs) :
    (∃ ys, forwardLaplacian reg junk t d j consts .absent (plainArgs sizes x) = .ok ys ∧
      ∃ f : List (FArr (Fin n → ℝ) F), (∀ z, evalPlain d j consts (unflat sizes z) = .ok (f.map fun g => g.at z)) ∧ List.Forall₂ (Correct x) ys f) ∨
    ∃ e, forwardLaplacian reg junk t d j consts .absent (plainArgs sizes x) = .error e ∧ (e = .scanInput ∨ e = .scanType ∨ e = .scanSparsity) := by
  have hne : sizes ≠ [] := by
    rintro rfl
    simp at hs
    omega
  have key : OkOr ScanRejected (forwardLaplacian reg junk t d j consts .absent (plainArgs sizes x)) := by
    unfold forwardLaplacian
    rw [sizes_plainArgs, hs]
    dsimp only
    rw [show decide (0 < threshold t n) = false by simpa using ht, Int.toNat_of_nonpos ht]
    unfold plainArgs
    rw [initState_eq false .absent sizes hne hs (fun _ => 1) x (weights_absent sizes hs)]
    dsimp only
    refine evalLapl_returnsE (inputBase (fun _ => 1) x) (denseInv n) reg junk 0 (fun p v => Good false n p v ∧ p.TotalAt 0 n v)
      (fun p v hv => good_dense 0 n hn p v hv.1) (fun p v hv => ?_) d j hc hbound consts _ (inputFns n 0 sizes) zs ?_ ?_ ?_
    · intro X _ _ B o u hB hx hr hex
      refine hv.2 o (fun i => ?_) hex fun i t' hi => ?_
      · rw [← hx i]
        have := hr i
        cases ho : o i with
        | plain v => rw [ho] at this; exact this.1
        | lapl t' => rw [ho] at this; exact this.1.x
      · have := hr i
        rw [hi] at this
        exact this.2
    · apply initSpec_represents _ false _ x _ sizes 0 (by omega)
      exact fun _ rows hr => ⟨rfl, hr⟩
    · rw [inputFns_unflat]; exact hd
    · rw [inputFns_unflat]; exact he
  refine key.imp (fun ⟨ys, hys⟩ => ⟨ys, hys, C01_dense_exact reg junk t hn sizes hs ht d j consts x ?_ ys hys⟩) id
  exact fun s hs => domRun_mono _ _ _ (fun op xs h => DomP.mono reg _ _ (fun p v h => h.1) d op xs h.domP) _ _ (hd s hs)

/-! ### C68 -/

/-- **C68.**  If the form of what the body returns does not depend on the values of carry and slices (C63), a loop with at least one step returns if and only if no array
that is scanned over carries derivatives, the body returns for the initial carry and the slices of step 0, and the carry that it returns has the form of the initial one
(sizes, which elements carry derivatives, Jacobian rows, masks). -/
theorem C68_once (reg : String → Option (Prim F)) (junk : List (PVal F) → PVal F) (hj : JunkStable junk) (T d : ℕ) (s : ScanParams (Op d F) F)
    (hst : JaxprStable (OpStable reg T d) s.body (s.body.invars.mapIdx fun i _ => decide (i < s.numConsts))) (hlen : 0 < s.length)
    (consts carry inp : List (PVal F)) (h1 : consts.length = s.numConsts) (h2 : carry.length = s.numCarry)
    (hl : ∃ v ∈ consts ++ carry ++ inp, v.2.isLapl = true) :
    (∃ ys, evLapl reg junk T (d + 1) (Op.scan s) (consts ++ carry ++ inp) = .ok ys) ↔
      (∀ v ∈ inp, v.2.isLapl = false) ∧
      ∃ r, evalLapl reg junk T d s.body [] (consts ++ carry ++ inp.map fun v => PVal.ofPlain (timeSlice s.length 0 ⟨v.1, v.2.x⟩)) = .ok r ∧
        (r.take s.numCarry).map PVal.sig = carry.map PVal.sig := by
  rw [evLapl_scan reg junk T d s _ hl]
  have e1 : (consts ++ carry ++ inp).take s.numConsts = consts := by rw [← h1]; simp
  have e2 : (consts ++ carry ++ inp).drop s.numConsts = carry ++ inp := by rw [← h1]; simp
  have e3 : (carry ++ inp).take s.numCarry = carry := by rw [← h2]; simp
  have e4 : (carry ++ inp).drop s.numCarry = inp := by rw [← h2]; simp
  have hb : ∀ c c' i i' : List (PVal F), List.Forall₂ PVal.Same c c' → List.Forall₂ PVal.Same i i' →
      ExRel (List.Forall₂ PVal.Same) (evalRC (evLapl reg junk T d) (s.body.map PVal.ofPlain) [] (consts ++ c ++ i))
        (evalRC (evLapl reg junk T d) (s.body.map PVal.ofPlain) [] (consts ++ c' ++ i')) := by
    intro c c' i i' hc hi
    rw [List.append_assoc, List.append_assoc]
    exact JaxprStable.evalRC (fun op bs => evLapl_same reg hj T d op bs) (hst.flags _) []
      (match_range (fun v => PVal.Same.refl v) consts (List.rel_append hc hi) (.inl h1) h1.le)
  unfold scanLapl
  dsimp only
  rw [e1, e2, e3, e4]
  constructor
  · rintro ⟨ys, h⟩
    split at h
    · cases h
    rename_i hin
    split at h
    · cases h
    split at h
    · cases h
    rename_i r hr
    split at h
    · cases h
    rename_i u hu
    refine ⟨fun v hv => ?_, r, hr, (checkCarry_sigs hu).symm⟩
    have := mt List.any_eq_true.mpr hin
    by_contra hne
    exact this ⟨v, hv, by simpa using hne⟩
  · rintro ⟨hin, r, hr, hsig⟩
    rw [if_neg (fun ha => by
      obtain ⟨v, hv, hv'⟩ := List.any_eq_true.mp ha
      rw [hin v hv] at hv'
      cases hv'), if_neg (fun h => absurd h.1 (by omega))]
    have hck : checkCarry carry (r.take s.numCarry) = .ok () := by
      unfold checkCarry
      rw [hsig]
      simp
    have hr' : evalRC (evLapl reg junk T d) (s.body.map PVal.ofPlain) [] (consts ++ carry ++ inp.map fun v => PVal.ofPlain (timeSlice s.length 0 ⟨v.1, v.2.x⟩)) = .ok r := hr
    rw [hr']
    dsimp only
    rw [hck]
    dsimp only
    obtain ⟨p, hp⟩ := scanLoop_total (fun args => evalRC (evLapl reg junk T d) (s.body.map PVal.ofPlain) [] args) (checkCarry carry) consts s.numCarry
      (fun t => inp.map fun v : PVal F => PVal.ofPlain (timeSlice s.length t ⟨v.1, v.2.x⟩)) (List.Forall₂ PVal.Same carry) (fun t c hc => by
        obtain ⟨e, k1, k2⟩ | ⟨r1, r', k1, k2, hrel⟩ := (hb carry c (inp.map fun v : PVal F => PVal.ofPlain (timeSlice s.length 0 ⟨v.1, v.2.x⟩))
          (inp.map fun v : PVal F => PVal.ofPlain (timeSlice s.length t ⟨v.1, v.2.x⟩)) hc (by
            rw [List.forall₂_map_left_iff, List.forall₂_map_right_iff]
            exact List.forall₂_same.mpr fun v _ => PVal.same_ofPlain rfl)).elim
        · cases hr.symm.trans k1
        · cases hr.symm.trans k1
          have hrel' := List.forall₂_take s.numCarry hrel
          obtain ⟨e, k3, k4⟩ | ⟨u, u', k3, k4, -⟩ := (checkCarry_same (c0 := carry) (List.forall₂_same.mpr fun _ _ => PVal.Same.refl _) hrel').elim
          · rw [hck] at k3; cases k3
          · exact ⟨r', k2, same_of_check k4, k4⟩)
      (scanOrder s.length s.reverse) carry (List.forall₂_same.mpr fun _ _ => PVal.Same.refl _)
    rw [hp]
    exact ⟨_, rfl⟩

/-- **C68 (number of iterations).**  A loop without arrays to scan over (`lax.fori_loop`, `lax.scan(f, init, None, length=L)`) returns for one number of iterations and
direction if and only if it returns for any other. -/
theorem C68_length (reg : String → Option (Prim F)) (junk : List (PVal F) → PVal F) (hj : JunkStable junk) (T d : ℕ) (nc nk L L' : ℕ) (rev rev' : Bool)
    (body : Jaxpr (Op d F) (PArr F)) (hst : JaxprStable (OpStable reg T d) body (body.invars.mapIdx fun i _ => decide (i < nc))) (hL : 0 < L) (hL' : 0 < L')
    (consts carry : List (PVal F)) (h1 : consts.length = nc) (h2 : carry.length = nk) (hl : ∃ v ∈ consts ++ carry, v.2.isLapl = true) :
    (∃ ys, evLapl reg junk T (d + 1) (Op.scan ⟨nc, nk, L, rev, body⟩) (consts ++ carry) = .ok ys) ↔
      ∃ ys, evLapl reg junk T (d + 1) (Op.scan ⟨nc, nk, L', rev', body⟩) (consts ++ carry) = .ok ys := by
  have k := C68_once reg junk hj T d ⟨nc, nk, L, rev, body⟩ hst hL consts carry [] h1 h2 (by rwa [List.append_nil])
  have k' := C68_once reg junk hj T d ⟨nc, nk, L', rev', body⟩ hst hL' consts carry [] h1 h2 (by rwa [List.append_nil])
  rw [List.append_nil] at k k'
  exact k.trans k'.symm

end

/-! ### Examples -/

namespace Demo

/-- A loop of sines, any carry of sines (sparse or dense): accepted for one iteration or for a thousand backwards, or for neither. -/
example (junk : List (PVal ℝ) → PVal ℝ) (hj : JunkStable junk) (T : ℕ) (t : Trip (Fin 2) ℝ) :
    (∃ ys, evLapl reg junk T 2 (Op.scan (sinLoop 1 false)) [⟨2, .lapl t⟩] = .ok ys) ↔
      ∃ ys, evLapl reg junk T 2 (Op.scan (sinLoop 1000 true)) [⟨2, .lapl t⟩] = .ok ys :=
  C68_length reg junk hj T 1 0 1 1 1000 false true sinProg ⟨fun _ => false, unmarked _ _ _, fun e he => by
      simp only [sinProg, List.mem_cons, List.not_mem_nil, or_false] at he
      subst he
      exact sinP_stable T _⟩ (by decide) (by decide) [] [⟨2, .lapl t⟩] rfl rfl ⟨_, List.mem_singleton_self _, rfl⟩

end Demo

namespace ArrDemo

/-- `for _ in range(L): y = jnp.exp(y)` on a (2, 3) array. -/
noncomputable def expBody : Jaxpr (Op 1 ℝ) (PArr ℝ) := ⟨[], [0], [⟨OpStep.prim expP, [.var 0], [1]⟩], [.var 1]⟩

theorem expBody_eval (a : Fin 6 → ℝ) : evalSpec (evPlain 1) expBody [] [⟨6, a⟩] = .ok [⟨6, fun q => Real.exp (a q)⟩] :=
  eval_of rfl (run_step _ _ rfl (exp_bind a) _ rfl rfl) rfl

noncomputable def expLoop (L : ℕ) (rev : Bool) : ScanParams (Op 1 ℝ) ℝ := ⟨0, 1, L, rev, expBody⟩

theorem exp_totalA (sp : Bool) (v : (i : Fin 1) → Fin ([2, 3] : List ℕ).prod → ℝ) : ArrTotal sp 6 expP v :=
  .array expA _ _ _ v (exp_true v) fun _ => ⟨ew_safe (m := 0) (by decide) (by decide) (by decide) (by decide), ew_never (m := 0) (by decide) (by decide) (Or.inr fun _ => ⟨0, rfl⟩)⟩

theorem expBody_dom (sp : Bool) (a : Fin 6 → ℝ) : DomProg (evPlain 1) (DomS Demo.reg (ArrTotal sp 6) 1) expBody [] [⟨6, a⟩] := by
  intro s hs
  obtain rfl := Except.ok.inj hs
  exact Demo.domRun_step _ _ rfl (fun v _ => exp_totalA sp v) (exp_bind a) _ rfl trivial

theorem expLoop_dom (sp : Bool) (L : ℕ) (rev : Bool) (a : Fin 6 → ℝ) : DomS Demo.reg (ArrTotal sp 6) 2 (Op.scan (expLoop L rev)) [⟨6, a⟩] := by
  have key : ∀ (ts : List ℕ) (a : Fin 6 → ℝ), ScanDom (fun args => evalSpec (evPlain 1) expBody [] args)
      (fun args => DomProg (evPlain 1) (DomS Demo.reg (ArrTotal sp 6) 1) expBody [] args) [] 1 (fun _ => []) ts [⟨6, a⟩] := by
    intro ts
    induction ts with
    | nil => intro a; trivial
    | cons t ts ih =>
      intro a
      refine ⟨expBody_dom sp a, fun r hr => ?_⟩
      obtain rfl : r = [⟨6, fun q => Real.exp (a q)⟩] := (Except.ok.inj ((expBody_eval a).symm.trans hr)).symm
      exact ih _
  exact ⟨rfl, key _ a, fun _ => ⟨expBody_dom sp a, _, expBody_eval a⟩⟩

theorem expLoop_eval (L : ℕ) (rev : Bool) (a : Fin 6 → ℝ) : ∃ b, evPlain 2 (Op.scan (expLoop L rev)) [⟨6, a⟩] = .ok [⟨6, b⟩] := by
  have key : ∀ (ts : List ℕ) (a : Fin 6 → ℝ), ∃ b ys, scanLoop (fun args => evalSpec (evPlain 1) expBody [] args) (fun _ => .ok ()) [] 1 (fun _ => []) ts [⟨6, a⟩] =
      .ok ([⟨6, b⟩], ys) := by
    intro ts
    induction ts with
    | nil => intro a; exact ⟨a, _, rfl⟩
    | cons t ts ih =>
      intro a
      obtain ⟨b, ys, h⟩ := ih fun q => Real.exp (a q)
      refine ⟨b, [] :: ys, ?_⟩
      have e : evalSpec (evPlain 1) expBody [] ([] ++ [⟨6, a⟩] ++ []) = _ := expBody_eval a
      unfold scanLoop
      dsimp only
      rw [e]
      dsimp only
      erw [h]
      rfl
  obtain ⟨b, ys, h⟩ := key (scanOrder L rev) a
  refine ⟨b, ?_⟩
  show scanPlain (expLoop L rev) (fun args => evalSpec (evPlain 1) expBody [] args) [⟨6, a⟩] = _
  unfold scanPlain
  dsimp only
  erw [h]
  rfl

/-- With every threshold, for every number of iterations and both directions: the loop returns the derivatives, or is rejected. -/
example (junk : List (PVal ℝ) → PVal ℝ) (t : ℚ) (L : ℕ) (hL : 0 < L) (rev : Bool) (x : Fin 6 → ℝ) :
    (∃ ys, forwardLaplacian Demo.reg junk t 2 (loopProg (expLoop L rev)) [] .absent (plainArgs [6] x) = .ok ys ∧
      ∃ f : List (FArr (Fin 6 → ℝ) ℝ), (∀ z, evalPlain 2 (loopProg (expLoop L rev)) [] (unflat [6] z) = .ok (f.map fun g => g.at z)) ∧ List.Forall₂ (Correct x) ys f) ∨
    ∃ e, forwardLaplacian Demo.reg junk t 2 (loopProg (expLoop L rev)) [] .absent (plainArgs [6] x) = .error e ∧
      (e = .scanInput ∨ e = .scanType ∨ e = .scanSparsity) := by
  obtain ⟨b, hb⟩ := expLoop_eval L rev x
  refine C67_correct Demo.reg junk t (n := 6) (by decide) [6] rfl 2 (loopProg (expLoop L rev)) [] x ?_ ?_ (fun v _ => le_trans (List.count_le_length ..) (show (2 : ℕ) ≤ 2147483647 by decide)) [⟨6, b⟩] ?_
  · rw [unflat_six]
    intro s hs
    obtain rfl := Except.ok.inj hs
    exact Demo.domRun_step _ _ rfl (expLoop_dom _ L rev x) hb _ rfl trivial
  · intro e he
    simp only [loopProg, List.mem_cons, List.not_mem_nil, or_false] at he
    subst he
    refine ⟨hL, fun e he => ?_, fun v _ => le_trans (List.count_le_length ..) (show (2 : ℕ) ≤ 2147483647 by decide)⟩
    simp only [expLoop, expBody, List.mem_cons, List.not_mem_nil, or_false] at he
    subst he
    trivial
  · rw [unflat_six]
    exact eval_of rfl (run_step _ _ rfl hb _ rfl rfl) rfl

end ArrDemo

end Folx

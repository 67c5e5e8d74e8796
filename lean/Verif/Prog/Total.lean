import Verif.Core.HessTotal
import Verif.Props.EnvProps
import Verif.Prog.Good

/-!
# With sparsity disabled the forward Laplacian returns whenever the function does
-/

namespace Folx

open Filter Topology
open Folx.Interp

variable {F : Type} [RCLike F]

/-- `p`'s rule returns for dense operands with values `x`. -/
def Prim.TotalAt (p : Prim F) (T n : ℕ) (x : (i : Fin p.nIn) → Fin (p.size i) → F) : Prop :=
  ∀ o : (i : Fin p.nIn) → Opd F (p.size i), (∀ i, (o i).x = x i) → (∃ i, (o i).isLapl = true) →
    (∀ i t, o i = .lapl t → denseInv n _ t.jac) → ∃ r, p.rule T o = .ok r

theorem WPrim.total (p : WPrim F) (T n : ℕ) (x : (i : Fin p.nIn) → Fin (p.size i) → F)
    (hf : ∀ k (e : Fin k ↪o Fin p.nIn), 0 < k → p.Faithful n e x)
    (hc : ∀ k (e : Fin k ↪o Fin p.nIn) c, (p.inst e x).custom = some c → HInst.CustomTotal c)
    (o : (i : Fin p.nIn) → Opd F (p.size i)) (hx : ∀ i, (o i).x = x i) (hex : ∃ i, (o i).isLapl = true)
    (hd : ∀ i t, o i = .lapl t → denseInv n _ t.jac) : ∃ r, p.call T o = .ok r := by
  have hx' : (fun i => (o i).x) = x := funext hx
  have hpos : 0 < (WPrim.laplIdx o).card := by
    obtain ⟨i, hi⟩ := hex
    exact Finset.card_pos.mpr ⟨i, (WPrim.mem_laplIdx o i).mpr hi⟩
  unfold WPrim.call
  rw [if_neg (Nat.pos_iff_ne_zero.mp hpos), hx']
  have hdd : ∀ a, (o (WPrim.laplEmb o a)).trip.jac.weak = false ∧ (o (WPrim.laplEmb o a)).trip.jac.nrows = n := by
    intro a
    have hl := (WPrim.laplEmb_range o (WPrim.laplEmb o a)).mp ⟨a, rfl⟩
    cases ho : o (WPrim.laplEmb o a) with
    | plain _ => rw [ho] at hl; simp [Opd.isLapl] at hl
    | lapl t => exact hd _ t ho
  have hxa : (fun a => (o (WPrim.laplEmb o a)).trip.x) = fun a => x (WPrim.laplEmb o a) := by
    funext a
    have hl := (WPrim.laplEmb_range o (WPrim.laplEmb o a)).mp ⟨a, rfl⟩
    have h2 := hx (WPrim.laplEmb o a)
    cases ho : o (WPrim.laplEmb o a) with
    | plain _ => rw [ho] at hl; simp [Opd.isLapl] at hl
    | lapl t => rw [ho] at h2; exact h2
  have hf' := hf _ (WPrim.laplEmb o) hpos
  obtain ⟨o1, h1, -⟩ := jvpRule_dense (p.inst (WPrim.laplEmb o) x).toInst T n hpos
    (fun a => (o (WPrim.laplEmb o a)).trip) hdd
  obtain ⟨h2, hh2⟩ := (p.inst (WPrim.laplEmb o) x).hessian_total n T (fun a => (o (WPrim.laplEmb o a)).trip) hpos
    (fun a ha => by rw [(hdd a).1] at ha; simp at ha) (fun c hcc => hc _ (WPrim.laplEmb o) c hcc) hf'.bilinear
    (by rw [hxa]; exact hf'.hlawful)
  unfold HInst.wrapped
  rw [h1]
  simp only [hh2]
  exact ⟨_, rfl⟩

/-- The rule of a wrapped function returns if its custom rule (if any) does. -/
theorem Std.total (s : Std F) (T n : ℕ) (x : (i : Fin s.nIn) → Fin (s.size i) → F) (h : s.TrueAt n x)
    (hc : ∀ k (e : Fin k ↪o Fin s.nIn) c, s.custom e x = some c → HInst.CustomTotal c) :
    s.toWPrim.toPrim.TotalAt T n x := by
  intro o hx hex hd
  obtain ⟨r, hr⟩ := s.toWPrim.total T n x (fun _ e hk => Std.faithful h e hk) hc o hx hex hd
  exact ⟨fun _ => r, by simp only [WPrim.toPrim, hr]⟩

/-- The jvp of elementwise functions of sparse arguments never raises. -/
theorem jvpRule_elem_sparse {k : ℕ} {P : Fin k → Type} {Q : Type} [∀ a, Fintype (P a)] [∀ a, DecidableEq (P a)]
    [Fintype Q] [DecidableEq Q] (I : Inst k P Q F) (T : ℕ) (args : (a : Fin k) → Trip (P a) F) (he : I.elem = true)
    (hi : I.flags.has Flags.INDEXING = false) (hm : I.multi = false) (hw : ∀ a, (args a).jac.weak = true) :
    ∃ o, jvpRule I T args = .ok o := by
  have hall : allWeak args = true := by unfold allWeak; simpa using hw
  unfold jvpRule
  rw [if_pos (Or.inr ⟨hall, Or.inr (Or.inl he)⟩)]
  unfold parallelJvp
  rw [if_neg (by simp [hall]), if_neg (by simp [hi]), if_pos he]
  unfold sparseDiag
  rw [if_neg (by simp [hm])]
  dsimp only
  split
  · split
    · exact ⟨_, rfl⟩
    · exact ⟨_, rfl⟩
  · exact ⟨_, rfl⟩

theorem WPrim.elem_sparse_total (p : WPrim F) (T n : ℕ) (x : (i : Fin p.nIn) → Fin (p.size i) → F)
    (hf : ∀ k (e : Fin k ↪o Fin p.nIn), 0 < k → p.Faithful n e x)
    (hc : ∀ k (e : Fin k ↪o Fin p.nIn) c, (p.inst e x).custom = some c → HInst.CustomTotal c)
    (he : ∀ k (e : Fin k ↪o Fin p.nIn), (p.inst e x).elem = true ∧ (p.inst e x).flags.has Flags.INDEXING = false ∧
      (p.inst e x).multi = false)
    (o : (i : Fin p.nIn) → Opd F (p.size i)) (hx : ∀ i, (o i).x = x i) (hex : ∃ i, (o i).isLapl = true)
    (hpos : ∀ i, 0 < p.size i)
    (hd : ∀ i t, o i = .lapl t → t.jac.weak = true ∧ t.jac.nrows ≠ 0) : ∃ r, p.call T o = .ok r := by
  have hx' : (fun i => (o i).x) = x := funext hx
  have hcard : 0 < (WPrim.laplIdx o).card := by
    obtain ⟨i, hi⟩ := hex
    exact Finset.card_pos.mpr ⟨i, (WPrim.mem_laplIdx o i).mpr hi⟩
  unfold WPrim.call
  rw [if_neg (Nat.pos_iff_ne_zero.mp hcard), hx']
  have hdd : ∀ a, (o (WPrim.laplEmb o a)).trip.jac.weak = true ∧ (o (WPrim.laplEmb o a)).trip.jac.nrows ≠ 0 := by
    intro a
    have hl := (WPrim.laplEmb_range o (WPrim.laplEmb o a)).mp ⟨a, rfl⟩
    cases ho : o (WPrim.laplEmb o a) with
    | plain _ => rw [ho] at hl; simp [Opd.isLapl] at hl
    | lapl t => exact hd _ t ho
  have hxa : (fun a => (o (WPrim.laplEmb o a)).trip.x) = fun a => x (WPrim.laplEmb o a) := by
    funext a
    have hl := (WPrim.laplEmb_range o (WPrim.laplEmb o a)).mp ⟨a, rfl⟩
    have h2 := hx (WPrim.laplEmb o a)
    cases ho : o (WPrim.laplEmb o a) with
    | plain _ => rw [ho] at hl; simp [Opd.isLapl] at hl
    | lapl t => rw [ho] at h2; exact h2
  have hf' := hf _ (WPrim.laplEmb o) hcard
  obtain ⟨he1, he2, he3⟩ := he _ (WPrim.laplEmb o)
  obtain ⟨o1, h1⟩ := jvpRule_elem_sparse (p.inst (WPrim.laplEmb o) x).toInst T
    (fun a => (o (WPrim.laplEmb o a)).trip) he1 he2 he3 fun a => (hdd a).1
  obtain ⟨h2, hh2⟩ := (p.inst (WPrim.laplEmb o) x).hessian_total n T (fun a => (o (WPrim.laplEmb o a)).trip) hcard
    (fun a _ => ⟨⟨⟨0, hpos _⟩⟩, (hdd a).2⟩) (fun c hcc => hc _ (WPrim.laplEmb o) c hcc) hf'.bilinear
    (by rw [hxa]; exact hf'.hlawful)
  unfold HInst.wrapped
  rw [h1]
  simp only [hh2]
  exact ⟨_, rfl⟩

/-- The rule of an elementwise function returns for sparse operands. -/
theorem Std.elem_sparse_total (s : Std F) (T n : ℕ) (x : (i : Fin s.nIn) → Fin (s.size i) → F) (h : s.TrueAt n x)
    (he : s.elem = true) (hi : s.flags.has Flags.INDEXING = false)
    (hc : ∀ k (e : Fin k ↪o Fin s.nIn) c, s.custom e x = some c → HInst.CustomTotal c)
    (o : (i : Fin s.nIn) → Opd F (s.size i)) (hx : ∀ i, (o i).x = x i) (hex : ∃ i, (o i).isLapl = true)
    (hpos : ∀ i, 0 < s.size i)
    (hd : ∀ i t, o i = .lapl t → t.jac.weak = true ∧ t.jac.nrows ≠ 0) : ∃ r, s.toWPrim.toPrim.rule T o = .ok r := by
  obtain ⟨r, hr⟩ := s.toWPrim.elem_sparse_total T n x (fun _ e hk => Std.faithful h e hk) hc
    (fun _ _ => ⟨he, hi, rfl⟩) o hx hex hpos hd
  exact ⟨fun _ => r, by simp only [WPrim.toPrim, hr]⟩

theorem drop_total (T n : ℕ) {nIn : ℕ} {size : Fin nIn → ℕ} {nOut : ℕ} {outSize : Fin nOut → ℕ}
    {fwd : ((i : Fin nIn) → Fin (size i) → F) → (j : Fin nOut) → Fin (outSize j) → F}
    (x : (i : Fin nIn) → Fin (size i) → F) : (dropPrim nIn size nOut outSize fwd).TotalAt T n x :=
  fun _ _ _ _ => ⟨_, rfl⟩

theorem map_total (T n m : ℕ) (f : F → F) (x : (i : Fin 1) → Fin m → F) : (mapPrim m f).TotalAt T n x :=
  fun _ _ _ _ => ⟨_, rfl⟩

theorem divRule2_total {V : Type} : HInst.CustomTotal (divRule2 (F := F) (V := V)) := by
  intro v sargs idx h
  obtain ⟨rows, hr⟩ := reducedJacobians_total (fun a => (sargs a).jac) idx h
  unfold divRule2
  rw [hr]
  exact ⟨_, rfl⟩

theorem divRule1_total {V : Type} (num : V → F) : HInst.CustomTotal (divRule1 num) := by
  intro v sargs idx h
  obtain ⟨rows, hr⟩ := reducedJacobians_total (fun a => (sargs a).jac) idx h
  unfold divRule1
  rw [hr]
  exact ⟨_, rfl⟩

theorem divCustom_total {out : ℕ} {size : Fin 2 → ℕ} (π : (i : Fin 2) → Fin out → Fin (size i)) (k : ℕ)
    (e : Fin k ↪o Fin 2) (x : (i : Fin 2) → Fin (size i) → F) (c : CustomRule k (fun _ => 1) (Fin out) Unit F)
    (h : divCustom π k e x = some c) : HInst.CustomTotal c := by
  match k, e, c, h with
  | 0, e, c, h => simp [divCustom] at h
  | 1, e, c, h =>
    have h : (if e 0 = 1 then some (divRule1 fun q => x 0 (π 0 q)) else none) = some c := h
    by_cases he : e 0 = 1
    · rw [if_pos he] at h
      injection h with h
      subst h
      exact divRule1_total _
    · rw [if_neg he] at h
      exact absurd h (by simp)
  | 2, e, c, h =>
    unfold divCustom at h
    injection h with h
    subst h
    exact divRule2_total
  | k + 3, e, c, h => simp [divCustom] at h

/-- Programs without `scan`, whose variables are read fewer than 2^31 times (C06), and whose jitted functions with
registered names call the registered function with operands of its shapes. -/
def NoScan (reg : String → Option (Prim F)) : (d : ℕ) → Op d F → Prop
  | 0, op => nomatch op
  | _ + 1, .prim _ => True
  | d + 1, .pjit name j consts =>
      match reg name with
      | some p => ∀ xs zs, evalSpec (evPlain d) j consts xs = .ok zs → ∃ zs', p.bind xs = .ok zs'
      | none => (∀ e ∈ j.eqns, NoScan reg d e.op) ∧
        ∀ v, Atom.var v ∈ j.outvars → (readsOf j.eqns j.outvars).count v ≤ 2147483647
  | _ + 1, .scan _ => False

section Transfer
variable {O V P G X : Type} {at' : G → X → P} {R : V → G → Prop}

/-- Related environments define the same variables. -/
theorem EnvRel.getMany' {lit : P → V} {s : SEnv V} {S : X → SEnv P} (h : EnvRel at' R s S) (x0 : X) :
    ∀ (as : List (Atom P)) (ps : List P), (S x0).getMany as = .ok ps →
      ∃ vals, s.getMany (as.map (Atom.map lit)) = .ok vals
  | [], _, _ => ⟨[], rfl⟩
  | a :: as, ps, hp => by
    simp only [SEnv.getMany] at hp
    cases h1 : (S x0).get a with
    | error e => simp [h1] at hp
    | ok p =>
      simp only [h1] at hp
      cases h2 : (S x0).getMany as with
      | error e => simp [h2] at hp
      | ok ps' =>
        obtain ⟨vals, hv⟩ := EnvRel.getMany' (lit := lit) h x0 as ps' h2
        have : ∃ val, s.get (a.map lit) = .ok val := by
          cases a with
          | lit p => exact ⟨lit p, rfl⟩
          | var v =>
            simp only [SEnv.get] at h1
            rcases h v with ⟨_, h4⟩ | ⟨val, g, h3, _, _⟩
            · simp [h4] at h1
            · exact ⟨val, by simp [Atom.map, SEnv.get, h3]⟩
        obtain ⟨val, hval⟩ := this
        exact ⟨val :: vals, by simp [SEnv.getMany, hval, hv]⟩

theorem bind_ok_iff {W : Type} (s : SEnv W) (vs : List Var) (xs : List W) :
    (∃ s', s.bind vs xs = .ok s') ↔ vs.length = xs.length := by
  unfold SEnv.bind
  split <;> simp_all

/-- If the ordinary run succeeds, so does the other. -/
theorem run_total {lit : P → V} {cst : P → G} (hlit : ∀ p, R (lit p) (cst p))
    (hcst : ∀ p x, at' (cst p) x = p) (x0 : X) (evP : O → List P → Except Err (List P))
    (ev : O → List V → Except Err (List V)) (domP : O → List P → Prop) (dom : O → List V → Prop) :
    ∀ (es : List (Eqn O P)) (s : SEnv V) (S : X → SEnv P) (s' : SEnv P), EnvRel at' R s S →
      (∀ e ∈ es, EqRel at' R evP ev dom e.op) →
      (∀ e ∈ es, ∀ vals gs, List.Forall₂ R vals gs → domP e.op (gs.map fun g => at' g x0) → dom e.op vals) →
      (∀ e ∈ es, ∀ vals gs zs, List.Forall₂ R vals gs → domP e.op (gs.map fun g => at' g x0) →
        evP e.op (gs.map fun g => at' g x0) = .ok zs → ∃ ys, ev e.op vals = .ok ys) →
      DomRun evP domP (S x0) es → specRun evP (S x0) es = .ok s' →
      ∃ (t : SEnv V) (T : X → SEnv P), specRun ev s (es.map (Eqn.map lit)) = .ok t ∧ T x0 = s' ∧ EnvRel at' R t T
  | [], s, S, s', h, _, _, _, _, hr => ⟨s, S, rfl, by simpa [specRun] using hr, h⟩
  | e :: es, s, S, s', h, he, ht, htot, hd, hr => by
    simp only [specRun, specStep] at hr
    cases h1 : (S x0).getMany e.invars with
    | error err => simp [h1] at hr
    | ok ps =>
      simp only [h1] at hr
      obtain ⟨vals, hv⟩ := EnvRel.getMany' (lit := lit) h x0 e.invars ps h1
      obtain ⟨gs, g1, g2⟩ := h.getMany hlit hcst e.invars vals hv
      obtain rfl : ps = gs.map fun g => at' g x0 := Except.ok.inj (h1.symm.trans (g1 x0))
      cases h2 : evP e.op (gs.map fun g => at' g x0) with
      | error err => simp [h2] at hr
      | ok zs =>
        simp only [h2] at hr
        obtain ⟨d1, d2⟩ := hd _ h1
        obtain ⟨ys, hy⟩ := htot e (by simp) vals gs zs g2 d1 h2
        have hdom := ht e (by simp) vals gs g2 d1
        obtain ⟨outs, g3, g4⟩ := he e (by simp) vals gs ys g2 hdom hy
        obtain rfl : zs = outs.map fun g => at' g x0 := Except.ok.inj (h2.symm.trans (g3 x0))
        cases h3 : (S x0).bind e.outvars (outs.map fun g => at' g x0) with
        | error err => simp [h3] at hr
        | ok s1 =>
          simp only [h3] at hr
          have hl := (bind_ok_iff _ _ _).mp ⟨s1, h3⟩
          obtain ⟨t1, ht1⟩ := (bind_ok_iff s e.outvars ys).mpr (by
            rw [hl, List.length_map, g4.length_eq])
          obtain ⟨S1, g5, g6⟩ := h.bind e.outvars ys outs g4 ht1
          obtain rfl : s1 = S1 x0 := Except.ok.inj (h3.symm.trans (g5 x0))
          have hstep : specStep evP (S x0) e = .ok (S1 x0) := by simp [specStep, g1, g3, g5]
          obtain ⟨t, T, e1, e2, e3⟩ := run_total hlit hcst x0 evP ev domP dom es t1 S1 s' g6
            (fun e' h' => he e' (by simp [h'])) (fun e' h' => ht e' (by simp [h']))
            (fun e' h' => htot e' (by simp [h'])) (d2 _ hstep) hr
          refine ⟨t, T, ?_, e2, e3⟩
          have hs : specStep ev s (e.map lit) = .ok t1 := by
            have hv' : s.getMany (e.map lit).invars = .ok vals := hv
            have hy' : ev (e.map lit).op vals = .ok ys := hy
            unfold specStep
            simp only [hv', hy']
            exact ht1
          simp [specRun, hs, e1]

theorem prog_total {lit : P → V} {cst : P → G} (hlit : ∀ p, R (lit p) (cst p))
    (hcst : ∀ p x, at' (cst p) x = p) (x0 : X) (evP : O → List P → Except Err (List P))
    (ev : O → List V → Except Err (List V)) (domP : O → List P → Prop) (dom : O → List V → Prop) (j : Jaxpr O P)
    (he : ∀ e ∈ j.eqns, EqRel at' R evP ev dom e.op)
    (ht : ∀ e ∈ j.eqns, ∀ vals gs, List.Forall₂ R vals gs → domP e.op (gs.map fun g => at' g x0) → dom e.op vals)
    (htot : ∀ e ∈ j.eqns, ∀ vals gs zs, List.Forall₂ R vals gs → domP e.op (gs.map fun g => at' g x0) →
        evP e.op (gs.map fun g => at' g x0) = .ok zs → ∃ ys, ev e.op vals = .ok ys)
    (consts : List P) (args : List V) (gs : List G) (hargs : List.Forall₂ R args gs)
    (hd : DomProg evP domP j consts (gs.map fun g => at' g x0)) (zs : List P)
    (hr : evalSpec evP j consts (gs.map fun g => at' g x0) = .ok zs) :
    ∃ ys, evalSpec ev (j.map lit) (consts.map lit) args = .ok ys := by
  have h0 : EnvRel at' R (fun _ => none) (fun _ : X => (fun _ => none : SEnv P)) :=
    fun v => Or.inl ⟨rfl, fun _ => rfl⟩
  have hconsts : List.Forall₂ R (consts.map lit) (consts.map cst) := by
    rw [List.forall₂_map_left_iff, List.forall₂_map_right_iff]
    exact List.forall₂_same.mpr fun p _ => hlit p
  unfold evalSpec at hr
  cases hi : specInit j consts (gs.map fun g => at' g x0) with
  | error err => simp [hi] at hr
  | ok sP =>
    simp only [hi] at hr
    have hi' := hi
    unfold specInit at hi'
    cases h1 : SEnv.bind (fun _ => none) j.constvars consts with
    | error err => simp [h1] at hi'
    | ok s1 =>
      simp only [h1] at hi'
      obtain ⟨t1, ht1⟩ := (bind_ok_iff (fun _ => none : SEnv V) (j.map lit).constvars (consts.map lit)).mpr (by
        have := (bind_ok_iff _ _ _).mp ⟨s1, h1⟩
        rw [List.length_map]
        exact this)
      obtain ⟨S1, g1, g2⟩ := h0.bind j.constvars _ _ hconsts ht1
      have g1' : ∀ x, SEnv.bind (fun _ => none) j.constvars consts = .ok (S1 x) := fun x => by
        have := g1 x
        rwa [List.map_map, show ((fun g => at' g x) ∘ cst) = id from funext fun p => hcst p x, List.map_id] at this
      obtain rfl : s1 = S1 x0 := Except.ok.inj (h1.symm.trans (g1' x0))
      obtain ⟨t2, ht2⟩ := (bind_ok_iff t1 (j.map lit).invars args).mpr (by
        have := (bind_ok_iff _ _ _).mp ⟨_, hi'⟩
        rw [List.length_map, ← hargs.length_eq] at this
        exact this)
      obtain ⟨S2, g3, g4⟩ := g2.bind j.invars _ _ hargs ht2
      obtain rfl : sP = S2 x0 := Except.ok.inj (hi'.symm.trans (g3 x0))
      cases h3 : specRun evP (S2 x0) j.eqns with
      | error err => simp [h3] at hr
      | ok s3 =>
        simp only [h3] at hr
        obtain ⟨t, T, e1, e2, e3⟩ := run_total hlit hcst x0 evP ev domP dom j.eqns t2 S2 s3 g4 he ht htot (hd _ hi) h3
        subst e2
        obtain ⟨vals, hv⟩ := EnvRel.getMany' (lit := lit) e3 x0 j.outvars zs hr
        refine ⟨vals, ?_⟩
        unfold evalSpec
        have : specInit (j.map lit) (consts.map lit) args = .ok t2 := by
          unfold specInit
          rw [ht1]
          exact ht2
        rw [this]
        have e1' : specRun ev t2 (j.map lit).eqns = .ok t := e1
        simp only [e1']
        exact hv

end Transfer

theorem readsOf_map {O P V : Type} (f : P → V) (j : Jaxpr O P) (v : Var) :
    (readsOf (j.map f).eqns (j.map f).outvars).count v = (readsOf j.eqns j.outvars).count v := by
  have hf : ∀ l : List (Atom P), (l.map (Atom.map f)).filterMap Atom.var? = l.filterMap Atom.var? := by
    intro l
    rw [List.filterMap_map]
    congr 1
    funext a
    cases a <;> rfl
  unfold readsOf Jaxpr.map
  simp only [hf, List.flatMap_map]
  congr 3
  funext e
  exact hf e.invars

theorem mem_map_var {P V : Type} (f : P → V) (l : List (Atom P)) (v : Var) (h : Atom.var v ∈ l.map (Atom.map f)) :
    Atom.var v ∈ l := by
  obtain ⟨a, ha, he⟩ := List.mem_map.mp h
  cases a with
  | lit p => simp [Atom.map] at he
  | var w =>
    simp only [Atom.map, Atom.var.injEq] at he
    rwa [← he]

section
variable {X : Type} [NormedAddCommGroup X] [NormedSpace ℝ X]

/-- Values representing functions can be unpacked as the functions can. -/
theorem unpack_vals (B : Base X) (inv : ∀ m, Jac (Fin m) F → Prop) {k : ℕ} (size : Fin k → ℕ)
    (vals : List (PVal F)) (gs : List (FArr X F)) (hr : List.Forall₂ (Represents B inv) vals gs)
    (x : (i : Fin k) → Fin (size i) → F)
    (hx : unpack (β := fun m => Fin m → F) size (gs.map fun g => g.at B.x0) = .ok x) :
    ∃ o, unpack (β := Opd F) size vals = .ok o ∧ (∀ i, (o i).x = x i) ∧
      ∀ i, (⟨size i, o i⟩ : PVal F) ∈ vals ∧ (∀ t, o i = .lapl t → inv (size i) t.jac) := by
  have hv := forall2_x B inv vals gs hr
  rw [← hv, unpack_eq] at hx
  have hlen : vals.length = k := by
    have := congrArg List.length hx
    simpa using this
  have hget : ∀ i : Fin k, ∃ o : Opd F (size i), vals.get (i.cast hlen.symm) = ⟨size i, o⟩ ∧ o.x = x i := by
    intro i
    have h1 : (vals.map fun v => (⟨v.1, v.2.x⟩ : PArr F)).get (i.cast (by rw [List.length_map, hlen])) =
        ⟨size i, x i⟩ := by
      rw [List.get_of_eq hx, List.get_ofFn]
      rfl
    rw [List.get_eq_getElem, List.getElem_map] at h1
    have e1 : vals.get (i.cast hlen.symm) = vals[(i : ℕ)]'(by rw [hlen]; exact i.2) := rfl
    rw [e1]
    have h1' : (⟨(vals[(i : ℕ)]'(by rw [hlen]; exact i.2)).1, (vals[(i : ℕ)]'(by rw [hlen]; exact i.2)).2.x⟩ : PArr F) =
      ⟨size i, x i⟩ := h1
    generalize vals[(i : ℕ)]'(by rw [hlen]; exact i.2) = v at h1'
    obtain ⟨m, w⟩ := v
    obtain rfl : m = size i := congrArg Sigma.fst h1'
    exact ⟨w, rfl, eq_of_heq (Sigma.mk.inj h1').2⟩
  choose o ho1 ho2 using hget
  have hun : unpack (β := Opd F) size vals = .ok o := by
    rw [unpack_eq]
    apply List.ext_get (by simp [hlen])
    intro i h1 h2
    rw [List.get_ofFn]
    exact ho1 ⟨i, by omega⟩
  refine ⟨o, hun, ho2, fun i => ⟨?_, fun t ht => ?_⟩⟩
  · rw [← ho1 i]
    exact List.get_mem _ _
  · obtain ⟨u, -, hrep⟩ := repr_unpack B inv size vals gs hr o hun
    have := hrep i
    rw [ht] at this
    exact this.2

theorem evLapl_total (B : Base X) (reg : String → Option (Prim F)) (junk : List (PVal F) → PVal F) (T : ℕ)
    (good : (p : Prim F) → ((i : Fin p.nIn) → Fin (p.size i) → F) → Prop)
    (hgood : ∀ p x, good p x → p.SoundAt (denseInv B.n) T B.n x)
    (hgoodT : ∀ p x, good p x → p.TotalAt T B.n x) :
    ∀ (d : ℕ) (op : Op d F) (vals : List (PVal F)) (gs : List (FArr X F)) (zs : List (PArr F)),
      NoScan reg d op → List.Forall₂ (Represents B (denseInv B.n)) vals gs →
      DomP reg good d op (gs.map fun g => g.at B.x0) → evPlain d op (gs.map fun g => g.at B.x0) = .ok zs →
      ∃ ys, evLapl reg junk T d op vals = .ok ys := by
  intro d
  induction d with
  | zero => intro op; exact nomatch op
  | succ d ih =>
    intro op vals gs zs hns hr hd he
    have hx := forall2_x B (denseInv B.n) vals gs hr
    unfold evLapl
    split
    · rw [hx, he]
      exact ⟨_, rfl⟩
    · rename_i hall
      have hex : ∃ v ∈ vals, v.2.isLapl = true := by
        by_contra hc
        push Not at hc
        apply hall
        rw [List.all_eq_true]
        intro v hv
        simpa using hc v hv
      have hcall : ∀ p : Prim F, (∀ x, unpack (β := fun m => Fin m → F) p.size (gs.map fun g => g.at B.x0) = .ok x →
          good p x) → (∃ zs, p.bind (gs.map fun g => g.at B.x0) = .ok zs) → ∃ ys, p.call T vals = .ok ys := by
        rintro p hg ⟨zs, hb⟩
        unfold Prim.bind at hb
        split at hb
        · simp at hb
        · rename_i x hux
          obtain ⟨o, h1, h2, h3⟩ := unpack_vals B (denseInv B.n) p.size vals gs hr x hux
          have hexo : ∃ i, (o i).isLapl = true := by
            obtain ⟨v, hv, hvl⟩ := hex
            rw [(unpack_eq _ _ _).mp h1, List.mem_ofFn] at hv
            obtain ⟨i, rfl⟩ := hv
            exact ⟨i, hvl⟩
          obtain ⟨r, hrr⟩ := hgoodT p x (hg x hux) o h2 hexo fun i t ht => (h3 i).2 t ht
          unfold Prim.call
          rw [h1]
          simp only [hrr]
          exact ⟨_, rfl⟩
      cases op with
      | prim p =>
        dsimp only
        exact hcall p hd ⟨zs, he⟩
      | pjit name j consts =>
        simp only [DomP, NoScan] at hd hns
        dsimp only
        cases hreg : reg name with
        | some p =>
          simp only [hreg] at hd hns ⊢
          exact hcall p hd.1 (hns _ zs he)
        | none =>
          simp only [hreg] at hd hns ⊢
          have := prog_total (at' := fun (g : FArr X F) x => g.at x) (R := Represents B (denseInv B.n))
            (lit := PVal.ofPlain) (cst := fun a => (⟨a.1, fun _ => a.2⟩ : FArr X F))
            (fun p => represents_const B _ p) (fun _ _ => rfl) B.x0 (evPlain d) (evLapl reg junk T d)
            (DomP reg good d) (Dom reg junk T good d) j
            (fun e _ => evLapl_rel B _ reg junk T good hgood d e.op)
            (fun e _ => dom_of_plain B _ reg junk T good hgood d e.op)
            (fun e hme vals gs zs hr hd he => ih e.op vals gs zs (hns.1 e hme) hr hd he) consts vals gs hr hd zs he
          rwa [C06_refcount_never_loses_values _ _ _ _ (fun v hv => by
            rw [readsOf_map]; exact hns.2 v (mem_map_var _ _ v hv))]
      | scan s => exact hns.elim

/-- With sparsity disabled the interpreter returns if the ordinary run does. -/
theorem evalLapl_total (B : Base X) (reg : String → Option (Prim F)) (junk : List (PVal F) → PVal F) (T : ℕ)
    (good : (p : Prim F) → ((i : Fin p.nIn) → Fin (p.size i) → F) → Prop)
    (hgood : ∀ p x, good p x → p.SoundAt (denseInv B.n) T B.n x)
    (hgoodT : ∀ p x, good p x → p.TotalAt T B.n x) (d : ℕ) (j : Jaxpr (Op d F) (PArr F))
    (hns : ∀ e ∈ j.eqns, NoScan reg d e.op)
    (hbound : ∀ v, Atom.var v ∈ j.outvars → (readsOf j.eqns j.outvars).count v ≤ 2147483647)
    (consts : List (PArr F)) (args : List (PVal F)) (gs : List (FArr X F)) (zs : List (PArr F))
    (hargs : List.Forall₂ (Represents B (denseInv B.n)) args gs)
    (hd : DomProg (evPlain d) (DomP reg good d) j consts (gs.map fun g => g.at B.x0))
    (he : evalPlain d j consts (gs.map fun g => g.at B.x0) = .ok zs) :
    ∃ ys, evalLapl reg junk T d j consts args = .ok ys := by
  have := prog_total (at' := fun (g : FArr X F) x => g.at x) (R := Represents B (denseInv B.n))
    (lit := PVal.ofPlain) (cst := fun a => (⟨a.1, fun _ => a.2⟩ : FArr X F))
    (fun p => represents_const B _ p) (fun _ _ => rfl) B.x0 (evPlain d) (evLapl reg junk T d)
    (DomP reg good d) (Dom reg junk T good d) j
    (fun e _ => evLapl_rel B _ reg junk T good hgood d e.op)
    (fun e _ => dom_of_plain B _ reg junk T good hgood d e.op)
    (fun e hme vals gs zs hr hd he => evLapl_total B reg junk T good hgood hgoodT d e.op vals gs zs (hns e hme) hr hd he)
    consts args gs hargs hd zs he
  unfold evalLapl
  rwa [C06_refcount_never_loses_values _ _ _ _ (fun v hv => by
    rw [readsOf_map]; exact hbound v (mem_map_var _ _ v hv))]

end

end Folx

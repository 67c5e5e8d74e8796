import Verif.Props.ArrRunProps
import Verif.Props.BuiltInArrProps

/-!
# C75: what is done with results between calls

Users take results of `forward_laplacian`, possibly densify them (`result.dense`, `api.py:279-281`), take `result.real`, `result.imag`, `result.conj()` or `result.astype(dtype)`
(`api.py:283-308`), and pass them to further transformed functions (`interpreter.py:222-254, 276-305`: arguments that carry derivatives are taken as they are), each with its own threshold
and weights.
-/

namespace Folx
open Filter Topology
open Folx.Interp Folx.Layout Folx.Vmap

section
variable {F : Type} [RCLike F]

/-- `FwdLaplArray.dense` (`api.py:279-281`). -/
def Trip.toDense {m : ℕ} (t : Trip (Fin m) F) : Except Err (Trip (Fin m) F) :=
  match t.jac.asDense with
  | .error e => .error e
  | .ok J => .ok ⟨t.x, J, t.lapl⟩

/-- What users do with a result: `.dense`, or `.real`, `.imag`, `.conj()`, `.astype(dtype)` (a floating or complex type): a real-linear function of every number. -/
inductive ResultOp (F : Type) [RCLike F]
  | dense
  | map (f : F →L[ℝ] F)

/-- Its effect on a result (`api.py:226-238`, `:279-308`).  Plain arrays have no attribute `dense`. -/
noncomputable def ResultOp.run : ResultOp F → PVal F → Except Err (PVal F)
  | .dense, ⟨_, .plain _⟩ => .error .type
  | .dense, ⟨m, .lapl t⟩ =>
    match t.toDense with
    | .error e => .error e
    | .ok t => .ok ⟨m, .lapl t⟩
  | .map f, ⟨m, o⟩ => .ok ⟨m, mapOpd f o⟩

/-- Its effect on the value. -/
noncomputable def ResultOp.plain : ResultOp F → PArr F → PArr F
  | .dense, a => a
  | .map f, a => ⟨a.1, fun p => f (a.2 p)⟩

/-- Its effect on a function. -/
noncomputable def ResultOp.lift {X : Type} : ResultOp F → FArr X F → FArr X F
  | .dense, g => g
  | .map f, g => ⟨g.1, fun x p => f (g.2 x p)⟩

/-- Several of them. -/
noncomputable def runOps : List (ResultOp F) → PVal F → Except Err (PVal F)
  | [], v => .ok v
  | o :: os, v =>
    match o.run v with
    | .error e => .error e
    | .ok v => runOps os v

noncomputable def plainOps (os : List (ResultOp F)) (a : PArr F) : PArr F := os.foldl (fun a o => o.plain a) a

noncomputable def liftOps {X : Type} (os : List (ResultOp F)) (g : FArr X F) : FArr X F := os.foldl (fun g o => o.lift g) g

/-- A call of a transformed function with earlier results: the numbers of the results that are passed and what is done with them before; threshold, program, constants and weights. -/
structure Stage (F : Type) [RCLike F] where
  args : List (ℕ × List (ResultOp F))
  t : ℚ
  depth : ℕ
  prog : Jaxpr (Op depth F) (PArr F)
  consts : List (PArr F)
  weights : Weights F

/-- The arguments of the call. -/
noncomputable def stageArgs (ys : List (PVal F)) : List (ℕ × List (ResultOp F)) → Except Err (List (PVal F))
  | [] => .ok []
  | (i, os) :: rest =>
    match ys[i]? with
    | none => .error .key
    | some v =>
      match runOps os v, stageArgs ys rest with
      | .ok v, .ok vs => .ok (v :: vs)
      | .error e, _ => .error e
      | _, .error e => .error e

/-- The same for plain arrays. -/
noncomputable def plainStageArgs (ys : List (PArr F)) : List (ℕ × List (ResultOp F)) → Except Err (List (PArr F))
  | [] => .ok []
  | (i, os) :: rest =>
    match ys[i]? with
    | none => .error .key
    | some v =>
      match plainStageArgs ys rest with
      | .error e => .error e
      | .ok vs => .ok (plainOps os v :: vs)

/-- Calls one after the other. -/
noncomputable def runStages (reg : String → Option (Prim F)) (junk : List (PVal F) → PVal F) : List (Stage F) → List (PVal F) → Except Err (List (PVal F))
  | [], ys => .ok ys
  | s :: ss, ys =>
    match stageArgs ys s.args with
    | .error e => .error e
    | .ok as =>
      match forwardLaplacian reg junk s.t s.depth s.prog s.consts s.weights as with
      | .error e => .error e
      | .ok zs => runStages reg junk ss zs

/-- The functions one after the other. -/
noncomputable def plainStages : List (Stage F) → List (PArr F) → Except Err (List (PArr F))
  | [], ys => .ok ys
  | s :: ss, ys =>
    match plainStageArgs ys s.args with
    | .error e => .error e
    | .ok as =>
      match evalPlain s.depth s.prog s.consts as with
      | .error e => .error e
      | .ok zs => plainStages ss zs

/-! ### Single operations -/

section
variable {X : Type} [NormedAddCommGroup X] [NormedSpace ℝ X] (B : Base X)

theorem mapOpd_rep (f : F →L[ℝ] F) (inv : ∀ m, Jac (Fin m) F → Prop) {m : ℕ} (hinv : ∀ J : Jac (Fin m) F, inv m J → inv m (J.mapData f)) (o0 : Opd F m) (u0 : X → Fin m → F)
    (h0 : OpdRep B inv o0 u0) : OpdRep B inv (mapOpd f o0) fun y p => f (u0 y p) := by
  let L : (Fin m → F) →L[ℝ] (Fin m → F) := ContinuousLinearMap.pi fun p => f.comp (ContinuousLinearMap.proj p)
  cases o0 with
  | plain a =>
    have h1 : a = u0 B.x0 := h0.1
    refine ⟨?_, ?_⟩
    · show (fun p => f (a p)) = fun p => f (u0 B.x0 p)
      rw [h1]
    · filter_upwards [h0.2] with y hy
      show (fun p => f (u0 y p)) = fun p => f (a p)
      rw [hy]
  | lapl t =>
    obtain ⟨⟨h1, h2, D, H, h3, h4, h5⟩, h6⟩ := h0
    refine ⟨⟨?_, Jac.mapData_wf (f : F →+ F) _ _ h2, ?_⟩, hinv _ h6⟩
    · show (fun p => f (t.x p)) = fun p => f (u0 B.x0 p)
      rw [h1]
    · obtain ⟨H', h7, h8⟩ := HasFDeriv2At.comp (f := L) (HasFDeriv2At.linear L (u0 B.x0)) h3
      refine ⟨_, H', h7, fun i => ?_, ?_⟩
      · funext p
        refine (Jac.mapData_den (f : F →+ F) t.jac i p).trans ?_
        show f (t.jac.den i p) = f (D (B.dir i) p)
        rw [h4]
      · funext p
        show f (t.lapl p) = _
        rw [h5, Finset.sum_apply, Finset.sum_apply, map_sum]
        refine Finset.sum_congr rfl fun i _ => ?_
        rw [h8]
        simp [L]

theorem mapData_filled {m : ℕ} (f : F → F) (J : Jac (Fin m) F) (h : J.Filled) : (J.mapData f).Filled := by
  cases J with
  | dense rows => exact Jac.filled_dense rfl
  | sparse rows =>
    intro _ h0
    refine h rfl ?_
    simpa [Jac.mapData, Jac.nrows] using h0

theorem toDense_rep (hn : 0 < B.n) {m : ℕ} {t t' : Trip (Fin m) F} {u : X → Fin m → F} (h : TripRep B t u) (hd : t.toDense = .ok t') :
    TripRep B t' u ∧ t'.jac.weak = false ∧ t'.x = t.x ∧ t'.lapl = t.lapl ∧ t'.jac.den = t.jac.den := by
  unfold Trip.toDense Jac.asDense at hd
  cases hj : t.jac.denseArray with
  | error e => simp [hj] at hd
  | ok rows =>
    simp only [hj] at hd
    obtain rfl := Except.ok.inj hd
    obtain ⟨h1, h2⟩ := Jac.denseArray_den h.wf hj
    have hden : (Jac.dense rows).den = t.jac.den := funext fun i => funext fun p => h1 i p
    obtain ⟨hx, hw, D, H, h3, h4, h5⟩ := h
    refine ⟨⟨hx, ?_, D, H, h3, fun i => ?_, h5⟩, rfl, rfl, rfl, hden⟩
    · show rows.length ≤ B.n
      omega
    · show (Jac.dense rows).den i = _
      rw [hden]
      exact h4 i

/-- Every operation keeps a result exact. -/
theorem ResultOp.run_rep (hn : 0 < B.n) (o : ResultOp F) {v v' : PVal F} {g : FArr X F} (h : Represents B filledInv v g) (hr : o.run v = .ok v') :
    Represents B filledInv v' (o.lift g) ∧ v'.1 = v.1 ∧ v'.2.isLapl = v.2.isLapl := by
  obtain ⟨m, v⟩ := v
  obtain ⟨u, rfl, h⟩ := h
  cases o with
  | map f =>
    obtain rfl := Except.ok.inj hr
    refine ⟨⟨_, rfl, mapOpd_rep B f _ (fun J hJ => mapData_filled f J hJ) v u h⟩, rfl, ?_⟩
    cases v <;> rfl
  | dense =>
    cases v with
    | plain a => exact absurd hr (by simp [ResultOp.run])
    | lapl t =>
      simp only [ResultOp.run] at hr
      cases hd : t.toDense with
      | error e => simp [hd] at hr
      | ok t' =>
        simp only [hd] at hr
        obtain rfl := Except.ok.inj hr
        obtain ⟨h1, h2, -⟩ := toDense_rep B hn h.1 hd
        exact ⟨⟨_, rfl, h1, Jac.filled_dense h2⟩, rfl, rfl⟩

theorem runOps_rep (hn : 0 < B.n) : ∀ (os : List (ResultOp F)) {v v' : PVal F} {g : FArr X F}, Represents B filledInv v g → runOps os v = .ok v' →
    Represents B filledInv v' (liftOps os g) ∧ v'.1 = v.1 ∧ v'.2.isLapl = v.2.isLapl
  | [], v, v', g, h, hr => by
    obtain rfl := Except.ok.inj hr
    exact ⟨h, rfl, rfl⟩
  | o :: os, v, v', g, h, hr => by
    simp only [runOps] at hr
    cases h1 : o.run v with
    | error e => simp [h1] at hr
    | ok w =>
      simp only [h1] at hr
      obtain ⟨h2, h3, h4⟩ := o.run_rep B hn h h1
      obtain ⟨h5, h6, h7⟩ := runOps_rep hn os h2 hr
      exact ⟨h5, h6.trans h3, h7.trans h4⟩

theorem liftOps_at (x : X) : ∀ (os : List (ResultOp F)) (g : FArr X F), (liftOps os g).at x = plainOps os (g.at x)
  | [], _ => rfl
  | o :: os, g => by
    refine (liftOps_at x os (o.lift g)).trans ?_
    unfold plainOps
    rw [List.foldl_cons]
    cases o <;> rfl

theorem stageArgs_rep (hn : 0 < B.n) {ys : List (PVal F)} {gs : List (FArr X F)} (h : List.Forall₂ (Represents B filledInv) ys gs) :
    ∀ (as : List (ℕ × List (ResultOp F))) (vs : List (PVal F)), stageArgs ys as = .ok vs →
      ∃ us, (∀ z, plainStageArgs (gs.map fun g => g.at z) as = .ok (us.map fun g => g.at z)) ∧ List.Forall₂ (Represents B filledInv) vs us
  | [], vs, hr => by
    obtain rfl := Except.ok.inj hr
    exact ⟨[], fun _ => rfl, .nil⟩
  | (i, os) :: rest, vs, hr => by
    simp only [stageArgs] at hr
    cases hi : ys[i]? with
    | none => simp [hi] at hr
    | some v =>
      simp only [hi] at hr
      cases h1 : runOps os v with
      | error e => simp [h1] at hr
      | ok v' =>
        cases h2 : stageArgs ys rest with
        | error e => simp [h1, h2] at hr
        | ok vs' =>
          simp only [h1, h2] at hr
          obtain rfl := Except.ok.inj hr
          obtain ⟨us, h3, h4⟩ := stageArgs_rep hn h rest vs' h2
          obtain ⟨hlt, hv⟩ := List.getElem?_eq_some_iff.mp hi
          have hlt' : i < gs.length := h.length_eq ▸ hlt
          have hR : Represents B filledInv v gs[i] := by
            have := h.get hlt hlt'
            simpa only [List.get_eq_getElem, hv] using this
          refine ⟨liftOps os gs[i] :: us, fun z => ?_, .cons (runOps_rep B hn os hR h1).1 h4⟩
          simp only [plainStageArgs]
          have e : (gs.map fun g => g.at z)[i]? = some (gs[i].at z) := by
            rw [List.getElem?_map, List.getElem?_eq_getElem hlt']
            rfl
          simp only [e, h3 z, List.map_cons, liftOps_at]

end

/-- **C75 (dense).**  `result.dense` of an exact result is exact, has a dense Jacobian, and is its own `dense`. -/
theorem C75_dense {n m : ℕ} {w x : Fin n → ℝ} (hn : 0 < n) {t t' : Trip (Fin m) F} {u : (Fin n → ℝ) → Fin m → F} (h : Exact w x t u) (hwf : t.jac.Wf n) (hd : t.toDense = .ok t') :
    Exact w x t' u ∧ t'.jac.weak = false ∧ t'.jac.Wf n ∧ t'.x = t.x ∧ t'.lapl = t.lapl ∧ t'.toDense = .ok t' := by
  unfold Trip.toDense Jac.asDense at hd
  cases hj : t.jac.denseArray with
  | error e => simp [hj] at hd
  | ok rows =>
    simp only [hj] at hd
    obtain rfl := Except.ok.inj hd
    obtain ⟨h1, h2⟩ := Jac.denseArray_den hwf hj
    refine ⟨⟨h.smooth, h.value, fun i p => (h1 i p).trans (h.jacobian i p), fun i hi p => (h1 i p).trans (h.rows i hi p), h.laplacian⟩, rfl, ?_, rfl, rfl, rfl⟩
    show rows.length ≤ n
    omega

/-- **C75 (dense returns)** for results with elements whose Jacobian, if sparse, has rows. -/
theorem C75_dense_returns {m : ℕ} (hm : 0 < m) (t : Trip (Fin m) F) (h : t.jac.weak = true → 0 < t.jac.nrows) : ∃ t', t.toDense = .ok t' := by
  have : Nonempty (Fin m) := ⟨⟨0, hm⟩⟩
  obtain ⟨rows, hr⟩ := Jac.denseArray_ok t.jac (by
    rintro rs hj rfl
    exact absurd (h (by rw [hj]; rfl)) (by rw [hj]; simp [Jac.nrows]))
  exact ⟨⟨t.x, .dense rows, t.lapl⟩, by unfold Trip.toDense Jac.asDense; rw [hr]⟩

end

section
variable {F : Type} [RCLike F] [Inhabited F] (reg : String → Option (Prim F)) (junk : List (PVal F) → PVal F)

/-- What is asked of the calls: some argument carries derivatives, and the functions that the run calls are smooth there, with Jacobians they can deal with (`ArrGoodCall`, C71). -/
def StagesOk (n : ℕ) : List (Stage F) → List (PVal F) → Prop
  | [], _ => True
  | s :: ss, ys => ∀ as, stageArgs ys s.args = .ok as →
    (∃ v ∈ as, v.2.isLapl = true) ∧
    DomProg (evLapl reg junk (threshold s.t (as.map fun v => v.1).sum).toNat s.depth)
      (DomR reg junk (threshold s.t (as.map fun v => v.1).sum).toNat (ArrGoodCall (threshold s.t (as.map fun v => v.1).sum).toNat n) s.depth)
      (s.prog.map PVal.ofPlain) (s.consts.map PVal.ofPlain) as ∧
    ∀ zs, forwardLaplacian reg junk s.t s.depth s.prog s.consts s.weights as = .ok zs → StagesOk n ss zs

theorem runStages_rep {X : Type} [NormedAddCommGroup X] [NormedSpace ℝ X] (B : Base X) (hn : 0 < B.n) : ∀ (ss : List (Stage F)) (ys zs : List (PVal F)) (gs : List (FArr X F)),
    List.Forall₂ (Represents B filledInv) ys gs → StagesOk reg junk B.n ss ys → runStages reg junk ss ys = .ok zs →
      ∃ us, (∀ z, plainStages ss (gs.map fun g => g.at z) = .ok (us.map fun g => g.at z)) ∧ List.Forall₂ (Represents B filledInv) zs us
  | [], ys, zs, gs, h, _, hr => by
    obtain rfl := Except.ok.inj hr
    exact ⟨gs, fun _ => rfl, h⟩
  | s :: ss, ys, zs, gs, h, hok, hr => by
    simp only [runStages] at hr
    cases h1 : stageArgs ys s.args with
    | error e => simp [h1] at hr
    | ok as =>
      simp only [h1] at hr
      cases h2 : forwardLaplacian reg junk s.t s.depth s.prog s.consts s.weights as with
      | error e => simp [h2] at hr
      | ok ws =>
        simp only [h2] at hr
        obtain ⟨us, h3, h4⟩ := stageArgs_rep B hn h s.args as h1
        obtain ⟨k1, k2, k3⟩ := hok as h1
        have h2' := h2
        unfold forwardLaplacian at h2
        dsimp only at h2
        rw [C05_resume _ _ _ k1] at h2
        dsimp only at h2
        obtain ⟨vs, h5, h6⟩ := evalLapl_run B filledInv reg junk _ _ (fun p o ho => ho.sound hn p o) s.depth s.prog s.consts as us ws h4 k2 h2
        obtain ⟨rs, h7, h8⟩ := runStages_rep B hn ss ws zs vs h6 (k3 ws h2') hr
        refine ⟨rs, fun z => ?_, h8⟩
        simp only [plainStages]
        rw [h3 z]
        dsimp only
        rw [h5 z]
        exact h7 z

variable (t : ℚ) {n : ℕ} (hn : 0 < n) (sizes : List ℕ) (hs : sizes.sum = n) (d : ℕ) (j : Jaxpr (Op d F) (PArr F)) (consts : List (PArr F)) (weights : Weights F) (w x : Fin n → ℝ)
include hn hs

/-- **C75 (pipelines).**  A transformed program is called on plain arrays (`ArrayRunOk`, C71); its results are densified, mapped by real-linear functions, reordered, and passed to
further transformed programs with other thresholds, and so on, any number of times.  If all calls return and meet the conditions, what comes out is exact for the composition of all
these functions with respect to the first inputs and weights. -/
theorem C75_pipeline (hw : weightArrs weights sizes = .ok (unflat sizes w)) (hd : ArrayRunOk reg junk t d j consts weights sizes x)
    (ys zs : List (PVal F)) (h : forwardLaplacian reg junk t d j consts weights (plainArgs sizes x) = .ok ys)
    (ss : List (Stage F)) (hok : StagesOk reg junk n ss ys) (hr : runStages reg junk ss ys = .ok zs) :
    ∃ f g : List (FArr (Fin n → ℝ) F),
      (∀ z, evalPlain d j consts (unflat sizes z) = .ok (f.map fun u => u.at z)) ∧
      (∀ z, plainStages ss (f.map fun u => u.at z) = .ok (g.map fun u => u.at z)) ∧
      List.Forall₂ (ExactVal w x) zs g := by
  have hne : sizes ≠ [] := by
    rintro rfl
    simp at hs
    omega
  unfold ArrayRunOk plainArgs at hd
  unfold forwardLaplacian at h
  rw [sizes_plainArgs, hs] at h
  dsimp only at h
  unfold plainArgs at h
  rw [initState_eq _ weights sizes hne hs w x hw] at h hd
  dsimp only at h
  obtain ⟨outs, h1, h2⟩ := evalLapl_run (inputBase w x) filledInv reg junk _ (ArrGoodCall (threshold t n).toNat n)
    (fun p o ho => ho.sound hn p o) d j consts _ _ ys (filled_init _ w x sizes hs) (hd _ rfl) h
  obtain ⟨gs, h3, h4⟩ := runStages_rep reg junk (inputBase w x) hn ss ys zs outs h2 hok hr
  refine ⟨outs, gs, fun z => ?_, h3, h4.imp fun v g hv => exactVal_of_represents _ x _ v g hv⟩
  have := h1 z
  rw [inputFns_at] at this
  exact this


/-- Everything but `.dense`. -/
def ResultOp.keeps : ResultOp F → Bool
  | .dense => false
  | .map _ => true

/-- Nothing but the Laplacian transformation depends on what was densified, on the threshold, or on the weights. -/
def Stage.bare (s : Stage F) : Stage F :=
  ⟨s.args.map fun a => (a.1, a.2.filter ResultOp.keeps), 0, s.depth, s.prog, s.consts, .absent⟩

omit [Inhabited F] hn hs in
theorem plainOps_bare : ∀ (os : List (ResultOp F)) (a : PArr F), plainOps (os.filter ResultOp.keeps) a = plainOps os a
  | [], _ => rfl
  | .dense :: os, a => plainOps_bare os a
  | .map f :: os, a => plainOps_bare os ((ResultOp.map f).plain a)

omit [Inhabited F] hn hs in
theorem plainStageArgs_bare (ys : List (PArr F)) : ∀ as : List (ℕ × List (ResultOp F)),
    plainStageArgs ys (as.map fun a => (a.1, a.2.filter ResultOp.keeps)) = plainStageArgs ys as
  | [] => rfl
  | (i, os) :: rest => by
    simp only [List.map_cons, plainStageArgs]
    cases ys[i]? with
    | none => rfl
    | some v =>
      dsimp only
      rw [plainStageArgs_bare ys rest]
      cases plainStageArgs ys rest with
      | error e => rfl
      | ok vs => exact congrArg (fun a => Except.ok (a :: vs)) (plainOps_bare os v)

omit [Inhabited F] hn hs in
theorem plainStages_bare : ∀ (ss : List (Stage F)) (ys : List (PArr F)), plainStages (ss.map Stage.bare) ys = plainStages ss ys
  | [], _ => rfl
  | s :: ss, ys => by
    simp only [List.map_cons, plainStages]
    have e : plainStageArgs ys (Stage.bare s).args = plainStageArgs ys s.args := plainStageArgs_bare ys s.args
    rw [e]
    cases plainStageArgs ys s.args with
    | error e => rfl
    | ok as =>
      have e2 : evalPlain (Stage.bare s).depth (Stage.bare s).prog (Stage.bare s).consts as = evalPlain s.depth s.prog s.consts as := rfl
      dsimp only
      rw [e2]
      cases evalPlain s.depth s.prog s.consts as with
      | error e => rfl
      | ok zs => exact plainStages_bare ss zs

/-- **C75 (invisible choices).**  Two pipelines of the same programs that differ in which results are densified, in the thresholds of all calls, and in the weights of the later calls
(which are ignored) have the same answers. -/
theorem C75_same (t' : ℚ) (hd : ArrayRunOk reg junk t d j consts .absent sizes x) (hd' : ArrayRunOk reg junk t' d j consts .absent sizes x)
    (ys ys' zs zs' : List (PVal F)) (h : forwardLaplacian reg junk t d j consts .absent (plainArgs sizes x) = .ok ys)
    (h' : forwardLaplacian reg junk t' d j consts .absent (plainArgs sizes x) = .ok ys')
    (ss ss' : List (Stage F)) (hss : ss.map Stage.bare = ss'.map Stage.bare) (hok : StagesOk reg junk n ss ys) (hok' : StagesOk reg junk n ss' ys')
    (hr : runStages reg junk ss ys = .ok zs) (hr' : runStages reg junk ss' ys' = .ok zs') : List.Forall₂ SameAnswer zs zs' := by
  obtain ⟨f, g, f1, f2, f3⟩ := C75_pipeline reg junk t hn sizes hs d j consts .absent (fun _ => 1) x (weights_absent sizes hs) hd ys zs h ss hok hr
  obtain ⟨f', g', f1', f2', f3'⟩ := C75_pipeline reg junk t' hn sizes hs d j consts .absent (fun _ => 1) x (weights_absent sizes hs) hd' ys' zs' h' ss' hok' hr'
  obtain rfl : f = f' := farr_ext f f' fun z => Except.ok.inj ((f1 z).symm.trans (f1' z))
  obtain rfl : g = g' := farr_ext g g' fun z => Except.ok.inj (by
    rw [← f2 z, ← f2' z, ← plainStages_bare ss, ← plainStages_bare ss', hss])
  exact sameAnswer_of_correct x zs zs' g (f3.imp fun v u hv => correct_of_exact x v u hv) (f3'.imp fun v u hv => correct_of_exact x v u hv)

/-! ### Conditions on the plain evaluation only -/

/-- The functions of the programs are among those of `AnyGood` (C71) along the plain evaluation. -/
def PlainStagesOk : List (Stage F) → List (PArr F) → Prop
  | [], _ => True
  | s :: ss, ys => ∀ as, plainStageArgs ys s.args = .ok as →
    DomProg (evPlain s.depth) (DomP reg AnyGood s.depth) s.prog s.consts as ∧ ∀ zs, evalPlain s.depth s.prog s.consts as = .ok zs → PlainStagesOk ss zs

/-- Every call gets some argument with derivatives (otherwise it is started afresh: C42). -/
def StagesCarry : List (Stage F) → List (PVal F) → Prop
  | [], _ => True
  | s :: ss, ys => ∀ as, stageArgs ys s.args = .ok as →
    (∃ v ∈ as, v.2.isLapl = true) ∧ ∀ zs, forwardLaplacian reg junk s.t s.depth s.prog s.consts s.weights as = .ok zs → StagesCarry ss zs

omit hn hs in
theorem stagesOk_of_plain {X : Type} [NormedAddCommGroup X] [NormedSpace ℝ X] (B : Base X) (hn : 0 < B.n) : ∀ (ss : List (Stage F)) (ys : List (PVal F)) (gs : List (FArr X F)),
    List.Forall₂ (Represents B filledInv) ys gs → PlainStagesOk reg ss (gs.map fun g => g.at B.x0) → StagesCarry reg junk ss ys → StagesOk reg junk B.n ss ys
  | [], _, _, _, _, _ => trivial
  | s :: ss, ys, gs, h, hp, hc => by
    intro as h1
    obtain ⟨us, h3, h4⟩ := stageArgs_rep B hn h s.args as h1
    obtain ⟨c1, c2⟩ := hc as h1
    obtain ⟨p1, p2⟩ := hp _ (h3 B.x0)
    have hgood : ∀ (p : Prim F) v, AnyGood p v → p.SoundAt filledInv (threshold s.t (as.map fun v => v.1).sum).toNat B.n v := fun p v hv => hv.sound hn p v
    have hdom : DomProg (evLapl reg junk (threshold s.t (as.map fun v => v.1).sum).toNat s.depth)
        (DomR reg junk (threshold s.t (as.map fun v => v.1).sum).toNat (ArrGoodCall (threshold s.t (as.map fun v => v.1).sum).toNat B.n) s.depth)
        (s.prog.map PVal.ofPlain) (s.consts.map PVal.ofPlain) as := by
      have h5 := domProg_transfer (at' := fun (g : FArr X F) x => g.at x)
        (cst := fun a => (⟨a.1, fun _ => a.2⟩ : FArr X F))
        (fun p => represents_const B _ p) (fun _ _ => rfl) B.x0 (evPlain s.depth) _ (DomP reg AnyGood s.depth) _ s.prog
        (fun e _ => evLapl_rel B _ reg junk _ AnyGood hgood s.depth e.op)
        (fun e _ => dom_of_plain B _ reg junk _ AnyGood hgood s.depth e.op) s.consts _ _ h4 p1
      exact fun st hst => domRun_mono _ _ _ (Dom.domR reg junk _ AnyGood _ (fun p o h => h.call) s.depth) _ _ (h5 st hst)
    refine ⟨c1, hdom, fun zs h2 => ?_⟩
    have h2' := h2
    unfold forwardLaplacian at h2
    dsimp only at h2
    rw [C05_resume _ _ _ c1] at h2
    dsimp only at h2
    obtain ⟨vs, h5, h6⟩ := evalLapl_run B filledInv reg junk _ _ (fun p o ho => ho.sound hn p o) s.depth s.prog s.consts as us zs h4 hdom h2
    exact stagesOk_of_plain B hn ss zs vs h6 (p2 _ (h5 B.x0)) (c2 zs h2')

/-- **C75 (programs).**  The same with conditions on the plain evaluation only. -/
theorem C75_programs (hw : weightArrs weights sizes = .ok (unflat sizes w)) (hd : AnyProgramOk reg d j consts sizes x)
    (ys zs : List (PVal F)) (h : forwardLaplacian reg junk t d j consts weights (plainArgs sizes x) = .ok ys)
    (ss : List (Stage F)) (hp : ∀ bs, evalPlain d j consts (unflat sizes x) = .ok bs → PlainStagesOk reg ss bs) (hc : StagesCarry reg junk ss ys)
    (hr : runStages reg junk ss ys = .ok zs) :
    ∃ f g : List (FArr (Fin n → ℝ) F),
      (∀ z, evalPlain d j consts (unflat sizes z) = .ok (f.map fun u => u.at z)) ∧
      (∀ z, plainStages ss (f.map fun u => u.at z) = .ok (g.map fun u => u.at z)) ∧
      List.Forall₂ (ExactVal w x) zs g := by
  have hrun := C71_run_of_program reg junk t hn sizes hs d j consts weights w x hw hd
  have hne : sizes ≠ [] := by
    rintro rfl
    simp at hs
    omega
  have h' := h
  have hrun' := hrun
  unfold ArrayRunOk plainArgs at hrun
  unfold forwardLaplacian at h
  rw [sizes_plainArgs, hs] at h
  dsimp only at h
  unfold plainArgs at h
  rw [initState_eq _ weights sizes hne hs w x hw] at h hrun
  dsimp only at h
  obtain ⟨outs, h1, h2⟩ := evalLapl_run (inputBase w x) filledInv reg junk _ (ArrGoodCall (threshold t n).toNat n)
    (fun p o ho => ho.sound hn p o) d j consts _ _ ys (filled_init _ w x sizes hs) (hrun _ rfl) h
  refine C75_pipeline reg junk t hn sizes hs d j consts weights w x hw hrun' ys zs h' ss ?_ hr
  refine stagesOk_of_plain reg junk (inputBase w x) hn ss ys outs h2 (hp _ ?_) hc
  have := h1 x
  rw [inputFns_at] at this
  exact this

end

/-! ### `exp(-f(x))` for `f(x) = exp(log|det(exp(x))|)`, in two calls -/

namespace PipeDemo
open ArrRunDemo DotArrDemo
open ArrDemo hiding expP expA exp_bind exp_good

/-- `lambda y: jnp.exp(y)` -/
noncomputable def expProg : Jaxpr (Op 1 ℝ) (PArr ℝ) where
  constvars := []
  invars := [0]
  eqns := [⟨OpStep.prim exp0P, [.var 0], [1]⟩]
  outvars := [.var 1]

/-- `-y`. -/
noncomputable def neg : ResultOp ℝ := .map (-ContinuousLinearMap.id ℝ ℝ)

/-- The second call: its argument is the second result of the first call, after the given operations. -/
noncomputable def stage (t : ℚ) (ops : List (ResultOp ℝ)) : Stage ℝ := ⟨[(1, ops)], t, 1, expProg, [], .absent⟩

theorem stage_plain (x : Fin 4 → ℝ) (t : ℚ) (bs : List (PArr ℝ)) (h : evalPlain 1 ArrRunDemo.prog [] (unflat [4] x) = .ok bs) :
    PlainStagesOk Demo.reg [stage t [.dense, neg]] bs := by
  rw [ArrRunDemo.prog_eval] at h
  obtain rfl := Except.ok.inj h
  intro as ha
  obtain rfl := Except.ok.inj ha
  refine ⟨fun s hs => ?_, fun _ _ => trivial⟩
  obtain rfl := Except.ok.inj hs
  exact Demo.domRun_step _ _ rfl (fun x _ => exp0_good x) (exp0_bind _) _ rfl trivial

theorem stage_eval (t : ℚ) (a b : Fin 1 → ℝ) : plainStages [stage t [.dense, neg]] [⟨1, a⟩, ⟨1, b⟩] = .ok [⟨1, fun q => Real.exp (-b q)⟩] := by
  have h : evalPlain 1 expProg [] [⟨1, fun q => -b q⟩] = .ok [⟨1, fun q => Real.exp (-b q)⟩] :=
    eval_of (ev := evPlain 1) (j := expProg) rfl (run_step _ _ rfl (exp0_bind _) _ rfl rfl) rfl
  have h1 : plainStageArgs [⟨1, a⟩, ⟨1, b⟩] [(1, [.dense, neg])] = .ok [(⟨1, fun q => -b q⟩ : PArr ℝ)] := rfl
  simp only [plainStages, stage, h1, h]

/-- `lambda x: x` for four numbers. -/
def idProg4 : Jaxpr (Op 1 ℝ) (PArr ℝ) where
  constvars := []
  invars := [0]
  eqns := []
  outvars := [.var 0]

end PipeDemo

open PipeDemo in
/-- All thresholds in both calls: what comes out are the derivatives of `exp(-exp(log|det(exp(x))|))` with respect to the first input. -/
example (junk : List (PVal ℝ) → PVal ℝ) (t t' : ℚ) (x : Fin 4 → ℝ) (h0 : ArrRunDemo.det2 (fun q => Real.exp (x q)) ≠ 0) (v : PVal ℝ) (y : Trip (Fin 1) ℝ)
    (h : forwardLaplacian Demo.reg junk t 1 ArrRunDemo.prog [] .absent (plainArgs [4] x) = .ok [v, ⟨1, .lapl y⟩]) (zs : List (PVal ℝ))
    (hr : runStages Demo.reg junk [stage t' [.dense, neg]] [v, ⟨1, .lapl y⟩] = .ok zs) :
    List.Forall₂ (ExactVal (fun _ => 1) x) zs [⟨1, fun z _ => Real.exp (-Real.exp (Real.log |ArrRunDemo.det2 fun q => Real.exp (z q)|))⟩] := by
  obtain ⟨f, g, f1, f2, f3⟩ := C75_programs Demo.reg junk t (n := 4) (by decide) [4] rfl 1 ArrRunDemo.prog [] .absent (fun _ => 1) x (weights_absent [4] rfl)
    (ArrRunDemo.prog_ok x h0) _ zs h [stage t' [.dense, neg]] (stage_plain x t') (by
      intro as ha
      refine ⟨?_, fun _ _ => trivial⟩
      show ∃ v ∈ as, v.2.isLapl = true
      change stageArgs [v, (⟨1, .lapl y⟩ : PVal ℝ)] [(1, [.dense, neg])] = .ok as at ha
      cases hd : y.toDense with
      | error e => simp [stageArgs, runOps, ResultOp.run, hd] at ha
      | ok y' =>
        simp [stageArgs, runOps, ResultOp.run, hd, neg] at ha
        subst ha
        exact ⟨_, List.mem_cons_self, rfl⟩) hr
  have e : ∀ z, g.map (fun u => u.at z) = [⟨1, fun _ => Real.exp (-Real.exp (Real.log |ArrRunDemo.det2 fun q => Real.exp (z q)|))⟩] := by
    intro z
    have h1 := f1 z
    rw [ArrRunDemo.prog_eval] at h1
    have h2 := f2 z
    rw [← Except.ok.inj h1] at h2
    exact (Except.ok.inj h2).symm.trans (Except.ok.inj (stage_eval t' (fun _ => ArrRunDemo.det2 (fun q => Real.exp (z q)) / |ArrRunDemo.det2 fun q => Real.exp (z q)|) fun _ => Real.exp (Real.log |ArrRunDemo.det2 fun q => Real.exp (z q)|)))
  rw [farr_ext g [⟨1, fun z _ => Real.exp (-Real.exp (Real.log |ArrRunDemo.det2 fun q => Real.exp (z q)|))⟩] e] at f3
  exact f3

open PipeDemo DotArrDemo in
/-- A pipeline with a sparse first result that returns. -/
example (junk : List (PVal ℝ) → PVal ℝ) (x : Fin 4 → ℝ) : ∃ ys zs, forwardLaplacian Demo.reg junk 6 1 idProg4 [] .absent (plainArgs [4] x) = .ok ys ∧
    runStages Demo.reg junk [⟨[(0, [.dense, neg])], 2, 1, idProg4, [], .absent⟩] ys = .ok zs ∧ StagesCarry Demo.reg junk [⟨[(0, [.dense, neg])], 2, 1, idProg4, [], .absent⟩] ys ∧
    List.Forall₂ (ExactVal (fun _ => 1) x) zs [⟨4, fun z q => -z q⟩] := by
  have ht : threshold 6 4 = 6 := by decide
  have h1 := forward_start (F := ℝ) (n := 4) Demo.reg junk 6 1 idProg4 [] [4] (by simp) rfl .absent (fun _ => 1) x (weights_absent [4] rfl)
  have h2 : forwardLaplacian Demo.reg junk 6 1 idProg4 [] .absent (plainArgs [4] x) = .ok (initSpec true (fun _ : Fin 4 => 1) x 0 [4]) := by
    rw [h1]
    rfl
  obtain ⟨y, hy, hyr⟩ : ∃ y : Trip (Fin 4) ℝ, initSpec true (fun _ : Fin 4 => 1) x 0 [4] = [⟨4, .lapl y⟩] ∧ 0 < y.jac.nrows := ⟨_, rfl, Nat.one_pos⟩
  obtain ⟨y', hd⟩ := C75_dense_returns (by decide) y fun _ => hyr
  rw [hy] at h2
  obtain ⟨y2, h3⟩ : ∃ y2 : Trip (Fin 4) ℝ, stageArgs [⟨4, .lapl y⟩] [(0, [.dense, neg])] = .ok [⟨4, .lapl y2⟩] := by
    refine ⟨⟨fun p => -y'.x p, y'.jac.mapData fun z => -z, fun p => -y'.lapl p⟩, ?_⟩
    simp only [stageArgs, runOps, ResultOp.run, hd, neg, List.getElem?_cons_zero]
    rfl
  have hl : ∃ v ∈ [(⟨4, .lapl y2⟩ : PVal ℝ)], v.2.isLapl = true := ⟨_, List.mem_cons_self, rfl⟩
  have h4 : forwardLaplacian Demo.reg junk 2 1 idProg4 [] .absent [⟨4, .lapl y2⟩] = .ok [⟨4, .lapl y2⟩] := by
    unfold forwardLaplacian
    dsimp only
    rw [C05_resume _ _ _ hl]
    rfl
  have hc : StagesCarry Demo.reg junk [⟨[(0, [.dense, neg])], 2, 1, idProg4, [], .absent⟩] [⟨4, .lapl y⟩] := by
    intro as ha
    obtain rfl := Except.ok.inj (h3.symm.trans ha)
    exact ⟨hl, fun _ _ => trivial⟩
  have h5 : runStages Demo.reg junk [⟨[(0, [.dense, neg])], 2, 1, idProg4, [], .absent⟩] [⟨4, .lapl y⟩] = .ok [⟨4, .lapl y2⟩] := by
    simp only [runStages, h3, h4]
  refine ⟨_, _, h2, h5, hc, ?_⟩
  have hid : ∀ a : Fin 4 → ℝ, evalPlain 1 idProg4 [] [⟨4, a⟩] = .ok [⟨4, a⟩] := fun a => rfl
  obtain ⟨f, g, f1, f2, f3⟩ := C75_programs Demo.reg junk 6 (n := 4) (by decide) [4] rfl 1 idProg4 [] .absent (fun _ => 1) x (weights_absent [4] rfl)
    (fun _ _ => trivial) _ _ h2 [⟨[(0, [.dense, neg])], 2, 1, idProg4, [], .absent⟩] (fun bs _ as _ => ⟨fun _ _ => trivial, fun _ _ => trivial⟩) hc h5
  have e : ∀ z, g.map (fun u => u.at z) = [⟨4, fun q => -z q⟩] := by
    intro z
    have g1 := f1 z
    rw [unflat_four, hid] at g1
    have g2 := f2 z
    rw [← Except.ok.inj g1] at g2
    have g3 : plainStageArgs [⟨4, z⟩] [(0, [.dense, neg])] = .ok [(⟨4, fun q => -z q⟩ : PArr ℝ)] := rfl
    simp only [plainStages, g3, hid] at g2
    exact (Except.ok.inj g2).symm
  rw [farr_ext g [⟨4, fun z q => -z q⟩] e] at f3
  exact f3

end Folx

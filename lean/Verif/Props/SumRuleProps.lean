import Verif.ND.RuleSpecProofs
import Verif.Core.RaiseProofs
import Verif.Props.JvpProps

/-!
# C53, C54: the sparse rules on arrays with explicit shapes
-/

namespace Folx.Layout
open Vmap Dot

variable {F : Type} [CommRing F] [Inhabited F]

/-- **C53 (sums).**  Summing an array of any shape along any distinct axes: the rule for sparse Jacobians returns; value and
Laplacian are summed, the derivative of every result with respect to every input is the sum of the derivatives of the
summed elements, and the returned Jacobian is well-formed, with at most `T` rows if it is sparse. -/
theorem C53_sum (T n : ℕ) {x lapl data : ND F} {x0 : ND ℤ} {s dims : List ℕ} {K : ℕ} (hx : x.shape = s) (hl : lapl.shape = s)
    (hd : data.shape = K :: s) (hi : x0.shape = K :: s) (hK : K ≠ 0) (h0 : 0 ∉ s) (hnd : dims.Nodup)
    (hlt : ∀ d ∈ dims, d < s.length) (hwf : ArrJac.For ⟨data, some x0⟩ n s) :
    ∃ y j l, sparseSumArr T x lapl data x0 dims = some (y, j, l) ∧
      y.shape = dropDims s dims ∧ l.shape = dropDims s dims ∧ j.For n (dropDims s dims) ∧
      (j.idx ≠ none → j.data.shape.getD 0 0 ≤ T) ∧
      ∀ q, InB q (dropDims s dims) → y.get q = sumOver s dims x.get q ∧ l.get q = sumOver s dims lapl.get q ∧
        ∀ i, j.entry i q = sumOver s dims (ArrJac.entry ⟨data, some x0⟩ i) q := by
  have hp := keptDims_perm hnd hlt
  obtain ⟨y, j, l, h1, h2, h3, h4, h5, h6⟩ := sparseSumArr_refines T hx hl hd hi hK h0 hp
  have hw : (ArrJac.rep s (⟨data, some x0⟩ : ArrJac F)).Wf n :=
    (ArrJac.rep_wf (K := K) hd (fun m hm => by obtain rfl := Option.some.inj hm; exact hi.trans hd.symm)).mpr hwf
  obtain ⟨hspec, hT⟩ := sparseSum_spec n (sumInst (axesRedOf s dims hp) Flags.SUMMATION fun q => (axesRedOf s dims hp).split.symm
      ((axesRedOf s dims hp).κ q, ⟨0, Nat.pos_of_ne_zero (by
        intro e
        obtain ⟨d, hd', e⟩ := List.mem_map.mp (List.prod_eq_zero_iff.mp e)
        rw [List.getD_eq_getElem _ _ (hlt d hd')] at e
        exact h0 (e ▸ List.getElem_mem _))⟩)) (axesRedOf s dims hp) T
    ⟨vecOf x s.prod, ArrJac.rep s ⟨data, some x0⟩, vecOf lapl s.prod⟩ (fun t q => by simp [sumInst]) (fun q => rfl) hw _ h6
  obtain ⟨K', h4⟩ := h4
  refine ⟨y, j, l, h1, h2, h3, (ArrJac.rep_wf h4 h5).mp hspec.wf, fun hj => ?_, fun q hq => ?_⟩
  · obtain ⟨m, hm⟩ := Option.ne_none_iff_exists'.mp hj
    have := hT _ (by unfold ArrJac.rep; rw [hm])
    rwa [List.length_map, List.length_range] at this
  · obtain ⟨q', hq'⟩ : ∃ q' : Fin (sizes s (keptDims s.length dims)).prod, unravelIdx _ q' = q :=
      ⟨⟨_, ravelIdx_lt hq⟩, unravelIdx_ravelIdx hq⟩
    subst hq'
    have ey := congrFun hspec.y q'
    have el := congrFun hspec.lapl q'
    refine ⟨?_, ?_, fun i => ?_⟩
    · rw [sumOver_eq hp]
      refine Eq.trans ?_ ey |>.trans ?_
      · exact (congrFun (vecOf_eq h2) q').symm
      · show (∑ c : Fin (sizes s dims).prod, vecOf x s.prod _) = _
        rw [vecOf_eq hx]
        rfl
    · rw [sumOver_eq hp]
      refine Eq.trans ?_ el |>.trans ?_
      · exact (congrFun (vecOf_eq h3) q').symm
      · show (∑ c : Fin (sizes s dims).prod, vecOf lapl s.prod _) = _
        rw [vecOf_eq hl]
        rfl
    · rw [sumOver_eq hp]
      refine Eq.trans (ArrJac.rep_den j _ i q').symm ((hspec.jac i q').trans ?_)
      show (∑ c : Fin (sizes s dims).prod, (ArrJac.rep s (⟨data, some x0⟩ : ArrJac F)).den i _) = _
      exact Finset.sum_congr rfl fun c _ => ArrJac.rep_den _ _ _ _

/-- A linear function between arrays, registered with axes, as a folx function. -/
def linInst {P Q : Type} (D : (P → F) →ₗ[F] (Q → F)) (r : Red P Q) (π : Q → P) : Inst 1 (fun _ => P) Q F where
  fwd := fun x => D (x 0)
  jvp := fun _ => D.comp (LinearMap.proj 0)
  flags := Flags.GENERAL
  elem := false
  π := fun _ => π
  same := fun _ => none
  ax := fun _ => .red r
  src := fun _ => none
  static := false
  role := fun _ => .operand
  multi := false

theorem singleAxes_flat {n : ℕ} {a : List ℤ} (hr : ∀ i ∈ a, -(n : ℤ) ≤ i ∧ i < n)
    (hnd : (a.map (axisOf n)).Nodup) : singleAxes n (.flat a) = some (a.map (axisOf n)) := by
  unfold singleAxes axesRows resolveRow
  dsimp only
  unfold validAxes
  have h : (a.map fun i => if i < 0 then i + (n : ℤ) else i).Nodup ∧
      ∀ i ∈ a.map fun i => if i < 0 then i + (n : ℤ) else i, 0 ≤ i ∧ i < n := by
    refine ⟨List.Nodup.of_map Int.toNat ?_, ?_⟩
    · rw [List.map_map]
      exact hnd
    · intro i hi
      obtain ⟨j, hj, rfl⟩ := List.mem_map.mp hi
      have := hr j hj
      split <;> omega
  rw [if_pos h, List.map_map]
  rfl

/-- The linear map of a linear function on arrays. -/
def LinearArr.map {push : ND F → ND F} {s o : List ℕ} (h : LinearArr push s o) : (Fin s.prod → F) →ₗ[F] (Fin o.prod → F) where
  toFun t q := (push (toND s t)).get (unravelIdx o q)
  map_add' t u := by
    funext q
    refine h.add (toND s t) (toND s u) (toND s (t + u)) rfl rfl rfl (fun p hp => ?_) _ (inB_unravelIdx q.2)
    rw [toND_get _ _ hp, toND_get _ _ hp, toND_get _ _ hp]
    rfl
  map_smul' c t := by
    funext q
    refine h.smul c (toND s t) (toND s (c • t)) rfl rfl (fun p hp => ?_) _ (inB_unravelIdx q.2)
    rw [toND_get _ _ hp, toND_get _ _ hp]
    rfl

/-- **C53 (reductions).**  A function registered with axes `a` (negative ones count from the back) whose output element `q` depends
only on the elements with kept coordinates `bcoord … q` (numpy broadcasting of the kept axes to the output; for a function that
removes the axes, `q` itself); `push` is its derivative at the point.  The rule for sparse Jacobians raises exactly if no element depends on an
input, switches to the dense rule exactly if some kept position depends on more than `T` inputs, and otherwise returns a sparse
Jacobian with at most `T` rows, in which the derivatives of the result with respect to every input are the images of the derivatives of
the argument. -/
theorem C53_reduction (T n : ℕ) {lapl data : ND F} {x0 : ND ℤ} {s o : List ℕ} {K : ℕ} {a : List ℤ} {dims : List ℕ}
    {push : ND F → ND F} (hl : lapl.shape = s) (hd : data.shape = K :: s) (hi : x0.shape = K :: s) (h0 : 0 ∉ s)
    (hr : ∀ i ∈ a, -(s.length : ℤ) ≤ i ∧ i < s.length) (hdims : dims = a.map (axisOf s.length)) (hnd : dims.Nodup)
    (hb : Broadcasts [dropDims s dims, o] o) (hlin : LinearArr push s o)
    (hdep : DependsOn push s dims o (bcoord (dropDims s dims) o)) (hn : 0 < n) (hwf : ArrJac.For ⟨data, some x0⟩ n s) :
    (sparseReduceArr T push o lapl data x0 (.flat a) = none ↔ ∀ u, InB u (dropDims s dims) → depsOf x0 s dims u = ∅) ∧
    (sparseReduceArr T push o lapl data x0 (.flat a) = some .dense ↔
      ∃ u, InB u (dropDims s dims) ∧ T < (depsOf x0 s dims u).card) ∧
    ∀ j l, sparseReduceArr T push o lapl data x0 (.flat a) = some (.sparse j l) →
      j.For n o ∧ j.idx ≠ none ∧ j.data.shape.getD 0 0 ≤ T ∧ l.shape = o ∧ ∀ q, InB q o →
        l.get q = (push lapl).get q ∧
        ∀ i, j.entry i q = (push (ND.ofFn s (ArrJac.entry ⟨data, some x0⟩ i))).get q := by
  have ha : singleAxes s.length (.flat a) = some dims := (singleAxes_flat hr (hdims ▸ hnd)).trans (congrArg some hdims.symm)
  have hp := singleAxes_perm ha
  have hk : 0 < (sizes s (keptDims s.length dims)).prod := by
    refine Nat.pos_of_ne_zero fun e => h0 ?_
    obtain ⟨d, hd', e⟩ := List.mem_map.mp (List.prod_eq_zero_iff.mp e)
    have hd' : d < s.length := by simpa using (List.mem_filter.mp hd').1
    rw [List.getD_eq_getElem _ _ hd'] at e
    exact e ▸ List.getElem_mem _
  have hfirst : (sparseReduceArr T push o lapl data x0 (.flat a) = none ↔ ∀ u, InB u (dropDims s dims) → depsOf x0 s dims u = ∅) ∧
      (sparseReduceArr T push o lapl data x0 (.flat a) = some .dense ↔
      ∃ u, InB u (dropDims s dims) ∧ T < (depsOf x0 s dims u).card) := by
    rcases jacForReduction_mask (data := data) hd hi h0 ha with ⟨h1, h2⟩ | ⟨G, M, N, hN, h1, h2, h3, h4, ⟨u, hu, h5⟩, -⟩
    · have : sparseReduceArr T push o lapl data x0 (.flat a) = none := by
        unfold sparseReduceArr
        rw [h1]
        rfl
      rw [this]
      refine ⟨⟨fun _ => h2, fun _ => rfl⟩, ⟨fun e => by simp at e, ?_⟩⟩
      rintro ⟨u, hu, hT⟩
      rw [h2 u hu] at hT
      simp at hT
    · have hne : ¬ ∀ u, InB u (dropDims s dims) → depsOf x0 s dims u = ∅ := by
        intro h
        rw [h u hu, Finset.card_empty] at h5
        omega
      have hiff : (∃ u, InB u (dropDims s dims) ∧ T < (depsOf x0 s dims u).card) ↔ T < N :=
        ⟨fun ⟨v, hv, hT⟩ => lt_of_lt_of_le hT (h4 v hv), fun hT => ⟨u, hu, by rw [h5]; exact hT⟩⟩
      rw [hiff]
      rcases sparseReduceArr_step T (push := push) (o := o) hl h1 h2 h3 with ⟨hT, e⟩ | ⟨-, hnb, -⟩ | ⟨hT, -, g, m, l, e, -⟩
      · rw [e]
        exact ⟨⟨fun e => by simp at e, fun h => absurd h hne⟩, ⟨fun _ => hT, fun _ => rfl⟩⟩
      · exact absurd hb hnb
      · rw [e]
        exact ⟨⟨fun e => by simp at e, fun h => absurd h hne⟩, ⟨fun e => by simp at e, fun h => by omega⟩⟩
  refine ⟨hfirst.1, hfirst.2, fun j l he => ?_⟩
  have hpush : ∀ t : ND F, t.shape = s → push t = toND o (hlin.map (vecOf t s.prod)) := by
    intro t ht
    have e : toND s (vecOf t s.prod) = t := toND_vecOf t s ht
    have h1 : hlin.map (vecOf t s.prod) = vecOf (push t) o.prod := by
      funext q
      show (push (toND s (vecOf t s.prod))).get _ = _
      rw [e, vecOf_eq (hlin.shape t ht)]
    rw [h1, toND_vecOf _ _ (hlin.shape t ht)]
  have hw : (ArrJac.rep s (⟨data, some x0⟩ : ArrJac F)).Wf n :=
    (ArrJac.rep_wf (K := K) hd (fun m hm => by obtain rfl := Option.some.inj hm; exact hi.trans hd.symm)).mpr hwf
  have hp0 : 0 < s.prod := Nat.pos_of_ne_zero (by rwa [Ne, List.prod_eq_zero_iff])
  obtain ⟨x, hx⟩ : ∃ x : Fin s.prod → F, x = fun _ => 0 := ⟨_, rfl⟩
  have href := sparseReduceArr_refines T hl hd hi h0 ha hk hb (linInst hlin.map (axesRedK s dims hp (bpos _ o hk)) fun _ => ⟨0, hp0⟩) rfl x
    (push := push) hpush
  rw [he] at href
  rcases href with ⟨e, -⟩ | ⟨e, -⟩ | ⟨j', l', e, ⟨N, hs1⟩, hs2, ⟨m, hm1, hm2⟩, hs4, hcore⟩
  · simp at e
  · simp at e
  · obtain ⟨rfl, rfl⟩ := ReduceOut.sparse.inj (Option.some.inj e)
    obtain ⟨hspec, -⟩ := sparseReduce_spec n hn (linInst hlin.map (axesRedK s dims hp (bpos _ o hk)) fun _ => ⟨0, hp0⟩)
      (axesRedK s dims hp (bpos _ o hk)) T ⟨x, ArrJac.rep s ⟨data, some x0⟩, vecOf lapl s.prod⟩ (by
        intro t q ht
        have hq := inB_unravelIdx q.2
        refine hdep (toND s t) rfl _ hq fun p hpB hkp => ?_
        rw [toND_get _ _ hpB]
        obtain ⟨hin, hbq⟩ := bpos_eq hb (by rw [dropDims_eq]; simp) hk q
        have hin' : InB (bcoord (dropDims s dims) o (unravelIdx o q)) (dropDims s dims) := hin
        have h1 := (keptOf_split hp ⟨ravelIdx s p, ravelIdx_lt hpB⟩ (bpos (sizes s (keptDims s.length dims)) o hk q)).mp (by
          show keptOf dims (unravelIdx s (ravelIdx s p)) = _
          rw [unravelIdx_ravelIdx hpB, hkp, hbq]
          exact (unravelIdx_ravelIdx hin).symm)
        have h2 := ht ((axesSplit s _ dims hp) ⟨ravelIdx s p, ravelIdx_lt hpB⟩).2
        have h3 : (axesSplit s (keptDims s.length dims) dims hp).symm (bpos (sizes s (keptDims s.length dims)) o hk q,
            ((axesSplit s _ dims hp) ⟨ravelIdx s p, ravelIdx_lt hpB⟩).2) = ⟨ravelIdx s p, ravelIdx_lt hpB⟩ := by
          rw [← h1, Prod.mk.eta, Equiv.symm_apply_apply]
        rw [← h3]
        exact h2) (by intro h; simp [linInst] at h) hw _ hcore
    refine ⟨(ArrJac.rep_wf hs1 (fun m' hm' => by rw [hm1] at hm'; obtain rfl := Option.some.inj hm'; exact hm2)).mp hspec.wf,
      by rw [hm1]; simp, hs4, hs2, fun q hq => ?_⟩
    obtain ⟨q', hq'⟩ : ∃ q' : Fin o.prod, unravelIdx _ q' = q := ⟨⟨_, ravelIdx_lt hq⟩, unravelIdx_ravelIdx hq⟩
    subst hq'
    constructor
    · have := congrFun hspec.lapl q'
      refine Eq.trans ?_ this |>.trans ?_
      · exact (congrFun (vecOf_eq hs2) q').symm
      · show (push (toND s (vecOf lapl s.prod))).get _ = _
        rw [toND_vecOf _ _ hl]
    · intro i
      refine Eq.trans (ArrJac.rep_den j _ i q').symm ((hspec.jac i q').trans ?_)
      show (push (toND s _)).get _ = _
      congr 2
      refine ND.ext_get rfl fun p hpB => ?_
      have hpB : InB p s := hpB
      rw [toND_get _ _ hpB, ND.get_ofFn _ hpB]
      refine (ArrJac.rep_den ⟨data, some x0⟩ s i ⟨ravelIdx s p, ravelIdx_lt hpB⟩).trans ?_
      show ArrJac.entry _ i (unravelIdx s (ravelIdx s p)) = _
      rw [unravelIdx_ravelIdx hpB]

/-! ### Concrete arrays -/

/-- Two rows of two elements; row `i` depends on input `i`. -/
def exData : ND ℤ := ⟨[1, 2, 2], [1, 1, 1, 1], rfl⟩
def exIdx : ND ℤ := ⟨[1, 2, 2], [0, 0, 1, 1], rfl⟩
def exLapl : ND ℤ := ⟨[2, 2], [5, 6, 7, 8], rfl⟩
/-- The row sums. -/
def exRowSum (t : ND ℤ) : ND ℤ := ND.ofFn [2] fun w => t.get [w.getD 0 0, 0] + t.get [w.getD 0 0, 1]
/-- The row sums, repeated along the rows: `jnp.broadcast_to(x.sum(-1, keepdims=True), x.shape)`. -/
def exRepeat (t : ND ℤ) : ND ℤ := ND.ofFn [2, 2] fun w => t.get [w.getD 0 0, 0] + t.get [w.getD 0 0, 1]

theorem inB_two {p : List ℕ} {a b : ℕ} (h : InB p [a, b]) : ∃ i j, i < a ∧ j < b ∧ p = [i, j] := by
  obtain ⟨i, p', rfl, hi, h'⟩ := InB.cons_right h
  obtain ⟨j, p'', rfl, hj, h''⟩ := InB.cons_right h'
  cases h''
  exact ⟨i, j, hi, hj, rfl⟩

theorem inB_one {p : List ℕ} {a : ℕ} (h : InB p [a]) : ∃ i, i < a ∧ p = [i] := by
  obtain ⟨i, p', rfl, hi, h'⟩ := InB.cons_right h
  cases h'
  exact ⟨i, hi, rfl⟩

instance (p s : List ℕ) : Decidable (InB p s) := by unfold InB; infer_instance

theorem exFor : ArrJac.For (⟨exData, some exIdx⟩ : ArrJac ℤ) 2 [2, 2] := by
  refine ⟨⟨1, rfl⟩, rfl, fun k p hk hp => ?_⟩
  obtain ⟨i, j, hi, hj, rfl⟩ := inB_two hp
  have hk : k < 1 := hk
  interval_cases k
  interval_cases i <;> interval_cases j <;> decide

theorem exDeps {i : ℕ} (hi : i < 2) : depsOf exIdx [2, 2] [1] [i] = {(i : ℤ)} := by
  interval_cases i <;> decide

/-- The hypotheses of `C53_sum` are met: summing the rows. -/
example (T : ℕ) : ∃ y j l, sparseSumArr T exLapl exLapl exData exIdx [1] = some (y, j, l) ∧ y.shape = [2] ∧
    j.entry 0 [0] = 2 ∧ j.entry 0 [1] = 0 ∧ j.entry 1 [1] = 2 ∧ l.get [1] = 15 := by
  obtain ⟨y, j, l, h1, h2, -, -, -, h3⟩ := C53_sum (F := ℤ) T 2 (x := exLapl) (lapl := exLapl) (data := exData) (x0 := exIdx) (s := [2, 2])
    (dims := [1]) (K := 1) rfl rfl rfl rfl (by decide) (by decide) (by decide) (by decide) exFor
  refine ⟨y, j, l, h1, h2, ?_, ?_, ?_, ?_⟩
  · rw [(h3 [0] (by decide)).2.2 0]; decide
  · rw [(h3 [1] (by decide)).2.2 0]; decide
  · rw [(h3 [1] (by decide)).2.2 1]; decide
  · rw [(h3 [1] (by decide)).2.1]; decide

theorem exLinear : LinearArr exRowSum [2, 2] [2] where
  shape _ _ := rfl
  add t u v _ _ _ h q hq := by
    obtain ⟨i, hi, rfl⟩ := inB_one hq
    have h0 := h [i, 0] (List.Forall₂.cons hi (List.Forall₂.cons (by decide) List.Forall₂.nil))
    have h1 := h [i, 1] (List.Forall₂.cons hi (List.Forall₂.cons (by decide) List.Forall₂.nil))
    unfold exRowSum
    rw [ND.get_ofFn _ hq, ND.get_ofFn _ hq, ND.get_ofFn _ hq]
    show v.get [i, 0] + v.get [i, 1] = (t.get [i, 0] + t.get [i, 1]) + (u.get [i, 0] + u.get [i, 1])
    rw [h0, h1]; ring
  smul c t v _ _ h q hq := by
    obtain ⟨i, hi, rfl⟩ := inB_one hq
    have h0 := h [i, 0] (List.Forall₂.cons hi (List.Forall₂.cons (by decide) List.Forall₂.nil))
    have h1 := h [i, 1] (List.Forall₂.cons hi (List.Forall₂.cons (by decide) List.Forall₂.nil))
    unfold exRowSum
    rw [ND.get_ofFn _ hq, ND.get_ofFn _ hq]
    show v.get [i, 0] + v.get [i, 1] = c * (t.get [i, 0] + t.get [i, 1])
    rw [h0, h1]; ring

/-- The hypotheses of `C53_reduction` are met: the row sums, registered with `in_axes=-1`, and a threshold of at least 1. -/
example (T : ℕ) (hT : 1 ≤ T) : ∃ j l, sparseReduceArr T exRowSum [2] exLapl exData exIdx (.flat [-1]) = some (.sparse j l) ∧
    j.entry 0 [0] = 2 ∧ j.entry 1 [0] = 0 ∧ l.get [1] = 15 := by
  obtain ⟨h1, h2, h3⟩ := C53_reduction (F := ℤ) T 2 (lapl := exLapl) (data := exData) (x0 := exIdx) (s := [2, 2]) (o := [2]) (K := 1)
    (a := [-1]) (dims := [1]) (push := exRowSum) rfl rfl rfl (by decide) (by decide) (by decide) (by decide)
    (broadcasts_self [2]) exLinear (by
      intro t _ q hq h
      obtain ⟨i, hi, rfl⟩ := inB_one hq
      unfold exRowSum
      rw [ND.get_ofFn _ hq]
      show t.get [i, 0] + t.get [i, 1] = 0
      rw [h [i, 0] (List.Forall₂.cons hi (List.Forall₂.cons (by decide) List.Forall₂.nil)) (by interval_cases i <;> decide),
        h [i, 1] (List.Forall₂.cons hi (List.Forall₂.cons (by decide) List.Forall₂.nil)) (by interval_cases i <;> decide)]
      rfl) (by decide) exFor
  cases hres : sparseReduceArr T exRowSum [2] exLapl exData exIdx (.flat [-1]) with
  | none =>
    have := h1.mp hres [0] (by decide)
    rw [exDeps (by decide)] at this
    simp at this
  | some o =>
    cases o with
    | dense =>
      obtain ⟨u, hu, hc⟩ := h2.mp hres
      obtain ⟨i, hi, rfl⟩ := inB_one (show InB u [2] from hu)
      rw [exDeps hi, Finset.card_singleton] at hc
      omega
    | sparse j l =>
      obtain ⟨-, -, -, -, h4⟩ := h3 j l hres
      refine ⟨j, l, rfl, ?_, ?_, ?_⟩
      · rw [(h4 [0] (by decide)).2 0]; decide
      · rw [(h4 [0] (by decide)).2 1]; decide
      · rw [(h4 [1] (by decide)).1]; decide

/-! ### C54: functions whose output keeps axes of its own -/

/-- **C54 (where the masks go).**  The index stored at output element `q` is one on which the elements with kept coordinates
`bcoord … q` depend: the kept axes are matched with the *last* axes of the output, whatever the function does. -/
theorem C54_masks_at_back (T : ℕ) {lapl data : ND F} {x0 : ND ℤ} {s o dims : List ℕ} {K : ℕ} {axes : AxesArg} {push : ND F → ND F}
    (hl : lapl.shape = s) (hd : data.shape = K :: s) (hi : x0.shape = K :: s) (h0 : 0 ∉ s)
    (ha : singleAxes s.length axes = some dims) {j : ArrJac F} {l : ND F}
    (h : sparseReduceArr T push o lapl data x0 axes = some (.sparse j l)) :
    ∃ m, j.idx = some m ∧ ∀ k q, k < j.data.shape.getD 0 0 → InB q o →
      m.get (k :: q) = -1 ∨ m.get (k :: q) ∈ depsOf x0 s dims (bcoord (dropDims s dims) o q) := by
  rcases jacForReduction_mask (data := data) hd hi h0 ha with ⟨h1, h2⟩ | ⟨G, M, N, hN, h1, h2, h3, -, -, h6⟩
  · unfold sparseReduceArr at h
    rw [h1] at h
    cases h
  rcases sparseReduceArr_step T (push := push) (o := o) hl h1 h2 h3 with ⟨-, e⟩ | ⟨-, -, e⟩ | ⟨-, hb, g, m, l', e, hg, -, -, -, hm, -⟩
  · rw [e] at h; cases h
  · rw [e] at h; cases h
  · rw [e] at h
    obtain ⟨rfl, rfl⟩ := ReduceOut.sparse.inj (Option.some.inj h)
    refine ⟨m, rfl, fun k q hk hq => ?_⟩
    have hk : k < N := by rw [hg] at hk; exact hk
    obtain ⟨b1, b2⟩ := broadcasts_aligned hb (s := dropDims s dims) (by simp)
    rw [hm k q hk hq, h6 k _ hk (inB_bcoord b1 b2 hq)]
    by_cases hlt : k < ((depsOf x0 s dims (bcoord (dropDims s dims) o q)).sort (· ≤ ·)).length
    · right
      rw [List.getD_eq_getElem _ _ hlt]
      exact (Finset.mem_sort (· ≤ ·)).mp (List.getElem_mem _)
    · left
      rw [List.getD_eq_default _ _ (Nat.le_of_not_lt hlt)]

/-- **C54 (other shapes).**  If the kept axes cannot be broadcast to the output shape, the rule raises (or the dense rule is used). -/
theorem C54_shape_raises (T : ℕ) {lapl data : ND F} {x0 : ND ℤ} {s o dims : List ℕ} {K : ℕ} {axes : AxesArg} {push : ND F → ND F}
    (hl : lapl.shape = s) (hd : data.shape = K :: s) (hi : x0.shape = K :: s) (h0 : 0 ∉ s)
    (ha : singleAxes s.length axes = some dims) (hb : ¬ Broadcasts [dropDims s dims, o] o)
    (hT : ∀ u, InB u (dropDims s dims) → (depsOf x0 s dims u).card ≤ T) :
    sparseReduceArr T push o lapl data x0 axes = none := by
  rcases jacForReduction_mask (data := data) hd hi h0 ha with ⟨h1, -⟩ | ⟨G, M, N, hN, h1, h2, h3, -, ⟨u, hu, h5⟩, -⟩
  · unfold sparseReduceArr
    rw [h1]
    rfl
  rcases sparseReduceArr_step T (push := push) (o := o) hl h1 h2 h3 with ⟨hlt, -⟩ | ⟨-, -, e⟩ | ⟨-, hb', -⟩
  · have := hT u hu
    omega
  · exact e
  · exact absurd hb' hb

/-- **C54 (per-argument axes).**  `in_axes` given per argument with a number of rows other than one makes the rule raise for one
sparse argument. -/
theorem C54_nested_raises (T : ℕ) (lapl data : ND F) (x0 : ND ℤ) (o : List ℕ) (push : ND F → ND F) (rows : List (List ℤ))
    (h : rows.length ≠ 1) : sparseReduceArr T push o lapl data x0 (.nested rows) = none := by
  have ha : singleAxes (data.ndim - 1) (.nested rows) = none := by
    unfold singleAxes axesRows
    split
    · rename_i a he
      dsimp only at he
      split at he
      · have := congrArg List.length (Option.some.inj he)
        rw [List.length_map] at this
        exact absurd this h
      · cases he
    · rfl
  unfold sparseReduceArr jacForReduction
  rw [ha]
  rfl

/-- **C54 (counterexample).**  The row sums repeated along the rows, registered with `in_axes=-1`: result `(i, j)` depends on row `i`
only, but the returned Jacobian says that the derivative of result `(0, 1)` with respect to input 0 is 0; it is 2. -/
theorem C54_counterexample (T : ℕ) (hT : 1 ≤ T) :
    DependsOn exRepeat [2, 2] [1] [2, 2] (fun q => q.take 1) ∧
    ∃ j l, sparseReduceArr T exRepeat [2, 2] exLapl exData exIdx (.flat [-1]) = some (.sparse j l) ∧
      j.entry 0 [0, 1] = 0 ∧ (exRepeat (ND.ofFn [2, 2] (ArrJac.entry ⟨exData, some exIdx⟩ 0))).get [0, 1] = 2 := by
  constructor
  · intro t _ q hq h
    obtain ⟨i, j, hi, hj, rfl⟩ := inB_two hq
    unfold exRepeat
    rw [ND.get_ofFn _ hq]
    show t.get [i, 0] + t.get [i, 1] = 0
    rw [h [i, 0] (List.Forall₂.cons hi (List.Forall₂.cons (by decide) List.Forall₂.nil)) (by interval_cases i <;> rfl),
      h [i, 1] (List.Forall₂.cons hi (List.Forall₂.cons (by decide) List.Forall₂.nil)) (by interval_cases i <;> rfl)]
    rfl
  · have ha : singleAxes [2, 2].length (.flat [-1]) = some [1] := by decide
    have hb : Broadcasts [[2], [2, 2]] [2, 2] := broadcastShapes_iff.mp (by decide)
    have hres : ∃ j l, sparseReduceArr T exRepeat [2, 2] exLapl exData exIdx (.flat [-1]) = some (.sparse j l) := by
      rcases jacForReduction_mask (F := ℤ) (data := exData) (x0 := exIdx) (K := 1) (s := [2, 2]) (axes := .flat [-1]) rfl rfl (by decide) ha with
        ⟨-, h2⟩ | ⟨G, M, N, hN, h1, h2, h3, -, ⟨u, hu, h5⟩, -⟩
      · have := h2 [0] (by decide)
        rw [exDeps (by decide)] at this
        simp at this
      · obtain ⟨i, hi, rfl⟩ := inB_one (show InB u [2] from hu)
        rw [exDeps hi, Finset.card_singleton] at h5
        rcases sparseReduceArr_step T (push := exRepeat) (o := [2, 2]) (lapl := exLapl) rfl h1 h2 h3 with ⟨hlt, -⟩ | ⟨-, hnb, -⟩ | ⟨-, -, g, m, l, e, -⟩
        · omega
        · exact absurd hb hnb
        · exact ⟨_, _, e⟩
    obtain ⟨j, l, hres⟩ := hres
    refine ⟨j, l, hres, ?_, by decide⟩
    obtain ⟨m, hm, h⟩ := C54_masks_at_back (F := ℤ) T (K := 1) (s := [2, 2]) (dims := [1]) rfl rfl rfl (by decide) ha hres
    unfold ArrJac.entry
    rw [hm]
    refine List.sum_eq_zero fun z hz => ?_
    obtain ⟨k, hk, rfl⟩ := List.mem_map.mp hz
    rcases h k [0, 1] (by simpa using hk) (by decide) with e | e
    · rw [e]; rfl
    · have e2 : bcoord (dropDims [2, 2] [1]) [2, 2] [0, 1] = [1] := by decide
      rw [e2, exDeps (by decide), Finset.mem_singleton] at e
      rw [e]; rfl

/-- The hypotheses of `C54_shape_raises` are met: three rows of two elements to three results of two elements. -/
example (T : ℕ) (hT : 1 ≤ T) (push : ND ℤ → ND ℤ) :
    sparseReduceArr T push [3, 2] (ND.ofFn [3, 2] fun _ => (0 : ℤ)) (ND.ofFn [1, 3, 2] fun _ => 1) ⟨[1, 3, 2], [0, 0, 1, 1, 2, 2], rfl⟩
      (.flat [1]) = none := by
  refine C54_shape_raises T (K := 1) (s := [3, 2]) (dims := [1]) rfl rfl rfl (by decide) (by decide) (fun hb => ?_) fun u hu => ?_
  · have := broadcastShapes_iff.mpr hb
    revert this
    decide
  · obtain ⟨i, hi, rfl⟩ := inB_one (show InB u [3] from hu)
    have : (depsOf ⟨[1, 3, 2], [0, 0, 1, 1, 2, 2], rfl⟩ [3, 2] [1] [i]).card = 1 := by interval_cases i <;> decide
    omega

example (T : ℕ) (lapl data : ND ℤ) (x0 : ND ℤ) (push : ND ℤ → ND ℤ) :
    sparseReduceArr T push [2] lapl data x0 (.nested [[-1], [0]]) = none :=
  C54_nested_raises T _ _ _ _ _ _ (by decide)

end Folx.Layout

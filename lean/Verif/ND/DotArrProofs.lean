import Verif.ND.DotArr
import Verif.Prog.TotalInv

/-!
# Soundness of the rule of `dot_general` on arrays
-/

namespace Folx.Layout
open Vmap Dot Filter Topology

variable {F : Type} [RCLike F]

attribute [local instance] instInhabitedScalar

section Call
variable {X : Type} [NormedAddCommGroup X] [NormedSpace ℝ X]

/-- A sound rule, also applied to plain arrays only. -/
theorem arr_rep {m : ℕ} {shape : Fin (m + 1) → List ℕ} {out : List ℕ} {A : ArrFn F shape out} {ifwd : (acts : List (Fin (m + 1))) → Option ((Fin acts.length → ND ℤ) → ND ℤ)}
    {inv : ∀ m, Jac (Fin m) F → Prop} {T : ℕ} {B : Base X} {o : (i : Fin (m + 1)) → Opd F (shape i).prod} {u : (i : Fin (m + 1)) → X → Fin (shape i).prod → F} {r : Opd F out.prod}
    (h : (A.prim ifwd).SoundAt inv T B.n fun i => u i B.x0) (ho : ∀ i, OpdRep B inv (o i) (u i)) (hr : A.call ifwd T o = some r) :
    OpdRep B inv r fun y => A.fwd fun i => u i y := by
  by_cases hex : ∃ i, (o i).isLapl = true
  · refine h X B o u (fun _ => r) rfl (fun _ => rfl) ho hex ?_ (0 : Fin 1)
    show (match A.call ifwd T o with | none => Except.error Interp.Err.other | some r => .ok fun _ => r) = _
    rw [hr]
    rfl
  · have hall : ∀ i, (o i).isLapl = false := fun i => by
      cases h : (o i).isLapl with
      | false => rfl
      | true => exact absurd ⟨i, h⟩ hex
    have hacts : actsOf o = [] := by
      rw [List.eq_nil_iff_forall_not_mem]
      intro i hi
      rw [mem_actsOf, hall] at hi
      exact absurd hi (by simp)
    unfold ArrFn.call at hr
    rw [hacts] at hr
    have hr' := Option.some.inj hr
    subst hr'
    have hox : (fun i => (o i).x) = fun i => u i B.x0 := funext fun i => opdRep_x B inv _ _ (ho i)
    refine ⟨by rw [hox], ?_⟩
    have hev : ∀ᶠ y in 𝓝 B.x0, ∀ i, u i y = u i B.x0 := eventually_all.mpr fun i => opdRep_plain B inv _ _ (ho i) (hall i)
    filter_upwards [hev] with y hy
    rw [hox]
    exact congrArg A.fwd (funext hy)

end Call

/-- What is used about array-level functions that are linear in each operand, with or without sparsity. -/
def ArrSound (sp : Bool) (inv : ∀ m, Jac (Fin m) F → Prop) (T n : ℕ) : Prop :=
  ∀ (m : ℕ) (shape : Fin (m + 1) → List ℕ) (out : List ℕ) (A : ArrFn F shape out) (ifwd : (acts : List (Fin (m + 1))) → Option ((Fin acts.length → ND ℤ) → ND ℤ)) (b : List ℕ)
    (φ : List (ND F) → ((i : Fin (m + 1)) → Fin (A.inAxes.slice (shape i)).prod → F) → List ℕ → F) (x : (i : Fin (m + 1)) → Fin (shape i).prod → F),
    A.flags.has Flags.LINEAR_IN_ONE = true → A.Truthful ifwd b φ x → (sp = true → A.SparseSafe ifwd b) → (A.prim ifwd).SoundAt inv T n x

theorem arrSound_dense (T n : ℕ) (hn : 0 < n) : ArrSound (F := F) false (denseInv n) T n := fun _ _ _ _ _ _ _ _ _ h _ => prim_sound_dense hn h

theorem arrSound_sparse (T n : ℕ) (hn : 0 < n) : ArrSound (F := F) true (arrInv T n) T n := fun _ _ _ _ _ _ _ _ _ h hs => prim_sound_sparse hn h (hs rfl)

theorem pos_notMem {s : List ℕ} (h : 0 ∉ s) : 0 < s.prod := List.prod_pos fun a ha => Nat.pos_of_ne_zero fun h0 => h (h0 ▸ ha)

theorem notMem_pos {s : List ℕ} (h : 0 < s.prod) : 0 ∉ s := fun h0 => by
  rw [List.prod_eq_zero h0] at h
  exact absurd h (lt_irrefl 0)

section Rep
variable {X : Type} [NormedAddCommGroup X] [NormedSpace ℝ X] {sp : Bool} {inv : ∀ m, Jac (Fin m) F → Prop} {T : ℕ} {B : Base X}

/-- Two functions of the inputs. -/
def pairDep {s t : List ℕ} (u : X → Fin s.prod → F) (v : X → Fin t.prod → F) : (i : Fin 2) → X → Fin (two s t i).prod → F
  | 0 => u
  | 1 => v

omit [NormedAddCommGroup X] [NormedSpace ℝ X] in
theorem pairDep_at {s t : List ℕ} (u : X → Fin s.prod → F) (v : X → Fin t.prod → F) (z : X) : (fun i => pairDep u v i z) = pairVec (u z) (v z) := by
  funext i
  match i with
  | 0 => rfl
  | 1 => rfl

theorem pairArr_rep {s t : List ℕ} {x : Opd F s.prod} {y : Opd F t.prod} {u : X → Fin s.prod → F} {v : X → Fin t.prod → F} (hx : OpdRep B inv x u)
    (hy : OpdRep B inv y v) (i : Fin 2) : OpdRep B inv (pairArr x y i) (pairDep u v i) := by
  match i with
  | 0 => exact hx
  | 1 => exact hy

theorem mulSumArr_rep (hS : ArrSound sp inv T B.n) {s t : List ℕ} (hs : 0 ∉ s) (ht : 0 ∉ t) {x : Opd F s.prod}
    {y : Opd F t.prod} {u : X → Fin s.prod → F} {v : X → Fin t.prod → F} (hx : OpdRep B inv x u) (hy : OpdRep B inv y v)
    (dims : ℕ → List ℕ) (hd : ∀ b, Broadcasts [s, t] b → (dims b.length).Nodup ∧ ∀ d ∈ dims b.length, d < b.length) {r : PVal F} (hr : mulSumArr T s t x y dims = some r) (g : X → ND F)
    (hg : ∀ z, ∃ p, mulB (toND s (u z)) (toND t (v z)) = some p ∧ sumDims p (dims p.ndim) = g z) : RepND B inv r g := by
  unfold mulSumArr at hr
  cases hb : broadcastShapes [s, t] with
  | none => rw [hb] at hr; simp at hr
  | some b =>
    rw [hb] at hr
    dsimp only at hr
    have hB := broadcastShapes_iff.mp hb
    have hb0 : 0 ∉ b := notMem_pos (broadcasts_pos hB (pos_notMem hs) (pos_notMem ht))
    obtain ⟨hd1, hd2⟩ := hd b hB
    have hst : ∀ i, 0 ∉ two s t i := fun i => by match i with | 0 => exact hs | 1 => exact ht
    split at hr
    · simp at hr
    · rename_i p hp
      obtain ⟨r', hr', rfl⟩ := Option.map_eq_some_iff.mp hr
      have h1 := arr_rep (m := 1) (u := pairDep u v) (hS 1 _ _ _ _ _ _ _ (show Flags.MULTIPLICATION.has Flags.LINEAR_IN_ONE = true by decide) (mulArr_truthful hst hb0 hB) fun _ => mulArr_safe) (pairArr_rep hx hy) hp
      have h2 := arr_rep (m := 0) (u := fun _ z => (mulArr true (two s t) b).fwd fun i => pairDep u v i z)
        (hS 0 _ _ _ _ _ _ _ (show Flags.SUMMATION.has Flags.LINEAR_IN_ONE = true by decide) (sumArr_truthful hb0 hd1 hd2) fun _ => sumArr_safe) (fun _ => h1) hr'
      refine ⟨dropDims b (dims b.length), rfl, _, h2, fun z => ?_⟩
      obtain ⟨q, e1, e2⟩ := hg z
      rw [mulArr_value hB] at e1
      have e3 := Option.some.inj e1
      subst e3
      rw [← e2]
      refine (sumArr_value (keptDims_perm hd1 hd2) _).trans ?_
      rw [pairDep_at]

theorem slicesOf_last (s : List ℕ) (d : ℕ) : slicesOf [-1] (s ++ [d]) = [d] ∧ (InAxes.axes [-1]).second (s ++ [d]).length = [s.length] := by
  have h : (InAxes.axes [-1]).second (s ++ [d]).length = [s.length] := by
    simp [InAxes.second, axisOf]
  exact ⟨by rw [slicesOf, InAxes.slice, h]; exact skipShape_last s d, h⟩

theorem dotLastFn_fit {s t O : List ℕ} {d : ℕ} (h : Broadcasts [s, t] O) : AxesFit [-1] (two (s ++ [d]) (t ++ [d])) O := by
  refine ⟨fun a i hi => ?_, fun a => by simp, ?_⟩
  · obtain rfl := List.mem_singleton.mp hi
    match a with
    | 0 => simp [two]
    | 1 => simp [two]
  · have e : (List.ofFn fun a => dropDims (two (s ++ [d]) (t ++ [d]) a) ([-1].map (axisOf (two (s ++ [d]) (t ++ [d]) a).length))) = [s, t] := by
      have e1 : ∀ s : List ℕ, dropDims (s ++ [d]) ([-1].map (axisOf (s ++ [d]).length)) = s := fun s => by
        rw [← other_eq_drop]
        exact (congrArg _ (slicesOf_last s d).2).trans (otherShape_last s d)
      exact congrArg₂ (fun a b => [a, b]) (e1 s) (e1 t)
    rw [e]
    exact h

theorem sliceVec_last {s O w : List ℕ} {d : ℕ} (x : Fin (s ++ [d]).prod → F) (c : Fin [d].prod) (hc : [d].prod = (slicesOf [-1] (s ++ [d])).prod) :
    sliceVec (s ++ [d]) ((InAxes.axes [-1]).second (s ++ [d]).length) O w x (Fin.cast hc c) = (toND (s ++ [d]) x).get (bcoord s O w ++ [(c : ℕ)]) := by
  unfold sliceVec
  congr 1
  have e : ∀ ax : List ℕ, ax = [s.length] → ∀ k : ℕ, k < d → bindex (s ++ [d]) ax O w (unravelIdx (skipShape (s ++ [d]) ax) k) = bcoord s O w ++ [k] := by
    rintro ax rfl k hk
    rw [skipShape_last]
    have : unravelIdx [d] k = [k] := by simp [unravelIdx]
    rw [this, bindex_last]
  exact e _ (slicesOf_last s d).2 c (by simpa using c.2)

theorem dotLastFn_value {s t O : List ℕ} {d : ℕ} (h : Broadcasts [s, t] O) (hsl : ∀ a, slicesOf [-1] (two (s ++ [d]) (t ++ [d]) a) = [d]) (x : Fin (s ++ [d]).prod → F) (y : Fin (t ++ [d]).prod → F) :
    dotLast (toND (s ++ [d]) x) (toND (t ++ [d]) y) = some (toND O ((dotLastFn (s ++ [d]) (t ++ [d]) O d hsl).fwd (pairVec x y))) := by
  unfold dotLast
  rw [if_neg (by simp)]
  have hb : broadcastShapes [(toND (s ++ [d]) x).shape.dropLast, (toND (t ++ [d]) y).shape.dropLast] = some O := by
    rw [toND_shape, toND_shape, List.dropLast_concat, List.dropLast_concat]
    exact broadcastShapes_iff.mpr h
  rw [hb, Option.map_some]
  congr 1
  refine ND.ext_get rfl fun w hw => ?_
  have hw' : InB w O := hw
  rw [ND.get_ofFn _ hw', toND_get _ _ hw']
  have e := congrFun (congrFun (redFn_fwd (k := 1) (X := Unit) (flags := Flags.DOT_PRODUCT ||| Flags.JOIN_JVP ||| Flags.SPARSE_JHJ) (fil := true) (g := sliceDot hsl) (g' := dotD hsl) (g'' := dotH hsl) (dotLastFn_fit h)
    fun a _ => pairVec x y a) ()) ⟨ravelIdx O w, ravelIdx_lt hw'⟩
  refine Eq.trans ?_ e.symm
  dsimp only
  rw [unravelIdx_ravelIdx hw', toND_shape, toND_shape, List.dropLast_concat, List.dropLast_concat]
  have hd : (s ++ [d]).getLast?.getD 0 = [d].prod := by simp
  rw [hd, sum_range_fin]
  refine Finset.sum_congr rfl fun c _ => ?_
  exact congrArg₂ (· * ·) (sliceVec_last x c _).symm (sliceVec_last y c _).symm

theorem dotLastFn_truthful {s t O : List ℕ} {d : ℕ} (hO : Broadcasts [s, t] O) (hs : 0 ∉ s) (ht : 0 ∉ t) (hd : 0 < d) (hls : s.length = O.length)
    (hlt : t.length = O.length) (h : ∀ a, slicesOf [-1] (two (s ++ [d]) (t ++ [d]) a) = [d]) (x : (i : Fin 2) → Fin (two (s ++ [d]) (t ++ [d]) i).prod → F) :
    (dotLastFn (s ++ [d]) (t ++ [d]) O d h).Truthful (m := 1) (fun _ => none) O (fun _ z _ => sliceDot h z) x := by
  have hst : ∀ i, 0 ∉ two (s ++ [d]) (t ++ [d]) i := fun i => by
    match i with
    | 0 => exact fun h => by rcases List.mem_append.mp h with h | h; exact hs h; simp at h; omega
    | 1 => exact fun h => by rcases List.mem_append.mp h with h | h; exact ht h; simp at h; omega
  have hO0 : 0 ∉ O := notMem_pos (broadcasts_pos hO (pos_notMem hs) (pos_notMem ht))
  exact dot_truthful (flags := Flags.DOT_PRODUCT ||| Flags.JOIN_JVP ||| Flags.SPARSE_JHJ) (fil := true) hst hO0 (dotLastFn_fit hO)
      (fun a => by match a with
        | 0 => simp [two, hls]
        | 1 => simp [two, hlt]) (by decide) (by decide) h

theorem dotLastArr_rep (hS : ArrSound sp inv T B.n) {S S' s t O : List ℕ} {d : ℕ} (eS : S = s ++ [d]) (eS' : S' = t ++ [d]) (hO : Broadcasts [s, t] O) (hs : 0 ∉ s) (ht : 0 ∉ t) (hd : 0 < d) (hls : s.length = O.length)
    (hlt : t.length = O.length) (h1 : sp = true → 1 ∉ O) {x : Opd F S.prod} {y : Opd F S'.prod} {u : X → Fin S.prod → F} {v : X → Fin S'.prod → F} (hx : OpdRep B inv x u) (hy : OpdRep B inv y v) {r : PVal F}
    (hr : dotLastArr T S S' x y = some r) (g : X → ND F) (hg : ∀ z, dotLast (toND S (u z)) (toND S' (v z)) = some (g z)) :
    RepND B inv r g := by
  subst eS eS'
  unfold dotLastArr at hr
  have hb : broadcastShapes [(s ++ [d]).dropLast, (t ++ [d]).dropLast] = some O := by
    rw [List.dropLast_concat, List.dropLast_concat]
    exact broadcastShapes_iff.mpr hO
  rw [hb] at hr
  dsimp only at hr
  split at hr
  · rename_i h
    have hdd : (s ++ [d]).getLast?.getD 0 = d := by simp
    revert h
    rw [hdd]
    intro h hr
    obtain ⟨r', hr', rfl⟩ := Option.map_eq_some_iff.mp hr
    have h2 := arr_rep (m := 1) (u := pairDep u v) (hS 1 _ _ _ _ _ _ _ (show (Flags.DOT_PRODUCT ||| Flags.JOIN_JVP ||| Flags.SPARSE_JHJ).has Flags.LINEAR_IN_ONE = true by decide) (dotLastFn_truthful hO hs ht hd hls hlt h _) fun hsp => ⟨Or.inr (show (Flags.DOT_PRODUCT ||| Flags.JOIN_JVP ||| Flags.SPARSE_JHJ).has Flags.LINEAR_IN_ONE = true by decide), Or.inl fun i => by simp [dotLastFn, redFn, InAxes.first, reducedAxes],
          fun _ _ => h1 hsp, fun h => absurd (show (Flags.DOT_PRODUCT ||| Flags.JOIN_JVP ||| Flags.SPARSE_JHJ).has Flags.INDEXING = true from h) (by decide)⟩) (pairArr_rep hx hy) hr'
    refine ⟨O, rfl, _, h2, fun z => ?_⟩
    have := hg z
    rw [dotLastFn_value hO h] at this
    refine (Option.some.inj this).symm.trans ?_
    rw [← pairDep_at]
  · simp at hr

theorem rearrArr_rep (hS : ArrSound sp inv T B.n) {s : List ℕ} (h0 : 0 ∉ s) (hs : 0 < s.prod) {c b brd other : List ℕ} {rhs : Bool}
    (hp : (b ++ brd ++ c).Perm (List.range s.length)) {zi : ND ℕ} (hzi : rearrange (iota s) c b brd other rhs = some zi) (hz : 0 ∉ zi.shape)
    {x : Opd F s.prod} {u : X → Fin s.prod → F} (hx : OpdRep B inv x u) {l : Opd F zi.shape.prod} (hl : rearrCall T s hs zi x = some l) :
    ∃ w : X → Fin zi.shape.prod → F, OpdRep B inv l w ∧ ∀ z, rearrange (toND s (u z)) c b brd other rhs = some (toND zi.shape (w z)) := by
  have h1 := arr_rep (m := 0) (u := fun _ => u) (hS 0 _ _ _ _ _ _ _ (show Flags.INDEXING.has Flags.LINEAR_IN_ONE = true by decide) (takeArr_truthful (m := 0) (shape := fun _ => s) (fun _ => h0) hz) fun _ => takeArr_safe (Nat.zero_le _)) (fun _ => hx) hl
  refine ⟨_, h1, fun z => ?_⟩
  have e1 : rearrange (toND s (u z)) c b brd other rhs = some (zi.map fun k => if h : k < s.prod then u z ⟨k, h⟩ else default) := by
    rw [toND_eq_map, rearrange_map (iota s) _ hp, hzi]
    rfl
  have e2 := rearrange_gather s hs (u z) hp e1
  rw [hzi] at e2
  rw [e1, e2]
  congr 2
  funext q
  have := takeL_apply (F := F) (m := 0) (shape := fun _ => s) (rearrSrc s hs zi) (fun _ => u z) q
  exact (this.symm.trans (add_zero _).symm : _)

/-- The axes of the rearranged operands before the last one. -/
abbrev leftLead (dd : DotDims) (ls rs : List ℕ) : List ℕ := sizes ls dd.lb ++ sizes ls (freeOf ls.length dd.lc dd.lb) ++ List.replicate (freeOf rs.length dd.rc dd.rb).length 1

abbrev rightLead (dd : DotDims) (ls rs : List ℕ) : List ℕ := sizes rs dd.rb ++ List.replicate (freeOf ls.length dd.lc dd.lb).length 1 ++ sizes rs (freeOf rs.length dd.rc dd.rb)

theorem lead_broadcasts {dd : DotDims} {ls rs : List ℕ} (hok : dd.Ok ls rs) : Broadcasts [leftLead dd ls rs, rightLead dd ls rs] (outShape dd ls rs) := by
  unfold outShape leftLead rightLead
  rw [← hok.batch]
  have := broadcasts_lead (sizes ls dd.lb) (sizes ls (freeOf ls.length dd.lc dd.lb)) (sizes rs (freeOf rs.length dd.rc dd.rb))
  rwa [sizes_length, sizes_length] at this

theorem lead_length {dd : DotDims} {ls rs : List ℕ} (hok : dd.Ok ls rs) : (leftLead dd ls rs).length = (outShape dd ls rs).length ∧ (rightLead dd ls rs).length = (outShape dd ls rs).length := by
  refine ⟨by simp [outShape, sizes_length], ?_⟩
  have := congrArg List.length hok.batch
  rw [sizes_length, sizes_length] at this
  simp [outShape, sizes_length, this]

/-- No axes without elements. -/
theorem lead_pos {dd : DotDims} {ls rs : List ℕ} (hok : dd.Ok ls rs) (hl0 : 0 ∉ ls) (hr0 : 0 ∉ rs) :
    0 ∉ leftLead dd ls rs ∧ 0 ∉ rightLead dd ls rs ∧ 0 < (sizes ls dd.lc).prod ∧ 0 ∉ leftShape dd ls rs ∧ 0 ∉ rightShape dd ls rs := by
  have hl := pos_notMem hl0
  have hr := pos_notMem hr0
  have p1 : 0 ∉ sizes ls dd.lb := notMem_pos (sizes_pos hl fun d h => hok.llt d (by simp [h]))
  have p2 : 0 ∉ sizes ls (freeOf ls.length dd.lc dd.lb) := notMem_pos (sizes_pos hl Folx.freeOf_lt)
  have p3 : 0 < (sizes ls dd.lc).prod := sizes_pos hl fun d h => hok.llt d (by simp [h])
  have p4 : 0 ∉ sizes rs dd.rb := notMem_pos (sizes_pos hr fun d h => hok.rlt d (by simp [h]))
  have p5 : 0 ∉ sizes rs (freeOf rs.length dd.rc dd.rb) := notMem_pos (sizes_pos hr Folx.freeOf_lt)
  have q1 : 0 ∉ leftLead dd ls rs := by simp [p1, p2, List.mem_replicate]
  have q2 : 0 ∉ rightLead dd ls rs := by simp [p4, p5, List.mem_replicate]
  refine ⟨q1, q2, p3, ?_, ?_⟩
  · unfold leftShape
    rw [List.mem_append]
    rintro (h | h)
    · exact q1 h
    · rw [List.mem_singleton] at h; omega
  · unfold rightShape
    rw [List.mem_append, ← hok.contract]
    rintro (h | h)
    · exact q2 h
    · rw [List.mem_singleton] at h; omega

/-- Every result of the rule represents what `dotGeneral` computes on arrays. -/
theorem dotArr_rep (hS : ArrSound sp inv T B.n) {dd : DotDims} {ls rs : List ℕ} (hok : dd.Ok ls rs) (hl0 : 0 ∉ ls) (hr0 : 0 ∉ rs) (h1 : sp = true → 1 ∉ outShape dd ls rs) {x : Opd F ls.prod}
    {y : Opd F rs.prod} {u : X → Fin ls.prod → F} {v : X → Fin rs.prod → F} (hx : OpdRep B inv x u)
    (hy : OpdRep B inv y v) (hspec : (x.isWeak && y.isWeak) = true → interEqIn (leftShape dd ls rs) (rightShape dd ls rs) = true →
        noTranspose dd ls.length rs.length = true → SpecialOk dd ls.length rs.length)
    {r : PVal F} (hr : dotArrRule dd ls rs T x y = some r) : RepND B inv r fun z => contraction dd (toND ls (u z)) (toND rs (v z)) := by
  have hok' : ∀ z, dd.Ok (toND ls (u z)).shape (toND rs (v z)).shape := fun _ => hok
  have hg : ∀ z, dotGeneral dd (x.isWeak && y.isWeak) (toND ls (u z)) (toND rs (v z)) = some (contraction dd (toND ls (u z)) (toND rs (v z))) := fun z =>
    dotGeneral_spec dd _ (hok' z) hspec
  unfold dotArrRule at hr
  split at hr
  · rename_i hpl
    have e := Option.some.inj hr
    subst e
    refine ⟨outShape dd ls rs, rfl, fun z => vecOf (contraction dd (toND ls (u z)) (toND rs (v z))) _, ?_, fun z => (toND_vecOf _ _ rfl).symm⟩
    have e1 := opdRep_x B inv _ _ hx
    have e2 := opdRep_x B inv _ _ hy
    refine ⟨by rw [e1, e2], ?_⟩
    filter_upwards [opdRep_plain B inv _ _ hx hpl.1, opdRep_plain B inv _ _ hy hpl.2] with z h1 h2
    rw [e1, e2, h1, h2]
  · split at hr
    · rename_i h
      split at hr
      · rename_i zl zr hzl hzr
        obtain ⟨zl', e1, s1, -⟩ := left_spec (x := iota ls) (rs := rs) dd hok
        obtain ⟨zr', e2, s2, -⟩ := right_spec (y := iota rs) (ls := ls) dd hok
        obtain rfl : zl' = zl := Option.some.inj (e1.symm.trans hzl)
        obtain rfl : zr' = zr := Option.some.inj (e2.symm.trans hzr)
        have s1 : zl'.shape = leftShape dd ls rs := s1
        have s2 : zr'.shape = rightShape dd ls rs := s2
        obtain ⟨q1, q2, p3, hzl0, hzr0⟩ := lead_pos hok hl0 hr0
        rw [← s1] at hzl0
        rw [← s2] at hzr0
        split at hr
        · rename_i l r0 hl hr0'
          obtain ⟨wl, c1, c2⟩ := rearrArr_rep hS hl0 h.1 (freeOf_perm hok.lnodup hok.llt) hzl hzl0 hx hl
          obtain ⟨wr, d1, d2⟩ := rearrArr_rep hS hr0 h.2 (freeOf_perm hok.rnodup hok.rlt) hzr hzr0 hy hr0'
          have c2' : ∀ z, left dd (toND rs (v z)).ndim (toND ls (u z)) = some (toND zl'.shape (wl z)) := c2
          have d2' : ∀ z, right dd (toND ls (u z)).ndim (toND rs (v z)) = some (toND zr'.shape (wr z)) := d2
          have hg2 : ∀ z, (if interEqIn zl'.shape zr'.shape && (x.isWeak && y.isWeak) then
              if noTranspose dd ls.length rs.length then
                (mulB (toND ls (u z)) (toND rs (v z))).bind fun p => some (sumDims p dd.lc)
              else (mulB (toND zl'.shape (wl z)) (toND zr'.shape (wr z))).bind fun p => some (sumDims p [p.ndim - 1])
            else dotLast (toND zl'.shape (wl z)) (toND zr'.shape (wr z))) = some (contraction dd (toND ls (u z)) (toND rs (v z))) := by
            intro z
            have := hg z
            unfold dotGeneral at this
            rw [c2' z, d2' z] at this
            exact this
          split at hr
          · rename_i hfast
            simp only [hfast, if_true] at hg2
            split at hr
            · rename_i hnt
              simp only [hnt, if_true] at hg2
              refine mulSumArr_rep hS hl0 hr0 hx hy _ (fun b hb => ⟨?_, fun d hd => ?_⟩) hr _ fun z => ?_
              · have := (freeOf_perm hok.lnodup hok.llt).symm.nodup_iff.mp List.nodup_range
                exact (List.nodup_append.mp this).2.1
              · exact lt_of_lt_of_le (hok.llt d (by simp [hd])) (hb.rank_le _ (by simp))
              obtain ⟨p, h1, h2⟩ := Option.bind_eq_some_iff.mp (hg2 z)
              exact ⟨p, h1, Option.some.inj h2⟩
            · rename_i hnt
              simp only [hnt] at hg2
              refine mulSumArr_rep hS hzl0 hzr0 c1 d1 _ (fun b hb => ⟨by simp, fun d hd => ?_⟩) hr _ fun z => ?_
              · have := hb.rank_le zl'.shape (by simp)
                rw [s1] at this
                simp [leftShape] at this
                have := List.mem_singleton.mp hd
                omega
              · obtain ⟨p, h1, h2⟩ := Option.bind_eq_some_iff.mp (hg2 z)
                exact ⟨p, h1, Option.some.inj h2⟩
          · rename_i hfast
            simp only [hfast] at hg2
            exact dotLastArr_rep hS (d := (sizes ls dd.lc).prod) s1 (by rw [s2, hok.contract]; rfl) (lead_broadcasts hok) q1 q2 p3 (lead_length hok).1 (lead_length hok).2 h1 c1 d1 hr _ hg2
        · simp at hr
      · simp at hr
    · simp at hr

end Rep

/-- The primitive `dot_general` is sound. -/
theorem dotArr_sound {sp : Bool} {inv : ∀ m, Jac (Fin m) F → Prop} {T n : ℕ} (hS : ArrSound (F := F) sp inv T n) (hdense : sp = false → ∀ m (J : Jac (Fin m) F), inv m J → J.weak = false)
    {dd : DotDims} {ls rs : List ℕ} (hok : dd.Ok ls rs) (hl0 : 0 ∉ ls) (hr0 : 0 ∉ rs)
    (hsp : sp = true → 1 ∉ outShape dd ls rs ∧ (interEqIn (leftShape dd ls rs) (rightShape dd ls rs) = true →
        noTranspose dd ls.length rs.length = true → SpecialOk dd ls.length rs.length))
    (x : (i : Fin 2) → Fin (two ls rs i).prod → F) : (dotArrPrim dd ls rs).SoundAt inv T n x := by
  intro X _ _ B o u r hB hx ho _ hr j
  subst hB
  have hr1 : (match dotArrRule dd ls rs T (o (0 : Fin 2)) (o (1 : Fin 2)) with
    | none => Except.error Interp.Err.other
    | some v =>
      match castTo (outShape dd ls rs).prod v with
      | .error e => .error e
      | .ok r => .ok fun _ => r) = Except.ok r := hr
  have h0 : OpdRep (m := ls.prod) B inv (o (0 : Fin 2)) (u (0 : Fin 2)) := ho (0 : Fin 2)
  have h1 : OpdRep (m := rs.prod) B inv (o (1 : Fin 2)) (u (1 : Fin 2)) := ho (1 : Fin 2)
  split at hr1
  · simp at hr1
  · rename_i v hv
    split at hr1
    · simp at hr1
    · rename_i r' hr'
      have e := Except.ok.inj hr1
      subst e
      obtain ⟨s, hvs, w, hw1, hw2⟩ := dotArr_rep hS hok hl0 hr0 (fun h => (hsp h).1) h0 h1 (fun hwk h3 h4 => by
        replace hwk := (Bool.and_eq_true _ _ ▸ hwk).1
        cases sp with
        | true => exact (hsp rfl).2 h3 h4
        | false =>
          exfalso
          generalize o (0 : Fin 2) = o0 at h0 hwk
          cases o0 with
          | plain a => simp [Opd.isWeak] at hwk
          | lapl t =>
            have := hdense rfl _ t.jac h0.2
            have hwk' : t.jac.weak = true := hwk
            rw [this] at hwk'
            exact absurd hwk' (by simp)) hv
      have hsO : s = outShape dd ls rs := by
        have := congrArg ND.shape (hw2 B.x0)
        exact this.symm
      subst hsO
      have hv' := (castTo_eq _ v r').mp hr'
      subst hv'
      refine OpdRep.congr hw1 fun z => ?_
      have := congrArg (fun t : ND F => vecOf t (outShape dd ls rs).prod) (hw2 z)
      dsimp only at this
      rw [vecOf_toND] at this
      exact this.symm

/-! ### With sparsity disabled it returns -/

section
variable {X : Type} [NormedAddCommGroup X] [NormedSpace ℝ X] {T : ℕ} {B : Base X}

theorem arr_some {m : ℕ} {shape : Fin (m + 1) → List ℕ} {out : List ℕ} {A : ArrFn F shape out} {ifwd : (acts : List (Fin (m + 1))) → Option ((Fin acts.length → ND ℤ) → ND ℤ)}
    {b : List ℕ} {φ : List (ND F) → ((i : Fin (m + 1)) → Fin (A.inAxes.slice (shape i)).prod → F) → List ℕ → F}
    {o : (i : Fin (m + 1)) → Opd F (shape i).prod} {u : (i : Fin (m + 1)) → X → Fin (shape i).prod → F} (hn : 0 < B.n) (hT : A.Truthful ifwd b φ fun i => u i B.x0)
    (ho : ∀ i, OpdRep B (denseInv B.n) (o i) (u i)) : ∃ r, A.call ifwd T o = some r := by
  by_cases hex : ∃ i, (o i).isLapl = true
  · obtain ⟨h1, h2⟩ := callOk_of (fun _ J hJ hw => absurd hw (by rw [hJ.1]; decide)) (fun _ => rfl) ho hex
    obtain ⟨t, h3, -⟩ := call_dense (T := T) hn hT h1 h2
    exact ⟨_, h3⟩
  · have hacts : actsOf o = [] := by
      rw [List.eq_nil_iff_forall_not_mem]
      intro i hi
      exact hex ⟨i, (mem_actsOf o i).mp hi⟩
    unfold ArrFn.call
    rw [hacts]
    exact ⟨_, rfl⟩

end

section
variable {X : Type} [NormedAddCommGroup X] [NormedSpace ℝ X] {T : ℕ} {B : Base X}

theorem dotLastArr_some (hn : 0 < B.n) {S S' s t O : List ℕ} {d : ℕ} (eS : S = s ++ [d]) (eS' : S' = t ++ [d]) (hO : Broadcasts [s, t] O) (hs : 0 ∉ s) (ht : 0 ∉ t) (hd : 0 < d) (hls : s.length = O.length)
    (hlt : t.length = O.length) {x : Opd F S.prod} {y : Opd F S'.prod} {u : X → Fin S.prod → F} {v : X → Fin S'.prod → F} (hx : OpdRep B (denseInv B.n) x u) (hy : OpdRep B (denseInv B.n) y v) :
    ∃ r, dotLastArr T S S' x y = some ⟨O.prod, r⟩ := by
  subst eS eS'
  unfold dotLastArr
  have hb : broadcastShapes [(s ++ [d]).dropLast, (t ++ [d]).dropLast] = some O := by
    rw [List.dropLast_concat, List.dropLast_concat]
    exact broadcastShapes_iff.mpr hO
  rw [hb]
  dsimp only
  have hdd : (s ++ [d]).getLast?.getD 0 = d := by simp
  rw [hdd]
  have h : ∀ a, slicesOf [-1] (two (s ++ [d]) (t ++ [d]) a) = [d] := fun a => by
    match a with
    | 0 => exact (slicesOf_last s d).1
    | 1 => exact (slicesOf_last t d).1
  rw [dif_pos h]
  obtain ⟨r, hr⟩ := arr_some (T := T) (m := 1) (u := pairDep u v) (o := pairArr x y) hn (dotLastFn_truthful hO hs ht hd hls hlt h _) (pairArr_rep hx hy)
  exact ⟨r, by rw [hr]; rfl⟩

end

theorem dotArr_returns {T n : ℕ} (hn : 0 < n) {dd : DotDims} {ls rs : List ℕ} (hok : dd.Ok ls rs) (hl0 : 0 ∉ ls) (hr0 : 0 ∉ rs) (x : (i : Fin 2) → Fin (two ls rs i).prod → F) :
    (dotArrPrim dd ls rs).ReturnsWith (denseInv n) T n x := by
  intro X _ _ B o u hB hx ho hex
  subst hB
  suffices h : ∃ r, dotArrRule dd ls rs T (o (0 : Fin 2)) (o (1 : Fin 2)) = some ⟨(outShape dd ls rs).prod, r⟩ by
    obtain ⟨r, hr⟩ := h
    refine ⟨fun _ => r, ?_⟩
    show (match dotArrRule dd ls rs T (o (0 : Fin 2)) (o (1 : Fin 2)) with
      | none => Except.error Interp.Err.other
      | some v =>
        match castTo (outShape dd ls rs).prod v with
        | .error e => .error e
        | .ok r => .ok fun _ => r) = _
    rw [hr]
    dsimp only
    rw [(castTo_eq _ _ r).mpr rfl]
    rfl
  have h0 : OpdRep (m := ls.prod) B (denseInv B.n) (o (0 : Fin 2)) (u (0 : Fin 2)) := ho (0 : Fin 2)
  have h1 : OpdRep (m := rs.prod) B (denseInv B.n) (o (1 : Fin 2)) (u (1 : Fin 2)) := ho (1 : Fin 2)
  have hS := arrSound_dense (F := F) T B.n hn
  have hw : ((o (0 : Fin 2)).isWeak && (o (1 : Fin 2)).isWeak) = false := by
    have : Opd.isWeak (m := ls.prod) (o (0 : Fin 2)) = false := by
      generalize o (0 : Fin 2) = o0 at h0
      cases o0 with
      | plain _ => rfl
      | lapl t => exact h0.2.1
    exact (congrArg (fun b => b && _) this).trans (Bool.false_and _)
  generalize o (0 : Fin 2) = a at h0 hw ⊢
  generalize o (1 : Fin 2) = b at h1 hw ⊢
  revert h0 h1
  generalize u (0 : Fin 2) = u0
  generalize u (1 : Fin 2) = u1
  intro h0 h1
  show ∃ r, dotArrRule dd ls rs T a b = some ⟨(outShape dd ls rs).prod, r⟩
  unfold dotArrRule
  split
  · exact ⟨_, rfl⟩
  · have hl := pos_notMem hl0
    have hr := pos_notMem hr0
    rw [dif_pos ⟨hl, hr⟩]
    obtain ⟨zl, e1, s1, -⟩ := left_spec (x := iota ls) (rs := rs) dd hok
    obtain ⟨zr, e2, s2, -⟩ := right_spec (y := iota rs) (ls := ls) dd hok
    have s1 : zl.shape = leftShape dd ls rs := s1
    have s2 : zr.shape = rightShape dd ls rs := s2
    obtain ⟨q1, q2, p3, hzl0, hzr0⟩ := lead_pos hok hl0 hr0
    rw [← s1] at hzl0
    rw [← s2] at hzr0
    rw [e1, e2]
    dsimp only
    obtain ⟨l, f1⟩ := arr_some (T := T) (m := 0) (u := fun _ => u0) (o := fun _ => a) hn (takeArr_truthful (fil := true) (src := rearrSrc ls hl zl) (c := 0) (m := 0) (shape := fun _ => ls) (fun _ => hl0) hzl0) fun _ => h0
    obtain ⟨r, f2⟩ := arr_some (T := T) (m := 0) (u := fun _ => u1) (o := fun _ => b) hn (takeArr_truthful (fil := true) (src := rearrSrc rs hr zr) (c := 0) (m := 0) (shape := fun _ => rs) (fun _ => hr0) hzr0) fun _ => h1
    obtain ⟨wl, c1, -⟩ := rearrArr_rep hS hl0 hl (freeOf_perm hok.lnodup hok.llt) e1 hzl0 h0 f1
    obtain ⟨wr, d1, -⟩ := rearrArr_rep hS hr0 hr (freeOf_perm hok.rnodup hok.rlt) e2 hzr0 h1 f2
    have f1' : rearrCall T ls hl zl a = some l := f1
    have f2' : rearrCall T rs hr zr b = some r := f2
    rw [f1', f2']
    dsimp only
    have hc : ¬ (interEqIn zl.shape zr.shape && (Opd.isWeak (m := ls.prod) a && Opd.isWeak (m := rs.prod) b)) = true := fun h => by
      have h2 := ((Bool.and_eq_true _ _).mp h).2
      exact absurd (hw.symm.trans h2) (by decide)
    rw [if_neg hc]
    refine dotLastArr_some (d := (sizes ls dd.lc).prod) hn s1 (by rw [s2, hok.contract]; rfl) (lead_broadcasts hok) q1 q2 p3 (lead_length hok).1 (lead_length hok).2 c1 d1

theorem dotArr_total {T n : ℕ} (hn : 0 < n) {dd : DotDims} {ls rs : List ℕ} (hok : dd.Ok ls rs) (hl0 : 0 ∉ ls) (hr0 : 0 ∉ rs) (x : (i : Fin 2) → Fin (two ls rs i).prod → F) :
    (dotArrPrim dd ls rs).TotalAt T n x := by
  intro o hx hl hd
  have hex : ∀ i, ∃ u : (Fin n → ℝ) → Fin ((dotArrPrim (F := F) dd ls rs).size i) → F, OpdRep (unitBase n) (denseInv n) (o i) u ∧ u 0 = x i := by
    intro i
    cases ho : o i with
    | plain a =>
      refine ⟨fun _ => a, ⟨rfl, EventuallyEq.rfl⟩, ?_⟩
      have := hx i
      rw [ho] at this
      exact this
    | lapl t =>
      have hj := hd i t ho
      obtain ⟨u, hu⟩ := exists_rep hn t (by
        revert hj
        cases t.jac with
        | dense rows => exact fun hj => le_of_eq hj.2
        | sparse rows => exact fun hj => absurd hj.1 (by simp [Jac.weak]))
      refine ⟨u, ⟨hu, hj⟩, hu.x.symm.trans ?_⟩
      have := hx i
      rw [ho] at this
      exact this
  choose u hu hux using hex
  exact dotArr_returns hn hok hl0 hr0 x (unitBase n) o u rfl hux hu hl

end Folx.Layout

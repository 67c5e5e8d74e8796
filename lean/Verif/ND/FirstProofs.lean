import Verif.ND.FirstSpec
import Verif.ND.ReduceRuleMain
import Verif.ND.RuleSpecProofs
import Verif.Props.LayoutProps

/-!
# The dense first-order rules on arrays
-/

namespace Folx.Layout
open Vmap Dot

variable {F : Type} [CommRing F] [Inhabited F] {k : ℕ} {ss : Fin (k + 1) → List ℕ} {o : List ℕ}

/-- The value at `q` as a linear function of the tangent. -/
def atq (D : Deriv F ss o) {q : List ℕ} (hq : InB q o) : ((a : Fin (k + 1)) → Fin (ss a).prod → F) →ₗ[F] F :=
  LinearMap.proj ⟨ravelIdx o q, ravelIdx_lt hq⟩ ∘ₗ D

theorem get_push (D : Deriv F ss o) {q : List ℕ} (hq : InB q o) (t) : (toND o (D t)).get q = atq D hq t := toND_get _ _ hq

theorem foldr_max_const {k N : ℕ} (f : Fin (k + 1) → ℕ) (h : ∀ a, f a = N) : (List.ofFn f).foldr max 0 = N := by
  obtain rfl : f = fun _ => N := funext h
  clear h
  induction k with
  | zero => simp
  | succ k ih =>
    rw [List.ofFn_succ, List.foldr_cons, ih]
    simp

theorem vmapPush_spec (D : Deriv F ss o) {ts : Fin (k + 1) → ND F} {N : ℕ} (h : ∀ a, (ts a).shape = N :: ss a) :
    ∃ r, vmapPush D ts = some r ∧ r.shape = N :: o ∧
      ∀ i q, i < N → InB q o → r.get (i :: q) = (toND o (D fun a c => (ts a).get (i :: unravelIdx (ss a) c))).get q := by
  have hN : ∀ a, (ts a).shape.getD 0 0 = N := fun a => by rw [h a]; rfl
  unfold vmapPush
  dsimp only
  rw [foldr_max_const _ hN, if_pos hN]
  refine ⟨_, rfl, rfl, fun i q hi hq => ?_⟩
  rw [ND.get_ofFn _ (List.Forall₂.cons hi hq)]
  show (push D fun a => row0 (ts a) i).get q = _
  unfold push
  congr 3
  funext a
  rw [vecOf_eq (shape_row0 (h a) i)]
  funext c
  exact get_row0 (h a) (inB_unravelIdx c.2)

theorem push_shape (D : Deriv F ss o) (ts) : (push D ts).shape = o := rfl

theorem push_get (D : Deriv F ss o) {ts : Fin (k + 1) → ND F} (h : ∀ a, (ts a).shape = ss a) (q : List ℕ) :
    (push D ts).get q = (toND o (D fun a c => (ts a).get (unravelIdx (ss a) c))).get q := by
  unfold push
  congr 3
  funext a
  exact vecOf_eq (h a)

theorem allSome_some {α : Type} {k : ℕ} {f : Fin k → Option α} {g : Fin k → α} (h : ∀ a, f a = some (g a)) : allSome f = some g := by
  obtain rfl : f = fun a => some (g a) := funext h
  unfold allSome
  exact dif_pos fun _ => rfl

/-- `dense_array` of any Jacobian. -/
theorem dense_spec {n : ℕ} (hn : 0 < n) {s : List ℕ} {a : ArrTrip F} (ha : ArgFor n s a) :
    ∃ d N, a.jac.dense = some d ∧ d.shape = N :: s ∧ N ≤ n ∧
      ∀ i p, InB p s → a.jac.entry i p = if i < N then d.get (i :: p) else 0 := by
  obtain ⟨⟨K, hK⟩, hw⟩ := ha.jac
  have hrows := ha.rows
  unfold ArrJac.dense
  have hentry : ∀ i p, a.jac.entry i p = match a.jac.idx with
    | none => if i < a.jac.data.shape.getD 0 0 then a.jac.data.get (i :: p) else 0
    | some m => ((List.range (a.jac.data.shape.getD 0 0)).map fun k =>
        if m.get (k :: p) = (i : ℤ) then a.jac.data.get (k :: p) else 0).sum := fun i p => rfl
  cases hi : a.jac.idx with
  | none =>
    rw [hi] at hw
    rw [hK] at hw
    refine ⟨_, K, rfl, hK, hw, fun i p hp => ?_⟩
    rw [hentry, hi, hK]
    rfl
  | some m =>
    rw [hi] at hw
    obtain ⟨hm, hw⟩ := hw
    have hr : 0 < K := by have := hrows (by rw [hi]; simp); rwa [hK] at this
    obtain ⟨d, N, h1, h2, h3, h4, h5⟩ := C35_dense_array (data := a.jac.data) (x0 := m) hK (hm.trans hK) hr ha.size
    rw [hK] at hw
    refine ⟨d, N, h1, h2, ?_, fun i p hp => ?_⟩
    · rcases h4 with rfl | ⟨j, p, hj, hp, e⟩
      · exact hn
      · have := (hw j p hj hp).1
        omega
    · rw [hentry, hi, hK]
      dsimp only
      rw [List.getD_cons_zero]
      split
      · rename_i hiN
        rw [h5 i p hiN hp]
      · rename_i hiN
        refine List.sum_eq_zero fun y hy => ?_
        obtain ⟨j, hj, rfl⟩ := List.mem_map.mp hy
        rw [if_neg]
        have := h3 j p (by simpa using hj) hp
        omega

theorem concat0_spec {α : Type} [Inhabited α] {x y : ND α} {K L : ℕ} {s : List ℕ} (hx : x.shape = K :: s) (hy : y.shape = L :: s) :
    (concat0 x y).shape = (K + L) :: s ∧
    ∀ i p, i < K + L → InB p s → (concat0 x y).get (i :: p) = if i < K then x.get (i :: p) else y.get ((i - K) :: p) := by
  unfold concat0
  rw [hx, hy]
  exact ⟨rfl, fun i p hi hp => ND.get_ofFn _ (List.Forall₂.cons hi hp)⟩

theorem foldr_max_le' {n : ℕ} : ∀ {l : List ℕ}, (∀ x ∈ l, x ≤ n) → l.foldr max 0 ≤ n
  | [], _ => Nat.zero_le _
  | a :: _, h => max_le (h a (by simp)) (foldr_max_le' fun x hx => h x (by simp [hx]))

/-- `extend_jacobians`. -/
theorem extendJac_spec {n : ℕ} {ds : Fin (k + 1) → ND F} {N : Fin (k + 1) → ℕ} (h : ∀ a, (ds a).shape = N a :: ss a) (hn : ∀ a, N a ≤ n) :
    ∃ M, M ≤ n ∧ (∀ a, (extendJac ds a).shape = M :: ss a) ∧
      ∀ i a p, InB p (ss a) → (if i < M then (extendJac ds a).get (i :: p) else 0) = if i < N a then (ds a).get (i :: p) else 0 := by
  have hN : (fun a => (ds a).shape.getD 0 0) = N := funext fun a => by rw [h a]; rfl
  have same : ∀ M, (∀ a, N a = M) → M ≤ n ∧ (∀ a, (ds a).shape = M :: ss a) ∧
      ∀ i a p, InB p (ss a) → (if i < M then (ds a).get (i :: p) else 0) = if i < N a then (ds a).get (i :: p) else 0 :=
    fun M hM => ⟨hM 0 ▸ hn 0, fun a => hM a ▸ h a, fun i a p _ => by rw [hM a]⟩
  unfold extendJac
  split
  · rename_i h1
    refine ⟨N 0, same _ fun a => ?_⟩
    obtain rfl : a = 0 := Fin.ext (by have := a.2; have : (0 : Fin (k + 1)).val = 0 := rfl; omega)
    rfl
  · dsimp only
    rw [hN]
    set M := (List.ofFn N).foldr max 0
    have hle : ∀ a, N a ≤ M := fun a => foldr_max_le (List.mem_ofFn.mpr ⟨a, rfl⟩)
    have hN' : ∀ a, (ds a).shape.getD 0 0 = N a := congrFun hN
    simp only [hN']
    split
    · rename_i h1
      exact ⟨M, same _ h1⟩
    · have hMn : M ≤ n := foldr_max_le' (fun x hx => by obtain ⟨a, rfl⟩ := List.mem_ofFn.mp hx; exact hn a)
      have hz : ∀ a, (zerosND (F := F) ((M - N a) :: (ds a).shape.tail)).shape = (M - N a) :: ss a := fun a => by rw [h a]; rfl
      refine ⟨M, hMn, fun a => ?_, fun i a p hp => ?_⟩
      · dsimp only
        split
        · rw [(concat0_spec (h a) (hz a)).1, Nat.add_sub_cancel' (hle a)]
        · have := hle a
          rw [h a]
          congr 1
          omega
      · dsimp only
        split
        · rename_i hi
          split
          · rw [(concat0_spec (h a) (hz a)).2 i p (by have := hle a; omega) hp]
            split
            · rfl
            · unfold zerosND
              rw [h a]
              exact ND.get_ofFn _ (List.Forall₂.cons (by omega) hp)
          · have := hle a
            rw [if_pos (by omega)]
        · have := hle a
          rw [if_neg (by omega)]

theorem initRows_spec {r : ND F} {N : ℕ} {s : List ℕ} (h : r.shape = (N + 1) :: s) :
    (initRows r).shape = N :: s ∧ ∀ i p, i < N → InB p s → (initRows r).get (i :: p) = r.get (i :: p) := by
  unfold initRows
  rw [h]
  exact ⟨rfl, fun i p hi hp => ND.get_ofFn _ (List.Forall₂.cons hi hp)⟩

theorem lastRow_spec {r : ND F} {N : ℕ} {s : List ℕ} (h : r.shape = (N + 1) :: s) :
    (lastRow r).shape = s ∧ ∀ p, InB p s → (lastRow r).get p = r.get (N :: p) := by
  unfold lastRow
  rw [h]
  exact ⟨shape_row0 h _, fun p hp => get_row0 h hp⟩

/-- The rows `G` and the Laplacians, pushed forward in one batch (`tree_concat`, `vmap`, `tree_take`). -/
theorem joint_spec (D : Deriv F ss o) {G ls : Fin (k + 1) → ND F} {N : ℕ} (hG : ∀ a, (G a).shape = N :: ss a) (hl : ∀ a, (ls a).shape = ss a) :
    ∃ r, vmapPush D (fun a => concat0 (G a) (expand0 (ls a))) = some r ∧ (initRows r).shape = N :: o ∧
      (∀ i q, i < N → InB q o → (initRows r).get (i :: q) = (toND o (D fun a c => (G a).get (i :: unravelIdx (ss a) c))).get q) ∧
      (lastRow r).shape = o ∧
      ∀ q, InB q o → (lastRow r).get q = (toND o (D fun a c => (ls a).get (unravelIdx (ss a) c))).get q := by
  have ht := fun a => tangent_spec (hG a) (hl a)
  obtain ⟨r, h1, h2, h3⟩ := vmapPush_spec D (N := N + 1) fun a => (ht a).1
  have hrow : ∀ i a p, InB p (ss a) → (concat0 (G a) (expand0 (ls a))).get (i :: p) = (row0 (concat0 (G a) (expand0 (ls a))) i).get p :=
    fun i a p hp => (get_row0 (ht a).1 hp).symm
  refine ⟨r, h1, (initRows_spec h2).1, fun i q hi hq => ?_, (lastRow_spec h2).1, fun q hq => ?_⟩
  · rw [(initRows_spec h2).2 i q hi hq, h3 i q (by omega) hq]
    congr 3
    funext a c
    rw [hrow _ _ _ (inB_unravelIdx c.2), (ht a).2.1 i hi, get_row0 (hG a) (inB_unravelIdx c.2)]
  · rw [(lastRow_spec h2).2 q hq, h3 N q (by omega) hq]
    congr 3
    funext a c
    rw [hrow _ _ _ (inB_unravelIdx c.2), (ht a).2.2]

section
variable {n : ℕ} (hn : 0 < n) {args : Fin (k + 1) → ArrTrip F} (hargs : ∀ a, ArgFor n (ss a) (args a))

include hn hargs in
theorem denses_spec : ∃ ds, allSome (fun a => (args a).jac.dense) = some ds ∧ ∃ M, M ≤ n ∧ (∀ a, (extendJac ds a).shape = M :: ss a) ∧
    ∀ i a p, InB p (ss a) → (args a).jac.entry i p = if i < M then (extendJac ds a).get (i :: p) else 0 := by
  choose d N h1 h2 h3 h4 using fun a => dense_spec hn (hargs a)
  obtain ⟨M, hM, h5, h6⟩ := extendJac_spec h2 h3
  exact ⟨d, allSome_some h1, M, hM, h5, fun i a p hp => (h4 a i p hp).trans (h6 i a p hp).symm⟩

/-- A dense result is right if its rows are the images of the rows. -/
theorem isPush_dense {D : Deriv F ss o} {g l : ND F} {M : ℕ} (hM : M ≤ n) (hg : g.shape = M :: o) (hl : l.shape = o)
    {E : Fin (k + 1) → ND F}
    (he : ∀ i a p, InB p (ss a) → (args a).jac.entry i p = if i < M then (E a).get (i :: p) else 0)
    (h1 : ∀ i q, i < M → InB q o → g.get (i :: q) = (toND o (D fun a c => (E a).get (i :: unravelIdx (ss a) c))).get q)
    (h2 : ∀ q, InB q o → l.get q = (toND o (D (laplsOf ss args))).get q) : IsPush n D args (⟨g, none⟩, l) := by
  refine ⟨⟨⟨M, hg⟩, by show g.shape.getD 0 0 ≤ n; rw [hg]; exact hM⟩, fun h => absurd rfl h, fun i q hq => ?_, hl, h2⟩
  show (if i < g.shape.getD 0 0 then g.get (i :: q) else 0) = _
  rw [hg, List.getD_cons_zero]
  split
  · rename_i hi
    rw [h1 i q hi hq]
    congr 3
    funext a c
    unfold derivsOf
    rw [he i a _ (inB_unravelIdx c.2), if_pos hi]
  · rename_i hi
    have : derivsOf ss args i = 0 := by
      funext a c
      unfold derivsOf
      rw [he i a _ (inB_unravelIdx c.2), if_neg hi]
      rfl
    rw [this, get_push D hq, map_zero]

include hn hargs in
theorem denseSplit_spec (D : Deriv F ss o) : ∃ r, denseSplit D args = some r ∧ IsPush n D args (⟨r.1, none⟩, r.2) := by
  obtain ⟨ds, h1, M, hM, h2, h3⟩ := denses_spec hn hargs
  obtain ⟨g, h4, h5, h6⟩ := vmapPush_spec D h2
  refine ⟨(g, _), ?_, isPush_dense hM h5 rfl h3 h6 fun q _ => push_get D (fun a => (hargs a).lapl) q⟩
  unfold denseSplit
  rw [h1]
  show (vmapPush D (extendJac ds)).bind _ = _
  rw [h4]
  rfl

include hn hargs in
theorem denseJoint_spec (D : Deriv F ss o) : ∃ r, denseJoint D args = some r ∧ IsPush n D args (⟨r.1, none⟩, r.2) := by
  obtain ⟨ds, h1, M, hM, h2, h3⟩ := denses_spec hn hargs
  obtain ⟨g, h4, h5, h6, h7, h8⟩ := joint_spec D h2 fun a => (hargs a).lapl
  refine ⟨(initRows g, lastRow g), ?_, isPush_dense hM h5 h7 h3 h6 h8⟩
  unfold denseJoint
  rw [h1]
  show (vmapPush D _).bind _ = _
  rw [h4]
  rfl

end

/-- The derivative of an elementwise function of one argument of the shape of the result is the multiplication by the sum of its columns. -/
theorem vjpOnes_spec {ss : Fin 1 → List ℕ} {D : Deriv F ss o} (hD : Elementwise D) (ho : ss 0 = o) {q : List ℕ} (hq : InB q o)
    (t : (a : Fin 1) → Fin (ss a).prod → F) :
    (toND o (D t)).get q = (vjpOnes D 0).get q * (toND (ss 0) (t 0)).get q := by
  subst ho
  set c : Fin (ss 0).prod := ⟨ravelIdx (ss 0) q, ravelIdx_lt hq⟩ with hc
  have hcq : ∀ c' : Fin (ss 0).prod, unravelIdx (ss 0) c' = q → c' = c := fun c' e => Fin.ext (by
    rw [hc]; dsimp only; rw [← e, ravelIdx_unravelIdx c'.2])
  have hb : bcoord (ss 0) (ss 0) q = q := bcoord_self hq
  -- only `c` matters
  set e : (a : Fin 1) → Fin (ss a).prod → F := Pi.single 0 (Pi.single c 1) with he
  have hec : e 0 c = 1 := by rw [he, Pi.single_eq_same, Pi.single_eq_same]
  have h1 : (toND (ss 0) (D t)).get q = t 0 c * (toND (ss 0) (D e)).get q := by
    have hz : (toND (ss 0) (D (t - t 0 c • e))).get q = 0 := by
      refine hD.dep _ q hq fun a c' h => ?_
      obtain rfl : a = 0 := Subsingleton.elim (α := Fin 1) _ _
      rw [hb] at h
      rw [hcq c' h]
      show t 0 c - t 0 c * e 0 c = 0
      rw [hec, mul_one, sub_self]
    rw [get_push D hq, map_sub, map_smul, sub_eq_zero] at hz
    rw [get_push D hq, get_push D hq, hz]
    rfl
  rw [h1, toND_get (ss 0) (t 0) hq, mul_comm]
  congr 1
  unfold vjpOnes
  rw [toND_get _ _ hq, toND_get _ _ hq, ← hc]
  rw [Finset.sum_eq_single c]
  · intro c' _ hne
    have := hD.dep e (unravelIdx (ss 0) c') (inB_unravelIdx c'.2) fun a c2 h => by
      obtain rfl : a = 0 := Subsingleton.elim (α := Fin 1) _ _
      rw [bcoord_self (inB_unravelIdx c'.2)] at h
      have : c2 = c' := Fin.ext (by rw [← ravelIdx_unravelIdx c2.2, h, ravelIdx_unravelIdx c'.2])
      rw [he, Pi.single_eq_same, this, Pi.single_eq_of_ne hne]
    rw [toND_get _ _ (inB_unravelIdx c'.2)] at this
    rw [← this]
    exact congrArg (D e) (Fin.ext (ravelIdx_unravelIdx c'.2).symm)
  · simp

theorem mulRows_spec {j x : ND F} {K : ℕ} {s : List ℕ} (hx : x.shape = K :: s) {i : ℕ} {p : List ℕ} (hi : i < K) (hp : InB p s) :
    (mulRows j x).get (i :: p) = j.get p * x.get (i :: p) := by
  unfold mulRows
  rw [hx]
  exact ND.get_ofFn _ (List.Forall₂.cons hi hp)

theorem denseElementwise_spec {ss : Fin 1 → List ℕ} {n : ℕ} (hn : 0 < n) {args : Fin 1 → ArrTrip F} (hargs : ∀ a, ArgFor n (ss a) (args a))
    {D : Deriv F ss o} (hD : Elementwise D) : ∃ r, denseElementwise D args = some r ∧ IsPush n D args (⟨r.1, none⟩, r.2) := by
  unfold denseElementwise
  split
  · exact denseSplit_spec hn hargs D
  · rename_i ho
    have ho : ss 0 = o := (hargs 0).x.symm.trans (not_not.mp ho).symm
    obtain ⟨d, N, h1, h2, h3, h4⟩ := dense_spec hn (hargs 0)
    refine ⟨_, by rw [h1]; rfl, isPush_dense (M := N) (E := fun _ => d) h3 (h2.trans (by rw [ho])) ((hargs 0).lapl.trans ho) (fun i a p hp => ?_) (fun i q hi hq => ?_)
      fun q hq => ?_⟩
    · obtain rfl : a = 0 := Subsingleton.elim (α := Fin 1) _ _
      exact h4 i p hp
    · rw [vjpOnes_spec hD ho hq]
      dsimp only
      rw [mulRows_spec h2 hi (ho ▸ hq), toND_get (ss 0) _ (ho ▸ hq)]
      dsimp only
      rw [unravelIdx_ravelIdx (ho ▸ hq)]
    · rw [vjpOnes_spec hD ho hq]
      dsimp only
      have hq' : InB q (ss 0) := ho ▸ hq
      unfold mulND
      rw [(hargs 0).lapl, ND.get_ofFn _ hq', toND_get (ss 0) _ hq']
      unfold laplsOf
      rw [unravelIdx_ravelIdx hq']

/-- The dense rule. -/
theorem denseJvpArr_spec {n : ℕ} (hn : 0 < n) {args : Fin (k + 1) → ArrTrip F} (hargs : ∀ a, ArgFor n (ss a) (args a)) {D : Deriv F ss o}
    {ew : Bool} (hD : ew = true → Elementwise D) (join : Bool) : ∃ r, denseJvpArr ew join D args = some r ∧ r.1.idx = none ∧ IsPush n D args r := by
  have key : ∃ r, densePick ew join D args = some r ∧ IsPush n D args (⟨r.1, none⟩, r.2) := by
    unfold densePick
    split
    · rename_i h
      obtain ⟨h1, rfl⟩ := h
      exact denseElementwise_spec hn hargs (hD h1)
    · split
      · exact denseJoint_spec hn hargs D
      · exact denseSplit_spec hn hargs D
  obtain ⟨r, h1, h2⟩ := key
  refine ⟨_, ?_, rfl, h2⟩
  unfold denseJvpArr
  rw [h1]
  rfl

end Folx.Layout

import Verif.ND.SumRule
import Verif.ND.LayoutMain
import Verif.ND.DotProofs

/-!
# Proofs about `sparse_sum_jvp` on arrays
-/

namespace Folx.Layout
open Vmap Dot

variable {α F : Type} [Inhabited α]

theorem reshapeLead_eq (x : ND α) (rest : List ℕ) (R : ℕ) (h0 : rest.prod ≠ 0) (h : x.shape.prod = R * rest.prod) :
    reshapeLead x rest = some (x.reshape (R :: rest) (by rw [h, List.prod_cons])) := by
  unfold reshapeLead
  rw [if_neg h0]
  have hd : x.shape.prod / rest.prod = R := by rw [h, Nat.mul_div_cancel _ (Nat.pos_of_ne_zero h0)]
  simp only [hd]
  exact ND.reshape?_eq _ _ _

theorem segOrder_perm {n : ℕ} {copied : List ℕ} (hc : List.Sublist copied ((List.range (n + 1)).filter fun d => decide (d ≠ 0))) :
    (0 :: (((List.range (n + 1)).filter fun i => decide (i ∉ copied ∧ 0 < i)) ++ copied)).Perm (List.range (n + 1)) := by
  have h := order_perm hc
  have e : ((List.range (n + 1)).filter fun i => decide (i ∉ copied ∧ 0 < i)) =
      (List.range (n + 1)).filter fun a => decide (a ∉ copied ∧ a ≠ 0) :=
    List.filter_congr fun a _ => by simp [Nat.pos_iff_ne_zero]
  rw [e]
  exact (List.perm_middle.symm).trans h

theorem inB_sizes {s dims w : List ℕ} (hw : InB w s) (hd : ∀ d ∈ dims, d < s.length) :
    InB (dims.map fun d => w.getD d 0) (dims.map fun d => s.getD d 0) := by
  unfold InB
  rw [List.forall₂_map_left_iff, List.forall₂_map_right_iff, List.forall₂_same]
  exact fun d h => hw.getD_lt (hd d h)

variable [AddCommMonoid F] [Inhabited F]

/-- The block segment sum is the segment sum at every position. -/
theorem segLayout_spec {jac : ND F} {idx : ND ℤ} {R M : ℕ} {out : List ℕ} (hR : R ≠ 0) (hj : jac.shape = R :: out)
    (hi : idx.shape = R :: out) (ho : 0 ∉ out) :
    ∃ r, segLayout jac idx M out = some r ∧ r.shape = M :: out ∧
      ∀ i p, i < M → InB p out → r.get (i :: p) =
        ((List.range R).map fun k => if idx.get (k :: p) = (i : ℤ) then jac.get (k :: p) else 0).sum := by
  have hcomp := compact_spec idx
  have hn : idx.ndim = out.length + 1 := by unfold ND.ndim; rw [hi]; rfl
  rw [hn] at hcomp
  have hc := hcomp.sub
  have hcs : (compact idx).1.shape = oneAt (compact idx).2 (R :: out) := by rw [hcomp.shape, hi]
  have hlen : (compact idx).1.ndim = out.length + 1 := by unfold ND.ndim; rw [hcs, oneAt_length]; simp
  have hperm := segOrder_perm hc
  unfold segLayout
  dsimp only
  rw [hlen]
  set copied := (compact idx).2 with hcop
  set vm := (List.range (out.length + 1)).filter fun i => decide (i ∉ copied ∧ 0 < i) with hvm
  set order := 0 :: (vm ++ copied) with horder
  have hmem : ∀ a ∈ vm, a < out.length + 1 ∧ a ∉ copied ∧ a ≠ 0 := by
    intro a ha
    have := List.mem_filter.mp ha
    simp only [List.mem_range, decide_eq_true_eq] at this
    exact ⟨this.1, this.2.1, by omega⟩
  have hcm : ∀ a ∈ copied, a < out.length + 1 ∧ a ≠ 0 := by
    intro d hd
    have := hc.subset hd
    simpa using this
  let A := vm.map fun a => (R :: out).getD a 0
  let C := copied.map fun a => (R :: out).getD a 0
  have hxt : (jac.transpose order).shape = R :: (A ++ C) := by
    rw [ND.shape_transpose, hj, horder, List.map_cons, List.map_append]; rfl
  have hit : ((compact idx).1.transpose order).shape = R :: (A ++ List.replicate copied.length 1) := by
    rw [ND.shape_transpose, hcs, horder, List.map_cons, List.map_append]
    congr 1
    · rw [oneAt_getD _ _ (by simp), if_neg (fun h => (hcm 0 h).2 rfl)]; rfl
    · congr 1
      · refine List.map_congr_left fun a ha => ?_
        obtain ⟨h1, h2, h3⟩ := hmem a ha
        rw [oneAt_getD _ _ (by simpa using h1), if_neg h2]
      · rw [List.eq_replicate_iff]
        refine ⟨by simp, fun b hb => ?_⟩
        obtain ⟨a, ha, rfl⟩ := List.mem_map.mp hb
        rw [oneAt_getD _ _ (by simpa using (hcm a ha).1), if_pos ha]
  have hd : (dropLast copied.length ((compact idx).1.transpose order)).shape = R :: A := by
    unfold dropLast
    rw [ND.shape_ofFn, hit]
    have : (R :: (A ++ List.replicate copied.length 1)) = (R :: A) ++ List.replicate copied.length 1 := by simp
    rw [this]
    exact List.take_left' (by simp only [List.length_append, List.length_cons, List.length_replicate]; omega)
  have hne : ∀ L : List ℕ, (∀ a ∈ L, a < out.length + 1 ∧ a ≠ 0) → (L.map fun a => (R :: out).getD a 0).prod ≠ 0 := by
    intro L hL
    rw [Ne, List.prod_eq_zero_iff]
    intro h
    obtain ⟨a, ha, e⟩ := List.mem_map.mp h
    obtain ⟨h1, h3⟩ := hL a ha
    cases a with
    | zero => exact h3 rfl
    | succ a =>
      apply ho
      rw [List.getD_cons_succ, List.getD_eq_getElem _ _ (by omega)] at e
      rw [← e]; exact List.getElem_mem _
  have hA0 : A.prod ≠ 0 := hne vm fun a ha => ⟨(hmem a ha).1, (hmem a ha).2.2⟩
  have hC0 : C.prod ≠ 0 := hne copied hcm
  have hr : (dropLast copied.length ((compact idx).1.transpose order)).shape.getD 0 0 = R := by rw [hd]; rfl
  rw [hr, if_neg hR]
  have hq : (dropLast copied.length ((compact idx).1.transpose order)).shape.prod / R = A.prod := by
    rw [hd, List.prod_cons, Nat.mul_div_cancel_left _ (Nat.pos_of_ne_zero hR)]
  rw [hq]
  have hpi : (dropLast copied.length ((compact idx).1.transpose order)).shape.prod = [R, A.prod].prod := by
    rw [hd]; simp
  rw [ND.reshape?_eq _ _ hpi]
  simp only [Option.bind_eq_bind, Option.bind_some]
  set idx6 := (dropLast copied.length ((compact idx).1.transpose order)).reshape [R, A.prod] hpi with hidx6
  have htk : idx6.shape.take 2 = [R, A.prod] := rfl
  rw [htk]
  rw [if_neg (by simp only [List.prod_cons, List.prod_nil, mul_one]; exact mul_ne_zero hR hA0)]
  have hq2 : (jac.transpose order).shape.prod / [R, A.prod].prod = C.prod := by
    rw [hxt, List.prod_cons, List.prod_append]
    simp only [List.prod_cons, List.prod_nil, mul_one]
    rw [← mul_assoc, Nat.mul_div_cancel_left _ (Nat.pos_of_ne_zero (mul_ne_zero hR hA0))]
  rw [hq2]
  have hpj : (jac.transpose order).shape.prod = ([R, A.prod] ++ [C.prod]).prod := by
    rw [hxt, List.prod_cons, List.prod_append]
    simp
  rw [ND.reshape?_eq _ _ hpj, Option.bind_some]
  set jac6 := (jac.transpose order).reshape ([R, A.prod] ++ [C.prod]) hpj with hjac6
  have hag : (segSumCols jac6 idx6 M).shape = [M, A.prod, C.prod] := rfl
  have htl : (jac.transpose order).shape.tail = A ++ C := by rw [hxt]; rfl
  rw [htl]
  have hpr : (segSumCols jac6 idx6 M).shape.prod = (M :: (A ++ C)).prod := by
    rw [hag]
    simp only [List.prod_cons, List.prod_append, List.prod_nil, mul_one]
  rw [ND.reshape?_eq _ _ hpr, Option.bind_some]
  have hperm' : order.Perm (List.range (M :: out).length) := by simpa using hperm
  have hsucc : ∀ (L : List ℕ), (∀ a ∈ L, a ≠ 0) → ∀ z z' : ℕ, ∀ p : List ℕ,
      (L.map fun a => (z :: p).getD a 0) = L.map fun a => (z' :: p).getD a 0 := by
    intro L hL z z' p
    refine List.map_congr_left fun a ha => ?_
    cases a with
    | zero => exact absurd rfl (hL _ ha)
    | succ a => simp
  have hrs : ((segSumCols jac6 idx6 M).reshape (M :: (A ++ C)) hpr).shape = order.map fun b => (M :: out).getD b 0 := by
    show M :: (A ++ C) = _
    rw [horder, List.map_cons, List.map_append, hsucc vm (fun a ha => (hmem a ha).2.2) M R,
      hsucc copied (fun a ha => (hcm a ha).2) M R]
    rfl
  have hfin := transpose_inv_shape _ hperm' hrs
  rw [ND.reshape?_eq _ _ (by rw [hfin])]
  refine ⟨_, rfl, rfl, fun i p hiM hp => ?_⟩
  have hip : InB (i :: p) (M :: out) := List.Forall₂.cons hiM hp
  rw [ND.get_reshape _ _ _ _ (i :: p) (by rw [hfin]), transpose_inv_get _ hperm' hrs hip]
  let a := vm.map fun a => (i :: p).getD a 0
  let c := copied.map fun a => (i :: p).getD a 0
  have hac : (order.map fun b => (i :: p).getD b 0) = i :: (a ++ c) := by
    rw [horder, List.map_cons, List.map_append]; rfl
  rw [hac]
  have hipR : InB (0 :: p) (R :: out) := List.Forall₂.cons (Nat.pos_of_ne_zero hR) hp
  have haB : InB a A := by
    show InB (vm.map fun a => (i :: p).getD a 0) _
    rw [hsucc vm (fun a ha => (hmem a ha).2.2) i 0]
    exact inB_sizes hipR fun d hd => (hmem d hd).1
  have hcB : InB c C := by
    show InB (copied.map fun a => (i :: p).getD a 0) _
    rw [hsucc copied (fun a ha => (hcm a ha).2) i 0]
    exact inB_sizes hipR fun d hd => (hcm d hd).1
  have hrav : ravelIdx A a < A.prod := ravelIdx_lt haB
  have hrac : ravelIdx C c < C.prod := ravelIdx_lt hcB
  rw [ND.get_reshape _ _ _ _ [i, ravelIdx A a, ravelIdx C c] (by
    rw [hag]
    show i * (A ++ C).prod + ravelIdx (A ++ C) (a ++ c) =
      i * [A.prod, C.prod].prod + ravelIdx [A.prod, C.prod] [ravelIdx A a, ravelIdx C c]
    rw [ravelIdx_append _ _ _ _ haB.length_eq, List.prod_append]
    simp [ravelIdx])]
  unfold segSumCols
  rw [ND.get_ofFn _ (by
    exact List.Forall₂.cons hiM (List.Forall₂.cons hrav (List.Forall₂.cons hrac List.Forall₂.nil)))]
  have e1 : jac6.shape.getD 0 0 = R := rfl
  rw [e1]
  congr 1
  refine List.map_congr_left fun k hk => ?_
  have hkR : k < R := by simpa using hk
  have hkp : InB (k :: p) (R :: out) := List.Forall₂.cons hkR hp
  have hxget : jac6.get [k, ravelIdx A a, ravelIdx C c] = jac.get (k :: p) := by
    rw [hjac6, ND.get_reshape _ _ _ _ (k :: (a ++ c)) (by
      rw [hxt]
      show k * [A.prod, C.prod].prod + ravelIdx [A.prod, C.prod] [ravelIdx A a, ravelIdx C c] =
        k * (A ++ C).prod + ravelIdx (A ++ C) (a ++ c)
      rw [ravelIdx_append _ _ _ _ haB.length_eq, List.prod_append]
      simp [ravelIdx])]
    have hpx2 : order.Perm (List.range jac.shape.length) := by rw [hj]; simpa using hperm
    have := ND.get_transpose jac hpx2 (w := k :: p) (by rw [hj]; exact hkp)
    rw [← this, horder, List.map_cons, List.map_append, hsucc vm (fun a ha => (hmem a ha).2.2) k i,
      hsucc copied (fun a ha => (hcm a ha).2) k i]
    rfl
  have higet : idx6.get [k, ravelIdx A a] = idx.get (k :: p) := by
    rw [hidx6, ND.get_reshape _ _ _ _ (k :: a) (by
      rw [hd]
      show k * [A.prod].prod + ravelIdx [A.prod] [ravelIdx A a] = k * A.prod + ravelIdx A a
      simp [ravelIdx])]
    unfold dropLast at hd ⊢
    rw [ND.shape_ofFn] at hd
    rw [ND.get_ofFn _ (by rw [hd]; exact List.Forall₂.cons hkR haB)]
    have hpi2 : order.Perm (List.range (compact idx).1.shape.length) := by rw [hcs, oneAt_length]; simpa using hperm
    have := ND.get_transpose (compact idx).1 hpi2 (w := zeroAt copied (k :: p)) (by rw [hcs]; exact inB_zeroAt hkp)
    have hg := hcomp.get (k :: p) (by rw [hi]; exact hkp)
    rw [← hg, ← this, horder, List.map_cons, List.map_append]
    have z1 : (vm.map fun a => (zeroAt copied (k :: p)).getD a 0) = a := by
      have : a = vm.map fun a => (k :: p).getD a 0 := hsucc vm (fun a ha => (hmem a ha).2.2) i k p
      rw [this]
      refine List.map_congr_left fun b hb => ?_
      obtain ⟨h1, h2, h3⟩ := hmem b hb
      rw [zeroAt_getD _ _ (by have := hp.length_eq; simp; omega), if_neg h2]
    have z2 : (zeroAt copied (k :: p)).getD 0 0 = k := by
      rw [zeroAt_getD _ _ (by simp), if_neg (fun h => (hcm 0 h).2 rfl)]; rfl
    have z3 : (copied.map fun a => (zeroAt copied (k :: p)).getD a 0) = List.replicate copied.length 0 := by
      rw [List.eq_replicate_iff]
      refine ⟨by simp, fun b hb => ?_⟩
      obtain ⟨d, hd2, rfl⟩ := List.mem_map.mp hb
      have := (hcm d hd2).1
      rw [zeroAt_getD _ _ (by have := hp.length_eq; simp; omega), if_pos hd2]
    rw [z1, z2, z3]
    simp
  simp only [List.getD_cons_zero, List.getD_cons_succ, List.tail_cons]
  rw [higet, hxget]

end Folx.Layout

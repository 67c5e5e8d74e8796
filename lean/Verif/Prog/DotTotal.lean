import Verif.Prog.Total

/-!
# The rule of `dot_general` returns for dense operands
-/

namespace Folx

open Vmap Layout Dot
open Folx.Interp (Err)

variable {F : Type} [RCLike F]

attribute [local instance] instInhabitedScalar

/-- Plain, or dense with one row per input. -/
def DenseOpd (n : ℕ) {m : ℕ} (o : Opd F m) : Prop := ∀ t, o = .lapl t → denseInv n m t.jac

/-- A wrapped function returns for dense operands if its custom rule (if any) does, and its result is dense. -/
theorem WPrim.call_dense (p : WPrim F) (T n : ℕ)
    (hf : ∀ x k (e : Fin k ↪o Fin p.nIn), 0 < k → p.Faithful n e x)
    (hc : ∀ x k (e : Fin k ↪o Fin p.nIn) c, (p.inst e x).custom = some c → HInst.CustomTotal c)
    (o : (i : Fin p.nIn) → Opd F (p.size i)) (hd : ∀ i, DenseOpd n (o i)) :
    ∃ r, p.call T o = .ok r ∧ DenseOpd n r := by
  by_cases hex : ∃ i, (o i).isLapl = true
  · obtain ⟨r, hr⟩ := p.total T n (fun i => (o i).x) (hf _) (hc _) o (fun _ => rfl) hex (fun i t => hd i t)
    refine ⟨r, hr, ?_⟩
    intro t ht
    subst ht
    have hpos : 0 < (WPrim.laplIdx o).card := by
      obtain ⟨i, hi⟩ := hex
      exact Finset.card_pos.mpr ⟨i, (WPrim.mem_laplIdx o i).mpr hi⟩
    unfold WPrim.call at hr
    rw [if_neg (Nat.pos_iff_ne_zero.mp hpos)] at hr
    have hdd : ∀ a, (o (WPrim.laplEmb o a)).trip.jac.weak = false ∧ (o (WPrim.laplEmb o a)).trip.jac.nrows = n := by
      intro a
      have hl := (WPrim.laplEmb_range o (WPrim.laplEmb o a)).mp ⟨a, rfl⟩
      cases ho : o (WPrim.laplEmb o a) with
      | plain _ => rw [ho] at hl; simp [Opd.isLapl] at hl
      | lapl t => exact hd _ t ho
    obtain ⟨o1, h1, h2⟩ := jvpRule_dense (p.inst (WPrim.laplEmb o) fun i => (o i).x).toInst T n hpos
      (fun a => (o (WPrim.laplEmb o a)).trip) hdd
    unfold HInst.wrapped at hr
    rw [h1] at hr
    dsimp only at hr
    split at hr
    · simp at hr
    · rename_i t' ht'
      have e := Except.ok.inj hr
      injection e with e
      subst e
      split at ht'
      · simp at ht'
      · have e := Except.ok.inj ht'
        subst e
        exact h2
  · have hcard : (WPrim.laplIdx o).card = 0 := by
      rw [Finset.card_eq_zero, Finset.eq_empty_iff_forall_notMem]
      intro i hi
      exact hex ⟨i, (WPrim.mem_laplIdx o i).mp hi⟩
    refine ⟨.plain (p.fwd fun i => (o i).x), by unfold WPrim.call; rw [if_pos hcard], ?_⟩
    intro t ht
    simp at ht

/-- The building blocks of `dot_general` have no custom rules. -/
theorem Std.call_dense (s : Std F) (T n : ℕ) (h : ∀ x, s.TrueAt n x)
    (hc : ∀ k (e : Fin k ↪o Fin s.nIn) x, s.custom e x = none)
    (o : (i : Fin s.toWPrim.nIn) → Opd F (s.toWPrim.size i)) (hd : ∀ i, DenseOpd n (o i)) :
    ∃ r, s.toWPrim.call T o = .ok r ∧ DenseOpd n r :=
  s.toWPrim.call_dense T n (fun _ _ e hk => Std.faithful (h _) e hk) (fun x k e c hcc => by
    exact absurd ((hc k e x).symm.trans hcc) (by simp)) o hd

theorem sizes_pos {s dims : List ℕ} (hs : 0 < s.prod) (hd : ∀ d ∈ dims, d < s.length) : 0 < (sizes s dims).prod := by
  refine List.prod_pos fun a ha => ?_
  obtain ⟨d, hd', rfl⟩ := List.mem_map.mp ha
  have := hd d hd'
  rw [List.getD_eq_getElem _ _ this]
  exact prod_pos_of hs _ (List.getElem_mem _)

theorem freeOf_lt {n : ℕ} {c b : List ℕ} : ∀ d ∈ freeOf n c b, d < n := by
  intro d hd
  have := (List.mem_filter.mp hd).1
  simpa using this

theorem pair_dense {n a b : ℕ} {x : Opd F a} {y : Opd F b} (hx : DenseOpd n x) (hy : DenseOpd n y) (i : Fin 2) :
    DenseOpd n (pairOpd x y i) := by
  match i with
  | 0 => exact hx
  | 1 => exact hy

theorem dotPrim_total (T n : ℕ) {dd : DotDims} {ls rs : List ℕ} (hok : dd.Ok ls rs) (hl : 0 < ls.prod) (hr : 0 < rs.prod)
    (x : (i : Fin 2) → Fin (![ls.prod, rs.prod] i) → F) : (dotPrim dd ls rs).TotalAt T n x := by
  intro o hx hex hd
  have hd0 : DenseOpd (m := ls.prod) n (o (0 : Fin 2)) := fun t => hd (0 : Fin 2) t
  have hd1 : DenseOpd (m := rs.prod) n (o (1 : Fin 2)) := fun t => hd (1 : Fin 2) t
  suffices h : ∀ (a : Opd F ls.prod) (b : Opd F rs.prod), DenseOpd n a → DenseOpd n b →
      ∃ r, dotGeneralRule dd ls rs T a b = .ok ⟨(outShape dd ls rs).prod, r⟩ by
    obtain ⟨r, hr⟩ := h (o (0 : Fin 2)) (o (1 : Fin 2)) hd0 hd1
    refine ⟨fun _ => r, ?_⟩
    show (match dotGeneralRule dd ls rs T (o (0 : Fin 2)) (o (1 : Fin 2)) with
      | .error e => Except.error e
      | .ok v =>
        match castTo (outShape dd ls rs).prod v with
        | .error e => .error e
        | .ok r => .ok fun _ => r) = _
    rw [hr]
    dsimp only
    rw [(castTo_eq _ _ r).mpr rfl]
    rfl
  intro a b ha hb
  unfold dotGeneralRule
  split
  · exact ⟨_, rfl⟩
  · rw [dif_pos ⟨hl, hr⟩]
    obtain ⟨zl, e1, s1, -⟩ := left_spec (x := iota ls) (rs := rs) dd hok
    obtain ⟨zr, e2, s2, -⟩ := right_spec (y := iota rs) (ls := ls) dd hok
    rw [e1, e2]
    dsimp only
    obtain ⟨l, f1, g1⟩ := (rearrangeStd ls hl zl).call_dense T n (rearrangeStd_true n _ _ _) (fun _ _ _ => rfl) (fun _ => a) (fun _ => ha)
    obtain ⟨r, f2, g2⟩ := (rearrangeStd rs hr zr).call_dense T n (rearrangeStd_true n _ _ _) (fun _ _ _ => rfl) (fun _ => b) (fun _ => hb)
    rw [f1, f2]
    dsimp only
    have hw : (interEqIn zl.shape zr.shape && (a.isWeak && b.isWeak)) = false := by
      have : a.isWeak = false := by
        cases a with
        | plain _ => rfl
        | lapl t => exact (ha t rfl).1
      rw [this]
      simp
    rw [hw]
    simp only [Bool.false_eq_true, if_false]
    unfold dotLastRule
    have hsh1 : zl.shape = leftShape dd ls rs := s1
    have hsh2 : zr.shape = rightShape dd ls rs := s2
    have hbc : broadcastShapes [zl.shape.dropLast, zr.shape.dropLast] = some (outShape dd ls rs) := by
      rw [broadcastShapes_iff, hsh1, hsh2]
      unfold leftShape rightShape outShape
      rw [List.dropLast_concat, List.dropLast_concat, ← hok.batch]
      have := broadcasts_lead (sizes ls dd.lb) (sizes ls (freeOf ls.length dd.lc dd.lb))
        (sizes rs (freeOf rs.length dd.rc dd.rb))
      rwa [sizes_length, sizes_length] at this
    rw [hbc]
    dsimp only
    have l1 : zl.shape.getLast? = some (sizes ls dd.lc).prod := by rw [hsh1]; simp [leftShape]
    have l2 : zr.shape.getLast? = some (sizes ls dd.lc).prod := by rw [hsh2, hok.contract]; simp [rightShape]
    have l3 : zl.shape.getLast?.getD 0 = (sizes ls dd.lc).prod := by rw [l1]; rfl
    have p1 : 0 < (sizes ls dd.lc).prod := sizes_pos hl fun d h => hok.llt d (by simp [h])
    have p2 : 0 < (sizes ls dd.lb).prod := sizes_pos hl fun d h => hok.llt d (by simp [h])
    have p3 : 0 < (sizes ls (freeOf ls.length dd.lc dd.lb)).prod := sizes_pos hl freeOf_lt
    have p4 : 0 < (sizes rs (freeOf rs.length dd.rc dd.rb)).prod := sizes_pos hr freeOf_lt
    have p5 : 0 < (sizes rs dd.rb).prod := sizes_pos hr fun d h => hok.rlt d (by simp [h])
    have hcond : zl.shape.getLast? = some (zl.shape.getLast?.getD 0) ∧ zr.shape.getLast? = some (zl.shape.getLast?.getD 0) ∧
        0 < zl.shape.getLast?.getD 0 ∧ 0 < zl.shape.dropLast.prod ∧ 0 < zr.shape.dropLast.prod := by
      rw [l3]
      refine ⟨l1, l2, p1, ?_, ?_⟩
      · rw [hsh1]
        unfold leftShape
        rw [List.dropLast_concat]
        simp [p2, p3]
      · rw [hsh2]
        unfold rightShape
        rw [List.dropLast_concat]
        simp [p4, p5]
    rw [dif_pos hcond]
    obtain ⟨v, f3, -⟩ := (dotLastStd zl.shape zr.shape (outShape dd ls rs) _ hcond.1 hcond.2.1 hcond.2.2.1 hcond.2.2.2.1
      hcond.2.2.2.2 : Std F).call_dense T n
      (dot_true n (dotLastStd_surj (broadcastShapes_iff.mp hbc) hcond.2.2.2.1 hcond.2.2.2.2)) (fun _ _ _ => rfl) (pairOpd l r) (pair_dense g1 g2)
    rw [f3]
    exact ⟨v, rfl⟩

end Folx

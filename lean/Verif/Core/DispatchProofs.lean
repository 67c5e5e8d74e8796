import Verif.Core.ReduceProofs
import Verif.Props.JacProps

namespace Folx

open Folx.Interp (Err)

variable {k : ℕ} {P : Fin k → Type} {P₀ Q F : Type} [CommRing F]

/-- A sparse Jacobian whose rows do not all have the same mask (unless it has just one row): then numpy's
broadcasting in `FwdJacobian.__add__` cannot mistake it for a one-row Jacobian. -/
def Jac.Tight : Jac P₀ F → Prop
  | .dense _ => True
  | .sparse rows => IsEmpty P₀ ∨ (rows ≠ [] ∧
      (2 ≤ rows.length → ∃ x ∈ rows, ∃ y ∈ rows, ∃ p, x.idx p ≠ y.idx p))

def Jac.Compat (a b : Jac P₀ F) : Prop := a.weak = false ∨ b.weak = false ∨ (a.Tight ∧ b.Tight)

theorem Jac.add_compat [Fintype P₀] [DecidableEq P₀] (n : ℕ) (hn : 0 < n) (a b c : Jac P₀ F)
    (ha : a.Wf n) (hb : b.Wf n) (hc : a.Compat b) (h : a.add b = .ok c) :
    (∀ i p, c.den i p = a.den i p + b.den i p) ∧ c.Wf n := by
  have hmax : max n 1 = n := max_eq_left hn
  by_cases hE : IsEmpty P₀ ∧ a.weak = true ∧ b.weak = true
  · obtain ⟨hE, hwa, hwb⟩ := hE
    refine ⟨fun i p => (hE.false p).elim, ?_⟩
    cases a with
    | dense _ => simp [Jac.weak] at hwa
    | sparse r1 =>
      cases b with
      | dense _ => simp [Jac.weak] at hwb
      | sparse r2 =>
        simp only [Jac.add] at h
        split at h
        · simp at h
        · split at h <;> (simp only [Except.ok.injEq] at h; subst h; intro r _ p; exact (hE.false p).elim)
  · have := C22_add_partial n a b c ha hb ?_ h
    · rw [hmax] at this; exact this
    · rintro r1 r2 rfl rfl
      rcases hc with hc | hc | ⟨h1, h2⟩
      · simp [Jac.weak] at hc
      · simp [Jac.weak] at hc
      · simp only [Jac.weak, and_true] at hE
        rcases h1 with h1 | ⟨h1, h1'⟩
        · exact absurd h1 hE
        rcases h2 with h2 | ⟨h2, h2'⟩
        · exact absurd h2 hE
        by_cases hl : r1.length = r2.length
        · exact Or.inl hl
        · right
          intro hall
          have l1 : 0 < r1.length := List.length_pos_iff.mpr h1
          have l2 : 0 < r2.length := List.length_pos_iff.mpr h2
          by_cases h12 : 2 ≤ r1.length
          · obtain ⟨x, hx, y, hy, p, hp⟩ := h1' h12
            obtain ⟨z, hz⟩ := List.exists_mem_of_length_pos l2
            exact hp ((hall x hx z hz p).trans (hall y hy z hz p).symm)
          · obtain ⟨x, hx, y, hy, p, hp⟩ := h2' (by omega)
            obtain ⟨z, hz⟩ := List.exists_mem_of_length_pos l1
            exact hp ((hall z hz x hx p).symm.trans (hall z hz y hy p))

theorem Jac.add_weak [Fintype P₀] [DecidableEq P₀] {a b c : Jac P₀ F} (h : a.add b = .ok c)
    (hc : c.weak = true) : a.weak = true ∧ b.weak = true := by
  have key : ∀ (x y : Jac P₀ F),
      (match x.denseArray, y.denseArray with
        | .ok a, .ok b => .ok (Jac.dense (addJacobians a b))
        | .error e, _ => .error e
        | _, .error e => .error e) = (.ok c : Except Err (Jac P₀ F)) → False := by
    intro x y hxy
    cases hx : x.denseArray with
    | error e => rw [hx] at hxy; simp at hxy
    | ok _ =>
      cases hy : y.denseArray with
      | error e => rw [hx, hy] at hxy; simp at hxy
      | ok _ =>
        rw [hx, hy] at hxy
        simp only [Except.ok.injEq] at hxy
        subst hxy
        simp [Jac.weak] at hc
  match a, b, h with
  | .sparse _, .sparse _, _ => exact ⟨rfl, rfl⟩
  | .dense r1, .dense r2, h => exact (key (.dense r1) (.dense r2) h).elim
  | .dense r1, .sparse r2, h => exact (key (.dense r1) (.sparse r2) h).elim
  | .sparse r1, .dense r2, h => exact (key (.sparse r1) (.dense r2) h).elim

theorem Jac.add_tight [Fintype P₀] [DecidableEq P₀] {a b c : Jac P₀ F} (h : a.add b = .ok c)
    (ha : a.Tight) (hb : b.Tight) : c.Tight := by
  by_cases hc : c.weak = true
  · obtain ⟨hwa, hwb⟩ := Jac.add_weak h hc
    cases a with
    | dense _ => simp [Jac.weak] at hwa
    | sparse r1 =>
      cases b with
      | dense _ => simp [Jac.weak] at hwb
      | sparse r2 =>
        by_cases hE : IsEmpty P₀
        · cases c with
          | dense _ => trivial
          | sparse _ => exact Or.inl hE
        rcases ha with ha | ⟨h1, h1'⟩
        · exact absurd ha hE
        rcases hb with hb | ⟨h2, h2'⟩
        · exact absurd hb hE
        have l1 : 0 < r1.length := List.length_pos_iff.mpr h1
        have l2 : 0 < r2.length := List.length_pos_iff.mpr h2
        simp only [Jac.add] at h
        split at h
        · simp at h
        rename_i m hm
        split at h
        · rename_i heq
          simp only [Except.ok.injEq] at h
          subst h
          right
          -- equal masks: lengths agree (otherwise the tight one would be constant)
          have hlen : r1.length = r2.length := by
            by_contra hl
            unfold brdcastLen at hm
            rw [if_neg hl] at hm
            split at hm
            · rename_i hone
              obtain ⟨z, rfl⟩ := List.length_eq_one_iff.mp hone
              have hm' : r2.length = m := Option.some.inj hm
              rw [Jac.brdcastRows_eq hm'] at heq
              obtain ⟨x, hx, y, hy, p, hp⟩ := h2' (by simp at hl; omega)
              have aux : ∀ w ∈ r2, w.idx p = z.idx p := by
                intro w hw
                obtain ⟨j, hj, rfl⟩ := List.getElem_of_mem hw
                have hz : j < ((brdcastRows [z] m).zip r2).length := by simp [brdcastRows]; omega
                have := List.getElem_mem hz
                rw [List.getElem_zip] at this
                exact (heq _ this p).trans (by simp [brdcastRows])
              exact hp ((aux x hx).trans (aux y hy).symm)
            · split at hm
              · rename_i hone
                obtain ⟨z, rfl⟩ := List.length_eq_one_iff.mp hone
                have hm' : r1.length = m := Option.some.inj hm
                rw [Jac.brdcastRows_eq hm'] at heq
                obtain ⟨x, hx, y, hy, p, hp⟩ := h1' (by simp at hl; omega)
                have aux : ∀ w ∈ r1, w.idx p = z.idx p := by
                  intro w hw
                  obtain ⟨j, hj, rfl⟩ := List.getElem_of_mem hw
                  have hz : j < (r1.zip (brdcastRows [z] m)).length := by simp [brdcastRows]; omega
                  have := List.getElem_mem hz
                  rw [List.getElem_zip] at this
                  exact (heq _ this p).symm.trans (by simp [brdcastRows])
                exact hp ((aux x hx).trans (aux y hy).symm)
              · simp at hm
          have hm' : m = r1.length := by
            unfold brdcastLen at hm; rw [if_pos hlen] at hm; exact (Option.some.inj hm).symm
          subst hm'
          rw [Jac.brdcastRows_eq rfl, Jac.brdcastRows_eq hlen.symm]
          have hzl : (r1.zip r2).length = r1.length := by rw [List.length_zip]; omega
          refine ⟨by
            rw [← List.length_pos_iff, List.length_map]; omega, fun h2l => ?_⟩
          rw [List.length_map, hzl] at h2l
          obtain ⟨x, hx, y, hy, p, hp⟩ := h1' h2l
          have aux : ∀ w ∈ r1, ∃ w' ∈ (r1.zip r2).map (fun r =>
              (⟨r.1.idx, fun p => r.1.val p + r.2.val p⟩ : Row P₀ F)), w'.idx = w.idx := by
            intro w hw
            obtain ⟨j, hj, rfl⟩ := List.getElem_of_mem hw
            have hj' : j < (r1.zip r2).length := by omega
            refine ⟨_, List.mem_map_of_mem (List.getElem_mem hj'), ?_⟩
            simp
          obtain ⟨x', hx', ex⟩ := aux x hx
          obtain ⟨y', hy', ey⟩ := aux y hy
          exact ⟨x', hx', y', hy', p, by rw [ex, ey]; exact hp⟩
        · rename_i hne
          simp only [Except.ok.injEq] at h
          subst h
          right
          refine ⟨by simp [h1], fun _ => ?_⟩
          by_cases h12 : 2 ≤ r1.length
          · obtain ⟨x, hx, y, hy, hp⟩ := h1' h12
            exact ⟨x, by simp [hx], y, by simp [hy], hp⟩
          · by_cases h22 : 2 ≤ r2.length
            · obtain ⟨x, hx, y, hy, hp⟩ := h2' h22
              exact ⟨x, by simp [hx], y, by simp [hy], hp⟩
            · obtain ⟨x, rfl⟩ := List.length_eq_one_iff.mp (by omega : r1.length = 1)
              obtain ⟨y, rfl⟩ := List.length_eq_one_iff.mp (by omega : r2.length = 1)
              have hm1 : m = 1 := by simp [brdcastLen] at hm; omega
              subst hm1
              simp only [brdcastRows, List.replicate_one, List.zip_cons_cons, List.zip_nil_right,
                List.mem_singleton, forall_eq, not_forall] at hne
              obtain ⟨p, hp⟩ := hne
              exact ⟨x, by simp, y, by simp, p, fun h => hp h.symm⟩
  · cases c with
    | dense _ => trivial
    | sparse _ => simp [Jac.weak] at hc

/-! ### accumulation -/

theorem accumulate_spec [Fintype Q] [DecidableEq Q] {ι : Type} (n : ℕ) (hn : 0 < n) (as : List ι)
    (f : ι → Except Err (JvpOut Q F)) (D : ι → ℕ → Q → F) (L : ι → Q → F)
    (hgood : ∀ a ∈ as, ∀ o, f a = .ok o →
      (∀ i q, o.jac.den i q = D a i q) ∧ o.lapl = L a ∧ o.jac.Wf n)
    (hpair : as.Pairwise fun a b => ∀ o o', f a = .ok o → f b = .ok o' → o.jac.Compat o'.jac)
    (acc : JvpOut Q F) (hacc : acc.jac.Wf n)
    (hcomp : ∀ a ∈ as, ∀ o, f a = .ok o → acc.jac.Compat o.jac)
    (r : Option (JvpOut Q F)) (h : accumulate (as.map f) (some acc) = .ok r) :
    ∃ o, r = some o ∧ o.y = acc.y ∧
      (∀ i q, o.jac.den i q = acc.jac.den i q + (as.map fun a => D a i q).sum) ∧
      (∀ q, o.lapl q = acc.lapl q + (as.map fun a => L a q).sum) ∧ o.jac.Wf n := by
  induction as generalizing acc with
  | nil =>
    simp only [List.map_nil, accumulate, Except.ok.injEq] at h
    subst h
    exact ⟨acc, rfl, rfl, by simp, by simp, hacc⟩
  | cons a as ih =>
    rw [List.map_cons] at h
    cases hfa : f a with
    | error e => rw [hfa] at h; simp [accumulate] at h
    | ok o =>
      rw [hfa] at h
      simp only [accumulate] at h
      cases hadd : acc.jac.add o.jac with
      | error e => rw [hadd] at h; simp at h
      | ok j =>
        rw [hadd] at h
        simp only at h
        obtain ⟨hoD, hoL, howf⟩ := hgood a (by simp) o hfa
        have hc := hcomp a (by simp) o hfa
        obtain ⟨hjD, hjwf⟩ := Jac.add_compat n hn _ _ _ hacc howf hc hadd
        rw [List.pairwise_cons] at hpair
        obtain ⟨o', hr, hy, hD, hL, hwf⟩ := ih (fun b hb => hgood b (by simp [hb])) hpair.2
          ⟨acc.y, j, fun q => acc.lapl q + o.lapl q⟩ hjwf
          (by
            intro b hb ob hfb
            have c1 := hcomp b (by simp [hb]) ob hfb
            have c2 := hpair.1 b hb o ob hfa hfb
            by_cases hjw : j.weak = true
            · obtain ⟨w1, w2⟩ := Jac.add_weak hadd hjw
              rcases c1 with c1 | c1 | c1
              · rw [w1] at c1; simp at c1
              · exact Or.inr (Or.inl c1)
              · rcases c2 with c2 | c2 | c2
                · rw [w2] at c2; simp at c2
                · exact Or.inr (Or.inl c2)
                · exact Or.inr (Or.inr ⟨Jac.add_tight hadd c1.1 c2.1, c1.2⟩)
            · exact Or.inl (by simpa using hjw))
          h
        refine ⟨o', hr, hy, ?_, ?_, hwf⟩
        · intro i q
          rw [hD i q]
          simp only [List.map_cons, List.sum_cons]
          rw [hjD, hoD, add_assoc]
        · intro q
          rw [hL q]
          simp only [List.map_cons, List.sum_cons]
          rw [hoL, add_assoc]

end Folx

import Verif.Core.Jvp
import Verif.Core.JacProofs

namespace Folx

open Folx.Interp (Err)

variable {k : ℕ} {P : Fin k → Type} {Q F : Type} [CommRing F]

theorem seqFin_ok : {k : ℕ} → {β : Fin k → Type} → (f : (a : Fin k) → Except Err (β a)) →
    (g : (a : Fin k) → β a) → seqFin f = .ok g → ∀ a, f a = .ok (g a)
  | 0, _, _, _, _, a => a.elim0
  | k + 1, β, f, g, h, a => by
    simp only [seqFin] at h
    cases h0 : f 0 with
    | error e => simp [h0] at h
    | ok x =>
      simp only [h0] at h
      cases h1 : seqFin (fun a : Fin k => f a.succ) with
      | error e => simp [h1] at h
      | ok xs =>
        simp only [h1, Except.ok.injEq] at h
        subst h
        refine Fin.cases ?_ ?_ a
        · simp [h0]
        · intro i
          have := seqFin_ok (fun a : Fin k => f a.succ) xs h1 i
          simp [this]

theorem seqFin_of_ok : {k : ℕ} → {β : Fin k → Type} → (f : (a : Fin k) → Except Err (β a)) →
    (g : (a : Fin k) → β a) → (∀ a, f a = .ok (g a)) → seqFin f = .ok g
  | 0, _, _, g, _ => by simp only [seqFin]; congr 1; funext a; exact a.elim0
  | k + 1, β, f, g, h => by
    simp only [seqFin, h 0]
    rw [seqFin_of_ok (fun a : Fin k => f a.succ) (fun a => g a.succ) (fun a => h a.succ)]
    dsimp only
    congr 1
    exact Fin.cons_self_tail g

/-- What a first-order rule must deliver: the value, the pushed-forward Jacobian (as a matrix), the
pushed-forward Laplacian, and well-formedness. -/
structure JvpSpec (n : ℕ) (I : Inst k P Q F) (args : (a : Fin k) → Trip (P a) F) (o : JvpOut Q F) :
    Prop where
  y : o.y = I.fwd fun a => (args a).x
  jac : ∀ i q, o.jac.den i q = I.jvp (fun a => (args a).x) (fun a => (args a).jac.den i) q
  lapl : o.lapl = I.jvp (fun a => (args a).x) fun a => (args a).lapl
  wf : o.jac.Wf n

/-- The function does what its flags and axes declare (at the point `x`). -/
structure Inst.Lawful (I : Inst k P Q F) (x : (a : Fin k) → P a → F) : Prop where
  /-- elementwise functions: output `q` depends on the elements at `π a q` only -/
  elem : I.elem = true → ∀ t q, (∀ a, t a (I.π a q) = 0) → I.jvp x t q = 0
  elem_ax : I.elem = true → ∀ a, I.ax a = .elem (I.π a)
  /-- an argument with empty axes -/
  ax_elem : ∀ a π, I.ax a = .elem π → ∀ t q, t (π q) = 0 → I.jvp x (Pi.single a t) q = 0
  /-- an argument with reduced axes: output `q` depends on the elements over `κ q` only -/
  ax_red : ∀ a r, I.ax a = .red r → ∀ t q, (∀ c, t (r.split.symm (r.κ q, c)) = 0) →
    I.jvp x (Pi.single a t) q = 0
  /-- the kept axes are broadcast to the output: every kept position is used -/
  ax_surj : ∀ a r, I.ax a = .red r → Nonempty Q → Function.Surjective r.κ
  /-- equal shapes: positions correspond -/
  same_elem : I.elem = true → ∀ a e, I.same a = some e → ∀ q, e q = I.π a q
  same_ax : ∀ a π, I.ax a = .elem π → ∀ e, I.same a = some e → ∀ q, e q = π q
  /-- indexing operations copy elements -/
  index : I.flags.has Flags.INDEXING = true → I.static = true → ∀ t q, I.jvp x t q =
    match I.src q with
    | some ⟨a, p⟩ => t a p
    | none => 0
  /-- summations sum over the reduced axes -/
  sum : I.flags.has Flags.SUMMATION = true → ∀ a r, I.ax a = .red r →
    (∀ t q, I.jvp x (Pi.single a t) q = ∑ c : r.C, t (r.split.symm (r.κ q, c))) ∧
    (∀ t q, I.fwd (Function.update x a t) q = ∑ c : r.C, t (r.split.symm (r.κ q, c)))
  /-- the scatter rule is not exact (see C40), so scatter functions are excluded here -/
  noScatter : I.flags.has Flags.SCATTER = false

/-! ### dense rules -/

section Dense

theorem rowTangent_eq (J : (a : Fin k) → Jac (P a) F) (rows : (a : Fin k) → List (P a → F))
    (h : ∀ a i p, (Jac.dense (rows a)).den i p = (J a).den i p) (i m : ℕ) :
    rowTangent rows m i = fun a => (J a).den i := by
  funext a p
  unfold rowTangent
  rw [Jac.extendTo_getD]
  exact h a i p

theorem maxLen_le (rows : (a : Fin k) → List (P a → F)) (n : ℕ) (h : ∀ a, (rows a).length ≤ n) :
    maxLen rows ≤ n := Finset.sup_le fun a _ => h a

theorem length_le_maxLen (rows : (a : Fin k) → List (P a → F)) (a : Fin k) :
    (rows a).length ≤ maxLen rows :=
  Finset.le_sup (f := fun a => (rows a).length) (Finset.mem_univ a)

theorem den_zero_of_maxLen (J : (a : Fin k) → Jac (P a) F) (rows : (a : Fin k) → List (P a → F))
    (h : ∀ a i p, (Jac.dense (rows a)).den i p = (J a).den i p) (i : ℕ) (hi : maxLen rows ≤ i) :
    (fun a => (J a).den i) = 0 := by
  funext a p
  rw [← h a i p]
  simp only [Jac.den]
  rw [List.getD_eq_default _ _ (le_trans (length_le_maxLen rows a) hi)]
  rfl

theorem denseSplit_spec (n : ℕ) (I : Inst k P Q F) (args : (a : Fin k) → Trip (P a) F)
    (rows : (a : Fin k) → List (P a → F))
    (h : ∀ a i p, (Jac.dense (rows a)).den i p = (args a).jac.den i p)
    (hn : ∀ a, (rows a).length ≤ n) : JvpSpec n I args (denseSplit I args rows) where
  y := rfl
  lapl := rfl
  wf := by
    show ((List.range _).map _).length ≤ n
    rw [List.length_map, List.length_range]
    exact maxLen_le rows n hn
  jac := by
    intro i q
    show (((List.range (maxLen rows)).map fun i => I.jvp (fun a => (args a).x)
      (rowTangent rows (maxLen rows) i)).getD i (fun _ => 0)) q = _
    by_cases hi : i < maxLen rows
    · rw [List.getD_eq_getElem _ _ (by simpa using hi)]
      rw [List.getElem_map, List.getElem_range, rowTangent_eq (fun a => (args a).jac) rows h]
    · rw [List.getD_eq_default _ _ (by simpa using hi)]
      have := den_zero_of_maxLen (fun a => (args a).jac) rows h i (by omega)
      have h2 : (fun a => (args a).jac.den i) = 0 := this
      rw [h2, map_zero]
      rfl

theorem denseJoint_eq (I : Inst k P Q F) (args : (a : Fin k) → Trip (P a) F)
    (rows : (a : Fin k) → List (P a → F)) : denseJoint I args rows = denseSplit I args rows := by
  simp [denseJoint, denseSplit, Function.comp_def]

end Dense

/-! ### elementwise helpers -/

/-- If `jvp` at `q` sees only the element `π q`, it is multiplication by the derivative there. -/
theorem jvp_local [∀ a, DecidableEq (P a)] (I : Inst k P Q F) (x : (a : Fin k) → P a → F) (a : Fin k)
    (π : Q → P a) (hloc : ∀ t q, t (π q) = 0 → I.jvp x (Pi.single a t) q = 0) (t : P a → F) (q : Q) :
    I.jvp x (Pi.single a t) q = I.jvp x (Pi.single a (Pi.single (π q) (1 : F) : P a → F)) q * t (π q) := by
  have h := hloc (t - t (π q) • Pi.single (π q) (1 : F)) q (by simp)
  have e : (Pi.single a (t - t (π q) • Pi.single (π q) (1 : F)) : (a : Fin k) → P a → F)
      = Pi.single a t - t (π q) •
        (Pi.single a (Pi.single (π q) (1 : F) : P a → F) : (a : Fin k) → P a → F) := by
    rw [Pi.single_sub, Pi.single_smul]
  rw [e, map_sub, map_smul] at h
  have h' : I.jvp x (Pi.single a t) q - t (π q) * I.jvp x (Pi.single a (Pi.single (π q) (1 : F) : P a → F)) q = 0 := h
  rw [sub_eq_zero] at h'
  rw [h', mul_comm]

theorem vjpOnes_eq [∀ a, DecidableEq (P a)] [Fintype Q] (I : Inst k P Q F)
    (x : (a : Fin k) → P a → F) (a : Fin k)
    (e : Q ≃ P a) (hloc : ∀ t q, t (e q) = 0 → I.jvp x (Pi.single a t) q = 0) (t : P a → F) (q : Q) :
    vjpOnes I x a (e q) * t (e q) = I.jvp x (Pi.single a t) q := by
  have hv : vjpOnes I x a (e q) = I.jvp x (Pi.single a (Pi.single (e q) (1 : F) : P a → F)) q := by
    unfold vjpOnes
    apply Finset.sum_eq_single q
    · intro q' _ hne
      exact hloc _ _ (by rw [Pi.single_eq_of_ne]; exact fun h => hne (e.injective h))
    · intro h; exact absurd (Finset.mem_univ q) h
  rw [hv, jvp_local I x a e hloc t q]

theorem single_of_unique {k : ℕ} (hk : k = 1) {β : Fin k → Type} [∀ a, Zero (β a)] (a : Fin k)
    (t : (a : Fin k) → β a) : Pi.single a (t a) = t := by
  subst hk
  funext b
  have : b = a := Subsingleton.elim _ _
  subst this
  simp

theorem denseElementwise_spec [∀ a, DecidableEq (P a)] [Fintype Q] (n : ℕ) (I : Inst k P Q F)
    (args : (a : Fin k) → Trip (P a) F) (hk : k = 1) (a : Fin k)
    (hloc : ∀ e, I.same a = some e → ∀ t q, t (e q) = 0 →
      I.jvp (fun a => (args a).x) (Pi.single a t) q = 0)
    (rows : (a : Fin k) → List (P a → F))
    (h : ∀ a i p, (Jac.dense (rows a)).den i p = (args a).jac.den i p)
    (hn : ∀ a, (rows a).length ≤ n) : JvpSpec n I args (denseElementwise I args rows a) := by
  unfold denseElementwise
  split
  · exact denseSplit_spec n I args rows h hn
  · rename_i e he
    refine ⟨rfl, ?_, ?_, ?_⟩
    · intro i q
      have h1 := vjpOnes_eq I (fun a => (args a).x) a e (hloc e he) ((args a).jac.den i) q
      rw [single_of_unique hk a (fun a => (args a).jac.den i)] at h1
      rw [← h1]
      simp only [Jac.den]
      have h2 := h a i (e q)
      simp only [Jac.den] at h2
      rw [← h2]
      by_cases hi : i < (rows a).length
      · rw [List.getD_eq_getElem _ _ (by simpa using hi), List.getD_eq_getElem _ _ hi]
        simp
      · rw [List.getD_eq_default _ _ (by simpa using hi), List.getD_eq_default _ _ (by simpa using hi)]
        simp
    · funext q
      have h1 := vjpOnes_eq I (fun a => (args a).x) a e (hloc e he) (args a).lapl q
      rw [single_of_unique hk a (fun a => (args a).lapl)] at h1
      exact h1
    · show ((rows a).map _).length ≤ n
      rw [List.length_map]; exact hn a

/-- Elementwise locality for a single argument inside a many-argument tangent. -/
theorem Inst.Lawful.single_elem {I : Inst k P Q F} {x : (a : Fin k) → P a → F} (hI : I.Lawful x)
    (he : I.elem = true) (a : Fin k) (t : P a → F) (q : Q) (h : t (I.π a q) = 0) :
    I.jvp x (Pi.single a t) q = 0 :=
  hI.ax_elem a _ (hI.elem_ax he a) t q h

theorem denseJvp_spec [∀ a, Fintype (P a)] [∀ a, DecidableEq (P a)] [Fintype Q] (n : ℕ) (hn : 0 < n)
    (I : Inst k P Q F) (args : (a : Fin k) → Trip (P a) F)
    (hloc : I.elem = true → ∀ a e, I.same a = some e → ∀ t q, t (e q) = 0 →
      I.jvp (fun a => (args a).x) (Pi.single a t) q = 0)
    (hwf : ∀ a, (args a).jac.Wf n) (o : JvpOut Q F) (h : denseJvp I args = .ok o) :
    JvpSpec n I args o := by
  unfold denseJvp at h
  split at h
  · simp at h
  · rename_i rows hrows
    have hr := seqFin_ok _ _ hrows
    have hd : ∀ a i p, (Jac.dense (rows a)).den i p = (args a).jac.den i p :=
      fun a => (Jac.denseArray_den (hwf a) (hr a)).1
    have hl : ∀ a, (rows a).length ≤ n := fun a =>
      le_trans (Jac.denseArray_den (hwf a) (hr a)).2 (by rw [max_eq_left]; omega)
    split at h
    · rename_i hc
      simp only [Except.ok.injEq] at h
      subst h
      exact denseElementwise_spec n I args hc.2 _ (hloc hc.1 _) rows hd hl
    · split at h
      · simp only [Except.ok.injEq] at h
        subst h
        rw [denseJoint_eq]
        exact denseSplit_spec n I args rows hd hl
      · simp only [Except.ok.injEq] at h
        subst h
        exact denseSplit_spec n I args rows hd hl

end Folx

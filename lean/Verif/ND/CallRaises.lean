import Verif.ND.CallTotal
import Verif.ND.CallReturns
import Verif.ND.RedArr

/-! # When exactly a reduction with sparse Jacobians raises -/

namespace Folx.Layout
open Vmap Dot Filter Topology

section
variable {X : Type} [NormedAddCommGroup X] [NormedSpace ℝ X] {F : Type} [RCLike F] [Inhabited F] {m : ℕ} {shape : Fin (m + 1) → List ℕ} {out : List ℕ}
variable {B : Base X} {T : ℕ} {A : ArrFn F shape out} {ifwd : (acts : List (Fin (m + 1))) → Option ((Fin acts.length → ND ℤ) → ND ℤ)} {b : List ℕ}
  {φ : List (ND F) → ((i : Fin (m + 1)) → Fin (A.inAxes.slice (shape i)).prod → F) → List ℕ → F} {x : (i : Fin (m + 1)) → Fin (shape i).prod → F}
  {o : (i : Fin (m + 1)) → Opd F (shape i).prod} {uo : (i : Fin (m + 1)) → X → Fin (shape i).prod → F}

/-- The call of a function that does not index raises exactly if it reduces an argument none of whose elements depends on an input (B32). -/
theorem call_none_iff (hn : 0 < B.n) (hT : A.Truthful ifwd b φ x) (hsafe : A.SparseSafe ifwd b) (hc : CallOk B o uo x)
    (hd : ∀ i t, o i = .lapl t → arrInv T B.n _ t.jac)
    (hm : m = 0 ∨ (m ≤ 1 ∧ (A.flags.has Flags.INDEXING = true ∨ A.inAxes = .axes [])))
    (hdot : A.flags.has Flags.DOT_PRODUCT = false) (hI : A.flags.has Flags.INDEXING = false)
    (hext : A.flags.has Flags.LINEAR_IN_ONE = true ∨ ∀ b', (A.restrict ifwd (actsOf o) x).Batch (A.extrasOf (actsOf o) x) b' b → ∃ j, b = List.replicate j 1 ++ b') :
    A.call ifwd T o = none ↔ ∃ i t, o i = .lapl t ∧ NoDeps (A.inAxes.first (A.flags.has Flags.SUMMATION)) (shape i) (tripArr (shape i) t).jac := by
  obtain ⟨a0, rest, ha, hx, hs, hrep⟩ := call_parts hn hT hc
  rw [ha] at hext
  have hnd : (a0 :: rest).Nodup := hs.imp fun h => ne_of_lt h
  rw [call_eq ha hx]
  choose tt ht hrep using hrep
  have hbig : ∀ a, (tripArr (shape ((a0 :: rest).get a)) (o ((a0 :: rest).get a)).trip).jac.Big T B.n := fun a =>
    big_jacArr (by rw [ht a]; exact (hd _ _ (ht a)).2)
  have hS := (restrict_second (T := T) hT hs hrep fun a => hc.val _).2.2 hdot hsafe.jhj hbig hext
  have hA' := restrict_computes' hT hc hs
  obtain ⟨b', hb'⟩ := restrict_batch (ifwd := ifwd) (acts := a0 :: rest) (x := x) hT.batch hT.argSize
  have hax := restrict_axes hT hc hnd
  have hlen : rest.length ≤ m := by
    have := hnd.length_le_card
    simp at this
    omega
  obtain ⟨h1, h2⟩ := first_total (k := rest.length) (ifwd := (A.restrict ifwd (a0 :: rest) x).ifwd) T hn hT.outSize (A.flags.has Flags.INDEXING) (A.flags.has Flags.JOIN_JVP)
    (fun a => (hrep a).arg) hax (restrict_index hT hc hnd) (by
      by_cases h3 : (tripArr (shape ((a0 :: rest).get (0 : Fin (rest.length + 1)))) (o ((a0 :: rest).get (0 : Fin (rest.length + 1)))).trip).jac.idx = none
      · exact Or.inr (Or.inr (Or.inl h3))
      · rcases hm with h1 | ⟨h1, h2⟩
        · have h0 : rest.length = 0 := by omega
          refine Or.inr (Or.inl ⟨fun a => ?_, Or.inr (Or.inr h0)⟩)
          obtain rfl : a = 0 := Fin.ext (by have := a.2; show a.val = 0; omega)
          exact h3
        · by_cases h4 : ∃ h : 1 < rest.length + 1, (tripArr (shape ((a0 :: rest).get (⟨1, h⟩ : Fin (rest.length + 1)))) (o ((a0 :: rest).get (⟨1, h⟩ : Fin (rest.length + 1)))).trip).jac.idx = none
          · exact Or.inr (Or.inr (Or.inr h4))
          · refine Or.inr (Or.inl ⟨fun a => ?_, h2.imp id fun h => Or.inl (by rw [h]; rfl)⟩)
            by_cases ha0 : a.val = 0
            · obtain rfl : a = 0 := Fin.ext ha0
              exact h3
            · have ha1 : a.val = 1 := by have := a.2; omega
              intro h5
              refine h4 ⟨by have := a.2; omega, ?_⟩
              have : a = ⟨1, by have := a.2; omega⟩ := Fin.ext ha1
              rw [← this]
              exact h5)
  have hw := wrapped_iff (k := rest.length) hrep hA' hT.outSize (fits_batch (k := rest.length) hb') hS h2
  have he : ∀ a, (o ((a0 :: rest).get a)).trip = tt a := fun a => by rw [ht a]; rfl
  have key := hw.1.trans h1
  constructor
  · intro h
    cases hwt : (A.restrict ifwd (a0 :: rest) x).wrapped (k := rest.length) T (fun a => tripArr (shape ((a0 :: rest).get a)) (o ((a0 :: rest).get a)).trip)
        (A.extrasOf (a0 :: rest) x) with
    | some t => rw [hwt] at h; exact nomatch h
    | none =>
      obtain ⟨⟨a, h3⟩, -⟩ := key.mp hwt
      refine ⟨_, _, ht a, ?_⟩
      rw [← he a]
      exact h3
  · rintro ⟨i, t, hi, hN⟩
    have hmem : i ∈ a0 :: rest := by
      rw [← ha, mem_actsOf, hi]
      rfl
    obtain ⟨a, rfl⟩ := List.get_of_mem hmem
    have ett : tt a = t := by
      have := (ht a).symm.trans hi
      exact Opd.lapl.inj this
    rw [key.mpr ⟨⟨a, by rw [← ett, ← he a] at hN; exact hN⟩, fun h => absurd (hI.symm.trans h.1) (by decide)⟩]
    rfl

/-! ### Functions of one array -/

/-- A sparse Jacobian whose elements all depend on no input. -/
def Dead {ι : Type} (J : Jac ι F) : Prop := ∃ rows, J = .sparse rows ∧ ∀ r ∈ rows, ∀ w, r.idx w = -1

omit [RCLike F] [Inhabited F] in
theorem inB_map {f g : ℕ → ℕ} : ∀ {l : List ℕ}, (∀ d ∈ l, f d < g d) → InB (l.map f) (l.map g)
  | [], _ => List.Forall₂.nil
  | d :: l, h => .cons (h d (by simp)) (inB_map fun e he => h e (by simp [he]))

omit [RCLike F] [Inhabited F] in
theorem inB_keptOf {s dims p : List ℕ} (hp : InB p s) : InB (keptOf dims p) (dropDims s dims) := by
  rw [keptOf_eq hp]
  refine inB_map fun d hd => ?_
  have h1 : d < s.length := List.mem_range.mp (List.mem_filter.mp hd).1
  have h2 : d < p.length := by rw [hp.length_eq]; exact h1
  rw [List.getD_eq_getElem _ _ h1, List.getD_eq_getElem _ _ h2]
  exact List.Forall₂.get hp h2 h1

theorem noDeps_iff {ax : AxesKind} {s dims : List ℕ} (h : reducedAxes s ax = some dims) (J : Jac (Fin s.prod) F) : NoDeps ax s (jacArr s J) ↔ Dead J := by
  cases J with
  | dense rows => exact iff_of_false (fun ⟨_, m, _, h2, _⟩ => nomatch h2) fun ⟨_, h1, _⟩ => nomatch h1
  | sparse rows =>
    have hi := (jacArr_shape (s := s) (.sparse rows)).2 _ rfl
    have hget : ∀ (r : Row (Fin s.prod) F) (p : List ℕ) (hp : InB p s), ∀ k (hk : k < rows.length), rows[k] = r →
        (ND.ofFn (rows.length :: s) fun w => if h : ravelIdx s w.tail < s.prod then (rows.getD (w.headD 0) ⟨fun _ => 0, fun _ => 0⟩).idx ⟨_, h⟩ else 0 : ND ℤ).get (k :: p) =
          r.idx ⟨ravelIdx s p, ravelIdx_lt hp⟩ := fun r p hp k hk hr => by
      rw [ND.get_ofFn _ (InB.cons_cons.mpr ⟨hk, hp⟩)]
      show (if h : ravelIdx s p < s.prod then (rows.getD k _).idx ⟨_, h⟩ else 0) = _
      rw [dif_pos (ravelIdx_lt hp), List.getD_eq_getElem _ _ hk, hr]
    constructor
    · rintro ⟨dims', mm, h1, h2, h3⟩
      cases h2
      refine ⟨rows, rfl, fun r hr w => ?_⟩
      obtain ⟨k, hk, e⟩ := List.getElem_of_mem hr
      have hp := inB_unravelIdx (s := s) w.2
      by_contra hne
      have := (mem_depsOf (s := s) (dims := dims') (u := keptOf dims' (unravelIdx s w)) hi (z := r.idx w)).mpr ⟨hne, _, hp, rfl, k, hk, by
        refine (hget r _ hp k hk e).trans (congrArg r.idx (Fin.ext ?_))
        exact ravelIdx_unravelIdx w.2⟩
      exact absurd ((h3 _ (inB_keptOf hp)) ▸ this) (by simp)
    · rintro ⟨rows', h1, h2⟩
      cases h1
      refine ⟨dims, _, h, rfl, fun u _ => Finset.eq_empty_of_forall_notMem fun z hz => ?_⟩
      obtain ⟨hne, p, hp, _, k, hk, e⟩ := (mem_depsOf hi).mp hz
      exact hne (e.symm.trans ((hget _ p hp k hk rfl).trans (h2 _ (List.getElem_mem hk) _)))

theorem prim_error_iff {k T : ℕ} {shape : Fin k → List ℕ} {out : List ℕ} {A : ArrFn F shape out} {ifwd : (acts : List (Fin k)) → Option ((Fin acts.length → ND ℤ) → ND ℤ)}
    {o : (i : Fin k) → Opd F (shape i).prod} : (∃ e : Interp.Err, (A.prim ifwd).rule T o = Except.error e) ↔ A.call ifwd T o = none := by
  have h : (A.prim ifwd).rule T o = match A.call ifwd T o with | none => Except.error Interp.Err.other | some r => .ok fun _ => r := rfl
  constructor
  · rintro ⟨e, he⟩
    have h' := h.symm.trans he
    cases hc : A.call ifwd T o with
    | none => rfl
    | some r =>
      rw [hc] at h'
      exact nomatch h'
  · intro hc
    refine ⟨Interp.Err.other, h.trans ?_⟩
    rw [hc]

/-- The rule of a function of one array raises exactly if the function reduces and no element of the array depends on an input. -/
theorem rule_raises_iff {X : Type} [NormedAddCommGroup X] [NormedSpace ℝ X] {B : Base X} {T : ℕ} {s out b dims : List ℕ} {A : ArrFn F (k := 1) (fun _ => s) out}
    {ifwd : (acts : List (Fin 1)) → Option ((Fin acts.length → ND ℤ) → ND ℤ)}
    {φ : List (ND F) → ((_ : Fin 1) → Fin (A.inAxes.slice s).prod → F) → List ℕ → F} (hn : 0 < B.n) {u : X → Fin s.prod → F}
    (hT : A.Truthful (m := 0) ifwd b φ fun _ => u B.x0) (hs : A.SparseSafe (m := 0) ifwd b) (hdot : A.flags.has Flags.DOT_PRODUCT = false) (hI : A.flags.has Flags.INDEXING = false)
    (hsize : A.flags.has Flags.LINEAR_IN_ONE = true ∨ ∃ j, b = List.replicate j 1 ++ otherShape s (A.inAxes.second s.length))
    (hred : reducedAxes s (A.inAxes.first (A.flags.has Flags.SUMMATION)) = some dims)
    {t : Trip (Fin s.prod) F} (ht : TripRep B t u) (hd : arrInv T B.n _ t.jac) :
    (∃ e : Interp.Err, (A.prim ifwd).rule T (fun _ : Fin 1 => Opd.lapl t) = Except.error e) ↔ Dead t.jac := by
  have h1 : CallOk (m := 0) (shape := fun _ => s) B (fun _ => .lapl t) (fun _ => u) (fun _ => u B.x0) :=
    ⟨fun _ => rfl, fun _ _ h => (nomatch h), fun _ _ h => by cases h; exact ⟨ht, hd.1⟩, ⟨0, rfl⟩⟩
  have h2 := call_none_iff (T := T) (m := 0) (o := fun _ => .lapl t) hn hT hs h1 (fun _ _ h => by cases h; exact hd) (Or.inl rfl) hdot hI (hsize.imp id fun h b' hb' => by
    refine batch_ones hb'.argShape ?_ fun s' hs' => ?_
    · obtain ⟨i, hi⟩ := h1.some
      have hp : 0 < (actsOf (n := 1) (size := fun _ => s.prod) fun _ => Opd.lapl t).length := List.length_pos_of_mem ((mem_actsOf (n := 1) (size := fun _ => s.prod) (fun _ => Opd.lapl t) i).mpr hi)
      intro hnil
      have := congrArg List.length hnil
      rw [List.length_ofFn, List.length_nil] at this
      exact absurd this hp.ne'
    · obtain ⟨a, rfl⟩ := (List.mem_ofFn' _ _).mp hs'
      exact h)
  have h3 : (∃ (i : Fin 1) (t' : Trip (Fin s.prod) F), (fun _ : Fin 1 => Opd.lapl t) i = .lapl t' ∧ NoDeps (A.inAxes.first (A.flags.has Flags.SUMMATION)) s (tripArr s t').jac) ↔ Dead t.jac := by
    refine Iff.trans ?_ (noDeps_iff hred t.jac)
    constructor
    · rintro ⟨_, t', h, h'⟩
      cases h
      exact h'
    · exact fun h => ⟨0, t, rfl, h⟩
  rw [← h3]
  refine Iff.trans ?_ h2
  exact prim_error_iff (A := A) (ifwd := ifwd) (T := T) (o := fun _ : Fin 1 => Opd.lapl t)

theorem reducedAxes_dims {s dims : List ℕ} (hne : dims ≠ []) : reducedAxes s (.reduction (.flat (dims.map Int.ofNat))) = some dims := by
  cases dims with
  | nil => exact absurd rfl hne
  | cons d l =>
    show some (((d :: l).map Int.ofNat).map (axisOf s.length)) = _
    rw [axisOf_nats]

theorem redArr_reduced {flags : Flags} {fil : Bool} {s dims : List ℕ} {φ : List F → F} (h : flags.has Flags.SUMMATION = false) (hne : dims ≠ []) :
    reducedAxes s ((redArr flags fil s dims φ).inAxes.first ((redArr flags fil s dims φ).flags.has Flags.SUMMATION)) = some dims := by
  show reducedAxes s ((InAxes.unset (some dims)).first (flags.has Flags.SUMMATION)) = _
  rw [h]
  exact reducedAxes_dims hne

end

end Folx.Layout

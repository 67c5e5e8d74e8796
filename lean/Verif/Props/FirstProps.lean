import Verif.ND.FirstRed

/-!
# C57: first derivatives on arrays

`get_jvp_function` on arrays with axes: for functions of any number of arguments of any shapes, with dense, sparse and mixed Jacobians.
-/

namespace Folx.Layout
open Vmap Dot

variable {F : Type} [CommRing F] [Inhabited F] {k : ℕ} {ss : Fin (k + 1) → List ℕ} {o : List ℕ} {n : ℕ}

/-- **C57 (dense).**  If no argument has a sparse Jacobian, the Jacobian and the Laplacian of the arguments are mapped through the derivative of the function, whatever the flags
are; the result is dense.  Shorter Jacobians are padded with zeros. -/
theorem C57_dense (T : ℕ) (hn : 0 < n) (index join : Bool) {ax : AxesKind} {D : Deriv F ss o} {ifwd : Option ((Fin (k + 1) → ND ℤ) → ND ℤ)}
    {args : Fin (k + 1) → ArrTrip F} (hargs : ∀ a, ArgFor n (ss a) (args a)) (hax : AxesOk ax D) (hd : ∀ a, (args a).jac.idx = none) :
    ∃ r, jvpArr T index join ax D ifwd args = some r ∧ r.1.idx = none ∧ IsPush n D args r := by
  have : jvpArr T index join ax D ifwd args = denseJvpArr ax.ew join D args := by
    unfold jvpArr
    rw [if_pos hd]
  rw [this]
  exact denseJvpArr_spec hn hargs (ew_elementwise hax) join

theorem jvpArr_index {T : ℕ} {join : Bool} {ax : AxesKind} {D : Deriv F ss o} {ifwd : Option ((Fin (k + 1) → ND ℤ) → ND ℤ)}
    {args : Fin (k + 1) → ArrTrip F} (hs : ∀ a, (args a).jac.idx ≠ none) : jvpArr T true join ax D ifwd args = sparseIndexArr ax.ew join D ifwd args := by
  unfold jvpArr
  rw [if_neg (fun h => hs 0 (h 0)), if_pos ⟨hs, Or.inl rfl⟩, if_pos rfl]

theorem jvpArr_ew {T : ℕ} {join : Bool} {D : Deriv F ss o} {ifwd : Option ((Fin (k + 1) → ND ℤ) → ND ℤ)}
    {args : Fin (k + 1) → ArrTrip F} (hs : ∀ a, (args a).jac.idx ≠ none) : jvpArr T false join .elementwise D ifwd args = sparseDiagArr D args := by
  unfold jvpArr
  rw [if_neg (fun h => hs 0 (h 0)), if_pos ⟨hs, Or.inr (Or.inl rfl)⟩, if_neg (by simp), if_pos (show AxesKind.elementwise.ew = true from rfl)]

theorem jvpArr_one {T : ℕ} {join : Bool} {ax : AxesKind} {ss : Fin 1 → List ℕ} {D : Deriv F ss o} {ifwd : Option ((Fin 1 → ND ℤ) → ND ℤ)}
    {args : Fin 1 → ArrTrip F} (hs : ∀ a, (args a).jac.idx ≠ none) (hew : ax.ew = false) :
    jvpArr (k := 0) T false join ax D ifwd args = sparseJvpArr T join ax (D.part 0) (args 0) := by
  unfold jvpArr
  rw [if_neg (fun h => hs 0 (h 0)), if_pos ⟨hs, Or.inr (Or.inr rfl)⟩, if_neg (by simp), if_neg (by simp [hew])]

theorem jvpArr_rest {T : ℕ} {index join : Bool} {ax : AxesKind} {D : Deriv F ss o} {ifwd : Option ((Fin (k + 1) → ND ℤ) → ND ℤ)} {args : Fin (k + 1) → ArrTrip F}
    (hs : ∃ a, (args a).jac.idx ≠ none) (h : (∀ a, (args a).jac.idx ≠ none) → index = false ∧ ax.ew = false ∧ k ≠ 0) :
    jvpArr T index join ax D ifwd args = oneByOneArr T join ax D args := by
  obtain ⟨a, ha⟩ := hs
  unfold jvpArr
  rw [if_neg (fun h => ha (h a)), if_neg]
  rintro ⟨h1, h2⟩
  obtain ⟨h3, h4, h5⟩ := h h1
  rw [h3, h4] at h2
  simp [h5] at h2

/-- **C57 (elementwise).**  An elementwise function with numpy broadcasting of any number of arguments with sparse Jacobians returns a sparse Jacobian with
the exact derivatives; it never raises. -/
theorem C57_elementwise (T : ℕ) (join : Bool) {D : Deriv F ss o} {ifwd : Option ((Fin (k + 1) → ND ℤ) → ND ℤ)}
    {args : Fin (k + 1) → ArrTrip F} (hargs : ∀ a, ArgFor n (ss a) (args a)) (hD : Elementwise D) (hs : ∀ a, (args a).jac.idx ≠ none) :
    ∃ r, jvpArr T false join .elementwise D ifwd args = some r ∧ r.1.idx ≠ none ∧ IsPush n D args r := by
  rw [jvpArr_ew hs]
  exact sparseDiagArr_spec hargs hD hs

/-- **C57 (indexing).**  A function that moves elements (slices, concatenations, gathers, ...) returns the moved derivatives; it never raises, and the result is sparse unless the
indices are not known. -/
theorem C57_index (T : ℕ) (hn : 0 < n) (join : Bool) {ax : AxesKind} {D : Deriv F ss o} {ifwd : Option ((Fin (k + 1) → ND ℤ) → ND ℤ)}
    {args : Fin (k + 1) → ArrTrip F} (hargs : ∀ a, ArgFor n (ss a) (args a)) (hax : AxesOk ax D) (hf : ∀ f, ifwd = some f → Indexing D f)
    (hs : ∀ a, (args a).jac.idx ≠ none) :
    ∃ r, jvpArr T true join ax D ifwd args = some r ∧ (r.1.idx = none ↔ ifwd = none) ∧ IsPush n D args r := by
  rw [jvpArr_index hs]
  exact sparseIndexArr_spec hn hargs hs (ew_elementwise hax) join hf

theorem isPush_one {ss : Fin 1 → List ℕ} {D : Deriv F ss o} {args : Fin 1 → ArrTrip F} {r : FirstOut F} (h : IsPush n (D.part 0) (fun _ => args 0) r) :
    IsPush (k := 0) n D args r := by
  have e : ∀ t : (a : Fin 1) → Fin (ss a).prod → F, Pi.single 0 (t 0) = t := by
    intro t
    funext a
    obtain rfl : a = 0 := Subsingleton.elim _ _
    rw [Pi.single_eq_same]
  refine ⟨h.ok, h.rows, fun i q hq => ?_, h.shape, fun q hq => ?_⟩
  · rw [h.entry i q hq, part_apply]
    exact congrArg (fun t => (toND o (D t)).get q) (e (derivsOf ss args i))
  · rw [h.lapl q hq, part_apply]
    exact congrArg (fun t => (toND o (D t)).get q) (e (laplsOf ss args))

/-- **C57 (one sparse argument).**  A function of one argument with a sparse Jacobian raises exactly if it reduces axes and no element of the argument depends on an input;
otherwise the result is exact. -/
theorem C57_single (T : ℕ) (hn : 0 < n) (join : Bool) {ax : AxesKind} {ss : Fin 1 → List ℕ} {D : Deriv F ss o} {ifwd : Option ((Fin 1 → ND ℤ) → ND ℤ)}
    {args : Fin 1 → ArrTrip F} (hargs : ∀ a, ArgFor n (ss a) (args a)) (hax : AxesOk (k := 0) ax D) (hs : ∀ a, (args a).jac.idx ≠ none) :
    (jvpArr (k := 0) T false join ax D ifwd args = none ↔ NoDeps ax (ss 0) (args 0).jac) ∧
    ∀ r, jvpArr (k := 0) T false join ax D ifwd args = some r → IsPush (k := 0) n D args r := by
  cases hew : ax.ew with
  | true =>
    cases ax <;> simp [AxesKind.ew] at hew
    obtain ⟨r, h1, -, h2⟩ := C57_elementwise (k := 0) T join (ifwd := ifwd) hargs hax hs
    rw [h1]
    refine ⟨iff_of_false (by simp) (fun ⟨_, _, h, _⟩ => by simp [reducedAxes] at h), fun r' h => ?_⟩
    cases h
    exact h2
  | false =>
    rw [jvpArr_one hs hew]
    obtain ⟨h1, h2⟩ := sparseJvpArr_spec T hn join (hargs 0) (hs 0) (axesOk_part (k := 0) hax 0)
    exact ⟨h1, fun r h => isPush_one (h2 r h)⟩

/-- **C57 (mixed).**  If the first or the second argument has a dense Jacobian and some other one a sparse Jacobian, the result is exact; it raises exactly if
some argument with a sparse Jacobian is reduced and none of its elements depends on an input. -/
theorem C57_mixed (T : ℕ) (hn : 0 < n) (h0 : 0 ∉ o) (index join : Bool) {ax : AxesKind} {D : Deriv F ss o} {ifwd : Option ((Fin (k + 1) → ND ℤ) → ND ℤ)}
    {args : Fin (k + 1) → ArrTrip F} (hargs : ∀ a, ArgFor n (ss a) (args a)) (hax : AxesOk ax D) (hs : ∃ a, (args a).jac.idx ≠ none)
    (hd : (args 0).jac.idx = none ∨ ∃ h : 1 < k + 1, (args ⟨1, h⟩).jac.idx = none) :
    (jvpArr T index join ax D ifwd args = none ↔ ∃ a, NoDeps ax (ss a) (args a).jac) ∧
    ∀ r, jvpArr T index join ax D ifwd args = some r → IsPush n D args r := by
  rw [jvpArr_rest hs (fun h => by
    rcases hd with hd | ⟨h', hd⟩
    · exact absurd hd (h 0)
    · exact absurd hd (h ⟨1, h'⟩))]
  exact oneByOneArr_mixed T hn h0 join hargs hax hd

/-- **C57 (sound).**  Whenever the rules return, the result is exact: for dense arguments, for one argument, for elementwise and indexing functions of sparse arguments, for
reductions of any mixture of arguments, and whenever the first or second argument is dense. -/
theorem C57_sound (T : ℕ) (hn : 0 < n) (h0 : 0 ∉ o) (index join : Bool) {ax : AxesKind} {D : Deriv F ss o} {ifwd : Option ((Fin (k + 1) → ND ℤ) → ND ℤ)}
    {args : Fin (k + 1) → ArrTrip F} (hargs : ∀ a, ArgFor n (ss a) (args a)) (hax : AxesOk ax D) (hf : index = true → ∀ f, ifwd = some f → Indexing D f)
    (hcase : (∀ a, (args a).jac.idx = none) ∨ ((∀ a, (args a).jac.idx ≠ none) ∧ (index = true ∨ ax.ew = true ∨ k = 0)) ∨
      ((args 0).jac.idx = none ∨ ∃ h : 1 < k + 1, (args ⟨1, h⟩).jac.idx = none) ∨ ∀ a, (args a).jac.idx ≠ none → reducedAxes (ss a) ax ≠ none) :
    ∀ r, jvpArr T index join ax D ifwd args = some r → IsPush n D args r := by
  intro r hr
  by_cases hd : ∀ a, (args a).jac.idx = none
  · obtain ⟨r', h1, -, h2⟩ := C57_dense T hn index join (ifwd := ifwd) hargs hax hd
    rw [hr] at h1
    cases h1
    exact h2
  · have hs : ∃ a, (args a).jac.idx ≠ none := by
      by_contra h
      exact hd fun a => by
        by_contra h'
        exact h ⟨a, h'⟩
    by_cases hp : (∀ a, (args a).jac.idx ≠ none) ∧ (index = true ∨ ax.ew = true ∨ k = 0)
    · obtain ⟨hs', hp⟩ := hp
      cases index with
      | true =>
        obtain ⟨r', h1, -, h2⟩ := C57_index T hn join hargs hax (hf rfl) hs'
        rw [hr] at h1
        cases h1
        exact h2
      | false =>
        by_cases hew : ax.ew = true
        · have : ax = .elementwise := by cases ax <;> first | rfl | simp [AxesKind.ew] at hew
          subst this
          obtain ⟨r', h1, -, h2⟩ := C57_elementwise T join (ifwd := ifwd) hargs hax hs'
          rw [hr] at h1
          cases h1
          exact h2
        · rcases hp with hp | hp | rfl
          · simp at hp
          · exact absurd hp hew
          · exact (C57_single T hn join hargs hax hs').2 r hr
    · have hrest : (∀ a, (args a).jac.idx ≠ none) → index = false ∧ ax.ew = false ∧ k ≠ 0 := by
        intro h
        have : ¬ (index = true ∨ ax.ew = true ∨ k = 0) := fun h' => hp ⟨h, h'⟩
        push Not at this
        exact ⟨by simpa using this.1, by simpa using this.2.1, this.2.2⟩
      rw [jvpArr_rest hs hrest] at hr
      rcases hcase with h | h | h | h
      · exact absurd h hd
      · exact absurd h hp
      · exact (oneByOneArr_mixed T hn h0 join hargs hax h).2 r hr
      · exact oneByOneArr_reduction T hn h0 join hargs hax h r hr

/-- **C57 (two sparse arguments, when it raises).**  A reduction of two sparse arguments (a dot product, for example) raises exactly if no element of one of them depends on an
input, or if the largest numbers of inputs on which elements reduced together depend are different, both at most `T` and both different from 1 (B1); otherwise the
result is exact. -/
theorem C57_two_sparse (T : ℕ) (hn : 0 < n) (h0 : 0 ∉ o) (join : Bool) {ax : AxesKind} {ss : Fin 2 → List ℕ} {D : Deriv F ss o} {ifwd : Option ((Fin 2 → ND ℤ) → ND ℤ)}
    {args : Fin 2 → ArrTrip F} (hargs : ∀ a, ArgFor n (ss a) (args a)) (hax : AxesOk ax D) {ms : Fin 2 → ND ℤ} (hms : ∀ a, (args a).jac.idx = some (ms a))
    {dims : Fin 2 → List ℕ} (hred : ∀ a, reducedAxes (ss a) ax = some (dims a)) :
    (jvpArr (k := 1) T false join ax D ifwd args = none ↔ (∃ a, widest (ms a) (ss a) (dims a) = 0) ∨
      (widest (ms 0) (ss 0) (dims 0) ≤ T ∧ widest (ms 1) (ss 1) (dims 1) ≤ T ∧ widest (ms 0) (ss 0) (dims 0) ≠ widest (ms 1) (ss 1) (dims 1) ∧
        widest (ms 0) (ss 0) (dims 0) ≠ 1 ∧ widest (ms 1) (ss 1) (dims 1) ≠ 1)) ∧
    ∀ r, jvpArr (k := 1) T false join ax D ifwd args = some r → IsPush n D args r := by
  have hew : ax.ew = false := by
    cases ax <;> first | rfl | (have := hred 0; simp [reducedAxes] at this)
  rw [jvpArr_rest ⟨0, by rw [hms 0]; simp⟩ (fun _ => ⟨rfl, hew, by simp⟩)]
  refine ⟨oneByOneArr_two T hn h0 join hargs hax hms hred, oneByOneArr_reduction T hn h0 join hargs hax fun a _ => by rw [hred a]; simp⟩

/-! ### Non-trivial cases -/

/-- Checking `ArgFor` of a sparse argument. -/
theorem argFor_sparse {x d l : ND F} {m : ND ℤ} {s : List ℕ} {K : ℕ} (hx : x.shape = s) (hl : l.shape = s) (hd : d.shape = (K + 1) :: s) (hm : m.shape = (K + 1) :: s)
    (h0 : 0 ∉ s) (hc : ∀ w ∈ allIdx ((K + 1) :: s), m.get w < n ∧ (m.get w < 0 → m.get w = -1 ∧ d.get w = 0)) : ArgFor n s ⟨x, ⟨d, some m⟩, l⟩ := by
  refine ⟨hx, ⟨⟨_, hd⟩, hm.trans hd.symm, fun k p hk hp => hc _ (mem_allIdx.mpr (List.Forall₂.cons ?_ hp))⟩, hl, fun _ => ?_, h0⟩
  · have hk : k < d.shape.getD 0 0 := hk
    rw [hd] at hk
    exact hk
  · show 0 < d.shape.getD 0 0
    rw [hd]
    exact Nat.succ_pos _

/-- Checking `ArgFor` of a dense argument. -/
theorem argFor_dense {x d l : ND F} {s : List ℕ} {K : ℕ} (hx : x.shape = s) (hl : l.shape = s) (hd : d.shape = K :: s) (hK : K ≤ n) (h0 : 0 ∉ s) :
    ArgFor n s ⟨x, ⟨d, none⟩, l⟩ := by
  refine ⟨hx, ⟨⟨_, hd⟩, ?_⟩, hl, fun h => absurd rfl h, h0⟩
  show d.shape.getD 0 0 ≤ n
  rw [hd]
  exact hK

/-- The derivative of an elementwise function with partial derivatives `g`. -/
def ewDeriv (hb : ∀ a, Broadcasts [ss a, o] o) (g : Fin (k + 1) → List ℕ → F) : Deriv F ss o where
  toFun t c := ∑ a, g a (unravelIdx o c) * t a ⟨ravelIdx (ss a) (bcoord (ss a) o (unravelIdx o c)), ravelIdx_lt
    (inB_bcoord (aligned_of_broadcasts (hb a) (by simp)).1 (aligned_of_broadcasts (hb a) (by simp)).2 (inB_unravelIdx c.2))⟩
  map_add' t u := by
    funext c
    simp [mul_add, Finset.sum_add_distrib]
  map_smul' b t := by
    funext c
    simp [Finset.mul_sum, mul_left_comm]

theorem ewDeriv_elementwise (hb : ∀ a, Broadcasts [ss a, o] o) (g : Fin (k + 1) → List ℕ → F) : Elementwise (ewDeriv hb g) := by
  refine ⟨hb, fun t q hq hz => ?_⟩
  rw [toND_get _ _ hq]
  show (∑ a : Fin (k + 1), _) = (0 : F)
  refine Finset.sum_eq_zero fun a _ => ?_
  rw [hz a _ ?_, mul_zero]
  show unravelIdx (ss a) (ravelIdx (ss a) (bcoord (ss a) o (unravelIdx o (ravelIdx o q)))) = bcoord (ss a) o q
  rw [unravelIdx_ravelIdx hq]
  exact unravelIdx_ravelIdx (inB_bcoord (aligned_of_broadcasts (hb a) (by simp)).1 (aligned_of_broadcasts (hb a) (by simp)).2 hq)

/-- Shapes of the factors `x` (2, 1) and `y` (1, 2). -/
def exShapes : Fin 2 → List ℕ
  | 0 => [2, 1]
  | 1 => [1, 2]

theorem exShapes_bcast (a : Fin 2) : Broadcasts [exShapes a, [2, 2]] [2, 2] := by
  fin_cases a <;> exact broadcastShapes_iff.mp (by decide)

/-- The derivative of `x * y` at `x = ((1), (2))`, `y = ((3, 4))`. -/
def exMulD : Deriv ℤ exShapes [2, 2] := ewDeriv (k := 1) exShapes_bcast fun a q => if a = 0 then [3, 4].getD (q.getD 1 0) 0 else [1, 2].getD (q.getD 0 0) 0

/-- Element `i` of `x` depends on input `i`; element `j` of `y` on the inputs 0 and `j`. -/
def exMulArgs (dense : Bool) : Fin 2 → ArrTrip ℤ
  | 0 => ⟨⟨[2, 1], [1, 2], rfl⟩, if dense then ⟨⟨[2, 2, 1], [5, 0, 0, 6], rfl⟩, none⟩ else ⟨⟨[1, 2, 1], [5, 6], rfl⟩, some ⟨[1, 2, 1], [0, 1], rfl⟩⟩, ⟨[2, 1], [1, 0], rfl⟩⟩
  | 1 => ⟨⟨[1, 2], [3, 4], rfl⟩, ⟨⟨[2, 1, 2], [7, 8, 0, 9], rfl⟩, some ⟨[2, 1, 2], [0, 0, -1, 1], rfl⟩⟩, ⟨[1, 2], [0, 1], rfl⟩⟩

theorem exMulArgs_ok (dense : Bool) (a : Fin 2) : ArgFor 3 (exShapes a) (exMulArgs dense a) := by
  cases dense <;> fin_cases a
  · exact argFor_sparse (K := 0) rfl rfl rfl rfl (by decide) (by decide)
  · exact argFor_sparse (K := 1) rfl rfl rfl rfl (by decide) (by decide)
  · exact argFor_dense rfl rfl rfl (K := 2) (by decide) (by decide)
  · exact argFor_sparse (K := 1) rfl rfl rfl rfl (by decide) (by decide)

/-- The hypotheses of `C57_elementwise` are met: `∂(x[1] y[1]) / ∂input 1 = 6 · 4 + 2 · 9`, and the linear part of its Laplacian is `x[1] · 1`. -/
example (T : ℕ) (join : Bool) : ∃ r, jvpArr (k := 1) T false join .elementwise exMulD none (exMulArgs false) = some r ∧ r.1.idx ≠ none ∧
    r.1.entry 1 [1, 1] = 42 ∧ r.2.get [1, 1] = 2 := by
  obtain ⟨r, h1, h2, h3⟩ := C57_elementwise (k := 1) (n := 3) (ss := exShapes) T join (D := exMulD) (ifwd := none) (args := exMulArgs false) (exMulArgs_ok false)
    (ewDeriv_elementwise (k := 1) _ _) (fun a => by fin_cases a <;> simp [exMulArgs])
  refine ⟨r, h1, h2, (h3.entry 1 [1, 1] (by decide)).trans ?_, (h3.lapl [1, 1] (by decide)).trans ?_⟩
  · decide +kernel
  · decide +kernel

/-- The hypotheses of `C57_mixed` are met: the same product with a dense Jacobian of `x`. -/
example (T : ℕ) (join : Bool) : ∃ r, jvpArr (k := 1) T false join .elementwise exMulD none (exMulArgs true) = some r ∧ r.1.entry 1 [1, 1] = 42 := by
  obtain ⟨h1, h2⟩ := C57_mixed (k := 1) (n := 3) (ss := exShapes) T (by decide) (by decide) false join (ax := .elementwise) (D := exMulD) (ifwd := none)
    (args := exMulArgs true) (exMulArgs_ok true) (ewDeriv_elementwise (k := 1) _ _) ⟨1, by simp [exMulArgs]⟩ (Or.inl (by simp [exMulArgs]))
  cases hr : jvpArr (k := 1) T false join .elementwise exMulD none (exMulArgs true) with
  | none =>
    obtain ⟨a, d, m, h, -⟩ := h1.mp hr
    simp [reducedAxes] at h
  | some r =>
    refine ⟨r, rfl, ((h2 r hr).entry 1 [1, 1] (by decide)).trans ?_⟩
    decide +kernel

/-- The derivative of a function with one result. -/
def oneDeriv (g : (a : Fin (k + 1)) → Fin (ss a).prod → F) : Deriv F ss [] where
  toFun t _ := ∑ a, ∑ c, g a c * t a c
  map_add' t u := by
    funext _
    show ∑ a, ∑ c, g a c * (t a c + u a c) = (∑ a, ∑ c, g a c * t a c) + ∑ a, ∑ c, g a c * u a c
    simp [mul_add, Finset.sum_add_distrib]
  map_smul' b t := by
    funext _
    show ∑ a, ∑ c, g a c * (b * t a c) = b * ∑ a, ∑ c, g a c * t a c
    simp [Finset.mul_sum, mul_left_comm]

/-- The derivative of the dot product of `x = (1, 2)` and `y = (3, 4)`. -/
def exDotD : Deriv ℤ (fun _ : Fin 2 => [2]) [] := oneDeriv (k := 1) fun a c => ([3, 4, 1, 2] : List ℤ).getD (2 * a + c) 0

theorem exDotD_axes : AxesOk (k := 1) (.reduction (.flat [-1])) exDotD := by
  intro a
  show (∀ i ∈ [(-1 : ℤ)], -(([2] : List ℕ).length : ℤ) ≤ i ∧ i < ([2] : List ℕ).length) ∧ ([(-1 : ℤ)].map (axisOf [2].length)).Nodup ∧
    Broadcasts [dropDims [2] ([(-1 : ℤ)].map (axisOf [2].length)), []] [] ∧ ∀ t q, InB q [] → (∀ p, InB p [2] →
      keptOf ([(-1 : ℤ)].map (axisOf [2].length)) p = bcoord (dropDims [2] ([(-1 : ℤ)].map (axisOf [2].length))) [] q → (toND [2] t).get p = 0) → _
  refine ⟨by decide, by decide, broadcastShapes_iff.mp (by decide), fun t q hq hz => ?_⟩
  obtain rfl : q = [] := by
    cases hq
    rfl
  have : t = 0 := by
    funext c
    have h := hz (unravelIdx [2] c) (inB_unravelIdx c.2) (by
      have : ∀ c : Fin 2, keptOf ([(-1 : ℤ)].map (axisOf [2].length)) (unravelIdx [2] c) = bcoord (dropDims [2] ([(-1 : ℤ)].map (axisOf [2].length))) [] [] := by
        decide
      exact this c)
    rw [toND_get _ _ (inB_unravelIdx c.2)] at h
    exact (congrArg t (Fin.ext (ravelIdx_unravelIdx c.2).symm)).trans h
  rw [this, Pi.single_zero, map_zero, toND_get _ _ hq]
  rfl

/-- Element `i` of `x` depends on input `i`; all elements of `y` on all the inputs in `l`. -/
def exDotArgs (K : ℕ) (dat : List ℤ) (msk : List ℤ) (h1 : dat.length = [K, 2].prod) (h2 : msk.length = [K, 2].prod) : Fin 2 → ArrTrip ℤ
  | 0 => ⟨⟨[2], [1, 2], rfl⟩, ⟨⟨[1, 2], [5, 6], rfl⟩, some ⟨[1, 2], [0, 1], rfl⟩⟩, ⟨[2], [1, 0], rfl⟩⟩
  | 1 => ⟨⟨[2], [3, 4], rfl⟩, ⟨⟨[K, 2], dat, h1⟩, some ⟨[K, 2], msk, h2⟩⟩, ⟨[2], [0, 1], rfl⟩⟩

/-- The masks of these arguments. -/
def exDotMasks (K : ℕ) (msk : List ℤ) (h2 : msk.length = [K, 2].prod) : Fin 2 → ND ℤ
  | 0 => ⟨[1, 2], [0, 1], rfl⟩
  | 1 => ⟨[K, 2], msk, h2⟩

/-- The hypotheses of `C57_two_sparse` are met: `y` depends on the inputs 1 and 2; the result is exact for every threshold. -/
example (T : ℕ) (join : Bool) : ∃ r, jvpArr (k := 1) T false join (.reduction (.flat [-1])) exDotD none (exDotArgs 2 [7, 8, 9, 10] [1, 1, 2, 2] rfl rfl) = some r ∧
    r.1.entry 1 [] = 4 * 6 + 7 + 2 * 8 ∧ r.1.entry 0 [] = 3 * 5 ∧ r.2.get [] = 3 + 2 := by
  obtain ⟨h1, h2⟩ := C57_two_sparse (n := 3) T (by decide) (by decide) join (D := exDotD) (ifwd := none) (ax := .reduction (.flat [-1]))
    (args := exDotArgs 2 [7, 8, 9, 10] [1, 1, 2, 2] rfl rfl) (fun a => by
      fin_cases a
      · exact argFor_sparse (K := 0) rfl rfl rfl rfl (by decide) (by decide)
      · exact argFor_sparse (K := 1) rfl rfl rfl rfl (by decide) (by decide)) exDotD_axes (ms := exDotMasks 2 [1, 1, 2, 2] rfl)
    (fun a => by fin_cases a <;> rfl) (dims := fun _ => [0]) (fun a => by fin_cases a <;> rfl)
  have w0 : widest (exDotMasks 2 [1, 1, 2, 2] rfl 0) [2] [0] = 2 := by decide +kernel
  have w1 : widest (exDotMasks 2 [1, 1, 2, 2] rfl 1) [2] [0] = 2 := by decide +kernel
  cases hr : jvpArr (k := 1) T false join (.reduction (.flat [-1])) exDotD none (exDotArgs 2 [7, 8, 9, 10] [1, 1, 2, 2] rfl rfl) with
  | none =>
    exfalso
    rcases h1.mp hr with ⟨a, ha⟩ | ⟨-, -, h, -⟩
    · fin_cases a
      · exact absurd (w0.symm.trans ha) (by decide)
      · exact absurd (w1.symm.trans ha) (by decide)
    · exact h (w0.trans w1.symm)
  | some r =>
    refine ⟨r, rfl, ((h2 r hr).entry 1 [] (by decide)).trans ?_, ((h2 r hr).entry 0 [] (by decide)).trans ?_, ((h2 r hr).lapl [] (by decide)).trans ?_⟩
    · decide +kernel
    · decide +kernel
    · decide +kernel

/-- If `y` depends on three inputs and `x` on two, the dot product raises, for every threshold of at least 3 (B1). -/
theorem C57_two_sparse_raises (T : ℕ) (hT : 3 ≤ T) (join : Bool) :
    jvpArr (k := 1) T false join (.reduction (.flat [-1])) exDotD none (exDotArgs 3 [7, 8, 9, 10, 11, 12] [0, 0, 1, 1, 2, 2] rfl rfl) = none := by
  obtain ⟨h1, -⟩ := C57_two_sparse (n := 3) T (by decide) (by decide) join (D := exDotD) (ifwd := none) (ax := .reduction (.flat [-1]))
    (args := exDotArgs 3 [7, 8, 9, 10, 11, 12] [0, 0, 1, 1, 2, 2] rfl rfl) (fun a => by
      fin_cases a
      · exact argFor_sparse (K := 0) rfl rfl rfl rfl (by decide) (by decide)
      · exact argFor_sparse (K := 2) rfl rfl rfl rfl (by decide) (by decide)) exDotD_axes (ms := exDotMasks 3 [0, 0, 1, 1, 2, 2] rfl)
    (fun a => by fin_cases a <;> rfl) (dims := fun _ => [0]) (fun a => by fin_cases a <;> rfl)
  have w0 : widest (exDotMasks 3 [0, 0, 1, 1, 2, 2] rfl 0) [2] [0] = 2 := by decide +kernel
  have w1 : widest (exDotMasks 3 [0, 0, 1, 1, 2, 2] rfl 1) [2] [0] = 3 := by decide +kernel
  refine h1.mpr (Or.inr ?_)
  show widest (exDotMasks 3 [0, 0, 1, 1, 2, 2] rfl 0) [2] [0] ≤ T ∧ widest (exDotMasks 3 [0, 0, 1, 1, 2, 2] rfl 1) [2] [0] ≤ T ∧
    widest (exDotMasks 3 [0, 0, 1, 1, 2, 2] rfl 0) [2] [0] ≠ widest (exDotMasks 3 [0, 0, 1, 1, 2, 2] rfl 1) [2] [0] ∧
    widest (exDotMasks 3 [0, 0, 1, 1, 2, 2] rfl 0) [2] [0] ≠ 1 ∧ widest (exDotMasks 3 [0, 0, 1, 1, 2, 2] rfl 1) [2] [0] ≠ 1
  rw [w0, w1]
  omega

/-- Shapes of two arrays that are concatenated. -/
def exCatShapes : Fin 2 → List ℕ
  | 0 => [2]
  | 1 => [1]

/-- The derivative of the concatenation of arrays of sizes 2 and 1. -/
def exCatD : Deriv ℤ exCatShapes [3] where
  toFun t c := if h : c.val < 2 then t 0 ⟨c.val, h⟩ else t 1 ⟨0, Nat.one_pos⟩
  map_add' t u := by
    funext c
    dsimp only [Pi.add_apply]
    split <;> rfl
  map_smul' b t := by
    funext c
    dsimp only [Pi.smul_apply, RingHom.id_apply]
    split <;> rfl

theorem exCat_index : Indexing (k := 1) exCatD fun x => concat0 (x 0) (x 1) := by
  refine ⟨fun x hx => ?_, fun q hq => ?_⟩
  · exact (concat0_spec (hx 0) (hx 1)).1
  · left
    obtain ⟨c, w, rfl, hc, hw⟩ := hq.cons_right
    cases hw
    have hcat : ∀ x : Fin 2 → ND ℤ, (∀ b, (x b).shape = exCatShapes b) → (concat0 (x 0) (x 1)).get [c] = if c < 2 then (x 0).get [c] else (x 1).get [c - 2] :=
      fun x hx => (concat0_spec (hx 0) (hx 1)).2 c [] hc List.Forall₂.nil
    have h3 : InB [c] [3] := List.Forall₂.cons hc List.Forall₂.nil
    by_cases h : c < 2
    · have h2 : InB [c] (exCatShapes 0) := List.Forall₂.cons h List.Forall₂.nil
      refine ⟨0, [c], h2, fun t => ?_, fun x hx => by rw [hcat x hx, if_pos h]⟩
      rw [toND_get _ _ h3, toND_get _ _ h2]
      show (if h : ravelIdx [3] [c] < 2 then t 0 ⟨ravelIdx [3] [c], h⟩ else t 1 ⟨0, Nat.one_pos⟩) = _
      have e : ravelIdx [3] [c] = c := by simp [ravelIdx]
      rw [dif_pos (by rw [e]; exact h)]
      congr 1
    · obtain rfl : c = 2 := by omega
      refine ⟨1, [0], by decide, fun t => ?_, fun x hx => by rw [hcat x hx]; rfl⟩
      rw [toND_get _ _ h3, toND_get _ _ (by decide)]
      rfl

/-- Two sparse arrays of sizes 2 and 1. -/
def exCatArgs : Fin 2 → ArrTrip ℤ
  | 0 => ⟨⟨[2], [1, 2], rfl⟩, ⟨⟨[1, 2], [5, 6], rfl⟩, some ⟨[1, 2], [0, 1], rfl⟩⟩, ⟨[2], [1, 0], rfl⟩⟩
  | 1 => ⟨⟨[1], [3], rfl⟩, ⟨⟨[2, 1], [7, 8], rfl⟩, some ⟨[2, 1], [0, 2], rfl⟩⟩, ⟨[1], [4], rfl⟩⟩

/-- The hypotheses of `C57_index` are met: concatenating arrays with one and two rows. -/
example (T : ℕ) (join : Bool) : ∃ r, jvpArr (k := 1) T true join .all exCatD (some fun x => concat0 (x 0) (x 1)) exCatArgs = some r ∧ r.1.idx ≠ none ∧
    r.1.entry 2 [2] = 8 ∧ r.1.entry 1 [1] = 6 ∧ r.1.entry 1 [2] = 0 ∧ r.2.get [2] = 4 := by
  obtain ⟨r, h1, h2, h3⟩ := C57_index (k := 1) (n := 3) (ss := exCatShapes) T (by decide) join (ax := .all) (D := exCatD) (ifwd := some fun x => concat0 (x 0) (x 1))
    (args := exCatArgs) (fun a => by
      fin_cases a
      · exact argFor_sparse (K := 0) rfl rfl rfl rfl (by decide) (by decide)
      · exact argFor_sparse (K := 1) rfl rfl rfl rfl (by decide) (by decide)) trivial (fun f hf => by cases hf; exact exCat_index)
    (fun a => by fin_cases a <;> simp [exCatArgs])
  refine ⟨r, h1, fun h => by simpa using h2.mp h, (h3.entry 2 [2] (by decide)).trans ?_, (h3.entry 1 [1] (by decide)).trans ?_, (h3.entry 1 [2] (by decide)).trans ?_,
    (h3.lapl [2] (by decide)).trans ?_⟩
  · decide +kernel
  · decide +kernel
  · decide +kernel
  · decide +kernel

/-- The derivative of `x + y` for scalars. -/
def exAddD : Deriv ℤ (fun _ : Fin 2 => []) [] := oneDeriv (k := 1) fun _ _ => 1

/-- Two scalars that depend on input 0 only; the Jacobian of `y` has two rows for it. -/
def exAddArgs : Fin 2 → ArrTrip ℤ
  | 0 => ⟨⟨[], [1], rfl⟩, ⟨⟨[1], [1], rfl⟩, some ⟨[1], [0], rfl⟩⟩, ⟨[], [0], rfl⟩⟩
  | 1 => ⟨⟨[], [2], rfl⟩, ⟨⟨[2], [1, 2], rfl⟩, some ⟨[2], [0, 0], rfl⟩⟩, ⟨[], [0], rfl⟩⟩

/-- **C57 fails without the hypothesis on the axes.**  A function of two scalars that is not registered as elementwise: the row of `x` is added to both
rows of `y`, so the derivative of `x` counts twice (B1). -/
theorem C57_repeated_rows_wrong (T : ℕ) (join : Bool) : (∀ a, ArgFor 1 ((fun _ : Fin 2 => []) a) (exAddArgs a)) ∧ AxesOk (k := 1) .all exAddD ∧
    ∃ r, jvpArr (k := 1) T false join .all exAddD none exAddArgs = some r ∧ ¬ IsPush 1 exAddD exAddArgs r := by
  refine ⟨fun a => by
      fin_cases a
      · exact argFor_sparse (K := 0) rfl rfl rfl rfl (by decide) (by decide)
      · exact argFor_sparse (K := 1) rfl rfl rfl rfl (by decide) (by decide), trivial, ?_⟩
  have hr : jvpArr (k := 1) T false join .all exAddD none exAddArgs =
      some (⟨⟨[2], [2, 3], rfl⟩, some ⟨[2], [0, 0], rfl⟩⟩, ⟨[], [0], rfl⟩) := by
    rfl
  refine ⟨_, hr, fun h => ?_⟩
  have := h.entry 0 [] (by decide)
  revert this
  decide +kernel

/-- The derivative of `x[0] · x[1]` at `x = (1, 2)`, and `x` with a sparse Jacobian. -/
def exProdD : Deriv ℤ (fun _ : Fin 1 => [2]) [] := oneDeriv (k := 0) fun _ c => ([2, 1] : List ℤ).getD c 0

/-- An argument whose elements depend on the inputs in `msk`. -/
def exProdArg (msk : List ℤ) (h : msk.length = [1, 2].prod) (dat : List ℤ) (h' : dat.length = [1, 2].prod) : ArrTrip ℤ :=
  ⟨⟨[2], [1, 2], rfl⟩, ⟨⟨[1, 2], dat, h'⟩, some ⟨[1, 2], msk, h⟩⟩, ⟨[2], [1, 3], rfl⟩⟩

/-- The hypotheses of `C57_single` are met: `in_axes = None`, for every threshold. -/
example (T : ℕ) (join : Bool) : ∃ r, jvpArr (k := 0) T false join .all exProdD none (fun _ => exProdArg [0, 2] rfl [5, 6] rfl) = some r ∧
    r.1.entry 2 [] = 6 ∧ r.1.entry 0 [] = 10 ∧ r.2.get [] = 5 := by
  obtain ⟨h1, h2⟩ := C57_single (n := 3) T (by decide) join (ax := .all) (ss := fun _ => [2]) (D := exProdD) (ifwd := none) (args := fun _ => exProdArg [0, 2] rfl [5, 6] rfl)
    (fun _ => argFor_sparse (K := 0) rfl rfl rfl rfl (by decide) (by decide)) trivial (fun _ => by simp [exProdArg])
  cases hr : jvpArr (k := 0) T false join .all exProdD none (fun _ => exProdArg [0, 2] rfl [5, 6] rfl) with
  | none =>
    obtain ⟨d, m, h3, h4, h5⟩ := h1.mp hr
    cases h3
    cases h4
    have := h5 [] (by decide)
    revert this
    decide +kernel
  | some r =>
    refine ⟨r, rfl, ((h2 r hr).entry 2 [] (by decide)).trans ?_, ((h2 r hr).entry 0 [] (by decide)).trans ?_, ((h2 r hr).lapl [] (by decide)).trans ?_⟩
    · decide +kernel
    · decide +kernel
    · decide +kernel

/-- It raises if the argument depends on nothing. -/
example (T : ℕ) (join : Bool) : jvpArr (k := 0) T false join .all exProdD none (fun _ => exProdArg [-1, -1] rfl [0, 0] rfl) = none := by
  obtain ⟨h1, -⟩ := C57_single (n := 3) T (by decide) join (ax := .all) (ss := fun _ => [2]) (D := exProdD) (ifwd := none) (args := fun _ => exProdArg [-1, -1] rfl [0, 0] rfl)
    (fun _ => argFor_sparse (K := 0) rfl rfl rfl rfl (by decide) (by decide)) trivial (fun _ => by simp [exProdArg])
  refine h1.mpr ⟨[0], ⟨[1, 2], [-1, -1], rfl⟩, rfl, rfl, fun u hu => ?_⟩
  obtain rfl : u = [] := by
    have hu : InB u [] := hu
    cases hu
    rfl
  decide +kernel

/-- The hypotheses of `C57_dense` are met: Jacobians with two and one rows. -/
example (T : ℕ) (index join : Bool) : ∃ r, jvpArr (k := 1) T index join (.reduction (.flat [-1])) exDotD none
    (fun a => ⟨⟨[2], [1, 2], rfl⟩, if a = 0 then ⟨⟨[2, 2], [5, 6, 7, 8], rfl⟩, none⟩ else ⟨⟨[1, 2], [9, 10], rfl⟩, none⟩, ⟨[2], [1, 3], rfl⟩⟩) = some r ∧
    r.1.idx = none ∧ r.1.entry 0 [] = 3 * 5 + 4 * 6 + 9 + 2 * 10 ∧ r.1.entry 1 [] = 3 * 7 + 4 * 8 := by
  obtain ⟨r, h1, h2, h3⟩ := C57_dense (k := 1) (n := 3) (ss := fun _ => [2]) T (by decide) index join (ax := .reduction (.flat [-1])) (D := exDotD) (ifwd := none)
    (args := fun a => ⟨⟨[2], [1, 2], rfl⟩, if a = 0 then ⟨⟨[2, 2], [5, 6, 7, 8], rfl⟩, none⟩ else ⟨⟨[1, 2], [9, 10], rfl⟩, none⟩, ⟨[2], [1, 3], rfl⟩⟩)
    (fun a => by
      fin_cases a
      · exact argFor_dense rfl rfl rfl (K := 2) (by decide) (by decide)
      · exact argFor_dense rfl rfl rfl (K := 1) (by decide) (by decide)) exDotD_axes (fun a => by fin_cases a <;> rfl)
  refine ⟨r, h1, h2, (h3.entry 0 [] (by decide)).trans ?_, (h3.entry 1 [] (by decide)).trans ?_⟩
  · decide +kernel
  · decide +kernel

/-- The hypotheses of `C57_sound` are met by a reduction of two sparse arguments. -/
example (T : ℕ) (join : Bool) : ∀ r, jvpArr (k := 1) T false join (.reduction (.flat [-1])) exDotD none (exDotArgs 2 [7, 8, 9, 10] [1, 1, 2, 2] rfl rfl) = some r →
    IsPush 3 exDotD (exDotArgs 2 [7, 8, 9, 10] [1, 1, 2, 2] rfl rfl) r :=
  C57_sound (k := 1) (n := 3) (ss := fun _ => [2]) T (by decide) (by decide) false join (fun a => by
      fin_cases a
      · exact argFor_sparse (K := 0) rfl rfl rfl rfl (by decide) (by decide)
      · exact argFor_sparse (K := 1) rfl rfl rfl rfl (by decide) (by decide)) exDotD_axes (fun h => by simp at h)
    (Or.inr (Or.inr (Or.inr fun _ _ => by simp [reducedAxes])))

end Folx.Layout

import Verif.Core.RuleProofs

/-!
# Properties C11–C15: the first-order rules

For each class of functions a textbook description is given (a scalar function per output element, a
source position per output element, a sum, a function of the reduced elements); the theorems say what
the Jacobian rule returns in terms of that description.
-/

namespace Folx

open Folx.Interp (Err)

variable {k : ℕ} {P : Fin k → Type} {P₀ Q F : Type} [CommRing F]

/-! ## C11 elementwise functions -/

/-- An elementwise function: output element `q` is `φ q` of the elements at the broadcast positions `π a q`;
`D q v a` is the partial derivative of `φ q` at `v` with respect to its `a`-th argument.  (`φ` may depend
on `q` because of captured plain arguments.)  `same a` is set iff argument `a` has the output's shape. -/
def elemInst (φ : Q → (Fin k → F) → F) (D : Q → (Fin k → F) → Fin k → F) (π : (a : Fin k) → Q → P a)
    (same : (a : Fin k) → Option (Q ≃ P a)) (flags : Flags) : Inst k P Q F where
  fwd := fun x q => φ q fun a => x a (π a q)
  jvp := fun x =>
    { toFun := fun t q => ∑ a, D q (fun b => x b (π b q)) a * t a (π a q)
      map_add' := fun s t => by
        funext q; simp [mul_add, Finset.sum_add_distrib]
      map_smul' := fun c t => by
        funext q; simp [Finset.mul_sum, mul_left_comm] }
  flags := flags
  elem := true
  π := π
  same := same
  ax := fun a => .elem (π a)
  src := fun _ => none
  static := false
  role := fun _ => .operand
  multi := false

theorem elemInst_single [∀ a, DecidableEq (P a)] (φ : Q → (Fin k → F) → F) (D : Q → (Fin k → F) → Fin k → F)
    (π : (a : Fin k) → Q → P a) (same : (a : Fin k) → Option (Q ≃ P a)) (flags : Flags)
    (x : (a : Fin k) → P a → F) (a : Fin k) (t : P a → F) (q : Q) :
    (elemInst φ D π same flags).jvp x (Pi.single a t) q = D q (fun b => x b (π b q)) a * t (π a q) := by
  show (∑ b, D q (fun b => x b (π b q)) b * (Pi.single a t : (a : Fin k) → P a → F) b (π b q)) = _
  rw [Finset.sum_eq_single a]
  · simp
  · intro b _ hb; simp [Pi.single_eq_of_ne hb]
  · intro h; exact absurd (Finset.mem_univ a) h

/-- **C11.** An elementwise function with any number of derivative-carrying arguments, broadcast against
each other, applied to sparse Jacobians: the rule returns, and it returns the value, a *sparse* Jacobian
(in bounds) whose dense matrix is `Σ_a ∂_a φ · J_a` at the broadcast positions, and the same for the
Laplacian — whatever the masks (padding, repeated indices, different masks and row counts). -/
theorem C11_elementwise [∀ a, Fintype (P a)] [∀ a, DecidableEq (P a)] [Fintype Q] [DecidableEq Q]
    (n T : ℕ) (φ : Q → (Fin k → F) → F) (D : Q → (Fin k → F) → Fin k → F)
    (π : (a : Fin k) → Q → P a) (same : (a : Fin k) → Option (Q ≃ P a)) (flags : Flags)
    (hflags : flags.has Flags.INDEXING = false)
    (hsame : ∀ a e, same a = some e → ∀ q, e q = π a q)
    (args : (a : Fin k) → Trip (P a) F) (hsp : ∀ a, (args a).jac.weak = true)
    (hwf : ∀ a, (args a).jac.Wf n) :
    ∃ o, jvpRule (elemInst φ D π same flags) T args = .ok o ∧
      (∀ q, o.y q = φ q fun a => (args a).x (π a q)) ∧
      (∃ rows, o.jac = .sparse rows) ∧ o.jac.Wf n ∧
      (∀ i q, o.jac.den i q = ∑ a, D q (fun b => (args b).x (π b q)) a * (args a).jac.den i (π a q)) ∧
      (∀ q, o.lapl q = ∑ a, D q (fun b => (args b).x (π b q)) a * (args a).lapl (π a q)) := by
  set I := elemInst φ D π same flags with hI
  have hall : allWeak args = true := by simp [allWeak, hsp]
  have h1 : jvpRule I T args = sparseDiag I args := by
    have he : I.elem = true := rfl
    have hf : I.flags.has Flags.INDEXING = false := hflags
    unfold jvpRule parallelJvp
    simp [hall, he, hf]
  have hret : ∃ o, sparseDiag I args = .ok o ∧ ∃ rows, o.jac = .sparse rows := by
    unfold sparseDiag
    have hm : I.multi = false := rfl
    simp only [hm, Bool.false_eq_true, if_false]
    split
    · split <;> exact ⟨_, rfl, _, rfl⟩
    · exact ⟨_, rfl, _, rfl⟩
  obtain ⟨o, ho, hs⟩ := hret
  have spec := sparseDiag_spec n I args
    (fun a t q ht => by
      rw [hI, elemInst_single]
      have : t (π a q) = 0 := ht
      rw [this, mul_zero])
    hsame hwf o ho
  exact ⟨o, h1.trans ho, fun q => congrFun spec.y q, hs, spec.wf, fun i q => spec.jac i q,
    fun q => congrFun spec.lapl q⟩

/-! ## C12 indexing -/

/-- An indexing operation: output element `q` is a copy of the element `src q` of one of the arguments, or a
constant that does not depend on the inputs (mask `-1`).  `static` says whether the operation can be evaluated on the masks at trace time. -/
def indexInst (src : Q → Option (Σ a, P a)) (const : Q → F) (static : Bool) (flags : Flags)
    (ax : (a : Fin k) → ArgAx (P a) Q) (π : (a : Fin k) → Q → P a) : Inst k P Q F where
  fwd := fun x q => match src q with
    | some ⟨a, p⟩ => x a p
    | none => const q
  jvp := fun _ =>
    { toFun := fun t q => match src q with
        | some ⟨a, p⟩ => t a p
        | none => 0
      map_add' := fun s t => by
        funext q; simp only [Pi.add_apply]; split <;> simp
      map_smul' := fun c t => by
        funext q; simp only [Pi.smul_apply, RingHom.id_apply]; split <;> simp }
  flags := flags
  elem := false
  π := π
  same := fun _ => none
  ax := ax
  src := src
  static := static
  role := fun _ => .operand
  multi := false

/-- What an indexing operation does to an array of rows: copies or zero. -/
def copied (src : Q → Option (Σ a, P a)) (t : (a : Fin k) → P a → F) (q : Q) : F :=
  match src q with
  | some ⟨a, p⟩ => t a p
  | none => 0

/-- **C12.** An indexing operation on sparse Jacobians: whenever the rule returns, each output element has
exactly the Jacobian row entries and the Laplacian of the element it copies, and zero if it is a constant;
if the operation can be evaluated on the masks the rule does return and the result stays sparse (and in
bounds), otherwise it is dense with the same content. -/
theorem C12_indexing [∀ a, Fintype (P a)] [∀ a, DecidableEq (P a)] [Fintype Q] [DecidableEq Q]
    (n T : ℕ) (hn : 0 < n) (src : Q → Option (Σ a, P a)) (const : Q → F) (static : Bool)
    (flags : Flags) (hflags : flags.has Flags.INDEXING = true)
    (ax : (a : Fin k) → ArgAx (P a) Q) (π : (a : Fin k) → Q → P a)
    (args : (a : Fin k) → Trip (P a) F) (hsp : ∀ a, (args a).jac.weak = true)
    (hwf : ∀ a, (args a).jac.Wf n) :
    (static = true → ∃ o rows, jvpRule (indexInst src const static flags ax π) T args = .ok o ∧
      o.jac = .sparse rows) ∧
    ∀ o, jvpRule (indexInst src const static flags ax π) T args = .ok o →
      (∀ q, o.y q = match src q with
        | some ⟨a, p⟩ => (args a).x p
        | none => const q) ∧
      o.jac.Wf n ∧ (static = false → ∃ rows, o.jac = .dense rows) ∧
      (∀ i q, o.jac.den i q = copied src (fun a => (args a).jac.den i) q) ∧
      (∀ q, o.lapl q = copied src (fun a => (args a).lapl) q) := by
  set I : Inst k P Q F := indexInst src const static flags ax π with hI
  have hall : allWeak args = true := by simp [allWeak, hsp]
  have h1 : jvpRule I T args = sparseIndex I args := by
    have hf : I.flags.has Flags.INDEXING = true := hflags
    unfold jvpRule parallelJvp
    simp [hall, hf]
  constructor
  · intro hst
    rw [h1]
    have hs : I.static = true := hst
    have hm : I.multi = false := rfl
    unfold sparseIndex
    rw [if_pos hs, hm]
    exact ⟨_, _, rfl, rfl⟩
  · intro o ho
    rw [h1] at ho
    have spec := sparseIndex_spec n hn I args (by intro he; exact absurd he (by simp [hI, indexInst]))
      (fun _ t q => rfl) hwf o ho
    refine ⟨fun q => congrFun spec.y q, spec.wf, ?_, fun i q => spec.jac i q, fun q => congrFun spec.lapl q⟩
    intro hst
    unfold sparseIndex at ho
    have hs : I.static = false := hst
    rw [hs] at ho
    exact denseJvp_dense I args o ho

/-! ## C13 summation -/

/-- Summation over the contracted positions of `r` (`π` is never looked at). -/
def sumInst (r : Red P₀ Q) (flags : Flags) (π : Q → P₀) : Inst 1 (fun _ => P₀) Q F where
  fwd := fun x q => ∑ c : r.C, x 0 (r.split.symm (r.κ q, c))
  jvp := fun _ =>
    { toFun := fun t q => ∑ c : r.C, t 0 (r.split.symm (r.κ q, c))
      map_add' := fun s t => by funext q; simp [Finset.sum_add_distrib]
      map_smul' := fun c t => by funext q; simp [Finset.mul_sum] }
  flags := flags
  elem := false
  π := fun _ => π
  same := fun _ => none
  ax := fun _ => .red r
  src := fun _ => none
  static := false
  role := fun _ => .operand
  multi := false

/-- **C13.** Summing an array with a sparse Jacobian over any axes: whenever the rule returns, value and
Laplacian are the sums, the Jacobian densifies to the sums of the Jacobian entries, it is in bounds, and
it is sparse only if it has at most `T` (the threshold) rows. -/
theorem C13_sum [Fintype P₀] [DecidableEq P₀] [Fintype Q] [DecidableEq Q]
    (n T : ℕ) (r : Red P₀ Q) (flags : Flags) (π : Q → P₀)
    (hflags : flags.has Flags.SUMMATION = true) (hflags' : flags.has Flags.INDEXING = false)
    (hflags'' : flags.has Flags.SCATTER = false)
    (arg : Trip P₀ F) (hsp : arg.jac.weak = true) (hwf : arg.jac.Wf n)
    (o : JvpOut Q F) (h : jvpRule (sumInst r flags π) T (fun _ => arg) = .ok o) :
    (∀ q, o.y q = ∑ c : r.C, arg.x (r.split.symm (r.κ q, c))) ∧
    (∀ i q, o.jac.den i q = ∑ c : r.C, arg.jac.den i (r.split.symm (r.κ q, c))) ∧
    (∀ q, o.lapl q = ∑ c : r.C, arg.lapl (r.split.symm (r.κ q, c))) ∧
    o.jac.Wf n ∧ (∀ rows, o.jac = .sparse rows → rows.length ≤ T) := by
  have h1 : jvpRule (sumInst r flags π) T (fun _ => arg) = sparseSum r T arg := by
    have hall : allWeak (fun _ : Fin 1 => arg) = true := by simp [allWeak, hsp]
    have hf : (sumInst r flags π : Inst 1 (fun _ => P₀) Q F).flags.has Flags.INDEXING = false := hflags'
    have he : (sumInst r flags π : Inst 1 (fun _ => P₀) Q F).elem = false := rfl
    unfold jvpRule parallelJvp
    simp only [hall, hf, he, Bool.false_eq_true, true_or, or_true, and_self, if_true, if_false,
      Bool.true_eq_false, dite_true, reduceIte]
    unfold sparseSingle
    have hax : (Inst.single (sumInst r flags π : Inst 1 (fun _ => P₀) Q F) (fun _ => arg.x) ⟨0, by omega⟩).ax 0
        = .red r := rfl
    have hfl : (Inst.single (sumInst r flags π : Inst 1 (fun _ => P₀) Q F) (fun _ => arg.x) ⟨0, by omega⟩).flags
        = flags := rfl
    rw [hax]
    simp only [hfl, hflags, hflags'', Bool.false_eq_true, if_false, if_true]
  rw [h1] at h
  obtain ⟨s1, s2⟩ := sparseSum_spec n (sumInst r flags π) r T arg (fun t q => rfl) (fun q => rfl) hwf o h
  exact ⟨fun q => congrFun s1.y q, fun i q => s1.jac i q, fun q => congrFun s1.lapl q, s1.wf, s2⟩

/-! ## C14 general reductions -/

/-- A function whose output `q` is `φ q` of the elements with kept position `κ q`; `D q v` is the derivative of
`φ q` at `v`. -/
def redInst (r : Red P₀ Q) (φ : Q → (r.C → F) → F) (D : Q → (r.C → F) → (r.C → F) →ₗ[F] F)
    (flags : Flags) (π : Q → P₀) : Inst 1 (fun _ => P₀) Q F where
  fwd := fun x q => φ q fun c => x 0 (r.split.symm (r.κ q, c))
  jvp := fun x => LinearMap.pi fun q => (D q fun c => x 0 (r.split.symm (r.κ q, c))).comp
    (LinearMap.pi fun c => (LinearMap.proj (r.split.symm (r.κ q, c)) :
      (P₀ → F) →ₗ[F] F).comp (LinearMap.proj 0))
  flags := flags
  elem := false
  π := fun _ => π
  same := fun _ => none
  ax := fun _ => .red r
  src := fun _ => none
  static := false
  role := fun _ => .operand
  multi := false

/-- **C14.** For a function that mixes only the elements along the reduction axes and has a sparse Jacobian:
whenever the rule returns, the result is the value, `D φ` applied to the rows of the Jacobian and to the
Laplacian; it is in bounds and it is kept sparse only if it has at most `T` rows. -/
theorem C14_reduction [Fintype P₀] [DecidableEq P₀] [Fintype Q] [DecidableEq Q]
    (n T : ℕ) (hn : 0 < n) (r : Red P₀ Q) (φ : Q → (r.C → F) → F)
    (D : Q → (r.C → F) → (r.C → F) →ₗ[F] F) (flags : Flags) (π : Q → P₀)
    (hflags : flags.has Flags.SUMMATION = false) (hflags' : flags.has Flags.INDEXING = false)
    (hflags'' : flags.has Flags.SCATTER = false)
    (arg : Trip P₀ F) (hsp : arg.jac.weak = true) (hwf : arg.jac.Wf n)
    (o : JvpOut Q F) (h : jvpRule (redInst r φ D flags π) T (fun _ => arg) = .ok o) :
    let at_ (f : P₀ → F) (q : Q) : r.C → F := fun c => f (r.split.symm (r.κ q, c))
    (∀ q, o.y q = φ q (at_ arg.x q)) ∧
    (∀ i q, o.jac.den i q = D q (at_ arg.x q) (at_ (arg.jac.den i) q)) ∧
    (∀ q, o.lapl q = D q (at_ arg.x q) (at_ arg.lapl q)) ∧
    o.jac.Wf n ∧ (∀ rows, o.jac = .sparse rows → rows.length ≤ T) := by
  set I : Inst 1 (fun _ => P₀) Q F := redInst r φ D flags π with hI
  have h1 : jvpRule I T (fun _ => arg) =
      sparseReduce (Inst.single I (fun _ => arg.x) ⟨0, by omega⟩) r T arg := by
    have hall : allWeak (fun _ : Fin 1 => arg) = true := by simp [allWeak, hsp]
    have hf : I.flags.has Flags.INDEXING = false := hflags'
    have he : I.elem = false := rfl
    unfold jvpRule parallelJvp
    simp only [hall, hf, he, Bool.false_eq_true, true_or, or_true, and_self, if_true, if_false,
      Bool.true_eq_false, dite_true, reduceIte]
    unfold sparseSingle
    have hax : (Inst.single I (fun _ => arg.x) ⟨0, by omega⟩).ax 0 = .red r := rfl
    have hfl : (Inst.single I (fun _ => arg.x) ⟨0, by omega⟩).flags = flags := rfl
    rw [hax]
    simp only [hfl, hflags, hflags'', Bool.false_eq_true, if_false]
  rw [h1] at h
  have hj : ∀ t q, (Inst.single I (fun _ => arg.x) ⟨0, by omega⟩).jvp (fun _ => arg.x) (fun _ => t) q =
      D q (fun c => arg.x (r.split.symm (r.κ q, c))) (fun c => t (r.split.symm (r.κ q, c))) := by
    intro t q
    rw [Inst.single_jvp I (fun _ => arg.x) ⟨0, by omega⟩ t]
    show D q _ (fun c => (Pi.single (⟨0, by omega⟩ : Fin 1) t : (a : Fin 1) → P₀ → F) 0 _) = _
    rfl
  obtain ⟨s1, s2⟩ := sparseReduce_spec n hn (Inst.single I (fun _ => arg.x) ⟨0, by omega⟩) r T arg
    (by
      intro t q ht
      rw [hj]
      have : (fun c => t (r.split.symm (r.κ q, c))) = 0 := funext ht
      rw [this, map_zero])
    (by intro he; exact absurd he (by simp [hI, Inst.single, redInst])) hwf o h
  refine ⟨fun q => ?_, fun i q => ?_, fun q => ?_, s1.wf, s2⟩
  · have := congrFun s1.y q
    rw [this, Inst.single_fwd I (fun _ => arg.x) ⟨0, by omega⟩]
    rfl
  · rw [s1.jac i q, hj]
  · rw [congrFun s1.lapl q, hj]

/-! ## C15 combining arguments -/

/-- **C15 (partial).** For any function of several arguments that does what its flags and axes declare, with
any mixture of sparse and dense Jacobians: whenever the rule returns, the Jacobian is the sum over the
arguments of the derivative with respect to that argument applied to its Jacobian, i.e. the derivative with
respect to all arguments.  Excluded by `hok`: three or more arguments of which at least two are sparse,
at least one of these elementwise, in a call that is not handled elementwise as a whole — there the
addition of sparse Jacobians is not faithful, see `C15_counterexample` (and C22).  Scatter functions are
excluded by `Lawful`, see C40. -/
theorem C15_combination_partial [∀ a, Fintype (P a)] [∀ a, DecidableEq (P a)] [Fintype Q] [DecidableEq Q]
    (n T : ℕ) (hn : 0 < n) (I : Inst k P Q F) (args : (a : Fin k) → Trip (P a) F)
    (hI : I.Lawful fun a => (args a).x) (hok : OneByOneOk I args)
    (hwf : ∀ a, (args a).jac.Wf n) (o : JvpOut Q F) (h : jvpRule I T args = .ok o) :
    let x := fun a => (args a).x
    o.y = I.fwd x ∧
    (∀ i q, o.jac.den i q = ∑ a, I.jvp x (Pi.single a ((args a).jac.den i)) q) ∧
    (∀ i q, o.jac.den i q = I.jvp x (fun a => (args a).jac.den i) q) ∧
    (∀ q, o.lapl q = I.jvp x (fun a => (args a).lapl) q) ∧ o.jac.Wf n := by
  have s := jvpRule_spec n hn I T args hI hok hwf o h
  refine ⟨s.y, fun i q => ?_, s.jac, fun q => congrFun s.lapl q, s.wf⟩
  rw [s.jac i q, jvp_decompose, Finset.sum_apply]

/-- **C15 (single argument).** With a single derivative-carrying argument the one-argument-at-a-time
path is never taken. -/
theorem C15_single [∀ a, Fintype (P a)] [∀ a, DecidableEq (P a)] [Fintype Q] [DecidableEq Q]
    (T : ℕ) (I : Inst k P Q F) (hk : k = 1) (args : (a : Fin k) → Trip (P a) F) :
    jvpRule I T args = parallelJvp I T args := by
  subst hk
  unfold jvpRule
  rw [if_pos]
  by_cases h : (args 0).jac.weak = true
  · right
    refine ⟨?_, Or.inr (Or.inr rfl)⟩
    simp only [allWeak, decide_eq_true_eq]
    intro a; rw [Subsingleton.elim a 0]; exact h
  · left
    simp only [anyWeak, decide_eq_false_iff_not, not_exists]
    intro a; rw [Subsingleton.elim a 0]; exact h

/-! ## totality and concrete cases -/

theorem maxN_ne_bot [Fintype P₀] (rows : List (Row P₀ F)) (r : Row P₀ F) (hr : r ∈ rows) (p : P₀) :
    Jac.maxN rows ≠ ⊥ := by
  have := Jac.le_maxN rows r hr p
  intro h
  rw [h] at this
  exact absurd this (by simp)

/-- **C13 (the rule returns).** Summing a sparse Jacobian with at least one row over a non-empty array
with a non-empty result always returns, for every threshold. -/
theorem C13_sum_total [Fintype P₀] [Nonempty P₀] [Fintype Q] [Nonempty Q] (T : ℕ) (r : Red P₀ Q)
    (arg : Trip P₀ F) (hrows : arg.jac.srows ≠ []) : ∃ o, sparseSum r T arg = .ok o := by
  unfold sparseSum
  have hQ : ¬ Fintype.card Q = 0 := Fintype.card_ne_zero
  simp only [hQ, if_false]
  obtain ⟨row, hrow⟩ := List.exists_mem_of_ne_nil _ hrows
  have hb := maxN_ne_bot _ row hrow (Classical.arbitrary P₀)
  split
  · split
    · rename_i h; exact absurd h hb
    · exact ⟨_, rfl⟩
  · exact ⟨_, rfl⟩

/-- **C14 (the rule returns).** The reduction rule returns for every threshold if at least one element depends
on an input (functions returning several arrays: with threshold 0). -/
theorem C14_reduction_total [Fintype P₀] [DecidableEq P₀] [Fintype Q] (T : ℕ)
    (I : Inst 1 (fun _ => P₀) Q F) (hm : I.multi = false ∨ T = 0) (r : Red P₀ Q)
    (arg : Trip P₀ F) (row : Row P₀ F) (hrow : row ∈ arg.jac.srows) (p : P₀) (hp : row.idx p ≠ -1) :
    ∃ o, sparseReduce I r T arg = .ok o := by
  have hK : ¬ Fintype.card r.K = 0 := by
    have : Nonempty r.K := ⟨(r.split p).1⟩
    exact Fintype.card_ne_zero
  have hmem : row.idx p ∈ redIdx r arg.jac.srows (r.split p).1 := by
    rw [mem_redIdx]
    exact ⟨hp, row, hrow, (r.split p).2, by simp⟩
  have hU : 0 < Finset.univ.sup fun u : r.K => (redIdx r arg.jac.srows u).card :=
    lt_of_lt_of_le (Finset.card_pos.mpr ⟨_, hmem⟩)
      (Finset.le_sup (f := fun u : r.K => (redIdx r arg.jac.srows u).card) (Finset.mem_univ (r.split p).1))
  have hj : ∃ g om, jacobianForReduction r arg.jac.srows = .ok (g, om) ∧ 0 < om.length := by
    unfold jacobianForReduction
    simp only [hK, if_false]
    unfold Jac.getIndexMask
    rw [if_neg]
    · exact ⟨_, _, rfl, by rw [List.length_map, List.length_range]; exact hU⟩
    · rw [List.map_map]
      intro h
      have := congrArg List.length h
      simp only [List.length_map, List.length_range, List.length_nil] at this
      omega
  obtain ⟨g, om, hj, hom⟩ := hj
  unfold sparseReduce
  rw [hj]
  dsimp only
  split
  · have hd : ∃ rows, arg.jac.denseArray = .ok rows := by
      have : Nonempty P₀ := ⟨p⟩
      apply Jac.denseArray_ok
      rintro rows h rfl
      rw [h] at hrow
      simp [Jac.srows] at hrow
    obtain ⟨rows, hd⟩ := hd
    unfold denseJvp
    rw [seqFin_of_ok (fun a : Fin 1 => arg.jac.denseArray) (fun _ => rows) (fun _ => hd)]
    simp only
    split
    · exact ⟨_, rfl⟩
    · split <;> exact ⟨_, rfl⟩
  · rename_i hT
    rcases hm with hm | hm
    · rw [if_neg (by simp [hm])]
      exact ⟨_, rfl⟩
    · omega

/-- A concrete sparse input: two elements of an array of shape `(2,)` that depend on three inputs, with
padding and a repeated index. -/
def exArg : Trip (Fin 2) ℤ := ⟨![3, 5], .sparse exRows, ![1, 2]⟩

theorem exArg_wf : exArg.jac.Wf 3 := by
  show (∀ r ∈ exRows, ∀ p, r.idx p < ((3 : ℕ) : ℤ) ∧ (r.idx p < 0 → r.idx p = -1 ∧ r.val p = 0))
  decide

/-- Non-vacuity for C11: `q ↦ u (q) * v` with `v` of shape `(1,)` broadcast against `(2,)`; the sparse
result is computed and densified. -/
example :
    let D : Fin 2 → (Fin 2 → ℤ) → Fin 2 → ℤ := fun _ v => ![v 1, v 0]
    let I : Inst 2 (fun a => Fin (2 - a.val)) (Fin 2) ℤ := elemInst (fun _ v => v 0 * v 1) D
      (fun a q => ⟨if a = 0 then q.val else 0, by rcases a with ⟨a, ha⟩; simp only; split <;> simp_all <;> omega⟩) (fun _ => none) Flags.MULTIPLICATION
    let args : (a : Fin 2) → Trip (Fin (2 - a.val)) ℤ :=
      Fin.cons exArg (Fin.cons (⟨fun _ => 7, .sparse [⟨fun _ => 2, fun _ => 10⟩], fun _ => 4⟩ : Trip (Fin 1) ℤ)
        (fun a => a.elim0))
    ((jvpRule I 3 args).toOption.map fun o =>
      ((List.range 3).map fun i => (o.jac.den i 0, o.jac.den i 1), (o.lapl 0, o.lapl 1))) =
      some ([(56, 0), (28, 0), (30, 106)], (19, 34)) := by decide

/-- Non-vacuity for C12: reversing and appending a constant. -/
example :
    let I : Inst 1 (fun _ => Fin 2) (Fin 3) ℤ := indexInst
      (![some ⟨0, 1⟩, some ⟨0, 0⟩, none] : Fin 3 → Option (Σ _ : Fin 1, Fin 2))
      ![0, 0, 9] true Flags.INDEXING (fun _ => .elem fun _ => 0) (fun _ _ => 0)
    ((jvpRule I 3 (fun _ => exArg)).toOption.map fun o =>
      ((List.range 3).map fun i => (o.jac.den i 0, o.jac.den i 1, o.jac.den i 2), (o.y 0, o.y 1, o.y 2))) =
      some ([(0, 8, 0), (0, 4, 0), (8, 0, 0)], (5, 3, 9)) := by decide

/-- Non-vacuity for C13 and C14: summing all elements, for every threshold. -/
def exRed : Red (Fin 2) Unit where
  K := Unit
  C := Fin 2
  split := ⟨fun p => ((), p), fun kc => kc.2, fun _ => rfl, fun _ => rfl⟩
  κ := fun _ => ()

example (T : ℕ) : (∃ o, sparseSum exRed T exArg = .ok o) ∧
    Flags.SUMMATION.has Flags.SUMMATION = true ∧ Flags.SUMMATION.has Flags.INDEXING = false ∧
    Flags.SUMMATION.has Flags.SCATTER = false ∧ exArg.jac.weak = true :=
  ⟨C13_sum_total T exRed exArg (by simp [exArg, exRows, Jac.srows]), by decide, by decide, by decide, rfl⟩

example (T : ℕ) : ∃ o, sparseReduce (redInst exRed (fun _ v => v (0 : Fin 2) * v (1 : Fin 2))
      (fun _ v => v (1 : Fin 2) • LinearMap.proj (0 : Fin 2) + v (0 : Fin 2) • LinearMap.proj (1 : Fin 2)) Flags.REDUCTION (fun _ => 0)) exRed T exArg
      = .ok o :=
  C14_reduction_total T _ (Or.inl rfl) exRed exArg ⟨![0, 2], ![5, 7]⟩ (by simp [exArg, exRows, Jac.srows]) 0 (by decide)

/-- **C15 (counterexample).** An elementwise function `u + v + w` of three scalars, `u`, `v` sparse and `w` dense:
`u` has one row, `v` two rows with the same mask (as results from slicing).  The rule returns a
Jacobian entry `4` where the true one is `3`. -/
theorem C15_counterexample :
    let I : Inst 3 (fun _ => Unit) Unit ℤ := elemInst (fun _ v => v 0 + v 1 + v 2) (fun _ _ _ => 1)
      (fun _ _ => ()) (fun _ => some (Equiv.refl _)) Flags.LINEAR
    let args : Fin 3 → Trip Unit ℤ := ![
      ⟨fun _ => 0, .sparse [⟨fun _ => 0, fun _ => 1⟩], fun _ => 0⟩,
      ⟨fun _ => 0, .sparse [⟨fun _ => 0, fun _ => 1⟩, ⟨fun _ => 0, fun _ => 1⟩], fun _ => 0⟩,
      ⟨fun _ => 0, .dense [fun _ => 0], fun _ => 0⟩]
    (∀ a, (args a).jac.Wf 1) ∧
    ((jvpRule I 5 args).toOption.map fun o => o.jac.den 0 ()) = some 4 ∧
    I.jvp (fun a => (args a).x) (fun a => (args a).jac.den 0) () = 3 := by
  refine ⟨?_, by decide, by decide⟩
  intro a
  fin_cases a <;> simp [Jac.Wf]

end Folx

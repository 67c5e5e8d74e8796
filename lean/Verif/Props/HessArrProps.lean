import Verif.ND.HessExact
import Verif.ND.HessRaise
import Verif.Props.SumRuleProps

/-!
# C55, C56: the second-order term of vectorised functions on arrays with explicit shapes
-/

namespace Folx.Layout
open Vmap Dot

section
variable {F : Type} [CommRing F] [Inhabited F]
variable {g : SliceFn F} (hg : TracedSlice g) (inter sparseJHJ dot : Bool) (T : ℕ) {args : List (ArrTrip F × List ℕ)} {extras : List (ND F × List ℕ)}
  {b : List ℕ} (hok : ∀ a ∈ args, TripOk a) (hne : args ≠ []) (hext : ∀ e ∈ extras, e.2.Nodup ∧ ∀ d ∈ e.2, d < e.1.shape.length)
  (hba : Broadcasts (args.map fun a => otherShape a.1.x.shape a.2) b)

include hg hok hne hext hba in
/-- **C55 (sparse arguments).**  For any rule `g` for one slice, any arguments (with sparse or dense Jacobians) and batch axes: if the rule does not
fall back to dense Jacobians, the result at batch position `v` is what `g` returns for the slices of the arguments at `v` and the list of exactly the inputs on which
some argument (for functions linear in each argument: all arguments) depends at `v`, filled up with `-1`. -/
theorem C55_sparse (h0 : 0 ∉ b) {j : ℕ}
    (hb : Broadcasts ((args.map fun a => otherShape a.1.x.shape a.2) ++ extras.map fun e => otherShape e.1.shape e.2) (List.replicate j 1 ++ b))
    (hnd : dot = false ∨ ∃ a ∈ args, a.2.length ≠ 1)
    (hsp : ∃ a ∈ args, a.1.jac.idx ≠ none) (hw : 0 < mergedWidth inter args b)
    (hj : sparseJHJ = true ∨ (mergedWidth inter args b < maxSizeArr args ∧ mergedWidth inter args b ≤ T)) {o : List ℕ}
    (ho : ∀ v, InB v (List.replicate j 1 ++ b) →
      (termAt g args extras (some (idxListAt inter args b (v.drop j))) (List.replicate j 1 ++ b) v).shape = o) :
    ∃ R, hessArr g inter sparseJHJ dot T args extras (List.replicate j 1 ++ b ++ o) = some R ∧ R.shape = List.replicate j 1 ++ b ++ o ∧
      ∀ v q, InB v (List.replicate j 1 ++ b) → InB q o → R.get (v ++ q) =
        (termAt g args extras (some (idxListAt inter args b (v.drop j))) (List.replicate j 1 ++ b) v).get q := by
  refine ⟨_, hessArr_sparse hg inter sparseJHJ dot T hok hext hba hb h0 hne hnd hsp hw hj ho, ND.shape_ofFn _ _, fun v q hv hq => ?_⟩
  have hin : InB (v ++ q) (List.replicate j 1 ++ b ++ o) := List.rel_append hv hq
  rw [ND.get_ofFn _ hin, ← hv.length_eq, List.take_left, List.drop_left]

include hg hok hne hext hba in
/-- **C55 (dense arguments).**  If all Jacobians are dense, or the result would not be sparse enough, the rule for one slice gets the slices of the
arguments with dense Jacobians (row `i` is the derivative with respect to input `i`), and no list. -/
theorem C55_dense {B : List ℕ} (h0 : 0 ∉ B)
    (hb : Broadcasts ((args.map fun a => otherShape a.1.x.shape a.2) ++ extras.map fun e => otherShape e.1.shape e.2) B)
    (hnd : dot = false ∨ (∃ a ∈ args, a.2.length ≠ 1) ∨ ∀ a ∈ args, a.2 = [a.1.x.shape.length - 1])
    (he : ∀ a ∈ args, a.1.jac.idx ≠ none → 0 ∉ a.1.jac.data.shape)
    (hd : (∀ a ∈ args, a.1.jac.idx = none) ∨
      (sparseJHJ = false ∧ (mergedWidth inter args b ≥ maxSizeArr args ∨ mergedWidth inter args b > T))) :
    ∃ args', List.Forall₂ DenseOf args args' ∧ ∀ o, (∀ v, InB v B → (termAt g args' extras none B v).shape = o) →
      ∃ R, hessArr g inter sparseJHJ dot T args extras (B ++ o) = some R ∧ R.shape = B ++ o ∧
        ∀ v q, InB v B → InB q o → R.get (v ++ q) = (termAt g args' extras none B v).get q := by
  obtain ⟨args', h1, h2⟩ := hessArr_dense hg inter sparseJHJ dot T hok hext hb h0 hne hnd hba he hd
  refine ⟨args', h1, fun o ho => ⟨_, h2 o ho, ND.shape_ofFn _ _, fun v q hv hq => ?_⟩⟩
  have hin : InB (v ++ q) (B ++ o) := List.rel_append hv hq
  rw [ND.get_ofFn _ hin, ← hv.length_eq, List.take_left, List.drop_left]

include hok hne hba in
/-- **C55 (no inputs).**  If no input matters anywhere, the result is the scalar zero. -/
theorem C55_empty (out : List ℕ) (hsp : ∃ a ∈ args, a.1.jac.idx ≠ none)
    (hw : ∀ v, InB v b → mergedAt inter args b v = ∅) (hj : sparseJHJ = true ∨ 0 < maxSizeArr args) :
    hessArr g inter sparseJHJ dot T args extras out = some (ND.ofFn [] fun _ => 0) := by
  refine hessArr_empty inter sparseJHJ dot T hok out hne hba hsp ?_ hj
  unfold mergedWidth
  have : ((Dot.allIdx b).map fun v => (mergedAt inter args b v).card) = (Dot.allIdx b).map fun _ => 0 :=
    List.map_congr_left fun v hv => by rw [hw v (mem_allIdx.mp hv)]; rfl
  rw [this]
  induction (Dot.allIdx b) with
  | nil => rfl
  | cons _ _ ih => simpa using ih

include hg hne hba in
/-- **C55 (dot products).**  Also if the positions at which no input matters are left out: the result there is 0, elsewhere it is as before. -/
theorem C55_dot (h0 : 0 ∉ b) (hsp : ∃ a ∈ args, a.1.jac.idx ≠ none) (hl : ∀ a ∈ args, LastAxis a b) (h1 : 1 ∉ b)
    (hj : mergedWidth inter args b < maxSizeArr args ∧ mergedWidth inter args b ≤ T)
    (hn : 2 ≤ (activeAt inter args b).length) (hr : 2 * (activeAt inter args b).length ≤ b.prod) {o : List ℕ}
    (ho : ∀ v, InB v b → (termAt g args [] (some (idxListAt inter args b v)) b v).shape = o) :
    ∃ R, hessArr g inter sparseJHJ true T args [] (b ++ o) = some R ∧ R.shape = b ++ o ∧
      ∀ v q, InB v b → InB q o → R.get (v ++ q) = if mergedAt inter args b v = ∅ then 0 else
        (termAt g args [] (some (idxListAt inter args b v)) b v).get q := by
  have hw : 0 < mergedWidth inter args b := by
    obtain ⟨v, hv⟩ := List.exists_mem_of_length_pos (show 0 < (activeAt inter args b).length by omega)
    obtain ⟨h1, h2⟩ := List.mem_filter.mp hv
    have h2 : (mergedAt inter args b v).Nonempty := by simpa using h2
    have h3 : (mergedAt inter args b v).card ≤ mergedWidth inter args b := foldr_max_le (List.mem_map.mpr ⟨v, h1, rfl⟩)
    have := Finset.card_pos.mpr h2
    omega
  refine ⟨_, hessArr_dot_removed hg inter sparseJHJ T hba h0 hne hsp hw hl h1 hj hn hr ho, ND.shape_ofFn _ _, fun v q hv hq => ?_⟩
  have hin : InB (v ++ q) (b ++ o) := List.rel_append hv hq
  rw [ND.get_ofFn _ hin, ← hv.length_eq, List.take_left, List.drop_left]
  by_cases he : mergedAt inter args b v = ∅
  · rw [if_pos he, if_neg (by rw [he]; simp)]
  · rw [if_neg he, if_pos (Finset.nonempty_iff_ne_empty.mpr he)]

include hne hba in
/-- **C55 (one active position).**  A dot product that keeps sparsity, at exactly one batch position of which some input matters to all arguments:
`forward_laplacian` raises. -/
theorem C55_dot_one_raises (hsp : ∃ a ∈ args, a.1.jac.idx ≠ none) (hl : ∀ a ∈ args, LastAxis a b) (h1 : 1 ∉ b)
    (hj : mergedWidth inter args b < maxSizeArr args ∧ mergedWidth inter args b ≤ T)
    (hn : (activeAt inter args b).length = 1) (hr : 2 ≤ b.prod) (out : List ℕ) :
    hessArr g inter sparseJHJ true T args [] out = none := by
  have hw : 0 < mergedWidth inter args b := by
    obtain ⟨v, hv⟩ := List.exists_mem_of_length_pos (show 0 < (activeAt inter args b).length by omega)
    obtain ⟨h1, h2⟩ := List.mem_filter.mp hv
    have h2 : (mergedAt inter args b v).Nonempty := by simpa using h2
    have h3 : (mergedAt inter args b v).card ≤ mergedWidth inter args b := foldr_max_le (List.mem_map.mpr ⟨v, h1, rfl⟩)
    have := Finset.card_pos.mpr h2
    omega
  exact hessArr_dot_one inter sparseJHJ T hba hne hsp hw hl h1 hj hn hr out

include hok hne hext hba in
/-- **C55 (other arguments that enlarge the batch).**  If arguments without derivatives have more batch axes (of size other than 1) than the arguments with derivatives,
and sparsity is kept, the rule raises. -/
theorem C55_extras_raise (h0 : 0 ∉ b) {B : List ℕ}
    (hb : Broadcasts ((args.map fun a => otherShape a.1.x.shape a.2) ++ extras.map fun e => otherShape e.1.shape e.2) B)
    (hnd : dot = false ∨ ∃ a ∈ args, a.2.length ≠ 1)
    (hsp : ∃ a ∈ args, a.1.jac.idx ≠ none) (hw : 0 < mergedWidth inter args b)
    (hj : sparseJHJ = true ∨ (mergedWidth inter args b < maxSizeArr args ∧ mergedWidth inter args b ≤ T))
    (hB : ¬ ∃ j, B = List.replicate j 1 ++ b) (out : List ℕ) : hessArr g inter sparseJHJ dot T args extras out = none := by
  refine hessArr_raises inter sparseJHJ dot T hok hext hba hb h0 hne hnd hsp hw hj ?_ out
  rcases joint_shape hba hb with h | h
  · exact absurd h hB
  · exact h

end

/-! ### C56 -/

section
variable {F : Type} [CommRing F] [Inhabited F] {k n : ℕ}

/-- **C56 (custom rules).**  For every function of `k` arrays with a custom rule for the second-order term, vectorised over the axes that are not in `in_axes`: if the rule computes `tr(J H Jᵀ)` for
one slice and the rows of the Jacobians that it is asked for, the second-order term of the vectorised function is, at every batch position, the sum over all `n` inputs of the
second derivative in the direction of the derivatives with respect to that input; in the same cases as for `C56_general`. -/
theorem C56_custom {args : Fin k → ArrTrip F × List ℕ} {extras : List (ND F × List ℕ)} {b B : List ℕ} (hC : HessCall n args extras b B)
    {o : List ℕ} {hess : SliceHess F fun a => sliceSize (args a)} {g : SliceFn F}
    (hg : TraceRule (fun a => skipShape (args a).1.x.shape (args a).2) o hess g) (sparseJHJ : Bool) (T : ℕ)
    (hmix : (∀ a, (args a).1.jac.idx = none) ∨
      (sparseJHJ = false ∧ ∃ a, (args a).1.jac.idx = none ∧ (args a).1.jac.data.shape.getD 0 0 = n) ∨
      (sparseJHJ = false ∧ denseCall false T (List.ofFn args) b) ∨
      ((∀ a, (args a).1.jac.idx ≠ none) ∧ ∃ j, B = List.replicate j 1 ++ b)) :
    ∃ R, hessArr g false sparseJHJ false T (List.ofFn args) extras (B ++ o) = some R ∧
      IsSecondOrder n args (fun v d q => hess (extras.map fun e => bslice e.1 e.2 B v) (pointAt args B v) d d q) B o R :=
  second_general hC hg sparseJHJ T <| by
    rcases hmix with h | ⟨h, a, h1, h2⟩ | h
    · exact Or.inl h
    · exact Or.inr (Or.inl ⟨h, denseCall_full hC T h1 h2⟩)
    · exact Or.inr h

/-- **C56 (functions with a general second derivative).**  For every function of `k` arrays along their `in_axes`, vectorised over the
other axes, with any other arguments: the second-order term at every batch position is the sum over all `n` inputs of the second derivative of the function, at the
slices of the arguments there, in the direction of the derivatives with respect to that input.  This holds if all Jacobians are dense; without `SPARSE_JHJ` also
if one of them is dense and has a row for every input or if the result is not sparse enough; and if all Jacobians are sparse and the other arguments do not
enlarge the batch.  All three ways of
contracting (via the Hessian, via Hessian-vector products, via nested forward derivatives) give this value. -/
theorem C56_general {args : Fin k → ArrTrip F × List ℕ} {extras : List (ND F × List ℕ)} {b B : List ℕ} (hC : HessCall n args extras b B)
    (o : List ℕ) (c2r : Bool) (hess : SliceHess F fun a => sliceSize (args a)) (junk : F) (sparseJHJ : Bool) (T : ℕ)
    (hmix : (∀ a, (args a).1.jac.idx = none) ∨
      (sparseJHJ = false ∧ ∃ a, (args a).1.jac.idx = none ∧ (args a).1.jac.data.shape.getD 0 0 = n) ∨
      (sparseJHJ = false ∧ denseCall false T (List.ofFn args) b) ∨
      ((∀ a, (args a).1.jac.idx ≠ none) ∧ ∃ j, B = List.replicate j 1 ++ b)) :
    ∃ R, hessArr (generalSlice (fun a => skipShape (args a).1.x.shape (args a).2) o c2r hess junk) false sparseJHJ false T
        (List.ofFn args) extras (B ++ o) = some R ∧
      IsSecondOrder n args (fun v d q => hess (extras.map fun e => bslice e.1 e.2 B v) (pointAt args B v) d d q) B o R :=
  C56_custom hC (general_trace _ o c2r hess junk) sparseJHJ T hmix

/-- **C56 (products).**  For products of two arrays, each of any shape, sparse or dense: the second-order term is twice the
dot product of the derivatives, although only inputs common to both arguments are looked at. -/
theorem C56_product {args : Fin 2 → ArrTrip F × List ℕ} {extras : List (ND F × List ℕ)} {b B : List ℕ} (hC : HessCall n args extras b B)
    {s : List ℕ} (hs : ∀ a, skipShape (args a).1.x.shape (args a).2 = s) {o : List ℕ} (junk : F) (sparseJHJ dot : Bool) (T : ℕ)
    (hnd : dot = false ∨ ∃ a, (args a).2.length ≠ 1)
    (hmix : (∀ a, (args a).1.jac.idx = none) ∨ (sparseJHJ = false ∧ denseCall true T (List.ofFn args) b) ∨
      ∃ j, B = List.replicate j 1 ++ b) :
    ∃ R, hessArr (productSlice s o junk) true sparseJHJ dot T (List.ofFn args) extras (B ++ o) = some R ∧
      IsSecondOrder n args (fun _ d _ => dotForm hs d) B o R :=
  second_product hC hs junk sparseJHJ dot T hnd hmix

/-- **C56 (dot products along the last axis).**  The same for dot products, whose batch positions without common inputs are left out and filled with
zeros; except if exactly one position is left (then it raises: `C55_dot_one_raises`) or positions are left out and a batch axis has size 1. -/
theorem C56_dot {args : Fin 2 → ArrTrip F × List ℕ} {b : List ℕ} (hC : HessCall n args [] b b)
    {s : List ℕ} (hs : ∀ a, skipShape (args a).1.x.shape (args a).2 = s) (hl : ∀ a, LastAxis (args a) b)
    {o : List ℕ} (junk : F) (sparseJHJ : Bool) (T : ℕ)
    (hmix : (∀ a, (args a).1.jac.idx = none) ∨ denseCall true T (List.ofFn args) b ∨ mergedWidth true (List.ofFn args) b = 0 ∨
      2 * (activeAt true (List.ofFn args) b).length > b.prod ∨ (1 ∉ b ∧ 2 ≤ (activeAt true (List.ofFn args) b).length)) :
    ∃ R, hessArr (productSlice s o junk) true sparseJHJ true T (List.ofFn args) [] (b ++ o) = some R ∧
      IsSecondOrder n args (fun _ d _ => dotForm hs d) b o R :=
  second_dot hC hs hl junk sparseJHJ T hmix

end

/-! ### Concrete arrays -/

/-- One argument: two rows of two elements, row `i` depends on input `i`; `in_axes` is the last axis. -/
def exArg : ArrTrip ℤ × List ℕ := (⟨exLapl, ⟨exData, some exIdx⟩, exLapl⟩, [1])

theorem exArg_ok : TripOk exArg where
  data := rfl
  idx m h := by cases h; rfl
  neg m h := by cases h; decide
  lapl := rfl
  nodup := by decide
  lt := by decide

/-- The two elements of a row. -/
def exA : Fin (sliceSize exArg) := ⟨0, by decide⟩
def exB : Fin (sliceSize exArg) := ⟨1, by decide⟩

/-- The product of the two elements of a row, times a scalar: its second derivative. -/
def exHess : SliceHess ℤ fun _ : Fin 1 => sliceSize exArg := fun es _ =>
  LinearMap.mk₂ ℤ (fun d d' _ => (es.getD 0 (ND.ofFn [] fun _ => 0)).get [] * (d 0 exA * d' 0 exB + d 0 exB * d' 0 exA))
    (by intros; funext; simp; ring) (by intros; funext; simp; ring) (by intros; funext; simp; ring) (by intros; funext; simp; ring)

/-- The rule for one row. -/
def exSlice (junk : ℤ) : SliceFn ℤ := generalSlice (fun _ : Fin 1 => skipShape exArg.1.x.shape exArg.2) [] false exHess junk

theorem traced_ex (junk : ℤ) (ts : List (ArrTrip ℤ)) (es : List (ND ℤ)) (i : Option (List ℤ)) : (exSlice junk ts es i).shape = [] :=
  traced_general _ _ _ _ _ _ _ _

/-- The scalar 3. -/
def exThree : ND ℤ × List ℕ := (⟨[], [3], rfl⟩, [])

theorem exCall : HessCall 2 (fun _ : Fin 1 => exArg) [exThree] [2] [2] where
  pos := by decide
  ok _ := exArg_ok
  jac _ := exFor
  size _ := by decide
  rows _ _ := by decide
  ext := by decide
  extSize := by decide
  argShape := broadcastShapes_iff.mp (by decide)
  allShape := broadcastShapes_iff.mp (by decide)

/-- The hypotheses of `C56_general` are met, for every threshold: `3 · x₀ · x₁` along the rows; both rows have the second-order term `3 · 2 · 1 · 1`. -/
example (T : ℕ) (junk : ℤ) : ∃ R, hessArr (exSlice junk) false false false T
    [exArg] [exThree] [2] = some R ∧ R.get (bcoord R.shape [2] [1]) = 6 := by
  obtain ⟨R, h1, h2⟩ := C56_general exCall [] false exHess junk false T (Or.inr (Or.inr (Or.inr ⟨fun _ => by decide, 0, rfl⟩)))
  refine ⟨R, h1, (h2.value [1] [] (by decide) (by decide)).trans ?_⟩
  decide

/-- `x` of shape (2, 1) and `y` of shape (1, 2); element `i` of either depends on input `i`. -/
def exMul : Fin 2 → ArrTrip ℤ × List ℕ
  | 0 => (⟨⟨[2, 1], [1, 2], rfl⟩, ⟨⟨[1, 2, 1], [5, 6], rfl⟩, some ⟨[1, 2, 1], [0, 1], rfl⟩⟩, ⟨[2, 1], [0, 0], rfl⟩⟩, [])
  | 1 => (⟨⟨[1, 2], [3, 4], rfl⟩, ⟨⟨[1, 1, 2], [7, 8], rfl⟩, some ⟨[1, 1, 2], [0, 1], rfl⟩⟩, ⟨[1, 2], [0, 0], rfl⟩⟩, [])

theorem exMul_call : HessCall 2 exMul [] [2, 2] [2, 2] where
  pos := by decide
  ok a := by
    fin_cases a <;> exact ⟨rfl, fun m h => by cases h; rfl, fun m h => by cases h; decide, rfl, by decide, by decide⟩
  jac a := by
    fin_cases a
    · refine ⟨⟨1, rfl⟩, rfl, fun k p hk hp => ?_⟩
      obtain ⟨i, j, hi, hj, rfl⟩ := inB_two hp
      have hk : k < 1 := hk
      interval_cases k
      interval_cases i <;> interval_cases j <;> decide
    · refine ⟨⟨1, rfl⟩, rfl, fun k p hk hp => ?_⟩
      obtain ⟨i, j, hi, hj, rfl⟩ := inB_two hp
      have hk : k < 1 := hk
      interval_cases k
      interval_cases i <;> interval_cases j <;> decide
  size a := by fin_cases a <;> decide
  rows a _ := by fin_cases a <;> decide
  ext := by decide
  extSize := by decide
  argShape := broadcastShapes_iff.mp (by decide)
  allShape := broadcastShapes_iff.mp (by decide)

/-- The hypotheses of `C56_product` are met: the products `x[i] · y[j]` have second-order terms on the diagonal only. -/
example (T : ℕ) (junk : ℤ) : ∃ R, hessArr (productSlice [] [] junk) true false false T (List.ofFn exMul) [] [2, 2] = some R ∧
    R.get (bcoord R.shape [2, 2] [1, 1]) = 2 * (6 * 8) ∧ R.get (bcoord R.shape [2, 2] [0, 1]) = 0 := by
  obtain ⟨R, h1, h2⟩ := C56_product exMul_call (s := []) (o := []) (fun a => by fin_cases a <;> rfl) junk false false T (Or.inl rfl)
    (Or.inr (Or.inr ⟨0, rfl⟩))
  refine ⟨R, h1, (h2.value [1, 1] [] (by decide) (by decide)).trans ?_, (h2.value [0, 1] [] (by decide) (by decide)).trans ?_⟩
  · decide
  · decide

/-- The rule for one slice of `exMul` gets one input at the diagonal positions, none elsewhere. -/
example : idxListAt true (List.ofFn exMul) [2, 2] [1, 1] = [1] ∧ idxListAt true (List.ofFn exMul) [2, 2] [0, 1] = [-1] ∧
    mergedWidth true (List.ofFn exMul) [2, 2] = 1 ∧ maxSizeArr (List.ofFn exMul) = 2 := by
  refine ⟨by decide +kernel, by decide +kernel, by decide +kernel, by decide +kernel⟩

/-- `x` and `y` of shape (4, 2), dot products of the rows.  Row `i` of `x` depends on input `i`, row `i` of `y` on input `m i`. -/
def exDot (m : List ℤ) (h : m.length = 8) : Fin 2 → ArrTrip ℤ × List ℕ
  | 0 => (⟨⟨[4, 2], [1, 2, 3, 4, 5, 6, 7, 8], rfl⟩, ⟨⟨[1, 4, 2], [1, 2, 3, 4, 5, 6, 7, 8], rfl⟩,
      some ⟨[1, 4, 2], [0, 0, 1, 1, 2, 2, 3, 3], rfl⟩⟩, ⟨[4, 2], [0, 0, 0, 0, 0, 0, 0, 0], rfl⟩⟩, [1])
  | 1 => (⟨⟨[4, 2], [1, 2, 3, 4, 5, 6, 7, 8], rfl⟩, ⟨⟨[1, 4, 2], [1, 1, 1, 1, 1, 1, 1, 1], rfl⟩,
      some ⟨[1, 4, 2], m, h⟩⟩, ⟨[4, 2], [0, 0, 0, 0, 0, 0, 0, 0], rfl⟩⟩, [1])

/-- Rows 0 and 1 depend on the same input. -/
def exDot2 := exDot [0, 0, 1, 1, 3, 3, 2, 2] rfl
/-- Only row 0 does. -/
def exDot1 := exDot [0, 0, 2, 2, 3, 3, 1, 1] rfl

theorem exDot2_ok (a : Fin 2) : LastAxis (exDot2 a) [4] := by
  fin_cases a <;>
    exact ⟨⟨rfl, fun m h => by cases h; rfl, fun m h => by cases h; decide, rfl, by decide, by decide⟩, rfl, rfl⟩

theorem exDot1_ok (a : Fin 2) : LastAxis (exDot1 a) [4] := by
  fin_cases a <;>
    exact ⟨⟨rfl, fun m h => by cases h; rfl, fun m h => by cases h; decide, rfl, by decide, by decide⟩, rfl, rfl⟩

theorem exDot2_call : HessCall 4 exDot2 [] [4] [4] where
  pos := by decide
  ok a := (exDot2_ok a).ok
  jac a := by
    fin_cases a
    · refine ⟨⟨1, rfl⟩, rfl, fun k p hk hp => ?_⟩
      obtain ⟨i, j, hi, hj, rfl⟩ := inB_two hp
      have hk : k < 1 := hk
      interval_cases k
      interval_cases i <;> interval_cases j <;> decide
    · refine ⟨⟨1, rfl⟩, rfl, fun k p hk hp => ?_⟩
      obtain ⟨i, j, hi, hj, rfl⟩ := inB_two hp
      have hk : k < 1 := hk
      interval_cases k
      interval_cases i <;> interval_cases j <;> decide
  size a := by fin_cases a <;> decide
  rows a _ := by fin_cases a <;> decide
  ext := by decide
  extSize := by decide
  argShape := broadcastShapes_iff.mp (by decide)
  allShape := broadcastShapes_iff.mp (by decide)

theorem exDot2_width : mergedWidth true (List.ofFn exDot2) [4] = 1 ∧ maxSizeArr (List.ofFn exDot2) = 4 ∧
    (activeAt true (List.ofFn exDot2) [4]).length = 2 := by
  refine ⟨by decide +kernel, by decide +kernel, by decide +kernel⟩

theorem exDot1_width : mergedWidth true (List.ofFn exDot1) [4] = 1 ∧ maxSizeArr (List.ofFn exDot1) = 4 ∧
    (activeAt true (List.ofFn exDot1) [4]).length = 1 := by
  refine ⟨by decide +kernel, by decide +kernel, by decide +kernel⟩

/-- The hypotheses of `C56_dot` (and of `C55_dot` for `1 ≤ T`) are met; two of four positions are left out. -/
example (T : ℕ) (junk : ℤ) : ∃ R, hessArr (productSlice [2] [] junk) true true true T (List.ofFn exDot2) [] [4] = some R ∧
    R.get (bcoord R.shape [4] [1]) = 2 * (3 + 4) ∧ R.get (bcoord R.shape [4] [2]) = 0 := by
  obtain ⟨R, h1, h2⟩ := C56_dot exDot2_call (s := [2]) (o := []) (fun a => by fin_cases a <;> rfl) exDot2_ok junk true T
    (Or.inr (Or.inr (Or.inr (Or.inr ⟨by decide, by rw [exDot2_width.2.2]⟩))))
  refine ⟨R, h1, (h2.value [1] [] (by decide) (by decide)).trans ?_, (h2.value [2] [] (by decide) (by decide)).trans ?_⟩
  · decide
  · decide

example (T : ℕ) (hT : 1 ≤ T) (junk : ℤ) : ∃ R, hessArr (productSlice [2] [] junk) true true true T (List.ofFn exDot2) [] [4] = some R ∧
    R.shape = [4] ∧ ∀ v q, InB v [4] → InB q [] → R.get (v ++ q) = if mergedAt true (List.ofFn exDot2) [4] v = ∅ then 0 else
      (termAt (productSlice [2] [] junk) (List.ofFn exDot2) [] (some (idxListAt true (List.ofFn exDot2) [4] v)) [4] v).get q := by
  obtain ⟨h1, h2, h3⟩ := exDot2_width
  exact C55_dot (fun _ _ _ _ _ _ _ _ _ => by rw [traced_product, traced_product]) true true T (ofFn_ne _ (by decide)) exDot2_call.argShape
    (by decide) ⟨_, List.mem_ofFn.mpr ⟨0, rfl⟩, by decide⟩ (mem_ofFn'.mpr exDot2_ok) (by decide) (by omega) (by omega)
    (by rw [h3]; decide) fun v _ => traced_product _ _ _ _ _ _

/-- The hypotheses of `C55_dot_one_raises` are met: dot products of the rows of two (4, 2) arrays, only those of the first rows have a common input. -/
example (T : ℕ) (hT : 1 ≤ T) (junk : ℤ) (sparseJHJ : Bool) :
    hessArr (productSlice [2] [] junk) true sparseJHJ true T (List.ofFn exDot1) [] [4] = none := by
  obtain ⟨h1, h2, h3⟩ := exDot1_width
  exact C55_dot_one_raises true sparseJHJ T (ofFn_ne _ (by decide)) (b := [4]) (broadcastShapes_iff.mp (by decide))
    ⟨_, List.mem_ofFn.mpr ⟨0, rfl⟩, by decide⟩ (mem_ofFn'.mpr exDot1_ok) (by decide) (by omega) h3 (by decide) _

/-- The hypotheses of `C55_sparse` are met, also with other arguments that add an axis of size 1. -/
example (T : ℕ) (hT : 1 ≤ T) (junk : ℤ) : ∃ R, hessArr (exSlice junk) false false false T
    [exArg] [(⟨[1, 1], [3], rfl⟩, [])] [1, 2] = some R ∧ R.shape = [1, 2] ∧ ∀ v q, InB v [1, 2] → InB q [] → R.get (v ++ q) =
      (termAt (exSlice junk) [exArg] [(⟨[1, 1], [3], rfl⟩, [])]
        (some (idxListAt false [exArg] [2] (v.drop 1))) [1, 2] v).get q :=
  C55_sparse (fun _ _ _ _ _ _ _ _ _ => by rw [traced_ex, traced_ex]) false false false T (b := [2]) (j := 1) (o := [])
    (by simpa using exArg_ok) (by simp) (by decide) (broadcastShapes_iff.mp (by decide)) (by decide) (broadcastShapes_iff.mp (by decide))
    (Or.inl rfl) (by decide) (by decide +kernel) (Or.inr ⟨by decide +kernel, by
      rw [show mergedWidth false [exArg] [2] = 1 by decide +kernel]; exact hT⟩) fun v _ => traced_ex _ _ _ _

/-- The hypotheses of `C55_extras_raise` are met: a factor of shape (3, 1) for the products along the rows of a (2, 2) array. -/
example (T : ℕ) (hT : 1 ≤ T) (junk : ℤ) : hessArr (exSlice junk) false false false T
    [exArg] [(⟨[3, 1], [3, 3, 3], rfl⟩, [])] [3, 2] = none :=
  C55_extras_raise false false false T (b := [2]) (B := [3, 2])
    (by simpa using exArg_ok) (by simp) (by decide) (broadcastShapes_iff.mp (by decide)) (by decide) (broadcastShapes_iff.mp (by decide))
    (Or.inl rfl) (by decide) (by decide +kernel) (Or.inr ⟨by decide +kernel, by
      rw [show mergedWidth false [exArg] [2] = 1 by decide +kernel]; exact hT⟩) (by
        rintro ⟨j, h⟩
        have := congrArg List.length h
        simp at this
        obtain rfl : j = 1 := by omega
        simp at h) _

/-- The hypotheses of `C55_dense` are met: dense Jacobians. -/
example (T : ℕ) (junk : ℤ) : ∃ R, hessArr (productSlice [2] [] junk) true false true T
    [(⟨exLapl, ⟨exData, none⟩, exLapl⟩, [1]), (⟨exLapl, ⟨exData, none⟩, exLapl⟩, [1])] [] [2] = some R ∧ R.get [1] = 4 := by
  obtain ⟨args', h1, h2⟩ := C55_dense (g := productSlice [2] [] junk) (fun _ _ _ _ _ _ _ _ _ => by rw [traced_product, traced_product]) true false true T
    (args := [(⟨exLapl, ⟨exData, none⟩, exLapl⟩, [1]), (⟨exLapl, ⟨exData, none⟩, exLapl⟩, [1])]) (extras := []) (b := [2]) (B := [2])
    (by
      have : TripOk ((⟨exLapl, ⟨exData, none⟩, exLapl⟩, [1]) : ArrTrip ℤ × List ℕ) :=
        ⟨rfl, fun m h => (by cases h), fun m h => (by cases h), rfl, by decide, by decide⟩
      simpa using this) (by simp) (by simp) (broadcastShapes_iff.mp (by decide)) (by decide) (broadcastShapes_iff.mp (by decide))
    (Or.inr (Or.inr (by simp; rfl))) (by simp) (Or.inl (by simp))
  obtain ⟨R, h3, h4, h5⟩ := h2 [] fun v _ => traced_product _ _ _ _ _ _
  refine ⟨R, h3, (h5 [1] [] (by decide) (by decide)).trans ?_⟩
  cases h1 with
  | cons ha h1 =>
    cases h1 with
    | cons hb h1 =>
      cases h1
      rw [ha.keep rfl, hb.keep rfl]
      rfl

/-! ### What the code does not do -/

/-- **C55 (batch axes of size 1).**  Dot products of the rows of two arrays of shape (1, 4, 2): the positions left out are determined for batch
axes without those of size 1, but removed along the first axis; `forward_laplacian` raises.  The same rows without the axis of size 1 work (`C56_dot`). -/
theorem C55_size_one_raises : hessArr (productSlice [2] [] (0 : ℤ)) true true true 6
    [(⟨(exDot2 0).1.x.reshape [1, 4, 2] rfl, ⟨(exDot2 0).1.jac.data.reshape [1, 1, 4, 2] rfl,
        some (⟨[1, 1, 4, 2], [0, 0, 1, 1, 2, 2, 3, 3], rfl⟩)⟩, (exDot2 0).1.lapl.reshape [1, 4, 2] rfl⟩, [2]),
     (⟨(exDot2 1).1.x.reshape [1, 4, 2] rfl, ⟨(exDot2 1).1.jac.data.reshape [1, 1, 4, 2] rfl,
        some (⟨[1, 1, 4, 2], [0, 0, 1, 1, 3, 3, 2, 2], rfl⟩)⟩, (exDot2 1).1.lapl.reshape [1, 4, 2] rfl⟩, [2])] [] [1, 4] = none := by
  decide +kernel

/-- … and so does a trailing batch axis of size 1 (a matrix times a column). -/
theorem C55_size_one_raises' : hessArr (productSlice [2] [] (0 : ℤ)) true true true 6
    [(⟨(exDot2 0).1.x.reshape [4, 1, 2] rfl, ⟨(exDot2 0).1.jac.data.reshape [1, 4, 1, 2] rfl,
        some (⟨[1, 4, 1, 2], [0, 0, 1, 1, 2, 2, 3, 3], rfl⟩)⟩, (exDot2 0).1.lapl.reshape [4, 1, 2] rfl⟩, [2]),
     (⟨(exDot2 1).1.x.reshape [4, 1, 2] rfl, ⟨(exDot2 1).1.jac.data.reshape [1, 4, 1, 2] rfl,
        some (⟨[1, 4, 1, 2], [0, 0, 1, 1, 3, 3, 2, 2], rfl⟩)⟩, (exDot2 1).1.lapl.reshape [4, 1, 2] rfl⟩, [2])] [] [4, 1] = none := by
  decide +kernel

/-- A (2, 2) array with the given derivatives with respect to one input; `in_axes` is the first axis. -/
def exCol (d : List ℤ) (h : d.length = 4) : ArrTrip ℤ × List ℕ := (⟨exLapl, ⟨⟨[1, 2, 2], d, h⟩, none⟩, exLapl⟩, [0])

/-- **C56 (dot products along another axis).**  A dot product registered along the *first* axis (`in_axes=0`) of two (2, 2) arrays, at every threshold: the
returned second-order terms are those of dot products along the last axis.  For derivatives `[[1, 0], [1, 0]]` and `[[1, 1], [1, 1]]` they should be 4 and 0, but
they are 2 and 2. -/
theorem C56_dot_axis_counterexample (T : ℕ) :
    (dotForm (args := ![exCol [1, 0, 1, 0] rfl, exCol [1, 1, 1, 1] rfl]) (s := [2]) (fun a => by fin_cases a <;> rfl)
      (derivAt ![exCol [1, 0, 1, 0] rfl, exCol [1, 1, 1, 1] rfl] [2] [0] 0) = 4) ∧
    ∃ R, hessArr (productSlice [2] [] (0 : ℤ)) true true true T [exCol [1, 0, 1, 0] rfl, exCol [1, 1, 1, 1] rfl] [] [2] = some R ∧
      R.data = [2, 2] := by
  refine ⟨by decide +kernel, ?_⟩
  have h1 : hessArr (productSlice [2] [] (0 : ℤ)) true true true T [exCol [1, 0, 1, 0] rfl, exCol [1, 1, 1, 1] rfl] [] [2] =
    hessRest (productSlice [2] [] (0 : ℤ)) true [exCol [1, 0, 1, 0] rfl, exCol [1, 1, 1, 1] rfl] [] none true [2] := rfl
  have h2 : (hessRest (productSlice [2] [] (0 : ℤ)) true [exCol [1, 0, 1, 0] rfl, exCol [1, 1, 1, 1] rfl] [] none true [2]).map ND.data =
      some [2, 2] := by decide +kernel
  obtain ⟨R, h3, h4⟩ := Option.map_eq_some_iff.mp h2
  exact ⟨R, h1.trans h3, h4⟩

/-- The two elements of a column. -/
def exC0 : Fin (sliceSize (exCol [1, 0, 1, 0] rfl)) := ⟨0, by decide⟩
def exC1 : Fin (sliceSize (exCol [1, 0, 1, 0] rfl)) := ⟨1, by decide⟩

/-- The second derivative of `(c₀, c₁) ↦ (c₀ · c₁, 0)`. -/
def exColHess : SliceHess ℤ fun _ : Fin 1 => sliceSize (exCol [1, 0, 1, 0] rfl) := fun _ _ =>
  LinearMap.mk₂ ℤ (fun d d' q => if q = [0] then d 0 exC0 * d' 0 exC1 + d 0 exC1 * d' 0 exC0 else 0)
    (by intros; funext; simp; split <;> ring) (by intros; funext; simp; split <;> ring) (by intros; funext; simp; split <;> ring)
    (by intros; funext; simp; split <;> ring)

/-- **C56 (output axes in front).**  The function `(c₀, c₁) ↦ (c₀ · c₁, 0)` applied to the *columns* of a (2, 2) array, registered with `in_axes=0`: its output `(q, v)` is
result `q` for column `v`.  For derivatives `[[0, 1], [0, 1]]` the second-order term of output `(0, 1)` should be 2; it is put at `(1, 0)` instead. -/
theorem C56_layout_counterexample (T : ℕ) :
    (exColHess [] (pointAt (fun _ : Fin 1 => exCol [0, 1, 0, 1] rfl) [2] [1]) (derivAt (fun _ : Fin 1 => exCol [0, 1, 0, 1] rfl) [2] [1] 0)
      (derivAt (fun _ : Fin 1 => exCol [0, 1, 0, 1] rfl) [2] [1] 0) [0] = 2) ∧
    ∃ R, hessArr (generalSlice (fun _ : Fin 1 => skipShape [2, 2] [0]) [2] false exColHess 0) false false false T
        [exCol [0, 1, 0, 1] rfl] [] [2, 2] = some R ∧ R.get [0, 1] = 0 ∧ R.get [1, 0] = 2 := by
  refine ⟨by decide +kernel, ?_⟩
  have h1 : hessArr (generalSlice (fun _ : Fin 1 => skipShape [2, 2] [0]) [2] false exColHess 0) false false false T
      [exCol [0, 1, 0, 1] rfl] [] [2, 2] = hessRest (generalSlice (fun _ : Fin 1 => skipShape [2, 2] [0]) [2] false exColHess 0) false
      [exCol [0, 1, 0, 1] rfl] [] none true [2, 2] := rfl
  have h2 : ((hessRest (generalSlice (fun _ : Fin 1 => skipShape [2, 2] [0]) [2] false exColHess 0) false
      [exCol [0, 1, 0, 1] rfl] [] none true [2, 2]).map fun R => (R.get [0, 1], R.get [1, 0])) = some (0, 2) := by decide +kernel
  obtain ⟨R, h3, h4⟩ := Option.map_eq_some_iff.mp h2
  exact ⟨R, h1.trans h3, congrArg Prod.fst h4, congrArg Prod.snd h4⟩

end Folx.Layout

import Verif.ND.Batch
import Mathlib.Tactic.Linarith

/-!
# Proofs about `batched_vmap`
-/

namespace Folx.Batch

variable {α : Type} [Inhabited α]

/-! ### Leading-axis operations in terms of slices -/

omit [Inhabited α] in
theorem shape_dropRows (x : ND α) {n : ℕ} {rest : List ℕ} (h : x.shape = n :: rest) (r : ℕ) :
    (dropRows x r).shape = (n - r) :: rest := by
  unfold dropRows
  split
  · rename_i h'; rw [h] at h'; simp at h'
  · rename_i n' rest' h'
    rw [h] at h'
    obtain ⟨rfl, rfl⟩ := List.cons.inj h'
    rfl

omit [Inhabited α] in
theorem data_dropRows (x : ND α) {n : ℕ} {rest : List ℕ} (h : x.shape = n :: rest) (r : ℕ) :
    (dropRows x r).data = x.data.drop (r * rest.prod) := by
  unfold dropRows
  split
  · rename_i h'; rw [h] at h'; simp at h'
  · rename_i n' rest' h'
    rw [h] at h'
    obtain ⟨rfl, rfl⟩ := List.cons.inj h'
    rfl

omit [Inhabited α] in
theorem shape_takeRows (x : ND α) {n : ℕ} {rest : List ℕ} (h : x.shape = n :: rest) (r : ℕ) :
    (takeRows x r).shape = min r n :: rest := by
  unfold takeRows
  split
  · rename_i h'; rw [h] at h'; simp at h'
  · rename_i n' rest' h'
    rw [h] at h'
    obtain ⟨rfl, rfl⟩ := List.cons.inj h'
    rfl

omit [Inhabited α] in
theorem data_takeRows (x : ND α) {n : ℕ} {rest : List ℕ} (h : x.shape = n :: rest) (r : ℕ) :
    (takeRows x r).data = x.data.take (r * rest.prod) := by
  unfold takeRows
  split
  · rename_i h'; rw [h] at h'; simp at h'
  · rename_i n' rest' h'
    rw [h] at h'
    obtain ⟨rfl, rfl⟩ := List.cons.inj h'
    rfl

theorem take_dropRows (x : ND α) {n : ℕ} {rest : List ℕ} (h : x.shape = n :: rest) {r i : ℕ} (hi : r + i < n) :
    (dropRows x r).take i 0 = x.take (r + i) 0 := by
  have hs := shape_dropRows x h r
  refine ND.ext' (by rw [ND.shape_take, ND.shape_take, hs, h]; rfl) ?_
  rw [ND.data_take_zero _ hs (by omega), ND.data_take_zero _ h hi, data_dropRows x h, List.drop_drop, Nat.add_mul]

theorem take_takeRows (x : ND α) {n : ℕ} {rest : List ℕ} (h : x.shape = n :: rest) {r i : ℕ} (hi : i < r)
    (hr : r ≤ n) : (takeRows x r).take i 0 = x.take i 0 := by
  have hs := shape_takeRows x h r
  refine ND.ext' (by rw [ND.shape_take, ND.shape_take, hs, h]; rfl) ?_
  have hle : i * rest.prod + rest.prod ≤ r * rest.prod := by
    calc i * rest.prod + rest.prod = (i + 1) * rest.prod := by ring
      _ ≤ _ := Nat.mul_le_mul_right _ hi
  rw [ND.data_take_zero _ hs (by omega), ND.data_take_zero _ h (by omega), data_takeRows x h, List.drop_take,
    List.take_take, min_eq_left (by omega)]

omit [Inhabited α] in
theorem splitLeading_spec (x : ND α) {a b : ℕ} {rest : List ℕ} (h : x.shape = (a * b) :: rest) :
    ∃ y, splitLeading x a b = some y ∧ y.shape = a :: b :: rest ∧ y.data = x.data := by
  have hp : x.shape.prod = (a :: b :: x.shape.tail).prod := by rw [h]; simp [Nat.mul_assoc]
  refine ⟨x.reshape _ hp, ?_, ?_, rfl⟩
  · unfold splitLeading; rw [dif_pos hp]
  · show a :: b :: x.shape.tail = _; rw [h]; rfl

theorem take_take_split {x y : ND α} {a b : ℕ} {rest : List ℕ} (h : x.shape = (a * b) :: rest)
    (hy : y.shape = a :: b :: rest) (hd : y.data = x.data) {i j : ℕ} (hi : i < a) (hj : j < b) :
    (y.take i 0).take j 0 = x.take (i * b + j) 0 := by
  have hs : (y.take i 0).shape = b :: rest := by rw [ND.shape_take, hy]; rfl
  have hlt : i * b + j < a * b := by
    calc i * b + j < i * b + b := by omega
      _ = (i + 1) * b := by ring
      _ ≤ _ := Nat.mul_le_mul_right _ hi
  refine ND.ext' (by rw [ND.shape_take _ j, hs, ND.shape_take, h]; rfl) ?_
  have hle : j * rest.prod + rest.prod ≤ b * rest.prod := by
    calc j * rest.prod + rest.prod = (j + 1) * rest.prod := by ring
      _ ≤ _ := Nat.mul_le_mul_right _ hj
  rw [ND.data_take_zero _ hs hj, ND.data_take_zero _ hy hi, ND.data_take_zero _ h hlt, hd, List.prod_cons,
    List.drop_take, List.drop_drop, List.take_take, min_eq_left (by omega)]
  congr 2
  ring

omit [Inhabited α] in
theorem joinLeading_spec (x : ND α) {a b : ℕ} {rest : List ℕ} (h : x.shape = a :: b :: rest) :
    (joinLeading x).shape = (a * b) :: rest ∧ (joinLeading x).data = x.data := by
  unfold joinLeading
  split
  · rename_i a' b' rest' h'
    rw [h] at h'
    obtain ⟨rfl, h''⟩ := List.cons.inj h'
    obtain ⟨rfl, rfl⟩ := List.cons.inj h''
    exact ⟨rfl, rfl⟩
  · rename_i h'; exact absurd h (h' _ _ _)

omit [Inhabited α] in
theorem concatRows_spec (r x : ND α) {n m : ℕ} {rest : List ℕ} (hr : r.shape = n :: rest) (hx : x.shape = m :: rest) :
    ∃ z, concatRows r x = some z ∧ z.shape = (n + m) :: rest ∧ z.data = r.data ++ x.data := by
  have hwf : (r.data ++ x.data).length = ((n + m) :: rest).prod := by
    rw [List.length_append, r.wf, x.wf, hr, hx]; simp [Nat.add_mul]
  refine ⟨⟨(n + m) :: rest, r.data ++ x.data, hwf⟩, ?_, rfl, rfl⟩
  unfold concatRows
  split
  · rename_i n' rest' m' rest'' h1 h2
    rw [hr] at h1; rw [hx] at h2
    obtain ⟨rfl, rfl⟩ := List.cons.inj h1
    obtain ⟨rfl, rfl⟩ := List.cons.inj h2
    rw [dif_pos rfl]
  · rename_i h'
    exact absurd hx (h' _ _ _ _ hr)

theorem take_concat {r x z : ND α} {n m : ℕ} {rest : List ℕ} (hr : r.shape = n :: rest) (hx : x.shape = m :: rest)
    (hz : z.shape = (n + m) :: rest) (hd : z.data = r.data ++ x.data) {i : ℕ} (hi : i < n + m) :
    z.take i 0 = if i < n then r.take i 0 else x.take (i - n) 0 := by
  have hrl : r.data.length = n * rest.prod := by rw [r.wf, hr, List.prod_cons]
  split
  · rename_i hlt
    refine ND.ext' (by rw [ND.shape_take, ND.shape_take, hz, hr]; rfl) ?_
    have hle : i * rest.prod + rest.prod ≤ n * rest.prod := by
      calc i * rest.prod + rest.prod = (i + 1) * rest.prod := by ring
        _ ≤ _ := Nat.mul_le_mul_right _ hlt
    rw [ND.data_take_zero _ hz hi, ND.data_take_zero _ hr hlt, hd, List.drop_append_of_le_length (by omega),
      List.take_append_of_le_length (by rw [List.length_drop]; omega)]
  · rename_i hge
    refine ND.ext' (by rw [ND.shape_take, ND.shape_take, hz, hx]; rfl) ?_
    rw [ND.data_take_zero _ hz hi, ND.data_take_zero _ hx (by omega), hd]
    have : i * rest.prod = r.data.length + (i - n) * rest.prod := by
      rw [hrl, ← Nat.add_mul]; congr 1; omega
    rw [this, List.drop_append, List.drop_eq_nil_of_le (by omega), List.nil_append, Nat.add_sub_cancel_left]

theorem moveaxis_stack {n : ℕ} {s : List ℕ} {y : ℕ → ND α} {ax : ℕ} (hax : ax ≤ s.length)
    (hy : ∀ i < n, (y i).shape = s) : (ND.stack n s y 0).moveaxis 0 ax = ND.stack n s y ax := by
  have h0 : (ND.stack n s y 0).shape = n :: s := by rw [ND.shape_stack]; rfl
  have hsh : ((ND.stack n s y 0).moveaxis 0 ax).shape = s.insertIdx ax n := by
    rw [ND.shape_moveaxis, h0]; rfl
  have hlen : (s.insertIdx ax n).length = s.length + 1 := List.length_insertIdx_of_le_length hax _
  refine ND.ext_take (axis := ax) (by rw [hsh, ND.shape_stack]) (by unfold ND.ndim; rw [hsh]; omega) fun i hi => ?_
  rw [hsh, getD_insertIdx_self hax] at hi
  rw [ND.take_moveaxis _ (by unfold ND.ndim; rw [h0]; simp) (by unfold ND.ndim; rw [h0]; simp; omega)
      (by rw [h0]; simpa using hi),
    ND.take_stack hi (Nat.zero_le _) (hy i hi), ND.take_stack hi hax (hy i hi)]

/-! ### Grids of leaves -/

/-- Build a grouped tree from the shapes of another one. -/
def grid {β γ : Type} (S : List (List β)) (f : ℕ → ℕ → β → γ) : List (List γ) :=
  S.mapIdx fun g ss => ss.mapIdx fun l s => f g l s

/-- Leaf `l` of group `g` is `s`. -/
def At {β : Type} (S : List (List β)) (g l : ℕ) (s : β) : Prop := ∃ ss, S[g]? = some ss ∧ ss[l]? = some s

theorem grid_congr {β γ : Type} {S : List (List β)} {f f' : ℕ → ℕ → β → γ}
    (h : ∀ g l s, At S g l s → f g l s = f' g l s) : grid S f = grid S f' := by
  refine List.ext_getElem (by simp [grid]) fun g h1 h2 => ?_
  simp only [grid, List.getElem_mapIdx]
  refine List.ext_getElem (by simp) fun l h3 h4 => ?_
  simp only [List.getElem_mapIdx]
  refine h _ _ _ ⟨_, List.getElem?_eq_getElem (by simpa [grid] using h1), List.getElem?_eq_getElem ?_⟩
  simpa using h3

theorem map_grid {β γ δ : Type} (S : List (List β)) (f : ℕ → ℕ → β → γ) (h : γ → δ) :
    (grid S f).map (fun g => g.map h) = grid S fun g l s => h (f g l s) := by
  refine List.ext_getElem (by simp [grid]) fun g h1 h2 => ?_
  simp only [grid, List.getElem_map, List.getElem_mapIdx]
  exact List.ext_getElem (by simp) fun l h3 h4 => by simp

theorem grid_id {β : Type} (S : List (List β)) : grid S (fun _ _ s => s) = S := by
  refine List.ext_getElem (by simp [grid]) fun g h1 h2 => ?_
  simp only [grid, List.getElem_mapIdx]
  exact List.ext_getElem (by simp) fun l h3 h4 => by simp

theorem leafAt_grid {β : Type} {S : List (List β)} {f : ℕ → ℕ → β → ND α} {g l : ℕ} {s : β} (h : At S g l s) :
    leafAt (grid S f) g l = f g l s := by
  obtain ⟨ss, h1, h2⟩ := h
  unfold leafAt grid
  simp only [List.getD_eq_getElem?_getD, List.getElem?_mapIdx, h1, h2, Option.map_some, Option.getD_some]

theorem leafAt_shape {a : Grouped α} {S : List (List (List ℕ))} (hS : shapes a = S) {g l : ℕ} {s : List ℕ}
    (h : At S g l s) : (leafAt a g l).shape = s := by
  subst hS
  obtain ⟨ss, h1, h2⟩ := h
  unfold shapes at h1
  rw [List.getElem?_map] at h1
  rcases ha : a[g]? with _ | leaves
  · rw [ha] at h1; simp at h1
  · rw [ha, Option.map_some, Option.some.injEq] at h1
    subst h1
    rw [List.getElem?_map] at h2
    rcases hl : leaves[l]? with _ | x
    · rw [hl] at h2; simp at h2
    · rw [hl, Option.map_some, Option.some.injEq] at h2
      unfold leafAt
      simp only [List.getD_eq_getElem?_getD, ha, hl, Option.getD_some, h2]

omit [Inhabited α] in
theorem shapes_grid {S : List (List (List ℕ))} {f : ℕ → ℕ → List ℕ → ND α} (h : ℕ → ℕ → List ℕ → List ℕ)
    (hf : ∀ g l s, At S g l s → (f g l s).shape = h g l s) : shapes (grid S f) = grid S h := by
  unfold shapes
  rw [map_grid]
  exact grid_congr hf

theorem stack_congr {n : ℕ} {s : List ℕ} {y y' : ℕ → ND α} {ax : ℕ} (hax : ax ≤ s.length)
    (h : ∀ i < n, y i = y' i) : ND.stack n s y ax = ND.stack n s y' ax := by
  refine ND.ext_get rfl fun idx hidx => ?_
  rw [ND.shape_stack] at hidx
  rw [ND.get_stack _ _ _ _ hidx, ND.get_stack _ _ _ _ hidx]
  have := hidx.getD_lt (k := ax) (by rw [List.length_insertIdx_of_le_length hax]; omega)
  rw [getD_insertIdx_self hax] at this
  rw [h _ this]

theorem stackGrouped_eq {n : ℕ} {y : ℕ → Grouped α} {ax : ℕ → ℤ} {S : List (List (List ℕ))} (h : shapes (y 0) = S) :
    stackGrouped n y ax = grid S fun g l s => ND.stack n s (fun i => leafAt (y i) g l) (normAxis (s.length + 1) (ax g)) := by
  subst h; rfl

theorem stackGrouped_zero {n : ℕ} {y : ℕ → Grouped α} {S : List (List (List ℕ))} (h : shapes (y 0) = S) :
    stackGrouped n y (fun _ => 0) = grid S fun g l s => ND.stack n s (fun i => leafAt (y i) g l) 0 := by
  rw [stackGrouped_eq h]; rfl

theorem mapM_option_eq {β γ : Type} {l : List β} {f : β → Option γ} {g : β → γ} (h : ∀ x ∈ l, f x = some (g x)) :
    l.mapM f = some (l.map g) := by
  induction l with
  | nil => rfl
  | cons a l ih =>
    rw [List.mapM_cons, h a (by simp), ih fun x hx => h x (by simp [hx])]
    rfl

theorem zipLeavesM_grid {S : List (List (List ℕ))} {f f' k : ℕ → ℕ → List ℕ → ND α}
    {F : ND α → ND α → Option (ND α)} (h : ∀ g l s, At S g l s → F (f g l s) (f' g l s) = some (k g l s)) :
    zipLeavesM F (grid S f) (grid S f') = some (grid S k) := by
  have hz : (grid S f).zip (grid S f') = S.mapIdx fun g ss =>
      (ss.mapIdx (fun l s => f g l s), ss.mapIdx (fun l s => f' g l s)) :=
    List.ext_getElem (by simp [grid]) fun g h1 h2 => by simp [grid]
  unfold zipLeavesM
  have hok : (grid S f).length = (grid S f').length ∧
      ∀ p ∈ (grid S f).zip (grid S f'), p.1.length = p.2.length := by
    refine ⟨by simp [grid], ?_⟩
    rw [hz]
    intro p hp
    obtain ⟨g, hg, rfl⟩ := List.mem_mapIdx.1 hp
    simp
  rw [if_pos hok, hz]
  · have : (S.mapIdx fun g ss => (ss.mapIdx (fun l s => f g l s), ss.mapIdx (fun l s => f' g l s))).mapM
        (fun p => (p.1.zip p.2).mapM fun q => F q.1 q.2) =
        some ((S.mapIdx fun g ss => (ss.mapIdx (fun l s => f g l s), ss.mapIdx (fun l s => f' g l s))).map
          fun p => (p.1.zip p.2).map fun q => (F q.1 q.2).getD default) := by
      refine mapM_option_eq fun p hp => ?_
      refine mapM_option_eq fun q hq => ?_
      obtain ⟨g, hg, rfl⟩ := List.mem_mapIdx.1 hp
      obtain ⟨l, hl, rfl⟩ := List.getElem_of_mem hq
      simp only [List.length_zip, List.length_mapIdx, min_self] at hl
      have hat : At S g l (S[g][l]) := ⟨_, List.getElem?_eq_getElem hg, List.getElem?_eq_getElem hl⟩
      simp only [List.getElem_zip, List.getElem_mapIdx]
      rw [h _ _ _ hat]; rfl
    rw [this]
    congr 1
    refine List.ext_getElem (by simp [grid]) fun g h1 h2 => ?_
    simp only [grid, List.getElem_map, List.getElem_mapIdx]
    refine List.ext_getElem (by simp) fun l h3 h4 => ?_
    simp only [List.getElem_map, List.getElem_zip, List.getElem_mapIdx]
    have hg : g < S.length := by simpa [grid] using h1
    have hl : l < S[g].length := by simpa using h4
    rw [h g l _ ⟨_, List.getElem?_eq_getElem hg, List.getElem?_eq_getElem hl⟩]; rfl

theorem zipWith_grid {S : List (List (List ℕ))} {f : ℕ → ℕ → List ℕ → ND α} {axes : List ℤ}
    (hl : S.length = axes.length) (h : ND α → ℤ → ND α) :
    List.zipWith (fun g ax => g.map fun x => h x ax) (grid S f) axes =
      grid S fun g l s => h (f g l s) (axes.getD g 0) := by
  unfold grid
  refine List.ext_getElem (by simp [hl]) fun g h1 h2 => ?_
  simp only [List.getElem_zipWith, List.getElem_mapIdx]
  have hg : g < axes.length := by rw [← hl]; simpa using h2
  refine List.ext_getElem (by simp) fun l h3 h4 => ?_
  have e : axes[g] = axes.getD g 0 := (List.getD_eq_getElem _ _ hg).symm
  simp only [List.getElem_map, List.getElem_mapIdx]
  exact congrArg _ e

/-! ### Mapped and static arguments -/

/-- The arguments are acceptable for `vmap` with batch size `B`: as many arguments as axes, every leaf of a mapped
argument has the axis and its length there is `B`, and the first mapped argument has a leaf. -/
structure VmapOk (B : ℕ) (inAxes : List (Option ℤ)) (args : Grouped α) : Prop where
  len : inAxes.length = args.length
  mapped : ∀ p ∈ args.zip inAxes, ∀ ax, p.2 = some ax → ∀ x ∈ p.1,
    -(x.ndim : ℤ) ≤ ax ∧ ax < x.ndim ∧ x.shape.getD (normAxis x.ndim ax) 0 = B
  first : ∃ x xs, ((args.zip inAxes).filterMap fun p => p.2.map fun _ => p.1).head? = some (x :: xs)

theorem normAxis_lt {n : ℕ} {ax : ℤ} (h1 : -(n : ℤ) ≤ ax) (h2 : ax < n) : normAxis n ax < n := by
  unfold normAxis; split <;> omega

omit [Inhabited α] in
theorem merge_eq {β : Type} (H : ℤ → β → β) : ∀ (inAxes : List (Option ℤ)) (args : List β),
    inAxes.length = args.length →
    merge (inAxes.map Option.isSome) ((args.zip inAxes).filterMap fun p => p.2.map fun ax => H ax p.1)
      ((args.zip inAxes).filterMap fun p => if p.2.isSome then none else some p.1) =
    List.zipWith (fun ax a => match ax with | none => a | some ax => H ax a) inAxes args
  | [], [], _ => rfl
  | [], _ :: _, h => by simp at h
  | _ :: _, [], h => by simp at h
  | none :: axs, a :: as, h => by
    have ih := merge_eq H axs as (by simpa using h)
    simp [merge, ih]
  | some ax :: axs, a :: as, h => by
    have ih := merge_eq H axs as (by simpa using h)
    simp [merge, ih]

theorem leading_eq (H : ND α → ℤ → ND α) : ∀ (inAxes : List (Option ℤ)) (args : Grouped α),
    inAxes.length = args.length →
    List.zipWith (fun g ax => g.map fun x => H x ax)
      ((args.zip inAxes).filterMap fun p => p.2.map fun _ => p.1) (inAxes.filterMap id) =
    (args.zip inAxes).filterMap fun p => p.2.map fun ax => p.1.map fun x => H x ax
  | [], [], _ => rfl
  | [], _ :: _, h => by simp at h
  | _ :: _, [], h => by simp at h
  | none :: axs, a :: as, h => by
    have ih := leading_eq H axs as (by simpa using h)
    simpa using ih
  | some ax :: axs, a :: as, h => by
    have ih := leading_eq H axs as (by simpa using h)
    simpa using ih

theorem mem_leading {inAxes : List (Option ℤ)} {args : Grouped α} {H : ND α → ℤ → ND α} {g : List (ND α)} {y : ND α}
    (hg : g ∈ (args.zip inAxes).filterMap fun p => p.2.map fun ax => p.1.map fun x => H x ax) (hy : y ∈ g) :
    ∃ p ∈ args.zip inAxes, ∃ ax, p.2 = some ax ∧ ∃ x ∈ p.1, y = H x ax := by
  obtain ⟨p, hp, h⟩ := List.mem_filterMap.1 hg
  obtain ⟨ax, hax, rfl⟩ := Option.map_eq_some_iff.1 h
  obtain ⟨x, hx, rfl⟩ := List.mem_map.1 hy
  exact ⟨p, hp, ax, hax, x, hx, rfl⟩

/-- Whatever is computed from the leading-axis form of the arguments, if leaf by leaf it is slice `i`, then merging
it with the static arguments gives slice `i` of the arguments. -/
theorem merge_slices {B : ℕ} {inAxes : List (Option ℤ)} {args : Grouped α} (hok : VmapOk B inAxes args)
    (K : ND α → ND α) (i : ℕ)
    (hK : ∀ p ∈ args.zip inAxes, ∀ ax, p.2 = some ax → ∀ x ∈ p.1,
      K (x.moveaxis (normAxis x.ndim ax) 0) = x.take i (normAxis x.ndim ax)) :
    merge (inAxes.map Option.isSome)
      (((args.zip inAxes).filterMap fun p => p.2.map fun ax =>
        p.1.map fun x => x.moveaxis (normAxis x.ndim ax) 0).map fun g => g.map K)
      ((args.zip inAxes).filterMap fun p => if p.2.isSome then none else some p.1) = sliceArgs inAxes args i := by
  have h1 : (((args.zip inAxes).filterMap fun p => p.2.map fun ax =>
        p.1.map fun x => x.moveaxis (normAxis x.ndim ax) 0).map fun g => g.map K) =
      (args.zip inAxes).filterMap fun p => p.2.map fun ax => p.1.map fun x => x.take i (normAxis x.ndim ax) := by
    rw [List.map_filterMap]
    refine List.filterMap_congr fun p hp => ?_
    rw [Option.map_map]
    rcases h : p.2 with _ | ax
    · rfl
    · simp only [Option.map_some, Function.comp, List.map_map, Option.some.injEq]
      refine List.map_congr_left fun x hx => ?_
      exact hK p hp ax h x hx
  rw [h1]
  exact merge_eq (fun ax g => g.map fun x => x.take i (normAxis x.ndim ax)) inAxes args hok.len

theorem shapes_sliceArgs (inAxes : List (Option ℤ)) (args : Grouped α) (i j : ℕ) :
    shapes (sliceArgs inAxes args i) = shapes (sliceArgs inAxes args j) := by
  unfold shapes sliceArgs
  rw [List.map_zipWith, List.map_zipWith]
  congr 1
  funext ax leaves
  cases ax with
  | none => rfl
  | some ax => simp [ND.shape_take, Function.comp_def]

/-- The results are acceptable for `out_axes`: one group per leaf of `out_axes`, and every leaf can get the new
axis where `out_axes` says. -/
def OutOk (outAxes : List ℤ) (S : List (List (List ℕ))) : Prop :=
  S.length = outAxes.length ∧
  ∀ g l s, At S g l s → -((s.length + 1 : ℕ) : ℤ) ≤ outAxes.getD g 0 ∧ outAxes.getD g 0 < ((s.length + 1 : ℕ) : ℤ)

theorem batchedVmap_eq {fn : Grouped α → Grouped α} (hfn : Traced fn) {maxBatch B : ℕ} (hmax : 0 < maxBatch)
    {inAxes : List (Option ℤ)} {outAxes : List ℤ} {args : Grouped α} (hok : VmapOk B inAxes args)
    (hout : OutOk outAxes (shapes (fn (sliceArgs inAxes args 0)))) :
    batchedVmap fn maxBatch inAxes outAxes args = some (vmap fn B inAxes outAxes args) := by
  obtain ⟨x, xs, hx⟩ := hok.first
  have hlead := leading_eq (fun (x : ND α) ax => x.moveaxis (normAxis x.ndim ax) 0) inAxes args hok.len
  unfold batchedVmap
  -- the first mapped argument determines the batch size
  rcases hm : (args.zip inAxes).filterMap (fun p => p.2.map fun _ => p.1) with _ | ⟨g0, gs⟩
  · rw [hm] at hx; simp at hx
  have hg0 : g0 = x :: xs := by rw [hm] at hx; simpa using hx
  subst hg0
  have hax : ∃ ax axs, inAxes.filterMap id = ax :: axs ∧ x.shape.getD (normAxis x.ndim ax) 0 = B := by
    clear hlead hout
    obtain ⟨hlen, hmap, -⟩ := hok
    clear hx
    induction inAxes generalizing args with
    | nil => simp at hm
    | cons a axs ih =>
      cases args with
      | nil => simp at hlen
      | cons b bs =>
        cases a with
        | none =>
          simp only [List.zip_cons_cons, List.filterMap_cons, Option.map_none, id] at hm ⊢
          exact ih hm (by simpa using hlen) fun p hp => hmap p (by simp [hp])
        | some a =>
          simp only [List.zip_cons_cons, List.filterMap_cons, Option.map_some, List.cons.injEq] at hm
          refine ⟨a, axs.filterMap id, by simp, ?_⟩
          have hb : b = x :: xs := hm.1
          exact (hmap (b, some a) (by simp) a rfl x (by simp [hb])).2.2
  obtain ⟨ax, axs, hax1, hax2⟩ := hax
  rw [hm, hax1] at hlead
  simp only [hm, hax1, hax2]
  by_cases hB : B ≤ maxBatch
  · rw [if_pos hB]
  rw [if_neg hB, if_neg (by omega)]
  simp only [hlead]
  -- arithmetic
  have hdm : maxBatch * (B / maxBatch) + B % maxBatch = B := Nat.div_add_mod B maxBatch
  generalize hnum : B / maxBatch = num at hdm ⊢
  generalize hrem : B % maxBatch = rem at hdm ⊢
  have hremlt : rem < maxBatch := hrem ▸ Nat.mod_lt _ hmax
  have hnum0 : 0 < num := by
    rcases Nat.eq_zero_or_pos num with h | h
    · subst h; omega
    · exact h
  have hNB : num * maxBatch + rem = B := by rw [Nat.mul_comm]; exact hdm
  -- the leaves in leading-axis form
  have hL : ∀ p ∈ args.zip inAxes, ∀ ax, p.2 = some ax → ∀ x ∈ p.1,
      (x.moveaxis (normAxis x.ndim ax) 0).shape = B :: x.shape.eraseIdx (normAxis x.ndim ax) ∧
      ∀ i < B, (x.moveaxis (normAxis x.ndim ax) 0).take i 0 = x.take i (normAxis x.ndim ax) := by
    intro p hp ax hpax x hx
    obtain ⟨h1, h2, h3⟩ := hok.mapped p hp ax hpax x hx
    have hlt := normAxis_lt h1 h2
    refine ⟨by rw [ND.shape_moveaxis, h3]; rfl, fun i hi => ?_⟩
    exact ND.take_moveaxis x hlt (by omega) (by rw [h3]; exact hi)
  -- loop arguments
  let split' : ND α → ND α := fun x => (splitLeading (dropRows x rem) num maxBatch).getD default
  have hsplit : ∀ (y : ND α) (rest : List ℕ), y.shape = B :: rest →
      splitLeading (dropRows y rem) num maxBatch = some (split' y) ∧
      ∀ b < num, ∀ j < maxBatch, ((split' y).take b 0).take j 0 = y.take (rem + (b * maxBatch + j)) 0 := by
    intro y rest hy
    have hd : (dropRows y rem).shape = (num * maxBatch) :: rest := by
      rw [shape_dropRows y hy]; congr 1; omega
    obtain ⟨z, hz1, hz2, hz3⟩ := splitLeading_spec _ hd
    have hz : split' y = z := by show Option.getD _ _ = z; rw [hz1]; rfl
    refine ⟨by rw [hz]; exact hz1, fun b hb j hj => ?_⟩
    have hlt : b * maxBatch + j < num * maxBatch := by
      calc b * maxBatch + j < b * maxBatch + maxBatch := by omega
        _ = (b + 1) * maxBatch := by ring
        _ ≤ _ := Nat.mul_le_mul_right _ hb
    rw [hz, take_take_split hd hz2 hz3 hb hj, take_dropRows y hy (by omega)]
  generalize hlg : ((args.zip inAxes).filterMap fun p => p.2.map fun ax =>
        p.1.map fun x => x.moveaxis (normAxis x.ndim ax) 0) = lead
  have hloop : mapLeavesM (fun x => splitLeading (dropRows x rem) num maxBatch) lead =
      some (lead.map fun g => g.map split') := by
    refine mapM_option_eq fun g hg => mapM_option_eq fun y hy => ?_
    subst hlg
    obtain ⟨p, hp, ax, hpax, x, hx, rfl⟩ := mem_leading
      (H := fun (x : ND α) ax => x.moveaxis (normAxis x.ndim ax) 0) hg hy
    exact (hsplit _ _ (hL p hp ax hpax x hx).1).1
  rw [hloop]
  simp only [Option.bind_some]
  -- what `fn` is called on
  have hcall : ∀ b < num, ∀ j < maxBatch,
      fn (merge (inAxes.map Option.isSome)
        ((((lead.map fun g => g.map split').map fun g => g.map fun x => x.take b 0)).map fun g =>
          g.map fun x => x.take j 0)
        ((args.zip inAxes).filterMap fun p => if p.2.isSome then none else some p.1)) =
      fn (sliceArgs inAxes args (rem + (b * maxBatch + j))) := by
    intro b hb j hj
    congr 1
    subst hlg
    have := merge_slices hok (fun y => ((split' y).take b 0).take j 0) (rem + (b * maxBatch + j)) (by
      intro p hp ax hpax x hx
      obtain ⟨h1, h2⟩ := hL p hp ax hpax x hx
      have hlt : b * maxBatch + j < num * maxBatch := by
        calc b * maxBatch + j < b * maxBatch + maxBatch := by omega
          _ = (b + 1) * maxBatch := by ring
          _ ≤ _ := Nat.mul_le_mul_right _ hb
      exact ((hsplit _ _ h1).2 b hb j hj).trans (h2 _ (by omega)))
    rw [← this]
    simp only [List.map_map, Function.comp_def]
  have hcall' : ∀ i < rem,
      fn (merge (inAxes.map Option.isSome)
        ((lead.map fun g => g.map fun x => takeRows x rem).map fun g => g.map fun x => x.take i 0)
        ((args.zip inAxes).filterMap fun p => if p.2.isSome then none else some p.1)) =
      fn (sliceArgs inAxes args i) := by
    intro i hi
    congr 1
    subst hlg
    have := merge_slices hok (fun y => (takeRows y rem).take i 0) i (by
      intro p hp ax hpax x hx
      obtain ⟨h1, h2⟩ := hL p hp ax hpax x hx
      exact (take_takeRows _ h1 hi (by omega)).trans (h2 _ (by omega)))
    rw [← this]
    simp only [List.map_map, Function.comp_def]
  -- shapes of the results
  set S := shapes (fn (sliceArgs inAxes args 0)) with hS
  have hSi : ∀ i, shapes (fn (sliceArgs inAxes args i)) = S := fun i => hfn _ _ (shapes_sliceArgs inAxes args i 0)
  have hleaf : ∀ i g l s, At S g l s → (leafAt (fn (sliceArgs inAxes args i)) g l).shape = s :=
    fun i g l s h => leafAt_shape (hSi i) h
  let Z : ℕ → ℕ → ℕ → ND α := fun g l i => leafAt (fn (sliceArgs inAxes args i)) g l
  have hts : ∀ g l s, At S g l s → ∀ (n : ℕ) (σ : ℕ → ℕ) (k : ℕ), k < n →
      (ND.stack n s (fun k => Z g l (σ k)) 0).take k 0 = Z g l (σ k) :=
    fun g l s hs n σ k hk => ND.take_stack (y := fun k => Z g l (σ k)) hk (Nat.zero_le _) (hleaf _ g l s hs)
  have hin : ∀ b < num, stackGrouped maxBatch (fun j => fn (merge (inAxes.map Option.isSome)
        ((((lead.map fun g => g.map split').map fun g => g.map fun x => x.take b 0)).map fun g =>
          g.map fun x => x.take j 0)
        ((args.zip inAxes).filterMap fun p => if p.2.isSome then none else some p.1))) (fun _ => 0) =
      grid S fun g l s => ND.stack maxBatch s (fun j => Z g l (rem + (b * maxBatch + j))) 0 := by
    intro b hb
    rw [stackGrouped_zero (S := S) (by rw [hcall b hb 0 hmax]; exact hSi _)]
    refine grid_congr fun g l s _ => stack_congr (Nat.zero_le _) fun j hj => ?_
    rw [hcall b hb j hj]
  let S' : List (List (List ℕ)) := grid S fun _ _ s => maxBatch :: s
  have hscan : stackGrouped num (fun b => stackGrouped maxBatch (fun j => fn (merge (inAxes.map Option.isSome)
        ((((lead.map fun g => g.map split').map fun g => g.map fun x => x.take b 0)).map fun g =>
          g.map fun x => x.take j 0)
        ((args.zip inAxes).filterMap fun p => if p.2.isSome then none else some p.1))) (fun _ => 0)) (fun _ => 0) =
      grid S fun g l s => ND.stack num (maxBatch :: s) (fun b =>
        ND.stack maxBatch s (fun j => Z g l (rem + (b * maxBatch + j))) 0) 0 := by
    have hsh : shapes (stackGrouped maxBatch (fun j => fn (merge (inAxes.map Option.isSome)
        ((((lead.map fun g => g.map split').map fun g => g.map fun x => x.take 0 0)).map fun g =>
          g.map fun x => x.take j 0)
        ((args.zip inAxes).filterMap fun p => if p.2.isSome then none else some p.1))) (fun _ => 0)) = S' := by
      rw [hin 0 hnum0]
      exact shapes_grid _ fun g l s _ => rfl
    rw [stackGrouped_zero hsh]
    refine List.ext_getElem (by simp [grid, S']) fun g h1 h2 => ?_
    simp only [grid, S', List.getElem_mapIdx]
    refine List.ext_getElem (by simp) fun l h3 h4 => ?_
    simp only [List.getElem_mapIdx]
    refine stack_congr (Nat.zero_le _) fun b hb => ?_
    rw [hin b hb]
    refine leafAt_grid ⟨_, List.getElem?_eq_getElem (by simpa [grid] using h2), List.getElem?_eq_getElem ?_⟩
    simpa using h4
  rw [hscan, map_grid]
  -- joining the batches
  have hjoin : (grid S fun g l s => joinLeading (ND.stack num (maxBatch :: s) (fun b =>
        ND.stack maxBatch s (fun j => Z g l (rem + (b * maxBatch + j))) 0) 0)) =
      grid S fun g l s => ND.stack (num * maxBatch) s (fun k => Z g l (rem + k)) 0 := by
    refine grid_congr fun g l s hs => ?_
    have h0 : (ND.stack num (maxBatch :: s) (fun b =>
        ND.stack maxBatch s (fun j => Z g l (rem + (b * maxBatch + j))) 0) 0).shape = num :: maxBatch :: s := rfl
    obtain ⟨hj1, hj2⟩ := joinLeading_spec _ h0
    refine ND.ext_take (axis := 0) (by rw [hj1]; rfl) (by unfold ND.ndim; rw [hj1]; simp) fun k hk => ?_
    rw [hj1] at hk
    have hk' : k < num * maxBatch := by simpa using hk
    have hkd : k / maxBatch < num := Nat.div_lt_of_lt_mul (by rwa [Nat.mul_comm])
    have hkm : k % maxBatch < maxBatch := Nat.mod_lt _ hmax
    have hkk : k / maxBatch * maxBatch + k % maxBatch = k := by rw [Nat.mul_comm]; exact Nat.div_add_mod k maxBatch
    have := take_take_split hj1 h0 hj2.symm hkd hkm
    rw [hkk] at this
    rw [← this, ND.take_stack (shape := maxBatch :: s) (y := fun b =>
        ND.stack maxBatch s (fun j => Z g l (rem + (b * maxBatch + j))) 0) hkd (Nat.zero_le _) rfl,
      hts g l s hs _ (fun j => rem + (k / maxBatch * maxBatch + j)) _ hkm,
      hts g l s hs _ (fun k => rem + k) _ hk', hkk]
  rw [hjoin]
  -- the remainder
  have hfull : (if rem > 0 then
        zipLeavesM concatRows (stackGrouped rem (fun i => fn (merge (inAxes.map Option.isSome)
          ((lead.map fun g => g.map fun x => takeRows x rem).map fun g => g.map fun x => x.take i 0)
          ((args.zip inAxes).filterMap fun p => if p.2.isSome then none else some p.1))) (fun _ => 0))
          (grid S fun g l s => ND.stack (num * maxBatch) s (fun k => Z g l (rem + k)) 0)
      else some (grid S fun g l s => ND.stack (num * maxBatch) s (fun k => Z g l (rem + k)) 0)) =
      some (grid S fun g l s => ND.stack B s (fun k => Z g l k) 0) := by
    by_cases hr : rem > 0
    · rw [if_pos hr, stackGrouped_zero (S := S) ((congrArg shapes (hcall' 0 hr)).trans (hSi _))]
      refine zipLeavesM_grid fun g l s hs => ?_
      have e1 : ND.stack rem s (fun i => leafAt (fn (merge (inAxes.map Option.isSome)
          ((lead.map fun g => g.map fun x => takeRows x rem).map fun g => g.map fun x => x.take i 0)
          ((args.zip inAxes).filterMap fun p => if p.2.isSome then none else some p.1))) g l) 0 =
          ND.stack rem s (fun i => Z g l i) 0 :=
        stack_congr (Nat.zero_le _) fun i hi => by rw [hcall' i hi]
      rw [e1]
      have h1 : (ND.stack rem s (fun i => Z g l i) 0).shape = rem :: s := rfl
      have h2 : (ND.stack (num * maxBatch) s (fun k => Z g l (rem + k)) 0).shape = (num * maxBatch) :: s := rfl
      obtain ⟨z, hz1, hz2, hz3⟩ := concatRows_spec _ _ h1 h2
      rw [hz1]
      congr 1
      have hB' : rem + num * maxBatch = B := by omega
      refine ND.ext_take (axis := 0) (by rw [hz2, hB']; rfl) (by unfold ND.ndim; rw [hz2]; simp) fun k hk => ?_
      rw [hz2] at hk
      have hk' : k < rem + num * maxBatch := by simpa using hk
      rw [take_concat h1 h2 hz2 hz3 hk', hts g l s hs _ (fun k => k) _ (by omega : k < B)]
      split
      · rename_i hlt; rw [hts g l s hs _ (fun k => k) _ hlt]
      · rename_i hge
        rw [hts g l s hs _ (fun k => rem + k) _ (by omega)]
        have : rem + (k - rem) = k := by omega
        rw [this]
    · rw [if_neg hr]
      have hr0 : rem = 0 := by omega
      subst hr0
      have : num * maxBatch = B := by omega
      rw [this]
      simp only [Nat.zero_add]
  rw [hfull]
  simp only [Option.bind_some]
  congr 1
  rw [zipWith_grid hout.1 (fun x ax => x.moveaxis 0 (normAxis x.ndim ax))]
  unfold vmap
  rw [stackGrouped_eq hS.symm]
  refine grid_congr fun g l s hs => ?_
  obtain ⟨ho1, ho2⟩ := hout.2 g l s hs
  have hlt := normAxis_lt ho1 ho2
  have hnd : (ND.stack B s (fun k => Z g l k) 0).ndim = s.length + 1 := rfl
  rw [hnd]
  exact moveaxis_stack (by omega) fun i _ => hleaf i g l s hs

end Folx.Batch

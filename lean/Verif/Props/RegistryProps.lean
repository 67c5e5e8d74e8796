import Verif.Registry.Dict
import Mathlib.Data.List.Induction

/-!
# C26: the registry behaves like a map
-/

namespace Folx.Registry

open Folx.Interp (Err)

variable {α : Type}

/-! ### Specification -/

/-- What a history says about a key: read from the end, the first call that mentions the key decides; if none does,
the initial content decides. -/
def lastSpec (init : Key → Option α) (k : Key) (h : List (Op α)) : Option α :=
  match h.reverse.find? (fun o => match o with
      | .register k' _ => k' = k
      | .deregister k' => k' = k) with
  | some (.register _ f) => some f
  | some (.deregister _) => none
  | none => init k

/-- Every key occurs at most once (true of every Python dict). -/
def Dict.Wf (d : Dict α) : Prop := (d.map Prod.fst).Nodup

/-- What a user can look up: `get_laplacian(k)`. -/
def lookup (d : Dict α) (k : Key) : Option α := (d.find? fun e => e.1 = k).map Prod.snd

/-! ### Proofs -/

theorem contains_eq (d : Dict α) (k : Key) : d.contains k = (lookup d k).isSome := by
  induction d with
  | nil => rfl
  | cons e d ih =>
    obtain ⟨k', v⟩ := e
    by_cases h : k' = k
    · simp [Dict.contains, lookup, h]
    · simp only [Dict.contains, h, decide_false, Bool.false_or, ih, lookup, List.find?_cons]

theorem getItem_eq (d : Dict α) (k : Key) :
    d.getItem k = match lookup d k with | some v => .ok v | none => .error .key := by
  induction d with
  | nil => rfl
  | cons e d ih =>
    obtain ⟨k', v⟩ := e
    by_cases h : k' = k
    · simp [Dict.getItem, lookup, h]
    · simp only [Dict.getItem, h, if_false, ih, lookup, List.find?_cons, decide_false]

theorem lookup_cons (k' : Key) (v : α) (d : Dict α) (k : Key) :
    lookup ((k', v) :: d) k = if k' = k then some v else lookup d k := by
  by_cases h : k' = k <;> simp [lookup, h]

theorem lookup_setItem (d : Dict α) (k : Key) (f : α) (k' : Key) :
    lookup (d.setItem k f) k' = if k' = k then some f else lookup d k' := by
  induction d with
  | nil =>
    rw [Dict.setItem, lookup_cons]
    by_cases h : k' = k
    · simp [h]
    · simp [h, lookup, Ne.symm h]
  | cons e d ih =>
    obtain ⟨k₀, v⟩ := e
    rw [Dict.setItem]
    by_cases h : k₀ = k
    · subst h
      simp only [if_true, lookup_cons]
      by_cases h' : k₀ = k' <;> simp [h', eq_comm]
      simp [Ne.symm h']
    · simp only [h, if_false, lookup_cons, ih]
      by_cases h' : k₀ = k'
      · subst h'; simp [h]
      · simp [h']

theorem keys_setItem (d : Dict α) (k : Key) (f : α) :
    ∀ k', k' ∈ (d.setItem k f).map Prod.fst ↔ k' = k ∨ k' ∈ d.map Prod.fst := by
  induction d with
  | nil => simp [Dict.setItem]
  | cons e d ih =>
    obtain ⟨k₀, v⟩ := e
    intro k'
    rw [Dict.setItem]
    by_cases h : k₀ = k
    · subst h; simp
    · simp only [h, if_false, List.map_cons, List.mem_cons, ih]
      tauto

theorem wf_setItem {d : Dict α} (hd : d.Wf) (k : Key) (f : α) : (d.setItem k f).Wf := by
  induction d with
  | nil => simp [Dict.setItem, Dict.Wf]
  | cons e d ih =>
    obtain ⟨k₀, v⟩ := e
    rw [Dict.setItem]
    unfold Dict.Wf at hd ih ⊢
    rw [List.map_cons, List.nodup_cons] at hd
    by_cases h : k₀ = k
    · simp only [h, if_true, List.map_cons, List.nodup_cons]
      exact ⟨h ▸ hd.1, hd.2⟩
    · simp only [h, if_false, List.map_cons, List.nodup_cons]
      refine ⟨fun hm => ?_, ih hd.2⟩
      rcases (keys_setItem d k f k₀).1 hm with h' | h'
      · exact h h'
      · exact hd.1 h'

theorem lookup_isSome_iff (d : Dict α) (k : Key) : (lookup d k).isSome ↔ k ∈ d.map Prod.fst := by
  induction d with
  | nil => simp [lookup]
  | cons e d ih =>
    obtain ⟨k₀, v⟩ := e
    rw [lookup_cons]
    by_cases h : k₀ = k
    · simp [h]
    · simp only [h, if_false, ih, List.map_cons, List.mem_cons]
      constructor
      · exact Or.inr
      · rintro (h' | h')
        · exact absurd h'.symm h
        · exact h'

theorem delItem_spec {d : Dict α} (hd : d.Wf) (k : Key) :
    (lookup d k = none → d.delItem k = .error .key) ∧
    ((lookup d k).isSome → ∃ d', d.delItem k = .ok d' ∧ d'.Wf ∧
      (∀ k', k' ∈ d'.map Prod.fst → k' ∈ d.map Prod.fst) ∧
      ∀ k', lookup d' k' = if k' = k then none else lookup d k') := by
  induction d with
  | nil => simp [Dict.delItem, lookup]
  | cons e d ih =>
    obtain ⟨k₀, v⟩ := e
    unfold Dict.Wf at hd ih
    rw [List.map_cons, List.nodup_cons] at hd
    obtain ⟨ih1, ih2⟩ := ih hd.2
    rw [lookup_cons]
    by_cases h : k₀ = k
    · subst h
      simp only [if_true, Dict.delItem]
      refine ⟨by simp, fun _ => ⟨d, rfl, hd.2, fun k' hk' => List.mem_cons_of_mem _ hk', fun k' => ?_⟩⟩
      rw [lookup_cons]
      by_cases h' : k' = k₀
      · subst h'
        simp only [if_true]
        by_contra hne
        exact hd.1 ((lookup_isSome_iff d k').1 (Option.isSome_iff_ne_none.2 hne))
      · simp [h', Ne.symm h']
    · simp only [h, if_false, Dict.delItem]
      refine ⟨fun hn => by rw [ih1 hn], fun hs => ?_⟩
      obtain ⟨d', h1, h2, h3, h4⟩ := ih2 hs
      rw [h1]
      refine ⟨(k₀, v) :: d', rfl, ?_, ?_, fun k' => ?_⟩
      · unfold Dict.Wf
        rw [List.map_cons, List.nodup_cons]
        exact ⟨fun hm => hd.1 (h3 _ hm), h2⟩
      · intro k' hk'
        rw [List.map_cons, List.mem_cons] at hk' ⊢
        exact hk'.imp id (h3 k')
      · rw [lookup_cons, lookup_cons, h4]
        by_cases h' : k₀ = k'
        · subst h'; simp [h]
        · simp [h']

theorem run_wf {d : Dict α} (hd : d.Wf) (o : Op α) : (o.run d).1.Wf := by
  cases o with
  | register k f => exact wf_setItem hd k f
  | deregister k =>
    rcases h : lookup d k with _ | v
    · simp only [Op.run, deregister, (delItem_spec hd k).1 h]; exact hd
    · obtain ⟨d', h1, h2, -⟩ := (delItem_spec hd k).2 (by simp [h])
      simp only [Op.run, deregister, h1]; exact h2

theorem runAll_wf {d : Dict α} (hd : d.Wf) (h : List (Op α)) : (runAll d h).Wf := by
  induction h generalizing d with
  | nil => exact hd
  | cons o h ih => exact ih (run_wf hd o)

theorem runAll_append (d : Dict α) (h : List (Op α)) (o : Op α) :
    runAll d (h ++ [o]) = (o.run (runAll d h)).1 := by
  simp [runAll, List.foldl_append]

theorem lookup_run {d : Dict α} (hd : d.Wf) (o : Op α) (k : Key) :
    lookup (o.run d).1 k = match o with
      | .register k' f => if k = k' then some f else lookup d k
      | .deregister k' => if k = k' then none else lookup d k := by
  cases o with
  | register k' f => exact lookup_setItem d k' f k
  | deregister k' =>
    rcases h : lookup d k' with _ | v
    · simp only [Op.run, deregister, (delItem_spec hd k').1 h]
      by_cases hk : k = k'
      · subst hk; simp [h]
      · simp [hk]
    · obtain ⟨d', h1, -, -, h4⟩ := (delItem_spec hd k').2 (by simp [h])
      simp only [Op.run, deregister, h1]; exact h4 k

theorem lastSpec_append (init : Key → Option α) (k : Key) (h : List (Op α)) (o : Op α) :
    lastSpec init k (h ++ [o]) = match o with
      | .register k' f => if k' = k then some f else lastSpec init k h
      | .deregister k' => if k' = k then none else lastSpec init k h := by
  cases o with
  | register k' f => by_cases hk : k' = k <;> simp [lastSpec, hk]
  | deregister k' => by_cases hk : k' = k <;> simp [lastSpec, hk]

theorem lookup_runAll {d : Dict α} (hd : d.Wf) (h : List (Op α)) (k : Key) :
    lookup (runAll d h) k = lastSpec (lookup d) k h := by
  induction h using List.reverseRecOn with
  | nil => rfl
  | append_singleton h o ih =>
    rw [runAll_append, lookup_run (runAll_wf hd h), lastSpec_append]
    cases o <;> simp only [ih, eq_comm]

/-! ### The property -/

/-- **C26 (lookup).**  Start from any registry.  After any history of `register_function` / `deregister_function`
calls, failed ones included, `get_laplacian(k)` returns what the last call mentioning `k` says: the function
registered by it, nothing after a deregistration; keys never mentioned keep their initial content.  With
`wrap_if_missing=True`, where nothing is registered a primitive gets the default rule and a name raises
`TypeError`. -/
theorem C26_lookup (defaultWrap : ℕ → α) (d : Dict α) (hd : d.Wf) (h : List (Op α)) (k : Key) :
    getLaplacian defaultWrap (runAll d h) k false = .ok (lastSpec (lookup d) k h) ∧
    getLaplacian defaultWrap (runAll d h) k true = match lastSpec (lookup d) k h, k with
      | some f, _ => .ok (some f)
      | none, .prim id => .ok (some (defaultWrap id))
      | none, .name _ => .error .type := by
  rw [← lookup_runAll hd]
  unfold getLaplacian isRegistered
  rw [contains_eq, getItem_eq]
  rcases lookup (runAll d h) k with _ | f
  · cases k <;> simp
  · cases k <;> simp

/-- **C26 (membership).** -/
theorem C26_is_registered (d : Dict α) (hd : d.Wf) (h : List (Op α)) (k : Key) :
    isRegistered (runAll d h) k = (lastSpec (lookup d) k h).isSome := by
  rw [← lookup_runAll hd, isRegistered, contains_eq]

/-- **C26 (failure).**  `deregister_function(k)` raises exactly if `k` is not registered at that point
(`KeyError`), and then the registry, including the order of its items, is unchanged; `register_function` never
raises. -/
theorem C26_failure (d : Dict α) (hd : d.Wf) (h : List (Op α)) (k : Key) (f : α) :
    (lastSpec (lookup d) k h = none → Op.run (runAll d h) (.deregister k) = (runAll d h, some .key)) ∧
    (lastSpec (lookup d) k h ≠ none → (Op.run (runAll d h) (.deregister k)).2 = none) ∧
    (Op.run (runAll d h) (.register k f)).2 = none := by
  rw [← lookup_runAll hd]
  have hw := runAll_wf hd h
  refine ⟨fun hn => ?_, fun hs => ?_, rfl⟩
  · simp only [Op.run, deregister, (delItem_spec hw k).1 hn]
  · obtain ⟨d', h1, -⟩ := (delItem_spec hw k).2 (Option.isSome_iff_ne_none.2 hs)
    simp only [Op.run, deregister, h1]

/-- A non-trivial history: two keys, a replacement, a failed and a successful deregistration. -/
example : let h : List (Op ℕ) := [.register (.prim 0) 1, .register (.name "f") 2, .deregister (.name "g"),
      .register (.prim 0) 3, .deregister (.name "f")]
    Dict.Wf ([] : Dict ℕ) ∧ lastSpec (lookup []) (.prim 0) h = some 3 ∧ lastSpec (lookup []) (.name "f") h = none ∧
      runAll [] h = [(.prim 0, 3)] := by
  refine ⟨List.nodup_nil, rfl, rfl, rfl⟩

end Folx.Registry

import Verif.Tree.Paths
import Verif.Props.ArrProgProps
import Verif.Props.BuiltInProps

/-!
# C65, C66: nested arguments and results, `weights` trees and keyword arguments
-/

namespace Folx

open Folx.Interp

/-! ### Specification -/

/-- The arguments (nested, with sizes `S`) whose leaves, flattened one after the other, hold the numbers `z`. -/
def ArgsAt {F : Type} [RCLike F] {n : ℕ} (S : PyTree ℕ) (z : Fin n → ℝ) (A : PyTree (PArr F)) : Prop :=
  A.struct = S.struct ∧ A.leaves = unflat S.leaves z

/-- `weights` is documented to be "tree broadcastable (like vmap) of the input arguments": the weight of the leaf at a path
is the leaf of the `weights` tree met on the way, broadcast to the size of the array.  `V` holds these weights. -/
def DocWeights {F : Type} (W : PyTree (LeafWeight F)) (S : PyTree ℕ) (V : PyTree (PArr F)) : Prop :=
  V.struct = S.struct ∧
    ∀ path m, S.at? path = some m → ∃ lw a, W.prefixAt path = some lw ∧ lw.full m = .ok a ∧ V.at? path = some ⟨m, a⟩

/-! ### Lemmas -/

section Plain
variable {F : Type}

theorem fullPairs_eq : ∀ (l : List (LeafWeight F × ℕ)) (v : List (PArr F)),
    List.Forall₂ (fun (p : LeafWeight F × ℕ) u => ∃ a, p.1.full p.2 = .ok a ∧ u = ⟨p.2, a⟩) l v → fullPairs l = .ok v
  | _, _, .nil => rfl
  | _ :: l, _ :: v, .cons ⟨a, h1, h2⟩ h => by
    rw [fullPairs, h1, fullPairs_eq l v h, h2]

/-- What the pairing of a weights tree with the arguments gives. -/
theorem pairUp_doc (W : PyTree (LeafWeight F)) (S : PyTree ℕ) (V : PyTree (PArr F)) (h : DocWeights W S V)
    (l : List (LeafWeight F × ℕ)) (hl : W.pairUp S = .ok l) : fullPairs l = .ok V.leaves := by
  obtain ⟨q, h1, h2, h3⟩ := PyTree.pairUp_tree W S l hl
  refine fullPairs_eq l _ ?_
  rw [← h2]
  rw [PyTree.forall₂_iff_paths _ q V (h1.trans h.1.symm)]
  intro path p u hp hu
  obtain ⟨e1, e2⟩ := h3 path p hp
  obtain ⟨lw, a, f1, f2, f3⟩ := h.2 path p.2 e2
  obtain rfl : lw = p.1 := Option.some.inj (f1.symm.trans e1)
  exact ⟨a, f2, Option.some.inj (hu.symm.trans f3)⟩

theorem weightArrs_of [One F] : ∀ (l : List (LeafWeight F × ℕ)) (ws : List (PArr F)), fullPairs l = .ok ws →
    fullAll (ws.map .array) (l.map fun p => p.2) = .ok ws
  | [], ws, h => by
    obtain rfl := Except.ok.inj h
    rfl
  | (w, m) :: l, ws, h => by
    rw [fullPairs] at h
    split at h
    · cases h
    rename_i a ha
    split at h
    · cases h
    rename_i r hr
    obtain rfl := Except.ok.inj h
    rw [List.map_cons, List.map_cons, fullAll, weightArrs_of l r hr]
    simp [LeafWeight.full, castTo]

theorem pairUp_snd {α β : Type} (w : PyTree α) (s : PyTree β) (l : List (α × β)) (h : w.pairUp s = .ok l) :
    l.map (fun p => p.2) = s.leaves := by
  obtain ⟨q, h1, h2, h3⟩ := PyTree.pairUp_tree w s l h
  have := (PyTree.forall₂_iff_paths (fun (p : α × β) b => p.2 = b) q s h1).mpr (by
    intro path p b hp hb
    exact Option.some.inj ((h3 path p hp).2.symm.trans hb))
  rw [← h2]
  have key : ∀ (a : List (α × β)) (b : List β), List.Forall₂ (fun (p : α × β) b => p.2 = b) a b → a.map (fun p => p.2) = b := by
    intro a b hab
    induction hab with
    | nil => rfl
    | cons e _ ih => rw [List.map_cons, e, ih]
  exact key _ _ this

theorem leaves_flat {β : Type} (l : List β) : (PyTree.node (l.map PyTree.leaf)).leaves = l := by
  rw [PyTree.leaves_node]
  induction l with
  | nil => rfl
  | cons a l ih => rw [List.map_cons, List.flatMap_cons, ih, PyTree.leaves_leaf]; rfl

/-- The weights the code computes, as `Weights` for the flattened arguments. -/
theorem weightsFor_arrays [One F] (W : Option (PyTree (LeafWeight F))) (sizes : List ℕ) (ws : List (PArr F))
    (h : weightsFor W sizes = .ok ws) : weightArrs (.perArg (ws.map .array)) sizes = .ok ws := by
  unfold weightsFor at h
  split at h
  · cases h
  rename_i l hl
  have e := pairUp_snd _ _ l hl
  rw [leaves_flat] at e
  have := weightArrs_of l ws h
  rw [e] at this
  exact this

theorem initStateT_eq [Zero F] [One F] (s : Bool) (W : Option (PyTree (LeafWeight F))) (args : List (PVal F)) (weights : Weights F)
    (h : weightsFor W (args.map fun v => v.1) = weightArrs weights (args.map fun v => v.1)) :
    initStateT s W args = initState s weights args := by
  unfold initStateT initState
  have e : (args.map fun v => (⟨v.1, v.2.x⟩ : PArr F)).map (fun a => a.1) = args.map fun v => v.1 := by
    rw [List.map_map]; rfl
  dsimp only
  rw [e, h]
  rfl

theorem initStateT_plain_error [Zero F] [One F] (s : Bool) (W : Option (PyTree (LeafWeight F))) (args : List (PVal F))
    (hp : args.any (fun v => v.2.isLapl) = false) (e : Err) (h : weightsFor W (args.map fun v => v.1) = .error e) :
    ∃ e', initStateT s W args = .error e' := by
  unfold initStateT
  rw [hp]
  have e' : (args.map fun v => (⟨v.1, v.2.x⟩ : PArr F)).map (fun a => a.1) = args.map fun v => v.1 := by
    rw [List.map_map]; rfl
  dsimp only
  rw [e', h]
  cases ravelLeaves (args.map fun v => (⟨v.1, v.2.x⟩ : PArr F)) with
  | error e => exact ⟨e, rfl⟩
  | ok _ => exact ⟨e, rfl⟩

end Plain

section Reduce
variable {F : Type} [RCLike F] {d : ℕ}

theorem argsAt_sizes {n : ℕ} {S : PyTree ℕ} {z : Fin n → ℝ} {A : PyTree (PArr F)} (h : ArgsAt S z A) :
    A.tmap (fun a => a.1) = S := by
  rw [PyTree.ext_iff', PyTree.struct_tmap, PyTree.leaves_tmap]
  refine ⟨h.1, ?_⟩
  rw [h.2]
  have : ∀ (sizes : List ℕ) (off : ℕ), (blocks (coord z : ℕ → F) off sizes).map (fun a => a.1) = sizes := by
    intro sizes
    induction sizes with
    | nil => intro _; rfl
    | cons m ms ih => intro off; rw [blocks, List.map_cons, ih]
  exact this _ 0

/-- A jaxpr with another number of inputs is not evaluated. -/
theorem evalLapl_arity (reg : String → Option (Prim F)) (junk : List (PVal F) → PVal F) (T : ℕ)
    (j : Jaxpr (Op d F) (PArr F)) (consts : List (PArr F)) (args : List (PVal F)) (h : j.invars.length ≠ args.length) :
    ∃ e, evalLapl reg junk T d j consts args = .error e := by
  unfold evalLapl evalRC initEnv
  cases EnvState.writeMany ⟨fun _ => none, initRC (j.map PVal.ofPlain)⟩ (j.map PVal.ofPlain).constvars (consts.map PVal.ofPlain) with
  | error e => exact ⟨e, rfl⟩
  | ok s =>
    refine ⟨.length, ?_⟩
    have h' : ¬ (j.map PVal.ofPlain).invars.length = args.length := h
    unfold EnvState.writeMany
    simp only [if_neg h']

theorem ofPlain_tmap (A : PyTree (PArr F)) :
    (A.tmap PVal.ofPlain).tmap (fun v => (⟨v.1, v.2.x⟩ : PArr F)) = A := by
  rw [PyTree.ext_iff', PyTree.struct_tmap, PyTree.struct_tmap, PyTree.leaves_tmap, PyTree.leaves_tmap, List.map_map]
  exact ⟨rfl, by conv_rhs => rw [← List.map_id A.leaves]
                 rfl⟩

/-- A call that returns, taken apart. -/
theorem forwardLaplacianT_ok (reg : String → Option (Prim F)) (junk : List (PVal F) → PVal F) (t : ℚ) (fn : PyFn d F)
    {n : ℕ} (S : PyTree ℕ) (hs : S.leaves.sum = n) (x : Fin n → ℝ) (A K : PyTree (PArr F)) (hA : ArgsAt S x A)
    (W : Option (PyTree (LeafWeight F))) (Y : PyTree (PVal F))
    (h : forwardLaplacianT reg junk t fn W (A.tmap PVal.ofPlain) K = .ok Y) :
    ∃ tr ws, fn S (K.tmap fun a => a.1) = .ok tr ∧ weightsFor W S.leaves = .ok ws ∧ Y.struct = tr.out ∧
      forwardLaplacian reg junk t d tr.jaxpr tr.consts (.perArg (ws.map .array)) (plainArgs S.leaves x) = .ok Y.leaves := by
  unfold forwardLaplacianT at h
  dsimp only at h
  rw [ofPlain_tmap, argsAt_sizes hA] at h
  split at h
  · cases h
  rename_i tr htr
  have hl : (A.tmap PVal.ofPlain).leaves = plainArgs S.leaves x := by
    rw [PyTree.leaves_tmap, hA.2]; rfl
  rw [hl] at h
  split at h
  · cases h
  rename_i lapl hi
  split at h
  · cases h
  rename_i out ho
  obtain ⟨h1, h2⟩ := (PyTree.unflatten_iff _ _ _).mp h
  have hsz : (plainArgs S.leaves x : List (PVal F)).map (fun v => v.1) = S.leaves := by
    have := congrArg PyTree.leaves (argsAt_sizes hA)
    rw [PyTree.leaves_tmap, hA.2] at this
    unfold plainArgs
    rw [List.map_map]
    exact this
  have hpl : (plainArgs S.leaves x : List (PVal F)).any (fun v => v.2.isLapl) = false := by
    rw [List.any_eq_false]
    intro v hv
    obtain ⟨a, _, rfl⟩ := List.mem_map.mp hv
    simp [PVal.ofPlain, Opd.isLapl]
  cases hw : weightsFor W S.leaves with
  | error e =>
    exfalso
    obtain ⟨e', he'⟩ := initStateT_plain_error (decide (0 < threshold t ((plainArgs S.leaves x : List (PVal F)).map fun v => v.1).sum)) W
      (plainArgs S.leaves x : List (PVal F)) hpl e (by rw [hsz]; exact hw)
    rw [he'] at hi
    cases hi
  | ok ws =>
    refine ⟨tr, ws, htr, rfl, h1, ?_⟩
    have hws := weightsFor_arrays W S.leaves ws hw
    rw [initStateT_eq _ W _ (.perArg (ws.map .array)) (by rw [hsz, hw, hws])] at hi
    unfold forwardLaplacian
    dsimp only
    rw [hi]
    dsimp only
    rw [ho, h2]

/-- If the flattened function is transformed exactly then so is the nested one. -/
theorem exact_tree {n : ℕ} (w x : Fin n → ℝ) (fn : PyFn d F) (S : PyTree ℕ) (K : PyTree (PArr F)) (hK : K.leaves = [])
    (tr : Traced d F) (htr : fn S (K.tmap fun a => a.1) = .ok tr) (Y : PyTree (PVal F)) (hY : Y.struct = tr.out)
    (f : List (FArr (Fin n → ℝ) F)) (h1 : ∀ z, evalPlain d tr.jaxpr tr.consts (unflat S.leaves z) = .ok (f.map fun g => g.at z))
    (h2 : List.Forall₂ (ExactVal w x) Y.leaves f) :
    ∃ f : PyTree (FArr (Fin n → ℝ) F),
      (∀ z A, ArgsAt S z A → fn.apply A K = .ok (f.tmap fun g => g.at z)) ∧ Y.struct = f.struct ∧
      ∀ path v g, Y.at? path = some v → f.at? path = some g → ExactVal w x v g := by
  obtain ⟨ft, hft⟩ := PyTree.unflatten_total Y f h2.length_eq.symm
  obtain ⟨k1, k2⟩ := (PyTree.unflatten_iff _ _ _).mp hft
  refine ⟨ft, fun z A hA => ?_, k1.symm, ?_⟩
  · unfold PyFn.apply
    rw [argsAt_sizes hA, htr]
    dsimp only
    rw [hK, List.append_nil, hA.2]
    have := h1 z
    unfold evalPlain at this
    rw [this]
    dsimp only
    rw [PyTree.unflatten_iff, PyTree.struct_tmap, PyTree.leaves_tmap, k1, k2]
    exact ⟨hY, rfl⟩
  · rw [← k2] at h2
    exact (PyTree.forall₂_iff_paths _ Y ft k1.symm).mp h2

end Reduce

/-! ### Lengths -/

section Lengths

theorem zipLeaves_length {A B C : Type} (f : A → B → Except Err C) : ∀ (as : List A) (bs : List B) (cs : List C),
    zipLeaves f as bs = .ok cs → cs.length = as.length
  | [], [], cs, h => by
    obtain rfl := Except.ok.inj h
    rfl
  | [], _ :: _, _, h => by cases h
  | _ :: _, [], _, h => by cases h
  | a :: as, b :: bs, cs, h => by
    rw [zipLeaves] at h
    split at h
    · cases h
    split at h
    · cases h
    rename_i c hc r hr
    obtain rfl := Except.ok.inj h
    rw [List.length_cons, List.length_cons, zipLeaves_length f as bs r hr]

theorem initStateT_length {F : Type} [Zero F] [One F] (s : Bool) (W : Option (PyTree (LeafWeight F))) (args st : List (PVal F))
    (h : initStateT s W args = .ok st) : st.length = args.length := by
  unfold initStateT at h
  split at h
  · exact congrArg List.length (Except.ok.inj h).symm
  dsimp only at h
  split at h
  · cases h
  split at h
  · cases h
  split at h
  · split at h
    · cases h
    rw [zipLeaves_length _ _ _ _ h, List.length_map]
  · split at h
    · cases h
    split at h
    · cases h
    rw [zipLeaves_length _ _ _ _ h, List.length_map]

theorem readMany_length {V : Type} : ∀ (as : List (Atom V)) (s s' : EnvState V) (xs : List V),
    s.readMany as = .ok (xs, s') → xs.length = as.length
  | [], s, s', xs, h => by
    obtain ⟨rfl, -⟩ := Prod.mk.inj (Except.ok.inj h)
    rfl
  | a :: as, s, s', xs, h => by
    rw [EnvState.readMany] at h
    split at h
    · cases h
    split at h
    · cases h
    rename_i ys s2 h2
    obtain ⟨rfl, -⟩ := Prod.mk.inj (Except.ok.inj h)
    rw [List.length_cons, List.length_cons, readMany_length as _ _ _ h2]

theorem evalLapl_length {F : Type} [Zero F] (reg : String → Option (Prim F)) (junk : List (PVal F) → PVal F) (T d : ℕ)
    (j : Jaxpr (Op d F) (PArr F)) (consts : List (PArr F)) (args ys : List (PVal F))
    (h : evalLapl reg junk T d j consts args = .ok ys) : ys.length = j.outvars.length := by
  unfold evalLapl evalRC at h
  split at h
  · cases h
  split at h
  · cases h
  split at h
  · cases h
  rename_i zs s hz
  obtain rfl := Except.ok.inj h
  rw [readMany_length _ _ _ _ hz]
  exact List.length_map _

end Lengths

/-! ## C65 -/

section C65
variable {F : Type} [RCLike F] {d : ℕ}

/-- Keyword arguments with array leaves always make the call fail. -/
theorem kwargs_raise (reg : String → Option (Prim F)) (junk : List (PVal F) → PVal F) (t : ℚ) (fn : PyFn d F)
    (hfn : fn.WellTraced) (W : Option (PyTree (LeafWeight F))) (args : PyTree (PVal F)) (K : PyTree (PArr F))
    (hK : K.leaves ≠ []) : ∃ e, forwardLaplacianT reg junk t fn W args K = .error e := by
  unfold forwardLaplacianT
  dsimp only
  split
  · exact ⟨_, rfl⟩
  rename_i tr htr
  split
  · exact ⟨_, rfl⟩
  rename_i st hst
  have hl := initStateT_length _ _ _ _ hst
  have h1 := (hfn _ _ _ htr).1
  rw [PyTree.leaves_tmap, PyTree.leaves_tmap, PyTree.leaves_tmap, List.length_map, List.length_map, List.length_map] at h1
  obtain ⟨e, he⟩ := evalLapl_arity reg junk (threshold t (args.leaves.map fun v => v.1).sum).toNat tr.jaxpr tr.consts st (by
    have : 0 < K.leaves.length := List.length_pos_of_ne_nil hK
    omega)
  rw [he]
  exact ⟨e, rfl⟩

theorem weightsFor_none {n : ℕ} (sizes : List ℕ) (hn : sizes.sum = n) :
    weightsFor (F := F) none sizes = .ok (unflat sizes fun _ : Fin n => 1) := by
  unfold weightsFor weightTree
  rw [PyTree.pairUp, leaves_flat]
  have h := weights_absent (F := F) sizes hn
  unfold weightArrs at h
  dsimp only at h ⊢
  have key : ∀ (l : List ℕ), fullPairs (l.map fun b => ((LeafWeight.scalar 1 : LeafWeight F), b)) =
      fullAll (l.map fun _ => (LeafWeight.scalar 1 : LeafWeight F)) l := by
    intro l
    induction l with
    | nil => rfl
    | cons m l ih => rw [List.map_cons, List.map_cons, fullPairs, fullAll, ih]; rfl
  rw [key]
  exact h

/-- **C65 (nested arguments and results).**  Let `fn` take nested arguments (with sizes `S`) and return a nested result.
Whatever `forward_laplacian(fn, sparsity_threshold)(*args, **kwargs)` returns has the structure of the result of `fn`, and the
entry at every path holds value, Jacobian and Laplacian of the entry of `fn`'s result at the same path, with respect to all
numbers in the arguments, counted from leaf to leaf. -/
theorem C65_exact [Inhabited F] (reg : String → Option (Prim F)) (junk : List (PVal F) → PVal F) (t : ℚ) (fn : PyFn d F)
    (hfn : fn.WellTraced) {n : ℕ} (hn : 0 < n) (S : PyTree ℕ) (hs : S.leaves.sum = n) (x : Fin n → ℝ)
    (A K : PyTree (PArr F)) (hA : ArgsAt S x A)
    (hd : ∀ tr, fn S (K.tmap fun a => a.1) = .ok tr →
      ArrayProgramOk (decide (0 < threshold t n)) reg d tr.jaxpr tr.consts S.leaves x)
    (Y : PyTree (PVal F)) (h : forwardLaplacianT reg junk t fn none (A.tmap PVal.ofPlain) K = .ok Y) :
    ∃ f : PyTree (FArr (Fin n → ℝ) F),
      (∀ z A, ArgsAt S z A → fn.apply A K = .ok (f.tmap fun g => g.at z)) ∧ Y.struct = f.struct ∧
      ∀ path v g, Y.at? path = some v → f.at? path = some g → Correct x v g := by
  have hK : K.leaves = [] := by
    by_contra hK
    obtain ⟨e, he⟩ := kwargs_raise reg junk t fn hfn none (A.tmap PVal.ofPlain) K hK
    rw [he] at h
    cases h
  obtain ⟨tr, ws, h1, h2, h3, h4⟩ := forwardLaplacianT_ok reg junk t fn S hs x A K hA none Y h
  obtain rfl := Except.ok.inj (h2.symm.trans (weightsFor_none S.leaves hs))
  obtain ⟨f, k1, k2⟩ := C59_exact reg junk t hn S.leaves hs d tr.jaxpr tr.consts _ (fun _ => 1) x
    (weights_arrays S.leaves _) (hd tr h1) Y.leaves h4
  obtain ⟨f', e1, e2, e3⟩ := exact_tree (fun _ => 1) x fn S K hK tr h1 Y h3 f k1 k2
  exact ⟨f', e1, e2, fun path v g hv hg => correct_of_exact x v g (e3 path v g hv hg)⟩

/-- **C65 (the same for the functions of the default registry at any place of the run).** -/
theorem C65_registered (reg : String → Option (Prim ℝ)) (junk : List (PVal ℝ) → PVal ℝ) (t : ℚ) (fn : PyFn d ℝ)
    (hfn : fn.WellTraced) {n : ℕ} (hn : 0 < n) (S : PyTree ℕ) (hs : S.leaves.sum = n) (x : Fin n → ℝ)
    (A K : PyTree (PArr ℝ)) (hA : ArgsAt S x A)
    (hd : ∀ tr, fn S (K.tmap fun a => a.1) = .ok tr →
      RegisteredRun reg junk t d tr.jaxpr tr.consts .absent S.leaves x)
    (Y : PyTree (PVal ℝ)) (h : forwardLaplacianT reg junk t fn none (A.tmap PVal.ofPlain) K = .ok Y) :
    ∃ f : PyTree (FArr (Fin n → ℝ) ℝ),
      (∀ z A, ArgsAt S z A → fn.apply A K = .ok (f.tmap fun g => g.at z)) ∧ Y.struct = f.struct ∧
      ∀ path v g, Y.at? path = some v → f.at? path = some g → Correct x v g := by
  have hK : K.leaves = [] := by
    by_contra hK
    obtain ⟨e, he⟩ := kwargs_raise reg junk t fn hfn none (A.tmap PVal.ofPlain) K hK
    rw [he] at h
    cases h
  obtain ⟨tr, ws, h1, h2, h3, h4⟩ := forwardLaplacianT_ok reg junk t fn S hs x A K hA none Y h
  obtain rfl := Except.ok.inj (h2.symm.trans (weightsFor_none S.leaves hs))
  have hne : S.leaves ≠ [] := by
    intro hc
    rw [hc] at hs
    simp at hs
    omega
  have e : forwardLaplacian reg junk t d tr.jaxpr tr.consts .absent (plainArgs S.leaves x) = .ok Y.leaves := by
    unfold forwardLaplacian plainArgs at h4 ⊢
    dsimp only at h4 ⊢
    rw [initState_eq _ _ S.leaves hne hs (fun _ => 1) x (weights_arrays S.leaves _)] at h4
    rw [initState_eq _ _ S.leaves hne hs (fun _ => 1) x (weights_absent S.leaves hs)]
    exact h4
  obtain ⟨f, k1, k2⟩ := C51_sparse reg junk t hn S.leaves hs d tr.jaxpr tr.consts .absent (fun _ => 1) x
    (weights_absent S.leaves hs) (hd tr h1) Y.leaves e
  obtain ⟨f', e1, e2, e3⟩ := exact_tree (fun _ => 1) x fn S K hK tr h1 Y h3 f k1 k2
  exact ⟨f', e1, e2, fun path v g hv hg => correct_of_exact x v g (e3 path v g hv hg)⟩

/-- **C65 (returns).**  The nested call returns exactly if the call for the flattened function does: flattening and
unflattening never fail. -/
theorem C65_returns (reg : String → Option (Prim F)) (junk : List (PVal F) → PVal F) (t : ℚ) (fn : PyFn d F)
    (hfn : fn.WellTraced) {n : ℕ} (S : PyTree ℕ) (hs : S.leaves.sum = n) (x : Fin n → ℝ)
    (A K : PyTree (PArr F)) (hA : ArgsAt S x A) (tr : Traced d F) (htr : fn S (K.tmap fun a => a.1) = .ok tr) :
    (∃ Y, forwardLaplacianT reg junk t fn none (A.tmap PVal.ofPlain) K = .ok Y) ↔
      ∃ ys, forwardLaplacian reg junk t d tr.jaxpr tr.consts .absent (plainArgs S.leaves x) = .ok ys := by
  have ei : ∀ s : Bool, initStateT s none (plainArgs S.leaves x : List (PVal F)) = initState s .absent (plainArgs S.leaves x) := by
    intro s
    refine initStateT_eq s none _ .absent ?_
    rw [sizes_plainArgs (F := F), weightsFor_none S.leaves hs, weights_absent S.leaves hs]
  have hl : (A.tmap PVal.ofPlain).leaves = plainArgs S.leaves x := by
    rw [PyTree.leaves_tmap, hA.2]; rfl
  unfold forwardLaplacianT forwardLaplacian
  dsimp only
  rw [ofPlain_tmap, argsAt_sizes hA, htr, hl]
  dsimp only
  rw [ei]
  cases initState (decide (0 < threshold t ((plainArgs S.leaves x : List (PVal F)).map fun v => v.1).sum)) .absent
      (plainArgs S.leaves x : List (PVal F)) with
  | error e => simp
  | ok st =>
    dsimp only
    cases ho : evalLapl reg junk (threshold t ((plainArgs S.leaves x : List (PVal F)).map fun v => v.1).sum).toNat d tr.jaxpr
        tr.consts st with
    | error e => simp
    | ok ys =>
      refine iff_of_true ?_ ⟨ys, rfl⟩
      have hu : tr.out.struct = tr.out := PyTree.struct_unit _
      obtain ⟨u, hu'⟩ := PyTree.unflatten_total tr.out ys (by
        rw [evalLapl_length _ _ _ _ _ _ _ _ ho, (hfn _ _ _ htr).2])
      rw [hu] at hu'
      exact ⟨u, hu'⟩

end C65

/-! ## C66 -/

section C66
variable {F : Type} [RCLike F] {d : ℕ}

theorem pairUp_leaves_eq {α β : Type} (a : α) (s t : PyTree β) (h : s.leaves = t.leaves) :
    (PyTree.leaf a).pairUp s = (PyTree.leaf a).pairUp t := by
  rw [PyTree.pairUp, PyTree.pairUp, h]

/-- The weights of the code are the documented ones if there is a single weight or no argument is nested. -/
theorem weightsFor_doc (W : PyTree (LeafWeight F)) (S : PyTree ℕ) (V : PyTree (PArr F)) (hV : DocWeights W S V)
    (hflat : (∃ lw, W = .leaf lw) ∨ ∃ sizes : List ℕ, S = .node (sizes.map .leaf)) (ws : List (PArr F))
    (h : weightsFor (some W) S.leaves = .ok ws) : ws = V.leaves := by
  unfold weightsFor weightTree at h
  dsimp only at h
  have e : W.pairUp (.node (S.leaves.map .leaf)) = W.pairUp S := by
    rcases hflat with ⟨lw, rfl⟩ | ⟨sizes, rfl⟩
    · exact pairUp_leaves_eq lw _ _ (leaves_flat _)
    · rw [leaves_flat]
  rw [e] at h
  split at h
  · cases h
  rename_i l hl
  rw [pairUp_doc W S V hV l hl] at h
  exact (Except.ok.inj h).symm

/-- **C66 (weights), partial.**  If a single weight is given, or if every argument is an array (not a container), the entry at
every path of the result holds `wᵢ ∂ᵢ` and `∑ wᵢ² ∂ᵢ∂ᵢ` for the documented weights `w`.  The full statement drops `hflat`;
then it is false (`C66_wrong`, `C66_nested_raises`, `C66_count_raises`). -/
theorem C66_weights_partial [Inhabited F] (reg : String → Option (Prim F)) (junk : List (PVal F) → PVal F) (t : ℚ) (fn : PyFn d F)
    (hfn : fn.WellTraced) {n : ℕ} (hn : 0 < n) (S : PyTree ℕ) (hs : S.leaves.sum = n) (w x : Fin n → ℝ)
    (A K : PyTree (PArr F)) (hA : ArgsAt S x A) (W : PyTree (LeafWeight F)) (V : PyTree (PArr F)) (hV : DocWeights W S V)
    (hVw : V.leaves = unflat S.leaves w) (hflat : (∃ lw, W = .leaf lw) ∨ ∃ sizes : List ℕ, S = .node (sizes.map .leaf))
    (hd : ∀ tr, fn S (K.tmap fun a => a.1) = .ok tr →
      ArrayProgramOk (decide (0 < threshold t n)) reg d tr.jaxpr tr.consts S.leaves x)
    (Y : PyTree (PVal F)) (h : forwardLaplacianT reg junk t fn (some W) (A.tmap PVal.ofPlain) K = .ok Y) :
    ∃ f : PyTree (FArr (Fin n → ℝ) F),
      (∀ z A, ArgsAt S z A → fn.apply A K = .ok (f.tmap fun g => g.at z)) ∧ Y.struct = f.struct ∧
      ∀ path v g, Y.at? path = some v → f.at? path = some g → ExactVal w x v g := by
  have hK : K.leaves = [] := by
    by_contra hK
    obtain ⟨e, he⟩ := kwargs_raise reg junk t fn hfn (some W) (A.tmap PVal.ofPlain) K hK
    rw [he] at h
    cases h
  obtain ⟨tr, ws, h1, h2, h3, h4⟩ := forwardLaplacianT_ok reg junk t fn S hs x A K hA (some W) Y h
  obtain rfl := weightsFor_doc W S V hV hflat ws h2
  rw [hVw] at h4
  obtain ⟨f, k1, k2⟩ := C59_exact reg junk t hn S.leaves hs d tr.jaxpr tr.consts _ w x
    (weights_arrays S.leaves _) (hd tr h1) Y.leaves h4
  exact exact_tree w x fn S K hK tr h1 Y h3 f k1 k2

theorem weights_raise (reg : String → Option (Prim F)) (junk : List (PVal F) → PVal F) (t : ℚ) (fn : PyFn d F)
    (A K : PyTree (PArr F)) (W : PyTree (LeafWeight F)) (e : Err)
    (h : weightsFor (some W) (A.leaves.map fun a => a.1) = .error e) :
    ∃ e, forwardLaplacianT reg junk t fn (some W) (A.tmap PVal.ofPlain) K = .error e := by
  unfold forwardLaplacianT
  dsimp only
  split
  · exact ⟨_, rfl⟩
  rw [PyTree.leaves_tmap]
  obtain ⟨e', he'⟩ := initStateT_plain_error (decide (0 < threshold t ((A.leaves.map PVal.ofPlain).map fun v => v.1).sum)) (some W)
    (A.leaves.map PVal.ofPlain) (by
      rw [List.any_eq_false]
      intro v hv
      obtain ⟨a, _, rfl⟩ := List.mem_map.mp hv
      simp [PVal.ofPlain, Opd.isLapl]) e (by rw [List.map_map]; exact h)
  rw [he']
  exact ⟨e', rfl⟩

theorem pairUpAll_bad {α : Type} : ∀ (ws : List (PyTree α)) (sizes : List ℕ) (c : List (PyTree α)), PyTree.node c ∈ ws →
    ∃ e, PyTree.pairUpAll ws (sizes.map PyTree.leaf) = .error e
  | [], _, _, h => by simp at h
  | _ :: _, [], _, _ => ⟨.length, by simp [PyTree.pairUpAll]⟩
  | w :: ws, m :: sizes, c, h => by
    rw [List.map_cons, PyTree.pairUpAll]
    rcases List.mem_cons.mp h with rfl | h
    · exact ⟨.other, by rw [PyTree.pairUp]⟩
    · obtain ⟨e, he⟩ := pairUpAll_bad ws sizes c h
      split
      · exact ⟨_, rfl⟩
      · rw [he]
        exact ⟨e, rfl⟩

theorem pairUpAll_count {α : Type} : ∀ (ws : List (PyTree α)) (sizes : List ℕ), ws.length ≠ sizes.length →
    ∃ e, PyTree.pairUpAll ws (sizes.map PyTree.leaf) = .error e
  | [], [], h => absurd rfl h
  | [], _ :: _, _ => ⟨.length, by simp [PyTree.pairUpAll]⟩
  | _ :: _, [], _ => ⟨.length, by simp [PyTree.pairUpAll]⟩
  | w :: ws, m :: sizes, h => by
    rw [List.map_cons, PyTree.pairUpAll]
    obtain ⟨e, he⟩ := pairUpAll_count ws sizes (by simpa using h)
    split
    · exact ⟨_, rfl⟩
    · rw [he]
      exact ⟨e, rfl⟩

/-- **C66 (false for nested weights).**  A `weights` tuple containing a container — as it must to give different weights to the
parts of one nested argument — makes the call fail, for every function and all arrays. -/
theorem C66_nested_raises (reg : String → Option (Prim F)) (junk : List (PVal F) → PVal F) (t : ℚ) (fn : PyFn d F)
    (A K : PyTree (PArr F)) (ws c : List (PyTree (LeafWeight F))) (hc : PyTree.node c ∈ ws) :
    ∃ e, forwardLaplacianT reg junk t fn (some (.node ws)) (A.tmap PVal.ofPlain) K = .error e := by
  obtain ⟨e, he⟩ := pairUpAll_bad ws (A.leaves.map fun a => a.1) c hc
  refine weights_raise reg junk t fn A K _ e ?_
  unfold weightsFor weightTree
  dsimp only
  rw [PyTree.pairUp, he]

/-- **C66 (false for weights per argument).**  One weight per argument fails unless there are as many arguments as there are
leaves in all arguments together. -/
theorem C66_count_raises (reg : String → Option (Prim F)) (junk : List (PVal F) → PVal F) (t : ℚ) (fn : PyFn d F)
    (A K : PyTree (PArr F)) (ws : List (PyTree (LeafWeight F))) (hc : ws.length ≠ A.leaves.length) :
    ∃ e, forwardLaplacianT reg junk t fn (some (.node ws)) (A.tmap PVal.ofPlain) K = .error e := by
  obtain ⟨e, he⟩ := pairUpAll_count ws (A.leaves.map fun a => a.1) (by rwa [List.length_map])
  refine weights_raise reg junk t fn A K _ e ?_
  unfold weightsFor weightTree
  dsimp only
  rw [PyTree.pairUp, he]

/-- **C66 (keyword arguments are documented but always fail).**  If a keyword argument contains an array, the call fails for
every function and all arguments: `make_jaxpr` makes it an input of the jaxpr, which is then evaluated on the positional
arguments only. -/
theorem C66_kwargs_raise (reg : String → Option (Prim F)) (junk : List (PVal F) → PVal F) (t : ℚ) (fn : PyFn d F)
    (hfn : fn.WellTraced) (W : Option (PyTree (LeafWeight F))) (args : PyTree (PVal F)) (K : PyTree (PArr F))
    (path : List ℕ) (a : PArr F) (hK : K.at? path = some a) :
    ∃ e, forwardLaplacianT reg junk t fn W args K = .error e := by
  refine kwargs_raise reg junk t fn hfn W args K ?_
  intro hc
  have := (PyTree.forall₂_iff_paths (fun _ _ : PArr F => False) K K rfl).mp (by rw [hc]; exact .nil) path a a hK hK
  exact this

/-- **C66 (derivative-carrying inputs).**  If some argument already carries derivatives, `weights` are ignored. -/
theorem C66_ignored (reg : String → Option (Prim F)) (junk : List (PVal F) → PVal F) (t : ℚ) (fn : PyFn d F)
    (W W' : Option (PyTree (LeafWeight F))) (args : PyTree (PVal F)) (K : PyTree (PArr F))
    (h : ∃ v ∈ args.leaves, v.2.isLapl = true) :
    forwardLaplacianT reg junk t fn W args K = forwardLaplacianT reg junk t fn W' args K := by
  have e : ∀ s W, initStateT s W args.leaves = .ok args.leaves := by
    intro s W
    unfold initStateT
    rw [if_pos (List.any_eq_true.mpr h)]
  unfold forwardLaplacianT
  dsimp only
  rw [e, e]

end C66

/-! ### Examples -/

namespace EntryDemo

/-- `def f(p): (x, y), z = p; return {'a': (y,), 'b': x}` for arrays of sizes 2, 1 and 1, called with one nested argument. -/
noncomputable def fn : PyFn 0 ℝ := fun a k =>
  if a.leaves.length = 3 ∧ k.leaves.length = 0 then
    .ok ⟨⟨[], [0, 1, 2], [], [.var 1, .var 0]⟩, [], .node [.node [.leaf ()], .leaf ()]⟩
  else .error .type

theorem fn_traced : fn.WellTraced := by
  intro a k tr h
  unfold fn at h
  split at h
  · rename_i hc
    obtain rfl := Except.ok.inj h
    rw [hc.1, hc.2]
    exact ⟨rfl, by simp⟩
  · cases h

def sizes : PyTree ℕ := .node [.node [.node [.leaf 2, .leaf 1], .leaf 1]]

theorem sizes_leaves : sizes.leaves = [2, 1, 1] := by simp [sizes]

noncomputable def args (x : Fin 4 → ℝ) : PyTree (PArr ℝ) :=
  .node [.node [.node [.leaf ⟨2, fun p => coord x (0 + p)⟩, .leaf ⟨1, fun p => coord x (0 + 2 + p)⟩],
    .leaf ⟨1, fun p => coord x (0 + 2 + 1 + p)⟩]]

theorem args_at (x : Fin 4 → ℝ) : ArgsAt sizes x (args x) := by
  refine ⟨by simp [args, sizes], ?_⟩
  rw [sizes_leaves]
  simp [args, unflat, blocks]

theorem prog_ok (sp : Bool) (x : Fin 4 → ℝ) (tr : Traced 0 ℝ) (k : PyTree ℕ) (h : fn sizes k = .ok tr) :
    ArrayProgramOk sp Demo.reg 0 tr.jaxpr tr.consts sizes.leaves x := by
  unfold fn at h
  split at h
  · obtain rfl := Except.ok.inj h
    intro s hs
    exact trivial
  · cases h

theorem returns (junk : List (PVal ℝ) → PVal ℝ) (x : Fin 4 → ℝ) (t : ℚ) :
    ∃ Y, forwardLaplacianT Demo.reg junk t fn none ((args x).tmap PVal.ofPlain) (.node []) = .ok Y := by
  have htr : fn sizes ((PyTree.node ([] : List (PyTree (PArr ℝ)))).tmap fun a => a.1) =
      .ok ⟨⟨[], [0, 1, 2], [], [.var 1, .var 0]⟩, [], .node [.node [.leaf ()], .leaf ()]⟩ := by
    unfold fn
    rw [if_pos ⟨by rw [sizes_leaves]; rfl, by simp⟩]
  rw [C65_returns Demo.reg junk t fn fn_traced (n := 4) sizes (by rw [sizes_leaves]; rfl) x (args x) (.node []) (args_at x) _ htr]
  unfold forwardLaplacian plainArgs
  dsimp only
  rw [sizes_leaves, initState_eq (F := ℝ) (n := 4) (decide _) .absent [2, 1, 1] (by simp) rfl (fun _ => 1) x (weights_absent [2, 1, 1] rfl)]
  exact ⟨_, rfl⟩

/-- For every threshold, everywhere: the call returns a dictionary whose entry `a[0]` is the second part of the argument,
with derivative one in the direction of input number 2. -/
example (junk : List (PVal ℝ) → PVal ℝ) (x : Fin 4 → ℝ) (t : ℚ) :
    ∃ Y, forwardLaplacianT Demo.reg junk t fn none ((args x).tmap PVal.ofPlain) (.node []) = .ok Y ∧
      Y.struct = .node [.node [.leaf ()], .leaf ()] ∧
      ∃ f : PyTree (FArr (Fin 4 → ℝ) ℝ), (∀ z A, ArgsAt sizes z A → fn.apply A (.node []) = .ok (f.tmap fun g => g.at z)) ∧
        ∀ path v g, Y.at? path = some v → f.at? path = some g → Correct x v g := by
  obtain ⟨Y, hY⟩ := returns junk x t
  obtain ⟨f, h1, h2, h3⟩ := C65_exact Demo.reg junk t fn fn_traced (n := 4) (by omega) sizes (by rw [sizes_leaves]; rfl) x
    (args x) (.node []) (args_at x) (fun tr htr => prog_ok _ x tr _ htr) Y hY
  refine ⟨Y, hY, ?_, f, h1, h3⟩
  obtain ⟨tr, ws, k1, -, k3, -⟩ := forwardLaplacianT_ok Demo.reg junk t fn (n := 4) sizes (by rw [sizes_leaves]; rfl) x (args x)
    (.node []) (args_at x) none Y hY
  rw [k3]
  unfold fn at k1
  split at k1
  · rw [← Except.ok.inj k1]
  · cases k1

/-- Weights for the parts of the nested argument: `weights=(((2., 3.), 5.),)` is documented to work and fails. -/
example (junk : List (PVal ℝ) → PVal ℝ) (x : Fin 4 → ℝ) (t : ℚ) :
    (∃ V, DocWeights (.node [.node [.node [.leaf (.scalar 2), .leaf (.scalar 3)], .leaf (.scalar 5)]]) sizes V ∧
      V.leaves = (unflat [2, 1, 1] ![2, 2, 3, 5] : List (PArr ℝ))) ∧
    ∃ e, forwardLaplacianT Demo.reg junk t fn
      (some (.node [.node [.node [.leaf (.scalar 2), .leaf (.scalar 3)], .leaf (.scalar 5)]]))
      ((args x).tmap PVal.ofPlain) (.node []) = .error e := by
  refine ⟨⟨.node [.node [.node [.leaf ⟨2, fun _ => 2⟩, .leaf ⟨1, fun _ => 3⟩], .leaf ⟨1, fun _ => 5⟩]], ⟨by simp [sizes], ?_⟩, ?_⟩,
    C66_nested_raises Demo.reg junk t fn (args x) (.node []) _ _ (List.mem_singleton.mpr rfl)⟩
  · intro path m h
    match path with
    | [] => simp [sizes, PyTree.at?] at h
    | i :: p =>
      rw [sizes, PyTree.at?] at h
      match i with
      | 0 =>
        match p with
        | [] => simp [PyTree.at?] at h
        | 0 :: [] => simp [PyTree.at?] at h
        | 1 :: [] =>
          simp [PyTree.at?] at h
          subst h
          exact ⟨.scalar 5, fun _ => 5, by simp [PyTree.prefixAt], rfl, by simp [PyTree.at?]⟩
        | 0 :: 0 :: [] =>
          simp [PyTree.at?] at h
          subst h
          exact ⟨.scalar 2, fun _ => 2, by simp [PyTree.prefixAt], rfl, by simp [PyTree.at?]⟩
        | 0 :: 1 :: [] =>
          simp [PyTree.at?] at h
          subst h
          exact ⟨.scalar 3, fun _ => 3, by simp [PyTree.prefixAt], rfl, by simp [PyTree.at?]⟩
        | 0 :: (k + 2) :: q => simp [PyTree.at?] at h
        | 0 :: 0 :: b :: q => simp [PyTree.at?] at h
        | 0 :: 1 :: b :: q => simp [PyTree.at?] at h
        | 1 :: b :: q => simp [PyTree.at?] at h
        | (k + 2) :: q => simp [PyTree.at?] at h
      | k + 1 => simp at h
  · simp only [PyTree.leaves_node, PyTree.leaves_leaf, unflat, blocks, List.flatMap_cons, List.flatMap_nil, List.append_nil,
      List.cons_append, List.nil_append, List.cons.injEq, Sigma.mk.injEq, heq_eq_eq, true_and, and_true]
    refine ⟨?_, ?_, ?_⟩
    · funext p
      fin_cases p <;> simp [coord]
    · funext p
      fin_cases p
      simp [coord]
    · funext p
      fin_cases p
      simp [coord]

/-- `def g(p, q): return p[1]`, called with a pair of numbers and an empty tuple. -/
noncomputable def second : PyFn 0 ℝ := fun a k =>
  if a.leaves.length = 2 ∧ k.leaves.length = 0 then .ok ⟨⟨[], [0, 1], [], [.var 1]⟩, [], .leaf ()⟩ else .error .type

/-- Sizes of the arguments of `g((a, b), ())`. -/
def pairSizes : PyTree ℕ := .node [.node [.leaf 1, .leaf 1], .node []]

/-- The arguments `((x₀, x₁), ())`. -/
noncomputable def pairArgs (x : Fin 2 → ℝ) : PyTree (PArr ℝ) :=
  .node [.node [.leaf ⟨1, fun _ => x 0⟩, .leaf ⟨1, fun _ => x 1⟩], .node []]

end EntryDemo

open EntryDemo in
/-- **C66 (silently wrong).**  For `g((a, b), ())` with `weights=(2., 3.)` the documented weight of `b` is `2`, the weight of
the first argument; the Jacobian returned for `b` has the entry `3`. -/
theorem C66_wrong (reg : String → Option (Prim ℝ)) (junk : List (PVal ℝ) → PVal ℝ) (x : Fin 2 → ℝ) :
    ArgsAt pairSizes x (pairArgs x) ∧
    DocWeights (.node [.leaf (.scalar 2), .leaf (.scalar 3)]) pairSizes
      (.node [.node [.leaf ⟨1, fun _ => 2⟩, .leaf ⟨1, fun _ => 2⟩], .node []] : PyTree (PArr ℝ)) ∧
    ∃ T : Trip (Fin 1) ℝ, forwardLaplacianT reg junk 0 second (some (.node [.leaf (.scalar 2), .leaf (.scalar 3)]))
        ((pairArgs x).tmap PVal.ofPlain) (.node []) = .ok (.leaf ⟨1, .lapl T⟩) ∧
      T.jac.den 1 0 = 3 := by
  have hA : ArgsAt pairSizes x (pairArgs x) := by
    refine ⟨by simp [pairArgs, pairSizes], ?_⟩
    have : pairSizes.leaves = [1, 1] := by simp [pairSizes]
    rw [this]
    simp only [pairArgs, PyTree.leaves_node, PyTree.leaves_leaf, unflat, blocks, List.flatMap_cons, List.flatMap_nil, List.append_nil,
      List.cons_append, List.nil_append, List.cons.injEq, Sigma.mk.injEq, heq_eq_eq, true_and, and_true]
    refine ⟨?_, ?_⟩
    · funext p
      fin_cases p
      simp [coord]
    · funext p
      fin_cases p
      simp [coord]
  have hl : pairSizes.leaves = [1, 1] := by simp [pairSizes]
  refine ⟨hA, ⟨by simp [pairSizes], fun path m h => ?_⟩, ?_⟩
  · match path with
    | [] => simp [pairSizes, PyTree.at?] at h
    | 0 :: [] => simp [pairSizes, PyTree.at?] at h
    | 0 :: 0 :: [] =>
      simp [pairSizes, PyTree.at?] at h
      subst h
      exact ⟨.scalar 2, fun _ => 2, by simp [PyTree.prefixAt], rfl, by simp [PyTree.at?]⟩
    | 0 :: 1 :: [] =>
      simp [pairSizes, PyTree.at?] at h
      subst h
      exact ⟨.scalar 2, fun _ => 2, by simp [PyTree.prefixAt], rfl, by simp [PyTree.at?]⟩
    | 0 :: (k + 2) :: q => simp [pairSizes, PyTree.at?] at h
    | 0 :: 0 :: b :: q => simp [pairSizes, PyTree.at?] at h
    | 0 :: 1 :: b :: q => simp [pairSizes, PyTree.at?] at h
    | 1 :: [] => simp [pairSizes, PyTree.at?] at h
    | 1 :: b :: q => simp [pairSizes, PyTree.at?] at h
    | (k + 2) :: q => simp [pairSizes, PyTree.at?] at h
  · have htr : second pairSizes ((PyTree.node ([] : List (PyTree (PArr ℝ)))).tmap fun a => a.1) =
        .ok ⟨⟨[], [0, 1], [], [.var 1]⟩, [], .leaf ()⟩ := by
      unfold second
      rw [if_pos ⟨by rw [hl]; rfl, by simp⟩]
    have hpl : ((pairArgs x).tmap PVal.ofPlain).leaves = plainArgs [1, 1] x := by
      rw [PyTree.leaves_tmap, hA.2, hl]; rfl
    have hw : weightsFor (some (.node [.leaf (.scalar (2 : ℝ)), .leaf (.scalar 3)])) [1, 1] = .ok (unflat [1, 1] ![2, 3]) := by
      have : weightsFor (some (.node [.leaf (.scalar (2 : ℝ)), .leaf (.scalar 3)])) [1, 1] = .ok [⟨1, fun _ => 2⟩, ⟨1, fun _ => 3⟩] := by
        unfold weightsFor weightTree
        simp [PyTree.pairUp, PyTree.pairUpAll, fullPairs, LeafWeight.full]
      rw [this]
      simp only [unflat, blocks, Except.ok.injEq, List.cons.injEq, Sigma.mk.injEq, heq_eq_eq, true_and, and_true]
      refine ⟨?_, ?_⟩
      · funext p
        fin_cases p
        simp [coord]
      · funext p
        fin_cases p
        simp [coord]
    have hi : ∀ s : Bool, initStateT s (some (.node [.leaf (.scalar (2 : ℝ)), .leaf (.scalar 3)])) (plainArgs [1, 1] x) =
        .ok (initSpec s ![2, 3] x 0 [1, 1]) := by
      intro s
      rw [initStateT_eq s _ _ (.perArg ((unflat [1, 1] ![(2 : ℝ), 3]).map .array)) (by
        rw [sizes_plainArgs, hw, weights_arrays])]
      exact initState_eq s _ [1, 1] (by simp) rfl ![2, 3] x (weights_arrays _ _)
    have key : ∃ T : Trip (Fin 1) ℝ, evalLapl reg junk 0 0 ⟨[], [0, 1], [], [.var 1]⟩ [] (initSpec false ![2, 3] x 0 [1, 1] : List (PVal ℝ)) =
        .ok [⟨1, .lapl T⟩] ∧ T.jac.den 1 0 = 3 := by
      refine ⟨_, rfl, ?_⟩
      simp [Jac.den, coord]
    obtain ⟨T, h1, h2⟩ := key
    refine ⟨T, ?_, h2⟩
    unfold forwardLaplacianT
    dsimp only
    rw [ofPlain_tmap, argsAt_sizes hA, htr, hpl]
    dsimp only
    have ht : threshold 0 ((plainArgs [1, 1] x : List (PVal ℝ)).map fun v => v.1).sum = 0 := by
      unfold threshold pyInt
      simp
    rw [ht, hi]
    dsimp only
    have h0 : (0 : ℤ).toNat = 0 := rfl
    have hd : decide ((0 : ℤ) < 0) = false := rfl
    rw [h0, hd, h1]
    rfl

namespace EntryDemo

theorem second_traced : second.WellTraced := by
  intro a k tr h
  unfold second at h
  split at h
  · rename_i hc
    obtain rfl := Except.ok.inj h
    rw [hc.1, hc.2]
    exact ⟨rfl, by simp⟩
  · cases h

/-- Two arguments that are arrays, `weights=(2., 3.)`: the hypotheses of `C66_weights_partial` are met and the call returns. -/
example (junk : List (PVal ℝ) → PVal ℝ) (x : Fin 2 → ℝ) (t : ℚ) :
    ∃ Y, forwardLaplacianT Demo.reg junk t second (some (.node [.leaf (.scalar 2), .leaf (.scalar 3)]))
        ((PyTree.node [.leaf ⟨1, fun _ => x 0⟩, .leaf ⟨1, fun _ => x 1⟩]).tmap PVal.ofPlain) (.node []) = .ok Y ∧
      ∃ f : PyTree (FArr (Fin 2 → ℝ) ℝ), ∀ path v g, Y.at? path = some v → f.at? path = some g → ExactVal ![2, 3] x v g := by
  have hA : ArgsAt (.node [.leaf 1, .leaf 1]) x (.node [.leaf ⟨1, fun _ => x 0⟩, .leaf ⟨1, fun _ => x 1⟩] : PyTree (PArr ℝ)) := by
    refine ⟨by simp, ?_⟩
    simp only [PyTree.leaves_node, PyTree.leaves_leaf, unflat, blocks, List.flatMap_cons, List.flatMap_nil, List.append_nil,
      List.cons_append, List.nil_append, List.cons.injEq, Sigma.mk.injEq, heq_eq_eq, true_and, and_true]
    refine ⟨?_, ?_⟩
    · funext p
      fin_cases p
      simp [coord]
    · funext p
      fin_cases p
      simp [coord]
  have hl : (PyTree.node [.leaf 1, .leaf 1] : PyTree ℕ).leaves = [1, 1] := by simp
  have hu : (unflat [1, 1] ![(2 : ℝ), 3] : List (PArr ℝ)) = [⟨1, fun _ => 2⟩, ⟨1, fun _ => 3⟩] := by
    simp only [unflat, blocks, List.cons.injEq, Sigma.mk.injEq, heq_eq_eq, true_and, and_true]
    refine ⟨?_, ?_⟩
    · funext p
      fin_cases p
      simp [coord]
    · funext p
      fin_cases p
      simp [coord]
  have hw : weightsFor (some (.node [.leaf (.scalar (2 : ℝ)), .leaf (.scalar 3)])) [1, 1] = .ok (unflat [1, 1] ![2, 3]) := by
    rw [hu]
    unfold weightsFor weightTree
    simp [PyTree.pairUp, PyTree.pairUpAll, fullPairs, LeafWeight.full]
  have htr : second (.node [.leaf 1, .leaf 1]) ((PyTree.node ([] : List (PyTree (PArr ℝ)))).tmap fun a => a.1) =
      .ok ⟨⟨[], [0, 1], [], [.var 1]⟩, [], .leaf ()⟩ := by
    unfold second
    rw [if_pos ⟨by rw [hl]; rfl, by simp⟩]
  have hret : ∃ Y, forwardLaplacianT Demo.reg junk t second (some (.node [.leaf (.scalar 2), .leaf (.scalar 3)]))
        ((PyTree.node [.leaf ⟨1, fun _ => x 0⟩, .leaf ⟨1, fun _ => x 1⟩]).tmap PVal.ofPlain) (.node []) = .ok Y := by
    have hpl : ((PyTree.node [.leaf ⟨1, fun _ => x 0⟩, .leaf ⟨1, fun _ => x 1⟩] : PyTree (PArr ℝ)).tmap PVal.ofPlain).leaves = plainArgs [1, 1] x := by
      rw [PyTree.leaves_tmap, hA.2, hl]; rfl
    unfold forwardLaplacianT
    dsimp only
    rw [ofPlain_tmap, argsAt_sizes hA, htr, hpl]
    dsimp only
    rw [initStateT_eq _ _ _ (.perArg ((unflat [1, 1] ![(2 : ℝ), 3]).map .array)) (by rw [sizes_plainArgs, hw, weights_arrays])]
    unfold plainArgs
    rw [initState_eq (F := ℝ) (n := 2) (decide _) _ [1, 1] (by simp) rfl ![2, 3] x (weights_arrays _ _)]
    exact ⟨_, rfl⟩
  obtain ⟨Y, hY⟩ := hret
  obtain ⟨f, -, -, h3⟩ := C66_weights_partial Demo.reg junk t second second_traced (n := 2) (by omega) (.node [.leaf 1, .leaf 1]) (by rw [hl]; rfl)
    ![2, 3] x (.node [.leaf ⟨1, fun _ => x 0⟩, .leaf ⟨1, fun _ => x 1⟩]) (.node []) hA (.node [.leaf (.scalar 2), .leaf (.scalar 3)])
    (.node [.leaf ⟨1, fun _ => 2⟩, .leaf ⟨1, fun _ => 3⟩]) ⟨by simp, fun path m h => by
      match path with
      | [] => simp [PyTree.at?] at h
      | 0 :: [] =>
        simp [PyTree.at?] at h
        subst h
        exact ⟨.scalar 2, fun _ => 2, by simp [PyTree.prefixAt], rfl, by simp [PyTree.at?]⟩
      | 1 :: [] =>
        simp [PyTree.at?] at h
        subst h
        exact ⟨.scalar 3, fun _ => 3, by simp [PyTree.prefixAt], rfl, by simp [PyTree.at?]⟩
      | 0 :: b :: q => simp [PyTree.at?] at h
      | 1 :: b :: q => simp [PyTree.at?] at h
      | (k + 2) :: q => simp [PyTree.at?] at h⟩ (by rw [hl, hu]; simp) (.inr ⟨[1, 1], rfl⟩) (fun tr h => by
      unfold second at h
      split at h
      · obtain rfl := Except.ok.inj h
        intro s hs
        exact trivial
      · cases h) Y hY
  exact ⟨Y, hY, f, h3⟩

end EntryDemo

end Folx

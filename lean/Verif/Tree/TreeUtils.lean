import Verif.Tree.TreeProofs
import Verif.ND.Batch

/-!
# `tree_utils.py` on pytrees of row-major arrays

Arithmetic on leaves is modelled for equal shapes (`jnp` broadcasting between leaves is left out: it raises here).
-/

namespace Folx.TreeU

open Folx.Interp (Err)

mutual
/-- Comparison of tree structures. -/
def decEqT : (a b : PyTree Unit) → Decidable (a = b)
  | .leaf _, .leaf _ => isTrue rfl
  | .leaf _, .node _ => isFalse nofun
  | .node _, .leaf _ => isFalse nofun
  | .node as, .node bs =>
    match decEqL as bs with
    | isTrue h => isTrue (by rw [h])
    | isFalse h => isFalse fun e => h (PyTree.node.inj e)
/-- Comparison of lists of tree structures. -/
def decEqL : (as bs : List (PyTree Unit)) → Decidable (as = bs)
  | [], [] => isTrue rfl
  | [], _ :: _ => isFalse nofun
  | _ :: _, [] => isFalse nofun
  | a :: as, b :: bs =>
    match decEqT a b, decEqL as bs with
    | isTrue h, isTrue h' => isTrue (by rw [h, h'])
    | isFalse h, _ => isFalse fun e => h (List.cons.inj e).1
    | _, isFalse h => isFalse fun e => h (List.cons.inj e).2
end

instance : DecidableEq (PyTree Unit) := decEqT

variable {F : Type}

/-- Stop at the first failure. -/
def mapE {α β : Type} (f : α → Except Err β) : List α → Except Err (List β)
  | [] => .ok []
  | a :: as =>
    match f a with
    | .error e => .error e
    | .ok b =>
      match mapE f as with
      | .error e => .error e
      | .ok bs => .ok (b :: bs)

/-- `jtu.tree_map(f, t)`. -/
def treeMap {α β : Type} (f : α → Except Err β) (t : PyTree α) : Except Err (PyTree β) :=
  match mapE f t.leaves with
  | .error e => .error e
  | .ok ls => t.struct.unflatten ls

/-- `jtu.tree_map(lambda *xs: f(xs), t, *ts)`: the trees must have the same structure.  (JAX also accepts trees that
extend the first one; the leaf functions of folx raise on the containers they would then get.) -/
def treeMapN {α β : Type} (f : List α → Except Err β) (t : PyTree α)
    (ts : List (PyTree α)) : Except Err (PyTree β) :=
  if ∀ u ∈ ts, u.struct = t.struct then
    match mapE f (t.leaves.zipIdx.map fun p => p.1 :: ts.filterMap fun u => u.leaves[p.2]?) with
    | .error e => .error e
    | .ok ls => t.struct.unflatten ls
  else .error .type

/-- An elementwise binary operation of two arrays of the same shape. -/
def zipND (op : F → F → F) (a b : ND F) : Except Err (ND F) :=
  if h : a.shape = b.shape then .ok ⟨a.shape, List.zipWith op a.data b.data, by
    rw [List.length_zipWith, a.wf, b.wf, h, min_self]⟩
  else .error .shape

/-- `lambda a, b: op(a, b)` on a list of two leaves. -/
def zipLeaf (op : F → F → F) : List (ND F) → Except Err (ND F)
  | [a, b] => zipND op a b
  | _ => .error .type

section Ops
variable [Ring F]

/-- `tree_scale(tree, x)` (`tree_utils.py:11-12`) for a scalar `x`. -/
def treeScale (t : PyTree (ND F)) (x : F) : Except Err (PyTree (ND F)) := treeMap (fun a => .ok (a.map (· * x))) t

/-- `tree_shift(tree, x)` (`tree_utils.py:21-22`) for a scalar `x`. -/
def treeShift (t : PyTree (ND F)) (x : F) : Except Err (PyTree (ND F)) := treeMap (fun a => .ok (a.map (· + x))) t

/-- `tree_mul(tree, x)` (`tree_utils.py:15-18`) for a tree `x`. -/
def treeMul (t u : PyTree (ND F)) : Except Err (PyTree (ND F)) := treeMapN (zipLeaf (· * ·)) t [u]

/-- `tree_add(tree1, tree2)` (`tree_utils.py:25-28`) for a tree `tree2`. -/
def treeAdd (t u : PyTree (ND F)) : Except Err (PyTree (ND F)) := treeMapN (zipLeaf (· + ·)) t [u]

/-- `tree_sub(tree1, tree2)` (`tree_utils.py:31-32`). -/
def treeSub (t u : PyTree (ND F)) : Except Err (PyTree (ND F)) := treeMapN (zipLeaf (· - ·)) t [u]

/-- `jtu.tree_reduce(jnp.add, tree)`: `functools.reduce` from the left, raises on a tree without leaves. -/
def treeReduceAdd (t : PyTree F) : Except Err F :=
  match t.leaves with
  | [] => .error .type
  | a :: as => .ok (as.foldl (· + ·) a)

/-- `tree_sum(tree)` (`tree_utils.py:41-42`). -/
def treeSum (t : PyTree (ND F)) : Except Err F :=
  match treeMap (fun a => .ok a.data.sum) t with
  | .error e => .error e
  | .ok s => treeReduceAdd s

/-- `tree_dot(a, b)` (`tree_utils.py:35-38`). -/
def treeDot (t u : PyTree (ND F)) : Except Err F :=
  match treeMul t u with
  | .error e => .error e
  | .ok p =>
    match treeMap (fun a => .ok a.data.sum) p with
    | .error e => .error e
    | .ok s => treeReduceAdd s

/-- `tree_squared_norm(tree)` (`tree_utils.py:45-48`): `jnp.einsum('...,...->', x, x)` per leaf, without complex
conjugation. -/
def treeSquaredNorm (t : PyTree (ND F)) : Except Err F :=
  match treeMap (fun a => .ok (List.zipWith (· * ·) a.data a.data).sum) t with
  | .error e => .error e
  | .ok s => treeReduceAdd s

end Ops

/-- `x[lo:hi]` along the leading axis for `0 ≤ lo`, with Python's clamping; a scalar array raises. -/
def sliceRows (x : ND F) (lo hi : ℕ) : Except Err (ND F) :=
  match h : x.shape with
  | [] => .error .type
  | n :: rest => .ok ⟨(min hi n - lo) :: rest, (x.data.take (hi * rest.prod)).drop (lo * rest.prod), by
      rw [List.length_drop, List.length_take, x.wf, h, List.prod_cons, List.prod_cons, Nat.mul_min_mul_right,
        Nat.sub_mul]⟩

/-- `x[lo:]` along the leading axis. -/
def dropRowsE (x : ND F) (lo : ℕ) : Except Err (ND F) :=
  match x.shape with
  | [] => .error .type
  | _ :: _ => .ok (Batch.dropRows x lo)

/-- `tree_split(tree, sizes)` (`tree_utils.py:55-62`): the loop over `sizes` with running index, then the rest. -/
def treeSplitFrom (t : PyTree (ND F)) : ℕ → List ℕ → Except Err (List (PyTree (ND F)))
  | idx, [] =>
    match treeMap (fun x => dropRowsE x idx) t with
    | .error e => .error e
    | .ok r => .ok [r]
  | idx, s :: ss =>
    match treeMap (fun x => sliceRows x idx (idx + s)) t with
    | .error e => .error e
    | .ok r =>
      match treeSplitFrom t (idx + s) ss with
      | .error e => .error e
      | .ok rs => .ok (r :: rs)

/-- `tree_split(tree, sizes)` (`tree_utils.py:55-62`). -/
def treeSplit (t : PyTree (ND F)) (sizes : List ℕ) : Except Err (List (PyTree (ND F))) := treeSplitFrom t 0 sizes

/-- `jnp.concatenate(args, axis=0)`: raises on an empty list, scalars or different trailing shapes. -/
def concatList : List (ND F) → Except Err (ND F)
  | [] => .error .shape
  | [x] => if x.shape = [] then .error .shape else .ok x
  | x :: y :: ys =>
    match concatList (y :: ys) with
    | .error e => .error e
    | .ok r =>
      match Batch.concatRows x r with
      | none => .error .shape
      | some z => .ok z

/-- `tree_concat(trees, axis=0)` (`tree_utils.py:51-52`); without trees `tree_map` raises. -/
def treeConcat (ts : List (PyTree (ND F))) : Except Err (PyTree (ND F)) :=
  match ts with
  | [] => .error .type
  | t :: ts => treeMapN concatList t ts

/-- `x[i]` for one integer, which may be negative.  Out of bounds raises here (JAX clamps). -/
def rowE (x : ND F) (i : ℤ) : Except Err (ND F) :=
  match h : x.shape with
  | [] => .error .type
  | n :: rest =>
    let k := if i < 0 then i + n else i
    if hk : 0 ≤ k ∧ k < n then .ok ⟨rest, (x.data.drop (k.toNat * rest.prod)).take rest.prod, by
      have h1 : k.toNat < n := by omega
      rw [List.length_take, List.length_drop, x.wf, h, List.prod_cons, ← Nat.sub_mul]
      exact min_eq_left (Nat.le_mul_of_pos_left _ (Nat.sub_pos_of_lt h1))⟩
    else .error .shape

/-- `jnp.expand_dims(x, 0)`. -/
def expandE (x : ND F) : ND F := ⟨1 :: x.shape, x.data, by rw [x.wf, List.prod_cons, one_mul]⟩

/-- `tree_idx(tree, i)` (`tree_utils.py:65-66`) for one integer. -/
def treeIdx (t : PyTree (ND F)) (i : ℤ) : Except Err (PyTree (ND F)) := treeMap (fun x => rowE x i) t

/-- `tree_expand(tree, axis=0)` (`tree_utils.py:69-70`). -/
def treeExpand (t : PyTree (ND F)) : Except Err (PyTree (ND F)) := treeMap (fun x => .ok (expandE x)) t

/-- The indices that `tree_take` is called with in folx (`jvp.py:173-175`): `-1` and `slice(None, -1)`; any integer, and `slice(None, stop)` with a negative `stop`. -/
inductive TakeIdx where
  | int (i : ℤ)
  | upto (back : ℕ)

/-- `tree_take(tree, idx, axis=0)` (`tree_utils.py:73-82`): a slice is applied with Python's clamping, an integer by `jnp.take`. -/
def treeTake (t : PyTree (ND F)) : TakeIdx → Except Err (PyTree (ND F))
  | .int i => treeMap (fun x => rowE x i) t
  | .upto b => treeMap (fun x => sliceRows x 0 (x.shape.headD 0 - b)) t

end Folx.TreeU

import Verif.ND.WrapSpec
import Verif.ND.FirstRed

/-! # The inputs of `forward_laplacian` as arrays (`interpreter.py:222-253`) -/

namespace Folx.Layout
open Vmap Dot

section
variable {F : Type} [CommRing F] [Inhabited F]

/-- One leaf of the result of `init_forward_laplacian_state` (`interpreter.py:240-253`): the leaf `x` of the arguments takes the places `off, off + 1, ...` of the `n` elements of all
arguments (`unravel(np.arange(...))`); `w` is the weight of the leaf, broadcast to its shape. -/
def inputArr (sparsity : Bool) (n off : ℕ) (x w : ND F) : ArrTrip F :=
  if sparsity then ⟨x, ⟨ND.ofFn (1 :: x.shape) fun p => w.get p.tail, some (ND.ofFn (1 :: x.shape) fun p => ((off + ravelIdx x.shape p.tail : ℕ) : ℤ))⟩,
    ND.ofFn x.shape fun _ => 0⟩
  else ⟨x, ⟨ND.ofFn (n :: x.shape) fun p => if p.headD 0 = off + ravelIdx x.shape p.tail then w.get p.tail else 0, none⟩, ND.ofFn x.shape fun _ => 0⟩

end

section
variable {F : Type} [RCLike F] [Inhabited F]

/-- The inputs: a point of all `n` elements; direction `i` moves element `i` by its weight. -/
noncomputable def inputBase {n : ℕ} (x wt : Fin n → F) : Base (Fin n → F) := ⟨n, x, fun i => Pi.single i (wt i)⟩

/-- Elements `off, off + 1, ...` of the inputs. -/
noncomputable def inputPart {n off : ℕ} {s : List ℕ} (h : off + s.prod ≤ n) : (Fin n → F) →L[ℝ] (Fin s.prod → F) :=
  ContinuousLinearMap.pi fun c => ContinuousLinearMap.proj (R := ℝ) (φ := fun _ : Fin n => F) ⟨off + c, by omega⟩

theorem inputArr_rep (sparsity : Bool) {n off : ℕ} {s : List ℕ} (h : off + s.prod ≤ n) (h0 : 0 ∉ s) (x wt : Fin n → F) :
    ArrRep (inputBase x wt) s (inputArr sparsity n off (toND s (inputPart h x)) (toND s (inputPart h wt))) fun y => inputPart h y := by
  have hsx : (toND s (inputPart h x)).shape = s := rfl
  have hlt : ∀ p, InB p s → ravelIdx s p < s.prod := fun p hp => ravelIdx_lt hp
  have hdir : ∀ (i : Fin n) p, InB p s → (toND s (inputPart h ((inputBase x wt).dir i))).get p =
      if (i : ℕ) = off + ravelIdx s p then (toND s (inputPart h wt)).get p else 0 := by
    intro i p hp
    rw [toND_get _ _ hp, toND_get _ _ hp]
    show Pi.single (M := fun _ => F) i (wt i) ⟨off + ravelIdx s p, _⟩ = if _ then wt ⟨off + ravelIdx s p, _⟩ else 0
    by_cases e : (i : ℕ) = off + ravelIdx s p
    · rw [if_pos e]
      have : i = ⟨off + ravelIdx s p, by have := hlt p hp; omega⟩ := Fin.ext e
      rw [← this, Pi.single_eq_same]
    · rw [if_neg e, Pi.single_eq_of_ne]
      intro h'
      exact e (congrArg Fin.val h').symm
  have hlap : ∀ p, InB p s → (toND s (∑ i : Fin n, (0 : (Fin n → F) →L[ℝ] (Fin n → F) →L[ℝ] (Fin s.prod → F)) ((inputBase x wt).dir i) ((inputBase x wt).dir i))).get p = 0 := by
    intro p hp
    rw [toND_get _ _ hp]
    simp
  cases sparsity with
  | true =>
    refine ⟨⟨rfl, ⟨⟨1, rfl⟩, rfl, fun k p hk hp => ?_⟩, rfl, fun _ => Nat.one_pos, h0⟩, fun p hp => rfl, inputPart h, 0, HasFDeriv2At.linear _ _, fun i p hp => ?_, fun p hp => ?_⟩
    · have hk0 : k < 1 := hk
      have hin : InB (k :: p) (1 :: s) := List.Forall₂.cons hk0 hp
      have e : (ND.ofFn (1 :: s) fun p => ((off + ravelIdx s p.tail : ℕ) : ℤ)).get (k :: p) = ((off + ravelIdx s p : ℕ) : ℤ) := ND.get_ofFn _ hin
      have := hlt p hp
      refine ⟨?_, fun hneg => ?_⟩
      · refine e.trans_lt ?_
        show ((off + ravelIdx s p : ℕ) : ℤ) < (n : ℤ)
        omega
      · have : (ND.ofFn (1 :: s) fun p => ((off + ravelIdx s p.tail : ℕ) : ℤ)).get (k :: p) < 0 := hneg
        rw [e] at this
        omega
    · rw [hdir i p hp]
      have hin : InB (0 :: p) (1 :: s) := List.Forall₂.cons Nat.one_pos hp
      have e1 : (ND.ofFn (1 :: s) fun p => ((off + ravelIdx s p.tail : ℕ) : ℤ)).get (0 :: p) = ((off + ravelIdx s p : ℕ) : ℤ) := ND.get_ofFn _ hin
      have e2 : (ND.ofFn (1 :: s) fun p => (toND s (inputPart h wt)).get p.tail).get (0 :: p) = (toND s (inputPart h wt)).get p := ND.get_ofFn _ hin
      show ((List.range 1).map fun k => if (ND.ofFn (1 :: s) fun p => ((off + ravelIdx s p.tail : ℕ) : ℤ)).get (k :: p) = ((i : ℕ) : ℤ) then
        (ND.ofFn (1 :: s) fun p => (toND s (inputPart h wt)).get p.tail).get (k :: p) else 0).sum = _
      simp only [List.range_one, List.map_cons, List.map_nil, List.sum_cons, List.sum_nil, add_zero, e1, e2]
      by_cases e : (i : ℕ) = off + ravelIdx s p
      · rw [if_pos e, if_pos (by rw [e])]
      · rw [if_neg e, if_neg (by omega)]
    · exact (ND.get_ofFn _ hp).trans (hlap p hp).symm
  | false =>
    refine ⟨⟨rfl, ⟨⟨n, rfl⟩, le_rfl⟩, rfl, fun hc => absurd rfl hc, h0⟩, fun p hp => rfl, inputPart h, 0, HasFDeriv2At.linear _ _, fun i p hp => ?_, fun p hp => ?_⟩
    · rw [hdir i p hp]
      have hin : InB ((i : ℕ) :: p) (n :: s) := List.Forall₂.cons i.2 hp
      show (if (i : ℕ) < n then (ND.ofFn (n :: s) fun p => if p.headD 0 = off + ravelIdx s p.tail then (toND s (inputPart h wt)).get p.tail else 0).get ((i : ℕ) :: p) else 0) = _
      exact (if_pos i.2).trans (ND.get_ofFn _ hin)
    · exact (ND.get_ofFn _ hp).trans (hlap p hp).symm

end
end Folx.Layout

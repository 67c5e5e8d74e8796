import Mathlib.Algebra.BigOperators.Fin
import Mathlib.Analysis.Calculus.FDeriv.Basic
import Mathlib.Analysis.Normed.Operator.Basic
import Mathlib.Analysis.RCLike.Basic
import Mathlib.Analysis.Complex.Basic

/-!
# Model of `folx/ad.py` and of the three Hessian-trace strategies of `folx/hessian.py`

JAX's own transforms `jax.jvp`, `jax.vjp`, `jax.vmap` are external.  They are modelled by what JAX documents them
to compute: `jax.jvp` is the (real-linear) Fréchet derivative, `jax.vjp` is its transpose for the pairing
`Re ∑ aᵢ bᵢ`, `jax.vmap` of a function over the rows of an array applies it to each row.

`F`, `G` are `ℝ` or `ℂ` (`RCLike`): the dtypes of inputs and outputs.  Results of `folx.ad.vjp` and of what is
built on it may be complex although the inputs are real, so they are viewed in `ℂ` throughout.
-/

namespace Folx.AD

variable {F G : Type} [RCLike F] [RCLike G]

/-- `jnp.iscomplexobj` of an array with entries in `F` (`ad.py:7-9`). -/
def IsComplex (F : Type) [RCLike F] : Prop := (RCLike.I : F) ≠ 0

/-- A tuple of flattened arrays: `primals` of `ad.py`, one entry per leaf. -/
abbrev Tuple {k : ℕ} (size : Fin k → ℕ) (F : Type) := (j : Fin k) → Fin (size j) → F

/-- `jfu.ravel_pytree(primals)[0]`: concatenation of the leaves. -/
def ravel {k : ℕ} {size : Fin k → ℕ} (t : Tuple size F) : Fin (∑ j, size j) → F :=
  fun i => t (finSigmaFinEquiv.symm i).1 (finSigmaFinEquiv.symm i).2

/-- The second result of `jfu.ravel_pytree`. -/
def unravel {k : ℕ} {size : Fin k → ℕ} (x : Fin (∑ j, size j) → F) : Tuple size F :=
  fun j q => x (finSigmaFinEquiv ⟨j, q⟩)

/-- `jnp.eye(n)[i]`. -/
def eyeRow {n : ℕ} (i : Fin n) : Fin n → F := fun j => if j = i then 1 else 0

/-- `jax.jvp(f, (x,), (t,))[1]` (external). -/
noncomputable def jaxJvp {V W : Type} [NormedAddCommGroup V] [NormedSpace ℝ V] [NormedAddCommGroup W]
    [NormedSpace ℝ W] (f : V → W) (x t : V) : W := fderiv ℝ f x t

/-- `jax.vjp(f, x)[1](w)` (external): the array `c` with `Re ∑ cᵢ tᵢ = Re ∑ w_p (df t)_p` for all tangents `t`
(`jaxVjp_transpose`). -/
noncomputable def jaxVjp {n m : ℕ} (f : (Fin n → F) → Fin m → G) (x : Fin n → F) (w : Fin m → G) : Fin n → F :=
  fun i =>
    let g : F → ℝ := fun s => RCLike.re (∑ p, w p * jaxJvp f x (Pi.single i s) p)
    (g 1 : F) - RCLike.I * (g RCLike.I : F)

/-- `vjp_rc` (`ad.py:12-41`). -/
noncomputable def vjpRc {n m : ℕ} (f : (Fin n → F) → Fin m → G) (x : Fin n → F) (w : Fin m → G) : Fin n → ℂ :=
  let realFun : (Fin n → F) → Fin m → ℝ := fun z p => RCLike.re (f z p)
  let imagFun : (Fin n → F) → Fin m → ℝ := fun z p => RCLike.im (f z p)
  let vjpR := jaxVjp realFun x
  let vjpI := jaxVjp imagFun x
  let realTangents : Fin m → ℝ := fun p => RCLike.re (w p)
  let imagTangents : Fin m → ℝ := fun p => RCLike.im (w p)
  let vr_jr := vjpR realTangents
  let vi_jr := vjpR imagTangents
  let vr_ji := vjpI realTangents
  let vi_ji := vjpI imagTangents
  fun i => RCLike.map F ℂ (vr_jr i - vi_ji i) + Complex.I * RCLike.map F ℂ (vr_ji i + vi_jr i)

open Classical in
/-- `vjp` (`ad.py:44-59`): `vjp_rc` for real inputs and complex outputs, `jax.vjp` otherwise. -/
noncomputable def vjp {n m : ℕ} (f : (Fin n → F) → Fin m → G) (x : Fin n → F) (w : Fin m → G) : Fin n → ℂ :=
  if IsComplex F then
    if IsComplex G then fun i => RCLike.map F ℂ (jaxVjp f x w i)
    else fun i => RCLike.map F ℂ (jaxVjp f x w i)
  else
    if IsComplex G then vjpRc f x w
    else fun i => RCLike.map F ℂ (jaxVjp f x w i)

/-- `jacrev` (`ad.py:62-82`): one row per (flattened) output, each a tuple shaped like the primals.  (For a
single primal the code returns the only component of the tuple.) -/
noncomputable def jacrev {k l : ℕ} {size : Fin k → ℕ} {osize : Fin l → ℕ} (f : Tuple size F → Tuple osize G)
    (primals : Tuple size F) : Fin (∑ j, osize j) → Tuple size ℂ :=
  let flatF : (Fin (∑ j, size j) → F) → Fin (∑ j, osize j) → G := fun x => ravel (f (unravel x))
  let rows := fun p => vjp flatF (ravel primals) (eyeRow p)
  fun p => unravel (rows p)

/-- `jacfwd` (`ad.py:85-99`): `O` are the positions of the output, the new axis (flattened inputs) is last. -/
noncomputable def jacfwd {k : ℕ} {size : Fin k → ℕ} {O H : Type} [Fintype O] [NormedAddCommGroup H] [NormedSpace ℝ H]
    (f : Tuple size F → O → H) (primals : Tuple size F) : O → Fin (∑ j, size j) → H :=
  fun o k => jaxJvp f primals (unravel (eyeRow k)) o

/-- `hessian` (`ad.py:102-104`): `jacfwd(jacrev(f))`; output positions are (row, leaf, position in the leaf). -/
noncomputable def hessian {k l : ℕ} {size : Fin k → ℕ} {osize : Fin l → ℕ} (f : Tuple size F → Tuple osize G)
    (primals : Tuple size F) :
    Fin (∑ j, osize j) × (Σ j : Fin k, Fin (size j)) → Fin (∑ j, size j) → ℂ :=
  jacfwd (fun z (o : Fin (∑ j, osize j) × (Σ j : Fin k, Fin (size j))) => jacrev f z o.1 o.2.1 o.2.2) primals

/-! ### The three strategies (`hessian.py:40-70`), one flat argument and one flat result -/

/-- `trace_of_product` (`utils.py:47-53`): `einsum('...ij,...ij->...')`. -/
def traceOfProduct {O A B : Type} [Fintype A] [Fintype B] (m1 : O → A → B → ℂ) (m2 : A → B → ℂ) : O → ℂ :=
  fun o => ∑ i, ∑ j, m1 o i j * m2 i j

/-- A flat argument as a one-leaf tuple. -/
def single {n : ℕ} (x : Fin n → F) : Tuple (fun _ : Fin 1 => n) F := fun _ => x

/-- A flat function as a function of one-leaf tuples. -/
def lift1 {n m : ℕ} (f : (Fin n → F) → Fin m → G) : Tuple (fun _ : Fin 1 => n) F → Tuple (fun _ : Fin 1 => m) G :=
  fun t => single (f (t 0))

/-- Position `q` of the only leaf, in the flattened tuple. -/
def flat1 {n : ℕ} (q : Fin n) : Fin (∑ _j : Fin 1, n) := finSigmaFinEquiv (m := 1) (n := fun _ => n) ⟨0, q⟩

/-- `JHJ_via_hessian` (`hessian.py:40-43`); `grad2d` is `D × K`. -/
noncomputable def jhjViaHessian {n m K : ℕ} (f : (Fin n → F) → Fin m → G) (x : Fin n → F) (grad2d : Fin n → Fin K → F) :
    Fin m → ℂ :=
  let flatHessian : Fin m → Fin n → Fin n → ℂ :=
    fun p a b => hessian (lift1 f) (single x) (flat1 p, ⟨0, a⟩) (flat1 b)
  traceOfProduct flatHessian fun a b => RCLike.map F ℂ (∑ c, grad2d a c * grad2d b c)

/-- `JHJ_via_trace` (`hessian.py:46-59`). -/
noncomputable def jhjViaTrace {n m K : ℕ} (f : (Fin n → F) → Fin m → G) (x : Fin n → F) (grad2d : Fin n → Fin K → F) :
    Fin m → G :=
  let vjp : (Fin n → F) → (Fin m × Fin K) → G := fun z o => jaxJvp f z (fun a => grad2d a o.2) o.1
  let vhvp : Fin m → Fin K → Fin K → G := fun p c d => jaxJvp vjp x (fun a => grad2d a d) (p, c)
  fun p => ∑ c, vhvp p c c

/-- `JHJ_via_hvp` (`hessian.py:62-70`). -/
noncomputable def jhjViaHvp {n m K : ℕ} (f : (Fin n → F) → Fin m → G) (x : Fin n → F) (grad2d : Fin n → Fin K → F) :
    Fin m → ℂ :=
  let jr : (Fin n → F) → (Fin m × Fin n) → ℂ := fun z o => jacrev (lift1 f) (single z) (flat1 o.1) 0 o.2
  let HJ : Fin m → Fin n → Fin K → ℂ := fun p a c => jaxJvp jr x (fun b => grad2d b c) (p, a)
  traceOfProduct HJ fun a c => RCLike.map F ℂ (grad2d a c)

end Folx.AD

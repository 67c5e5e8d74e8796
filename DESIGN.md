# Formal model of microsoft/folx in Lean 4 — design

## Trusted base
* Lean 4.33.0's kernel. Every theorem may depend only on `propext`, `Classical.choice`, `Quot.sound`
  (Mathlib's standard axioms). No own axioms, no unfinished proofs, no compiled-code reflection.
* The reading of `/repo` into the definitions under `lean/Verif/` (each definition cites file and lines).
* External behaviour that is *assumed* (parameters of the model, never proved):
  - JAX primitives compute the mathematical function (exact real/complex arithmetic, no floating point);
  - `jax.jvp`, `jax.linearize`, `jax.vjp`, `jax.jacfwd/jacrev` return exact (Fréchet) derivatives;
  - `jax.vmap`, `lax.scan` have their documented meaning (per-element application, left fold);
  - numpy/jnp helpers (`unique`, `argmax`, `segment_sum`, `concatenate`, `broadcast_to`, `transpose`, `reshape`)
    have their documented meaning; `segment_sum` drops out-of-range ids.
* Not modelled: floating point, dtypes other than the keep/drop decision, jit compilation, XLA errors and the GPU→CPU retry
  in `find_out_idx`, logging *texts*, tracing mechanics of `make_jaxpr`, printing in `experimental/memory.py`.

## Shape of the model
1. **Position-level core.** An array of shape `s` is a function from a finite index type `P` to scalars. A sparse
   Jacobian is a list of rows, each giving per position an (index, value) pair (`x0_idx`, `data`); a dense one a list of rows.
   Rules of `jvp.py`/`hessian.py` are total functions on these with exceptions as values. The *denotation* of a
   Jacobian is the matrix `i ↦ p ↦ Σ entries with index i`.
2. **Calculus layer.** Inputs live in `Fin n → ℝ`; a triple *represents* a family `g` of arrays at a point if value, weighted
   directional derivatives and sum of second directional derivatives agree. Each rule preserves representation.
3. **Interpreter.** Jaxprs are untyped lists of equations over variables; environment with reference counts as in
   `interpreter.py`; nested `pjit` and `scan`.
4. **n-d layer.** Arrays with explicit shapes and row-major layout for the code whose content is index bookkeeping.
5. **Independent specs**: textbook partial derivatives, immutable environments, finite maps, numpy broadcasting by index.

## Per-property plan
| id | model | proof |
|----|-------|-------|
| C01 | interpreter over dense values | chain rule per equation, induction over equations / nesting |
| C02 | interpreter with threshold | every sparse rule refines the dense one (denotation), invariant on masks (`Prog/Good`); for runs: conditions on the operands each call meets (`Prog/Run`, `Props/RunProps`); counterexample programs in `Props/CounterProps` |
| C03 | corollary of exactness, and an algebraic version over any commutative ring | |
| C04, C05 | `init_forward_laplacian_state` on flattened arguments | line derivatives in direction `w_i e_i` |
| C06, C07 | reference-counted environment vs. immutable environment | invariant: counter = remaining reads |
| C08 | dispatch in the interpreter | case analysis + induction |
| C09 | flags as bit masks; Hessian dispatch | bit lemmas + bilinearity |
| C10 | three strategies over an arbitrary bilinear Hessian | sums over bases |
| C11–C15 | the five Jacobian rules | denotation lemmas |
| C16, C17 | `find_out_idx`, `construct_jac_for`, traces | sums over union/intersection |
| C18–C20 | custom Hessian rules | calculus / matrix algebra |
| C21, C22 | `FwdJacobian` methods | list sums |
| C23, C24 | `batched_vmap` on lists and on arrays with axes | list chunking lemmas |
| C25 | memory environment | invariant; counterexample for repeated operands |
| C26 | registry as association list, histories | refinement to a finite map |
| C27 | nested evaluation; textbook inlining `inlineAt` as separate spec | simulation with renaming, induction on the position of the call |
| C28–C29 | scan | induction on syntax and loop length |
| C30 | operators | calculus; disagreement shown by witness |
| C31 | `dot_general` on n-d arrays | index arithmetic |
| C32, C33 | ravel, split/merge | list lemmas |
| C34, C35 | vmap sequences, layout | n-d index lemmas |
| C36 | logger state machine | induction over nesting |
| C37, C45 | decision logic | case analysis |
| C38, C39 | complex layer | real-linear maps |
| C40, C47 | scatter, bilinear rule | counterexamples + partial theorem |
| C41 | custom rule dispatch | case analysis |
| C42 | representation theorem with arbitrary initial state | results of f without derivatives (counterexample); sparse: run conditions |
| C43 | threshold arithmetic over rationals | |
| C44 | calculus at smooth points | |
| C46 | invariant `Jac.Bounded` of all rules (Core/BoundsProofs), of all registered functions (Prog/Bounds: only the declared axes and indices matter, not smoothness), and of programs by induction along the run | scans: per-step outputs with sparse Jacobians excluded (C29) |
| C48 | tree utilities on lists of leaves | |
| C49 | `Prog/IndexOps`: operation = source index of each output index; `arr_index` | integer operands are integer values of the scalar field |
| C51 | `Prog/BuiltIn`: the registry as one inductive table of functions, domains, index operands; `Prog/BuiltInProofs` | induction over programs via C01/run theorem |
| C52 | `Core/ReturnProofs`, `Core/HessTotal`: when each rule returns; `Prog/Returns`, `ReturnLib`, `ReturnBuiltIn`: registered functions; invariant `Full` (every element of a sparse array stores an input) along the run (`Prog/ReturnRun`) | scans excluded; the raising situations are characterised in `Core/RaiseProofs` and `Prog/Raise` and shown for two programs of registered operations in `Props/RaiseProps` |
| C53, C54 | `ND/SumRule`, `ND/ReduceRule`: `sparse_sum_jvp` and the general branch of `sparse_jvp` on arrays with axes (transposes, reshapes, collapsed axes, block segment sums, mask broadcasting) | refinement to the position-level rules (`ND/SumRuleMain`, `ND/ReduceRuleMain`), then the statements in terms of array elements (`ND/RuleSpec`) |
| C55, C56 | `ND/Hess`: `vmapped_jac_hessian_jac`, `find_out_idx`, `merge_and_populate`, `remove_zero_entries`, `add_vmap_jacobian_dim` on arrays with axes, for any rule for one slice; `ND/HessSlice`: the general and the product rule | index lists and slices at every batch position (`ND/HessFind`, `ND/HessVmap`, `ND/HessDot`), then the slice rules by the position-level theorems (`ND/HessExact`); raising situations in `ND/HessRaise` |
| C57 | `ND/FirstRule`: `get_jvp_function` with `dense_jvp` (joint, split, elementwise), `sparse_diag_jvp`, `sparse_index_jvp`, `sparse_jvp`, `one_by_one_jvp`, `FwdJacobian.__add__`, `extend_jacobians`, `broadcast_dim` on arrays with axes; the derivative of the function at the point is any linear map | every rule maps the stored tangents (`ND/FirstProofs`, `ND/FirstDiag`, `ND/FirstIndex`); additions (`ND/FirstAdd`); reductions by C53 (`ND/FirstMain`); the loop over the arguments by induction (`ND/FirstOne`), where reductions never broadcast rows because the widest element has pairwise different indices (`ND/FirstRed`) |
| C58 | `ND/Wrap`: `new_fn` with `forward`, `jvp`, `jac_hessian_jac_trace` and `tree_add` on arrays with axes; `ND/WrapInput`: the arrays that `forward_laplacian` starts with | `ArrRep`: the arrays hold value, derivatives and Laplacian of a function of a real normed space; C57 for the first derivatives, C56 for the second-order term, the chain rule for second derivatives (`comp_exact`); which axes both rules see (`ND/WrapCase`); elementwise functions (`ND/WrapEw`), functions of slices (`ND/WrapRed`) and products (`ND/WrapProduct`) are instances for which nothing remains to be assumed but differentiability |
| C59 | `ND/CallSpec`: a call of an array function with operands with and without derivatives (`split_args`, `merge`, closure over the extras) as a primitive of the program model (`ArrFn.call`, `ArrFn.prim`); `ND/Convert`, `ND/Split`: position-level values as arrays and back | the rule for a call is `ArrFn.wrapped` of the function restricted to its active arguments (`ArrFn.restrict`); restriction preserves `Truthful` (`ND/CallProofs`); C58 for the restricted function; `ND/BigRows`: sparse Jacobians that arise in a run have fewer rows than the threshold allows for dense ones; then the induction over equations of C01 with `ArrGood` instead of `Good` |
| C60 | `AD/OffDiag` (`array_wise_flat_wrap` and the mixed Hessian block of functions linear in each of two arguments), `AD/General`: `flat_wrap`, the concatenated Jacobian, the choice of the strategy and unflattening, over the AD transforms of C39 | flattening is a linear bijection, so second directional derivatives carry over (`dirD_comp`); C10 for the flat function; the slice rule of `ND/HessSlice` (second derivative as a parameter) equals it (`C60_slice`) |
| C61 | `ND/ElemArr`: the 29 elementwise entries of the registry as array functions (`in_axes = ()`), `div_jac_hessian_jac` for one slice | declarations true on the domain (`elemTable_arr`, from Mathlib's derivatives), the custom rule is the second derivative of the quotient for each set of operands with derivatives (`div_trace1`, `div_trace2`), then C57 and C56 for calls with other arguments split off (`ND/CallMain`, `ND/CallTotal`) |
| C62 | the array-level primitives of C59 in programs; `ArrFn.NeverRaises` (`ND/CallReturns`): what rules out B32, B34 and B41 | every rule returns for operands that represent functions (`call_total`, `ArrTotal.returns`), with the invariant of the stored Jacobians carried along the run (`Prog/TotalInv`: the relational simulation of the plain run, for any invariant); exactness from C59 |
| C63 | relation "same form" (`Form/Spec`: sizes, kind, number of rows, mask); index operands must be the same in both runs, which is a static marking of variables (`Marked`) | two runs side by side: every helper, every first- and second-order rule, every registered function (`Form/Rules`, `Form/Second`, `Form/Prims`), the environment with reference counts, nested programs and scans (`Form/Prog`, `Form/Run`), the initial state (`Form/Init`) |
| C64 | `eval_scan` as written (`Interp/ScanTraced`: one check, `extract_jacobian_mask`, masks restored at the end; what `jax.lax.scan` does to masks is an arbitrary function that keeps the arrays) | equal to the scan of `Interp/Eval` by C63 for the body (`Form/Scan`) |
| C65, C66 | `Interp/Entry`: the transformed function on nested arguments (`tree_map`, `tree_leaves`, the `weights` tree against the flattened tuple, `unflatten`), tracing as a parameter with the contract of `make_jaxpr`; spec by paths (`Tree/Paths`: `at?`, `prefixAt`) | leaves of trees of equal structure are related iff they are related at every path (`forall₂_iff_paths`); reduction to the flattened function, then C59/C51; counterexamples for nested weights and keyword arguments |
| C67, C68 | the interpreter model with scans (`Interp/Eval`); side conditions `DomS`, `CountOk` (`Prog/ScanTotal`) | simulation of the plain run (as C01/C62), now with errors: every step returns or raises a scan error (`run_totalE`, `scanLoop_totalE`); C68 from C63 applied to the body |
| C69 | `reduce_max/min/prod`, `cumsum` as registered, on arrays of every shape (`ND/RedArr`) | the declarations (axes, LINEAR) proved true of the function (`redArr_truthful`, `pick_truthful`, `cumsumArr_truthful`), then C59; meaning by coordinates; the call raises exactly for sparse Jacobians without dependencies (`call_none_iff`, from `first_total`) |
| C70 | `dot_general` on arrays (`ND/DotArr`): `rearrange`, multiplication + sum, `dot_last`, all as array-level calls of C58 | each stage is a sound array-level call (`rearrArr_rep`, `mulSumArr_rep`, `dotLastArr_rep`); the composition is the contraction by C31's value theorem; then C59 |
| C71 | array programs with `slogdet`; `ArrGoodCall` (what a call of the run meets), `AnyGood` (what a function must be for Jacobians of any layout) | `call_any`: with a LINEAR_IN_ONE function or one operand the number of rows of a dense Jacobian does not matter (`restrict_second` has no cross terms to lose); `call_short`: all dense; then `evalLapl_run` with the invariant "sparse Jacobians have rows" |
| C72 | `ArrBuiltIn`: one table of all registered functions on arrays (all operations on Jacobians at array level): copies (`moveArr` from the index functions of C49), sums of elements (`addArr`, scatter_add), extremal elements (`bestArr`, scatter_max/min), reductions (C69), contractions (C70), elementwise (C61), slogdet, functions without derivatives | case by case: each entry is `ArrGood` (C59), `AnyGood` (C71), `ArrTotal` (C62) under the entry's condition; then C59, C71, C62 give the statements about programs. `Props/MoveValueProps.lean`: what the entries compute, with array indices, stated as existence of an entry of that name (`Registered`, `InTable` in `Props/TableProps.lean`) |
| C73 | `UsesOnly`: every equation, nested ones included, calls an entry of the table whose domain is everything | induction over the nesting: such programs meet the hypotheses of C72 at every input; the functions of C72 at two inputs agree, since plain evaluation determines them |
| C74 | results as arrays of their shape: `denseArr` (`dense_array`), `maskArr`, data, Laplacian; spec `ReadsOff` in terms of partial derivatives of the elements | array-level materialisation (C35) composed with C59/C71/C72; `C74_agree` ties the position-level `Jac.denseArray` to the array-level one, number of rows included |
| C75 | `Trip.toDense` (`FwdLaplArray.dense`), `ResultOp` (dense, real-linear maps), `Stage`/`runStages`: calls one after the other on results; `plainStages`: the plain functions one after the other | each operation keeps `Represents … filledInv` (C71's invariant, which short dense Jacobians satisfy); `C05_resume`; induction on the list of calls; `C75_same` by uniqueness of the represented functions |
| C50 | `Prog/LinearOps`: operation = list of combined elements; `arr_linear`, `axesRed` | |

## What is modelled
| /repo | model | not modelled |
|-------|-------|--------------|
| `folx/api.py` | `Core/Jac`, `ND/Layout` (materialize, construct, dense_array with axes), `Core/Flags` | pytree registration of the dataclasses |
| `folx/wrapper.py` on arrays | `ND/Wrap` (functions with one output array), `ND/WrapInput` | custom second-order rules and scatter functions (position level: `Core/Custom`, `Core/Scatter`), the final `astype` |
| `folx/jvp.py` | `ND/FirstRule` (all rules but scatter, on arrays with axes), `ND/SumRule`, `ND/ReduceRule` (sum and reduction rules with axes), `Core/Jvp` (all five rules, dispatch, one-by-one, scatter, segment branch), `ND/Batch` for `batched_jvp`-style vmaps | logging |
| `folx/hessian.py` | `ND/Hess`, `ND/HessSlice` (vectorised second-order term on arrays with axes), `Core/Hess` (three strategies, flags, out indices, batching by vmapped axes as positions) | GPU→CPU retry |
| `folx/custom_hessian.py` | `Core/Custom`, `Prog/Slogdet`, `Prog/CAbs` | |
| `folx/wrapped_functions.py` | `Prog/Std`, `Prog/StdLib`, `Prog/Kinds`, `Prog/DotGeneral`, `Prog/ScatterPrim`, `Prog/IndexOps`, `Prog/LinearOps`, `Registry/Dict` | elementwise entries in `elemTable`, array operations one by one with shapes and dimension numbers; gather in mode clip |
| `folx/interpreter.py` | `Interp/*` (scans twice: `Interp/Eval`, `Interp/ScanTraced`), `Prog/Interp` | `make_jaxpr` |
| `folx/ad.py` | `AD/Ad` | |
| `folx/operators.py` | `Prog/Operators` | |
| `folx/vmap.py` | `ND/Batch`, `ND/VmapSeq` | |
| `folx/tree_utils.py` | `Tree/TreeUtils` | |
| `folx/utils.py` | split between `Core/*`, `ND/*`, `Tree/*`, `Logging/Prefix` | |
| `folx/experimental/memory.py` | `Memory/Mem` | printing |

## Findings (behaviour of the code that contradicts a property; each proved in the model unless marked)
* `FwdJacobian.__add__` of two sparse Jacobians with different numbers of rows broadcasts (C15, C22).
* complex `abs` uses raw sparse storage in its Hessian rule (C20).
* scatter: operand derivatives leak, segment counts are used as indices, missing segments raise (C40). At program level: `x.at[0].set(x.sum())` with two inputs and `sparsity_threshold=0.5` gives ∂f₀/∂x₀ = 2 (C02_counterexample), and differs from threshold 0 (C03_counterexample).
* `scan` outputs: stacked Jacobian has the loop axis first (C29).
* `jac_jacT` computes `x @ y.T`, rows by rows, where the Hessian block is elements by elements: a function flagged `LINEAR_IN_ONE` raises or gets a wrong Laplacian, also on scalars, where `2 B (∑ᵢ∂ᵢx)(∑ⱼ∂ⱼy)` comes out (`einsum` stretches axes of length one) (C47).
* Loop / parallel Laplacian operators return the Hessian diagonal unsummed; the parallel one flattens `x` (C30).
* `memory.py` frees an operand twice if an equation repeats it; a jaxpr without equations reports peak 0 (C25).
* `pjit` of a user function whose name is registered is replaced by the registered rule (C27).
* `dot_general`'s fast path without transpositions is wrong outside a condition on the axes (C31).
* mixed sparse operands and short dense Jacobians give wrong traces (C17).
* `dense_array` may have fewer rows than the function has inputs (C21 states it up to trailing zeros).
* `weights` are matched against the *flattened* arguments, not against the arguments as documented: nested weights raise, and for
  `g((a, b), ())` with `weights=(2., 3.)` the array `b` gets weight 3 (C66). Keyword arguments containing arrays always raise (C66).
* re-entering the same `LoggingPrefix` object loses the handlers (C36).
* `auto_batched_vmap` raises at decoration on devices without memory statistics (C24).
* Composing two transformed functions: if the result of the first carries no derivatives (e.g. `sign`), the second takes it
  for a fresh input, so that the result of `identity ∘ sign` has Jacobian 1 (C42_counterexample).
* A function registered with `in_axes` whose output has axes of its own after the kept ones (softmax-like functions along the last
  axis): the masks are broadcast from the back, so the Jacobian is wrong if the shapes happen to fit and the rule raises otherwise
  (C54). `in_axes` given per argument (two or more tuples) raises for one sparse argument (C54).
* The vectorised second-order term, with sparsity kept (C55): raises if arguments without derivatives have batch axes that the others do not have; a
  dot product raises if exactly one batch position has common inputs, and if positions are left out and a batch axis has size 1.
* Its result is laid out with the batch axes first: a function registered with `in_axes` in front of the batch axes and output axes of its own gets its
  second-order terms at the wrong elements, and a dot product registered along an axis other than the last gets those of the last axis (C54).
* Not proved, seen by reading: keyword arguments to the transformed function raise; `batched_vmap` with all `in_axes=None` or
  `max_batch_size=0` raises; `tree_add` of a multi-output Laplacian with a skipped Hessian mismatches the structure.

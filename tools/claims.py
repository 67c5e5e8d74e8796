claim("C06","proved",["Interp.C06_refcount_never_loses_values","Interp.C06_bound_is_tight"])
claim("C07","proved",["Interp.C07_stored_intermediates_are_live"])
claim("C11","proved",["C11_elementwise"])
claim("C12","proved",["C12_indexing"])
claim("C13","proved",["C13_sum","C13_sum_total"])
claim("C14","proved",["C14_reduction","C14_reduction_total"])
claim("C15","partial",["C15_combination_partial","C15_single","C15_counterexample"],
  "Excluded: >=3 arguments with two sparse elementwise ones and a dense one, where FwdJacobian.__add__ broadcasts (counterexample proved); scatter functions (C40).")
claim("C20","partial",["C20_formula_partial","C20_meaning_partial","C20_returns","C20_counterexample","absPull_spec"],
 "Value, derivatives and Laplacian of |z| for every dense Jacobian and every sparse Jacobian that stores no index twice at a position; also in terms of true derivatives (Holds) and inside whole programs (Good.cabs, sparsity disabled). For sparse Jacobians with repeated indices the statement is false: C20_counterexample (1 + i x + i flip(x), produced by the addition rule).")
claim("C21","proved",["C21_dense_array","C21_dense_array_total","C21_construct_sparse","C21_construct_dense"])
claim("C22","partial",["C22_add_partial","C22_add_doubles","C22_add_drops","C22_add_raises"],
  "The full property is false: broadcasting of the row axis doubles/drops entries and incompatible row counts raise (proved by witness).")
claim("C09","proved",["C09_skip","C09_exact","C09_flags","C09_flags_separate"])
claim("C10","proved",["C10_strategies_agree","C10_choice_invisible","C10_complex_to_real","C10_transforms_real","C10_transforms_holomorphic","C10_transforms_complex_to_real"],
  "The C10_transforms theorems are about the strategies as programs built from jvp, jacrev and hessian (folx/ad.py).")
claim("C16","proved",["C16_mul","C16_dot","C16_shared","C16_disjoint","C16_total"])
claim("C17","partial",["C17_union","C17_union_indices","C17_total","C17_mixed_partial","C17_counterexample"],
  "Proved for sparse arguments without restriction. Mixtures with dense arguments: proved when dense Jacobians have >= T rows or one per input (an invariant of the first-order rules); false for shorter ones (counterexample proved).")
claim("C18","proved",["C18_both","C18_denominator","C18_numerator","divRule2_exact","divRule1_exact"])
claim("C41","proved",["C41_custom","C41_not_called"])
claim("C47","partial",["C47_scalar_partial","C47_scalar_value","C47_counterexample","C47_scalar_counterexample","C47_shape_error","C47_one_row","C47_product_stretched","C47_product_stretched'"],
  "The full property is false: it raises on a size mismatch (C47_shape_error), returns a wrong value on vectors (C47_counterexample) and on scalars (C47_scalar_value gives the exact value returned, C47_scalar_counterexample); only the case with at most one reduced Jacobian row is exact.")
claim("C32","proved",["C32_unravel_ravel","C32_ravel_unravel","C32_blocks","C32_rejects"])
claim("C33","proved",["C33_identity","C33_replacement","C33_pointwise","C33_partition"])
claim("C01","proved",["C01_dense_exact","C01_dense_total"])
claim("C02","partial",["C02_sparse_exact_partial","C02_run_exact_partial","C02_counterexample"],"The property is false of the code (counterexample proved: x.at[0].set(x.sum()) with threshold 0.5). Missing with sparsity enabled: wrapped functions with >=3 derivative-carrying operands of which one is elementwise, traced (non-static) indices, scatter -- where the code is wrong (C15, C17, C40) -- and totality of the sparse rules.")
claim("C03","partial",["C03_threshold_invisible_partial","C03_run_partial","C03_counterexample"],"The property is false of the code (counterexample proved, same function). Same restriction as C02. Missing with sparsity enabled: wrapped functions with >=3 derivative-carrying operands of which one is elementwise, traced (non-static) indices, scatter -- where the code is wrong (C15, C17, C40) -- and totality of the sparse rules.")
claim("C04","partial",["C04_weights","C04_weights_sparse_partial","C04_run_exact_partial","C04_counterexample"],"False of the code with sparsity enabled, whatever the weights (C04_counterexample: x.at[0].set(x.sum()), threshold 0.5). The *_run_* theorems cover every program and every primitive (slogdet, complex abs, scatter, traced indices, any operand count) with sparsity on, provided no equation of the run meets a known defect (GoodCall). Full with sparsity disabled (the default); with sparsity enabled restricted as C02.")
claim("C05","proved",["C05_identity","C05_resume"])
claim("C08","proved",["C08_equation","C08_wrapped","C08_program"])
claim("C27","proved",["C27_forward","C27_anywhere","C27_inline","C27_transparent","C27_registered","Demo.C27_counterexample"],
  "Inlining a call of an unregistered jitted function anywhere (top level, inside jitted functions, inside loop bodies, any depth) changes nothing; a registered name gets the registered rule. Consequence proved as counterexample: a user function whose name collides with a registered one is replaced.")
claim("C28","proved",["C28_meaning","C28_carry","C28_loop","C28_rejects","C28_only_errors","C28_accepts"])
claim("C29","partial",["C29_outputs_partial","C29_stacked_partial","C29_shape","Demo.C29_counterexample"],
  "The property is false: the Jacobian of stacked outputs has the step axis first (counterexample proved); values and Laplacians are stacked rightly.")
claim("C42","partial",["C42_compose","C42_compose_sparse_partial","C42_run_partial","C42_registered_partial","C42_counterexample"],"False of the code as stated: if the result of f carries no derivatives, g is differentiated with respect to the intermediate value (C42_counterexample). Otherwise full with sparsity disabled; with sparsity for runs that hit no known defect (C42_run_partial) and for registered functions without defective sparse rules (C42_registered_partial).")
claim("C43","proved",["C43_fraction","C43_absolute","C43_enabled"])
claim("C46","proved",["C46_program","C46_resume","C46_rows_sum","C46_rows_prod","C46_rows_max","C46_rows_min","C46_rows","C13_sum","C14_reduction"],"For all programs of registered functions (scatter included) and of wrapped functions with true axis declarations, at all points, also where results are wrong or not differentiable (the derivative is then the value 0 of fderiv; jvpRule_bounded treats any derivative table). Excluded: per-step outputs of scans with sparse Jacobians, which are malformed (C29). A function with k reduced operands keeps k times threshold rows.")
claim("C37","proved",["C37_inexact","C37_components","C37_discrete","C37_discrete_exact"],
  "Rounding of narrower floating types is not modelled: values are reals/complexes; conversion is the real part / truncation / truth test / identity on them.")
claim("C38","proved",["C38_real","C38_imag","C38_conj","C38_value"])
claim("C44","proved",["C44_abs","C44_max","C44_min","C44_reduce_max","C44_reduce_min","C44_reduce_max_value","C44_locally_linear","Demo.C44_abs_kink"],
  "Includes a proof that at the kink of abs no derivative exists, so the restriction is needed.")
claim("C45","proved",["C45_plain","C45_exact","C45_domains"])
claim("C23","proved",["Batch.C23_batched_vmap","Batch.C23_meaning"],
  "Arguments and results are modelled below the leaves of in_axes/out_axes; jax.vmap and lax.scan are trusted primitives given by their slicewise meaning.")
claim("C24","proved",["Batch.C24_auto_batched_vmap","Batch.C24_batch_size","Batch.C24_no_statistics"],
  "target_mem is a rational; on a device without memory statistics the decorator raises (proved separately, outside the property).")
claim("C26","proved",["Registry.C26_lookup","Registry.C26_is_registered","Registry.C26_failure"])
claim("C36","proved",["Log.C36_restores","Log.C36_inside","Log.C36_reentry_counterexample"],
  "For a context object not re-entered inside itself (folx creates a new one per with); re-entry loses the handlers, shown by the counterexample.")
claim("C48","proved",["TreeU.C48_leafwise","TreeU.C48_products","TreeU.C48_split_concat","TreeU.C48_pieces","TreeU.C48_idx_expand","TreeU.C48_take"],
  "Leaf arithmetic for equal shapes (or a scalar); concatenation along axis 0, the default.")
claim("C25","partial",["Mem.C25_counter_partial","Mem.C25_peak_partial","Mem.C25_peak_ge","Mem.C25_counterexample","Mem.C25_no_equations"],
  "Counter = size of stored values only if no equation repeats an operand; otherwise bytes are subtracted twice (counterexample proved) and the reported peak is a lower bound of the true one (proved for all jaxprs).")
claim("C34","proved",["Vmap.C34_broadcast","Vmap.C34_meaning","Vmap.C34_slice","Vmap.C34_incompatible","Vmap.C34_canonicalize"],
  "Arguments as the list of leaves with their canonical in_axes; jax.vmap is a trusted primitive given by its slicewise meaning.")
claim("C35","proved",["Layout.C35_materialize","Layout.C35_same_shape","Layout.C35_static_irrelevant","Layout.C35_construct","Layout.C35_dense_array"],
  "segment_sum, vmap, transpose and reshape are trusted primitives given by their index-level meaning; arrays with an empty axis raise in the code and are excluded.")
claim("C31","partial",["C31_general_value","C31_fast_value_partial","C31_rule_dense","C31_returns","C31_rule_sparse_partial","C31_counterexample_order","C31_counterexample_shape","C31_counterexample_rank","C31_counterexample_merge","contraction_matmul"],
  "Complete for the general path and the transposing fast path (values, Jacobians, Laplacians); the special case of the fast path without transpositions is wrong outside the stated condition (counterexamples proved). Arrays without elements are excluded.")
claim("C39","proved",["C39_vjp_real_to_complex","C39_vjp_other","C39_jacrev","C39_jacrev_holomorphic","C39_jacfwd","C39_hessian","C39_hessian_holomorphic","AD.jaxVjp_transpose"],
  "jax.vjp / jax.jvp / jax.vmap are trusted and modelled by their meaning (real transpose of the Frechet derivative).")
claim("C30","partial",["C30_loop_partial","C30_parallel_partial","C30_forward","C30_operators_partial","C30_counterexample_laplacian","C30_counterexample_parallel"],
  "False as stated: the loop and parallel operators return the unsummed Hessian diagonal, and the parallel one applies the function to the flattened array (both proved). Gradients agree and the sum of the diagonal is the forward Laplacian (proved, sparsity disabled).")
claim("C19","proved",["C19_real","C19_complex","C19_meaning_real","C19_meaning_complex","C19_returns","mats_apply"],
  "jnp.linalg.inv and jnp.linalg.slogdet are Mathlib's inverse and determinant (exact arithmetic); 0x0 matrices excluded. Holds for every stored form of the Jacobian and every threshold.")
claim("C40","partial",["C40_partial","C40_leak","C40_leak_iff","C40_operand","C40_updates","C40_returns","C40_counterexample_leak","C40_counterexample_count","C40_counterexample_raises"],
  "False as stated: with a sparse operand and dense updates the operand's derivatives stay at overwritten elements, and the segment rule drops derivatives stored twice for one element or raises if the last element is not written (all proved). Exact in every other combination of representations.")
claim("C49","proved",["C49_reshape","C49_broadcast_in_dim","C49_slice","C49_transpose","C49_squeeze","C49_rev","C49_concatenate","C49_dynamic_slice","C49_select_n","C49_gather","C49_take","C49_returns"],
  "Arrays without elements excluded; gather in mode clip (other modes agree when every slice fits); select_n of three or more scalar cases excluded (there C15 fails).")
claim("C50","proved",["C50_reduce_sum","C50_reduce_prod","C50_reduce_max","C50_reduce_min","C50_cumsum","C50_scatter_add","C50_add_at","C50_scatter_extremal"],
  "Arrays without elements excluded; maxima and minima at points without ties; scatter with operand and updates of rank at least 1.")
claim("C51","proved",["C51_dense","C51_sparse"],
  "Real operands, no empty arrays; scans and complex operations excluded (C28, C29, C20). With sparsity: indices known at trace time, rank >= 1 operands for scatter_add/max/min, dot_general outside the wrong fast path (C31).")
claim("C52","proved",["C52_returns","C52_registered","C52_exact","C52_raises","C52_clash_raises"],
  "Programs without scan, real operands for the registered form, no empty arrays. The conditions are those in the statement (structure Tame); C52_returns has the finer conditions SafeCall; for calls with at most two derivative-carrying operands those are necessary too (Std.call_returns_iff). C52_raises and C52_clash_raises: programs of registered operations that raise outside the conditions.")

claim("C53","proved",["Layout.C53_sum","Layout.C53_reduction"],
  "Arrays with elements and at least one stored row; resolved axes for the sum. Derived from the refinements Layout.sparseSumArr_refines and Layout.sparseReduceArr_refines of the position-level rules.")
claim("C54","partial",["Layout.C53_reduction","Layout.C54_masks_at_back","Layout.C54_shape_raises","Layout.C54_nested_raises","Layout.C54_counterexample","Layout.C56_general","Layout.C56_layout_counterexample","Layout.C56_dot_axis_counterexample"],
  "False as stated: index masks are matched with the last axes of the output (C54_masks_at_back), so a function with output axes of its own at the back gets wrong derivatives (C54_counterexample) or raises (C54_shape_raises); per-argument axes raise (C54_nested_raises). True if the kept axes are the last axes of the output (C53_reduction). The second-order term is exact if the batch axes come first in the output (C56_general), otherwise it can be put at wrong elements (C56_layout_counterexample), and dot products along an axis other than the last are wrong (C56_dot_axis_counterexample).")
claim("C55","proved",["Layout.C55_sparse","Layout.C55_dense","Layout.C55_empty","Layout.C55_dot","Layout.C55_dot_one_raises","Layout.C55_extras_raise","Layout.C55_size_one_raises","Layout.C55_size_one_raises'"],
  "For every rule for one slice (a parameter whose output shape depends on shapes only). Arrays with elements; one output array. The size-1 raising situation is shown for two concrete calls.")
claim("C56","proved",["Layout.C56_general","Layout.C56_custom","Layout.C56_product","Layout.C56_dot"],
  "jax's nested derivatives of one slice are a parameter (any second derivative); the ring is commutative, no complex conjugation. Arrays with elements; one output array. The rule for functions linear in each of two arguments that are not products (jac_jacT) is C47.")
claim("C57","proved",["Layout.C57_dense","Layout.C57_elementwise","Layout.C57_index","Layout.C57_single","Layout.C57_mixed","Layout.C57_sound","Layout.C57_two_sparse","Layout.C57_two_sparse_raises","Layout.C57_repeated_rows_wrong"],
  "The derivative of the function at the point is an arbitrary linear map (jax.jvp, jax.linearize, jax.vmap trusted by meaning). One output array, arrays with elements; scatter functions are C40. Sums of several sparse arguments of SUMMATION functions (reduce_sum has one argument) and of three or more sparse arguments of non-reductions next to dense ones are outside C57_sound.")
claim("C58","proved",["Layout.C58_input","Layout.C58_linear","Layout.C58_sum","Layout.C58_axes","Layout.C58_general","Layout.C58_elementwise","Layout.C58_one","Layout.C58_function","Layout.C58_reduction","Layout.C58_mul","Layout.C58_times","Layout.C58_plus","Layout.C58_dot","Layout.C58_inner"],
  "One output array, arrays with elements; value and derivatives of the function (jax) are parameters, assumed to be its derivatives at the point. Mixed dense and sparse arguments of non-linear functions: under the conditions of C58_general; dot products under those of C58_dot. Second-order rules of two arguments need the batch axes first in the output (else C54). Scatter functions, custom rules and functions that are linear in each argument but no products are modelled at position level only.")
claim("C59","proved",["C59_exact","C59_correct","C59_total","C59_threshold"],
  "Functions are declared truthfully (structure Truthful: derivatives are those of jax, flags such as LINEAR, INDEXING, MULTIPLICATION, DOT_PRODUCT true of the function, axes fit); with sparsity also SparseSafe (the conditions of C58 on combinations of dense and sparse arguments). One output array per array function; arrays with elements. Totality with sparsity is C52 at position level.")
claim("C60","proved",["C60_real","C60_holomorphic","C60_complex_to_real","C60_slice","C60_mixed_block","C60_mixed_block_arrays","C60_off_diag"],
  "From jax.jvp and jax.vjp, which are trusted and modelled by their meaning; arrays flattened row by row. C60_slice: the slice rule of the array-level model (C56, C58, C59) is this program. C60_mixed_block/C60_off_diag: the block that jax.jacfwd(jax.jacrev(f, 0), 1) computes for functions linear in each of two arguments, and that the rule of C47 contracts it.")
claim("C61","proved",["Layout.C61_exact","Layout.C61_dense","Layout.C61_returns","Layout.C61_programs"],
  "Real operands, arrays with elements, values in the domain of the function (ElemEntry.dom; e.g. denominators not 0, base of pow positive). jax's first and second derivatives of the scalar function are the true ones. Jacobians as they arise in programs (arrInv: a sparse one has a row, a dense one has at least as many rows as inputs or the threshold). div_jac_hessian_jac is modelled on one slice; complex abs is C20.")
claim("C62","proved",["C62_correct","C62_indexing","C62_sum","C62_elementwise"],
  "Programs without scan; arrays with elements; n > 0 inputs. Functions of ArrTotal: array functions declared truthfully that meet NeverRaises (elementwise registry entries, sums, indexing of one array are shown to), functions constant near the point, real-linear functions of every element. A variable is read at most 2^31-1 times (C06).")
claim("C63","proved",["C63_program","C63_forward","C63_builtIn","C63_correct"],
  "C63_correct: real operands and the functions of the table BuiltIn; C63_program and C63_forward: any rules whose own form is static. Index operands of indexing functions must not depend on the inputs (static marking; literals, constants and what is computed from them). What jax.lax.scan makes of per-step outputs with derivatives is assumed to have a form that depends on theirs only (JunkStable; true of the model stackedY). Function and weights are the same in both runs.")
claim("C64","proved",["C64_correct"],
  "The trace-time check of jax.lax.scan that the carry keeps its shapes is part of the one check. Per-step outputs with derivatives are handed to the same unspecified stacking in both (C29).")
claim("C65","proved",["C65_exact","C65_registered","C65_returns"],
  "Containers are modelled by their children in order (tuple/list/dict not distinguished). Tracing is the contract of jax.make_jaxpr and jax.eval_shape (WellTraced: one input variable per leaf, one output per leaf of the result). No weights (C66), arguments without derivatives; conditions on the traced program as in C59 or C51.")
claim("C66","partial",["C66_weights_partial","C66_nested_raises","C66_count_raises","C66_wrong","C66_kwargs_raise","C66_ignored"],
  "Proved for a single weight, or arguments that are arrays. False otherwise: weights are matched against the flattened arguments, so weights inside an argument raise (C66_nested_raises), one weight per argument raises unless there are as many arguments as leaves (C66_count_raises), and then may go to the wrong array (C66_wrong: g((a, b), ()) with weights=(2., 3.)). A keyword argument with an array always raises (C66_kwargs_raise). Weights are ignored if an argument carries derivatives (C66_ignored).")
claim("C67","proved",["C67_correct","C67_dense"],
  "Programs with scans, nested or not. C67_correct: array-level functions that never raise (ArrTotal, C62), every threshold. C67_dense: every function with correct rules that do not raise, sparsity disabled. For a reversed scan the body must also be defined for the initial carry and the slices of step 0, with which eval_scan evaluates it before the loop (DomS). Scans with per-step outputs are excluded (C29), and scans of length 0.")
claim("C68","proved",["C68_once","C68_length"],
  "For bodies whose form is static (C63: OpStable for every equation, at most the scan's constants used as indices).")
claim("C69","proved",["C69_prod","C69_prod_value","C69_cumsum","C69_cumsum_value","C69_max","C69_min","C69_max_value","C69_min_value","C69_prod_raises","C69_cumsum_raises","C69_max_raises","C69_min_raises"],
  "ArrGood is what C59 demands of every function of a program, so the theorems compose with C59_exact/C59_correct (example: jnp.prod(jnp.exp(x), axis=1)). C69_*_raises: a call raises exactly if the Jacobian is sparse and no element depends on an input (B32); examples of both. Ties of max/min are excluded: the function is not differentiable there. Zero-size axes are excluded.")
claim("C70","proved",["C70_rule_dense","C70_rule_sparse","C70_returns","C70_good","contraction_matmul"],
  "The specification is Dot.contraction (batch, left free, right free dimensions; contraction_matmul reads it for matrices). C70_good is what C59 demands of a function of a program, so it composes with C59_correct/C59_total (example: jnp.exp(x) @ x). With sparse Jacobians: results with an axis of size 1 are excluded (B9: such calls can raise), and the fast-path cases of B20, where the code is wrong (C31_counterexample_*).")
claim("C71","proved",["C71_run_exact","C71_run_correct","C71_run_threshold","C71_run_of_program","C71_exact","C71_correct","C71_threshold"],
  "C71_exact/correct/threshold: hypotheses on the plain evaluation only (AnyGood), every threshold. C71_run_*: hypotheses on the calls of the run (ArrGoodCall), weaker; C71_run_of_program: every program of the first kind meets them. Example: exp(log|det(exp(x))|) for a (2, 2) array. Contractions as in C70 (B9, B20 excluded).")
claim("C72","proved",["C72_exact","C72_correct","C72_short","C72_returns","Layout.C72_inside","Layout.C72_move_value","Layout.C72_reshape","Layout.C72_broadcast_in_dim","Layout.C72_slice","Layout.C72_transpose","Layout.C72_squeeze","Layout.C72_rev","Layout.C72_dynamic_slice","Layout.C72_concatenate","Layout.C72_select_n","Layout.C72_select_n_scalar","Layout.C72_gather","Layout.C72_elementwise_value","Layout.C72_sum_value","Layout.C72_matmul_value","Layout.C72_table_elementwise","Layout.C72_table_sum","Layout.C72_table_prod","Layout.C72_table_max","Layout.C72_table_min","Layout.C72_table_cumsum","Layout.C72_table_scatter_add","Layout.C72_table_scatter_max","Layout.C72_table_scatter_min","Layout.C72_table_move","Layout.C72_table_dot","Layout.C72_table_slogdet","Layout.C72_scatter_add_value","Layout.C72_scatter_max_value","Layout.C72_scatter_min_value","Layout.C72_good","Layout.C72_any","Layout.C72_total","Layout.ArrBuiltIn.sp_of_ret"],
  "The table is ArrBuiltIn (Verif/ND/BuiltInArr.lean). With sparsity, per entry: dot_general as in C70 (B9, B20), concatenate and select_n of at most two arrays, scatter_add/max/min of non-scalars, slogdet only by C72_short; C72_returns with sparsity: elementwise functions whose operands have the shape of the result up to leading axes (or are linear), sums, copies of one array. Index operands are parameters of the entry (they carry no derivatives). Real operands; abs/conj/real/imag of complex numbers (C20), scatter (C40), discrete types (C37) are not in the table. Arrays with elements.")
claim("C73","proved",["C73_exact","C73_short","C73_everywhere"],
  "UsesOnly looks at the program, not at a run: it asks of every function of the program, nested ones included, that it is an entry of ArrBuiltIn whose domain is everything; a jitted function with a registered name must compute what the registered function computes (C27), scan bodies return their carry only (C29). Example: jnp.tanh(y @ y.T).sum() with y = x.reshape(2, 2), every input, every threshold.")
claim("C74","proved",["Layout.C74_read","Layout.C74_agree","C74_program","C74_all_rows","C74_short","C74_default"],
  "ReadsOff states what is read off the arrays (row-major layout of the position-level triple, jacArr/tripArr); its right-hand sides are partial derivatives of the elements of the shaped result. Conditions on programs as in C59 (C74_program), C71 (C74_short) and C72 (C74_default).")
claim("C75","proved",["C75_dense","C75_dense_returns","C75_pipeline","C75_same","C75_programs"],
  "plainStages is the specification: evalPlain of each program on the (mapped) earlier results. Conditions: C71's on each run (C75_pipeline, C75_same) or on the plain evaluation only (C75_programs); StagesCarry: each later call gets an argument with derivatives (otherwise C42's finding applies).")

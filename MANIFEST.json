{
 "claims": [
  {
   "property": "C01",
   "status": "proved",
   "theorems": [
    "Folx.C01_dense_exact",
    "Folx.C01_dense_total"
   ],
   "note": ""
  },
  {
   "property": "C02",
   "status": "partial",
   "theorems": [
    "Folx.C02_sparse_exact_partial",
    "Folx.C02_run_exact_partial",
    "Folx.C02_counterexample"
   ],
   "note": "The property is false of the code (counterexample proved: x.at[0].set(x.sum()) with threshold 0.5). Missing with sparsity enabled: wrapped functions with >=3 derivative-carrying operands of which one is elementwise, traced (non-static) indices, scatter -- where the code is wrong (C15, C17, C40) -- and totality of the sparse rules."
  },
  {
   "property": "C03",
   "status": "partial",
   "theorems": [
    "Folx.C03_threshold_invisible_partial",
    "Folx.C03_run_partial",
    "Folx.C03_counterexample"
   ],
   "note": "The property is false of the code (counterexample proved, same function). Same restriction as C02. Missing with sparsity enabled: wrapped functions with >=3 derivative-carrying operands of which one is elementwise, traced (non-static) indices, scatter -- where the code is wrong (C15, C17, C40) -- and totality of the sparse rules."
  },
  {
   "property": "C04",
   "status": "partial",
   "theorems": [
    "Folx.C04_weights",
    "Folx.C04_weights_sparse_partial",
    "Folx.C04_run_exact_partial",
    "Folx.C04_counterexample"
   ],
   "note": "False of the code with sparsity enabled, whatever the weights (C04_counterexample: x.at[0].set(x.sum()), threshold 0.5). The *_run_* theorems cover every program and every primitive (slogdet, complex abs, scatter, traced indices, any operand count) with sparsity on, provided no equation of the run meets a known defect (GoodCall). Full with sparsity disabled (the default); with sparsity enabled restricted as C02."
  },
  {
   "property": "C05",
   "status": "proved",
   "theorems": [
    "Folx.C05_identity",
    "Folx.C05_resume"
   ],
   "note": ""
  },
  {
   "property": "C06",
   "status": "proved",
   "theorems": [
    "Folx.Interp.C06_refcount_never_loses_values",
    "Folx.Interp.C06_bound_is_tight"
   ],
   "note": ""
  },
  {
   "property": "C07",
   "status": "proved",
   "theorems": [
    "Folx.Interp.C07_stored_intermediates_are_live"
   ],
   "note": ""
  },
  {
   "property": "C08",
   "status": "proved",
   "theorems": [
    "Folx.C08_equation",
    "Folx.C08_wrapped",
    "Folx.C08_program"
   ],
   "note": ""
  },
  {
   "property": "C09",
   "status": "proved",
   "theorems": [
    "Folx.C09_skip",
    "Folx.C09_exact",
    "Folx.C09_flags",
    "Folx.C09_flags_separate"
   ],
   "note": ""
  },
  {
   "property": "C10",
   "status": "proved",
   "theorems": [
    "Folx.C10_strategies_agree",
    "Folx.C10_choice_invisible",
    "Folx.C10_complex_to_real",
    "Folx.C10_transforms_real",
    "Folx.C10_transforms_holomorphic",
    "Folx.C10_transforms_complex_to_real"
   ],
   "note": "The C10_transforms theorems are about the strategies as programs built from jvp, jacrev and hessian (folx/ad.py)."
  },
  {
   "property": "C11",
   "status": "proved",
   "theorems": [
    "Folx.C11_elementwise"
   ],
   "note": ""
  },
  {
   "property": "C12",
   "status": "proved",
   "theorems": [
    "Folx.C12_indexing"
   ],
   "note": ""
  },
  {
   "property": "C13",
   "status": "proved",
   "theorems": [
    "Folx.C13_sum",
    "Folx.C13_sum_total"
   ],
   "note": ""
  },
  {
   "property": "C14",
   "status": "proved",
   "theorems": [
    "Folx.C14_reduction",
    "Folx.C14_reduction_total"
   ],
   "note": ""
  },
  {
   "property": "C15",
   "status": "partial",
   "theorems": [
    "Folx.C15_combination_partial",
    "Folx.C15_single",
    "Folx.C15_counterexample"
   ],
   "note": "Excluded: >=3 arguments with two sparse elementwise ones and a dense one, where FwdJacobian.__add__ broadcasts (counterexample proved); scatter functions (C40)."
  },
  {
   "property": "C16",
   "status": "proved",
   "theorems": [
    "Folx.C16_mul",
    "Folx.C16_dot",
    "Folx.C16_shared",
    "Folx.C16_disjoint",
    "Folx.C16_total"
   ],
   "note": ""
  },
  {
   "property": "C17",
   "status": "partial",
   "theorems": [
    "Folx.C17_union",
    "Folx.C17_union_indices",
    "Folx.C17_total",
    "Folx.C17_mixed_partial",
    "Folx.C17_counterexample"
   ],
   "note": "Proved for sparse arguments without restriction. Mixtures with dense arguments: proved when dense Jacobians have >= T rows or one per input (an invariant of the first-order rules); false for shorter ones (counterexample proved)."
  },
  {
   "property": "C18",
   "status": "proved",
   "theorems": [
    "Folx.C18_both",
    "Folx.C18_denominator",
    "Folx.C18_numerator",
    "Folx.divRule2_exact",
    "Folx.divRule1_exact"
   ],
   "note": ""
  },
  {
   "property": "C19",
   "status": "proved",
   "theorems": [
    "Folx.C19_real",
    "Folx.C19_complex",
    "Folx.C19_meaning_real",
    "Folx.C19_meaning_complex",
    "Folx.C19_returns",
    "Folx.mats_apply"
   ],
   "note": "jnp.linalg.inv and jnp.linalg.slogdet are Mathlib's inverse and determinant (exact arithmetic); 0x0 matrices excluded. Holds for every stored form of the Jacobian and every threshold."
  },
  {
   "property": "C20",
   "status": "partial",
   "theorems": [
    "Folx.C20_formula_partial",
    "Folx.C20_meaning_partial",
    "Folx.C20_returns",
    "Folx.C20_counterexample",
    "Folx.absPull_spec"
   ],
   "note": "Value, derivatives and Laplacian of |z| for every dense Jacobian and every sparse Jacobian that stores no index twice at a position; also in terms of true derivatives (Holds) and inside whole programs (Good.cabs, sparsity disabled). For sparse Jacobians with repeated indices the statement is false: C20_counterexample (1 + i x + i flip(x), produced by the addition rule)."
  },
  {
   "property": "C21",
   "status": "proved",
   "theorems": [
    "Folx.C21_dense_array",
    "Folx.C21_dense_array_total",
    "Folx.C21_construct_sparse",
    "Folx.C21_construct_dense"
   ],
   "note": ""
  },
  {
   "property": "C22",
   "status": "partial",
   "theorems": [
    "Folx.C22_add_partial",
    "Folx.C22_add_doubles",
    "Folx.C22_add_drops",
    "Folx.C22_add_raises"
   ],
   "note": "The full property is false: broadcasting of the row axis doubles/drops entries and incompatible row counts raise (proved by witness)."
  },
  {
   "property": "C23",
   "status": "proved",
   "theorems": [
    "Folx.Batch.C23_batched_vmap",
    "Folx.Batch.C23_meaning"
   ],
   "note": "Arguments and results are modelled below the leaves of in_axes/out_axes; jax.vmap and lax.scan are trusted primitives given by their slicewise meaning."
  },
  {
   "property": "C24",
   "status": "proved",
   "theorems": [
    "Folx.Batch.C24_auto_batched_vmap",
    "Folx.Batch.C24_batch_size",
    "Folx.Batch.C24_no_statistics"
   ],
   "note": "target_mem is a rational; on a device without memory statistics the decorator raises (proved separately, outside the property)."
  },
  {
   "property": "C25",
   "status": "partial",
   "theorems": [
    "Folx.Mem.C25_counter_partial",
    "Folx.Mem.C25_peak_partial",
    "Folx.Mem.C25_peak_ge",
    "Folx.Mem.C25_counterexample",
    "Folx.Mem.C25_no_equations"
   ],
   "note": "Counter = size of stored values only if no equation repeats an operand; otherwise bytes are subtracted twice (counterexample proved) and the reported peak is a lower bound of the true one (proved for all jaxprs)."
  },
  {
   "property": "C26",
   "status": "proved",
   "theorems": [
    "Folx.Registry.C26_lookup",
    "Folx.Registry.C26_is_registered",
    "Folx.Registry.C26_failure"
   ],
   "note": ""
  },
  {
   "property": "C27",
   "status": "proved",
   "theorems": [
    "Folx.C27_forward",
    "Folx.C27_anywhere",
    "Folx.C27_inline",
    "Folx.C27_transparent",
    "Folx.C27_registered",
    "Folx.Demo.C27_counterexample"
   ],
   "note": "Inlining a call of an unregistered jitted function anywhere (top level, inside jitted functions, inside loop bodies, any depth) changes nothing; a registered name gets the registered rule. Consequence proved as counterexample: a user function whose name collides with a registered one is replaced."
  },
  {
   "property": "C28",
   "status": "proved",
   "theorems": [
    "Folx.C28_meaning",
    "Folx.C28_carry",
    "Folx.C28_loop",
    "Folx.C28_rejects",
    "Folx.C28_only_errors",
    "Folx.C28_accepts"
   ],
   "note": ""
  },
  {
   "property": "C29",
   "status": "partial",
   "theorems": [
    "Folx.C29_outputs_partial",
    "Folx.C29_stacked_partial",
    "Folx.C29_shape",
    "Folx.Demo.C29_counterexample"
   ],
   "note": "The property is false: the Jacobian of stacked outputs has the step axis first (counterexample proved); values and Laplacians are stacked rightly."
  },
  {
   "property": "C30",
   "status": "partial",
   "theorems": [
    "Folx.C30_loop_partial",
    "Folx.C30_parallel_partial",
    "Folx.C30_forward",
    "Folx.C30_operators_partial",
    "Folx.C30_counterexample_laplacian",
    "Folx.C30_counterexample_parallel"
   ],
   "note": "False as stated: the loop and parallel operators return the unsummed Hessian diagonal, and the parallel one applies the function to the flattened array (both proved). Gradients agree and the sum of the diagonal is the forward Laplacian (proved, sparsity disabled)."
  },
  {
   "property": "C31",
   "status": "partial",
   "theorems": [
    "Folx.C31_general_value",
    "Folx.C31_fast_value_partial",
    "Folx.C31_rule_dense",
    "Folx.C31_returns",
    "Folx.C31_rule_sparse_partial",
    "Folx.C31_counterexample_order",
    "Folx.C31_counterexample_shape",
    "Folx.C31_counterexample_rank",
    "Folx.C31_counterexample_merge",
    "Folx.contraction_matmul"
   ],
   "note": "Complete for the general path and the transposing fast path (values, Jacobians, Laplacians); the special case of the fast path without transpositions is wrong outside the stated condition (counterexamples proved). Arrays without elements are excluded."
  },
  {
   "property": "C32",
   "status": "proved",
   "theorems": [
    "Folx.C32_unravel_ravel",
    "Folx.C32_ravel_unravel",
    "Folx.C32_blocks",
    "Folx.C32_rejects"
   ],
   "note": ""
  },
  {
   "property": "C33",
   "status": "proved",
   "theorems": [
    "Folx.C33_identity",
    "Folx.C33_replacement",
    "Folx.C33_pointwise",
    "Folx.C33_partition"
   ],
   "note": ""
  },
  {
   "property": "C34",
   "status": "proved",
   "theorems": [
    "Folx.Vmap.C34_broadcast",
    "Folx.Vmap.C34_meaning",
    "Folx.Vmap.C34_slice",
    "Folx.Vmap.C34_incompatible",
    "Folx.Vmap.C34_canonicalize"
   ],
   "note": "Arguments as the list of leaves with their canonical in_axes; jax.vmap is a trusted primitive given by its slicewise meaning."
  },
  {
   "property": "C35",
   "status": "proved",
   "theorems": [
    "Folx.Layout.C35_materialize",
    "Folx.Layout.C35_same_shape",
    "Folx.Layout.C35_static_irrelevant",
    "Folx.Layout.C35_construct",
    "Folx.Layout.C35_dense_array"
   ],
   "note": "segment_sum, vmap, transpose and reshape are trusted primitives given by their index-level meaning; arrays with an empty axis raise in the code and are excluded."
  },
  {
   "property": "C36",
   "status": "proved",
   "theorems": [
    "Folx.Log.C36_restores",
    "Folx.Log.C36_inside",
    "Folx.Log.C36_reentry_counterexample"
   ],
   "note": "For a context object not re-entered inside itself (folx creates a new one per with); re-entry loses the handlers, shown by the counterexample."
  },
  {
   "property": "C37",
   "status": "proved",
   "theorems": [
    "Folx.C37_inexact",
    "Folx.C37_components",
    "Folx.C37_discrete",
    "Folx.C37_discrete_exact"
   ],
   "note": "Rounding of narrower floating types is not modelled: values are reals/complexes; conversion is the real part / truncation / truth test / identity on them."
  },
  {
   "property": "C38",
   "status": "proved",
   "theorems": [
    "Folx.C38_real",
    "Folx.C38_imag",
    "Folx.C38_conj",
    "Folx.C38_value"
   ],
   "note": ""
  },
  {
   "property": "C39",
   "status": "proved",
   "theorems": [
    "Folx.C39_vjp_real_to_complex",
    "Folx.C39_vjp_other",
    "Folx.C39_jacrev",
    "Folx.C39_jacrev_holomorphic",
    "Folx.C39_jacfwd",
    "Folx.C39_hessian",
    "Folx.C39_hessian_holomorphic",
    "Folx.AD.jaxVjp_transpose"
   ],
   "note": "jax.vjp / jax.jvp / jax.vmap are trusted and modelled by their meaning (real transpose of the Frechet derivative)."
  },
  {
   "property": "C40",
   "status": "partial",
   "theorems": [
    "Folx.C40_partial",
    "Folx.C40_leak",
    "Folx.C40_leak_iff",
    "Folx.C40_operand",
    "Folx.C40_updates",
    "Folx.C40_returns",
    "Folx.C40_counterexample_leak",
    "Folx.C40_counterexample_count",
    "Folx.C40_counterexample_raises"
   ],
   "note": "False as stated: with a sparse operand and dense updates the operand's derivatives stay at overwritten elements, and the segment rule drops derivatives stored twice for one element or raises if the last element is not written (all proved). Exact in every other combination of representations."
  },
  {
   "property": "C41",
   "status": "proved",
   "theorems": [
    "Folx.C41_custom",
    "Folx.C41_not_called"
   ],
   "note": ""
  },
  {
   "property": "C42",
   "status": "partial",
   "theorems": [
    "Folx.C42_compose",
    "Folx.C42_compose_sparse_partial",
    "Folx.C42_run_partial",
    "Folx.C42_registered_partial",
    "Folx.C42_counterexample"
   ],
   "note": "False of the code as stated: if the result of f carries no derivatives, g is differentiated with respect to the intermediate value (C42_counterexample). Otherwise full with sparsity disabled; with sparsity for runs that hit no known defect (C42_run_partial) and for registered functions without defective sparse rules (C42_registered_partial)."
  },
  {
   "property": "C43",
   "status": "proved",
   "theorems": [
    "Folx.C43_fraction",
    "Folx.C43_absolute",
    "Folx.C43_enabled"
   ],
   "note": ""
  },
  {
   "property": "C44",
   "status": "proved",
   "theorems": [
    "Folx.C44_abs",
    "Folx.C44_max",
    "Folx.C44_min",
    "Folx.C44_reduce_max",
    "Folx.C44_reduce_min",
    "Folx.C44_reduce_max_value",
    "Folx.C44_locally_linear",
    "Folx.Demo.C44_abs_kink"
   ],
   "note": "Includes a proof that at the kink of abs no derivative exists, so the restriction is needed."
  },
  {
   "property": "C45",
   "status": "proved",
   "theorems": [
    "Folx.C45_plain",
    "Folx.C45_exact",
    "Folx.C45_domains"
   ],
   "note": ""
  },
  {
   "property": "C46",
   "status": "proved",
   "theorems": [
    "Folx.C46_program",
    "Folx.C46_resume",
    "Folx.C46_rows_sum",
    "Folx.C46_rows_prod",
    "Folx.C46_rows_max",
    "Folx.C46_rows_min",
    "Folx.C46_rows",
    "Folx.C13_sum",
    "Folx.C14_reduction"
   ],
   "note": "For all programs of registered functions (scatter included) and of wrapped functions with true axis declarations, at all points, also where results are wrong or not differentiable (the derivative is then the value 0 of fderiv; jvpRule_bounded treats any derivative table). Excluded: per-step outputs of scans with sparse Jacobians, which are malformed (C29). A function with k reduced operands keeps k times threshold rows."
  },
  {
   "property": "C47",
   "status": "partial",
   "theorems": [
    "Folx.C47_scalar_partial",
    "Folx.C47_scalar_value",
    "Folx.C47_counterexample",
    "Folx.C47_scalar_counterexample",
    "Folx.C47_shape_error",
    "Folx.C47_one_row",
    "Folx.C47_product_stretched",
    "Folx.C47_product_stretched'"
   ],
   "note": "The full property is false: it raises on a size mismatch (C47_shape_error), returns a wrong value on vectors (C47_counterexample) and on scalars (C47_scalar_value gives the exact value returned, C47_scalar_counterexample); only the case with at most one reduced Jacobian row is exact."
  },
  {
   "property": "C48",
   "status": "proved",
   "theorems": [
    "Folx.TreeU.C48_leafwise",
    "Folx.TreeU.C48_products",
    "Folx.TreeU.C48_split_concat",
    "Folx.TreeU.C48_pieces",
    "Folx.TreeU.C48_idx_expand",
    "Folx.TreeU.C48_take"
   ],
   "note": "Leaf arithmetic for equal shapes (or a scalar); concatenation along axis 0, the default."
  },
  {
   "property": "C49",
   "status": "proved",
   "theorems": [
    "Folx.C49_reshape",
    "Folx.C49_broadcast_in_dim",
    "Folx.C49_slice",
    "Folx.C49_transpose",
    "Folx.C49_squeeze",
    "Folx.C49_rev",
    "Folx.C49_concatenate",
    "Folx.C49_dynamic_slice",
    "Folx.C49_select_n",
    "Folx.C49_gather",
    "Folx.C49_take",
    "Folx.C49_returns"
   ],
   "note": "Arrays without elements excluded; gather in mode clip (other modes agree when every slice fits); select_n of three or more scalar cases excluded (there C15 fails)."
  },
  {
   "property": "C50",
   "status": "proved",
   "theorems": [
    "Folx.C50_reduce_sum",
    "Folx.C50_reduce_prod",
    "Folx.C50_reduce_max",
    "Folx.C50_reduce_min",
    "Folx.C50_cumsum",
    "Folx.C50_scatter_add",
    "Folx.C50_add_at",
    "Folx.C50_scatter_extremal"
   ],
   "note": "Arrays without elements excluded; maxima and minima at points without ties; scatter with operand and updates of rank at least 1."
  },
  {
   "property": "C51",
   "status": "proved",
   "theorems": [
    "Folx.C51_dense",
    "Folx.C51_sparse"
   ],
   "note": "Real operands, no empty arrays; scans and complex operations excluded (C28, C29, C20). With sparsity: indices known at trace time, rank >= 1 operands for scatter_add/max/min, dot_general outside the wrong fast path (C31)."
  },
  {
   "property": "C52",
   "status": "proved",
   "theorems": [
    "Folx.C52_returns",
    "Folx.C52_registered",
    "Folx.C52_exact",
    "Folx.C52_raises",
    "Folx.C52_clash_raises"
   ],
   "note": "Programs without scan, real operands for the registered form, no empty arrays. The conditions are those in the statement (structure Tame); C52_returns has the finer conditions SafeCall; for calls with at most two derivative-carrying operands those are necessary too (Std.call_returns_iff). C52_raises and C52_clash_raises: programs of registered operations that raise outside the conditions."
  },
  {
   "property": "C53",
   "status": "proved",
   "theorems": [
    "Folx.Layout.C53_sum",
    "Folx.Layout.C53_reduction"
   ],
   "note": "Arrays with elements and at least one stored row; resolved axes for the sum. Derived from the refinements Layout.sparseSumArr_refines and Layout.sparseReduceArr_refines of the position-level rules."
  },
  {
   "property": "C54",
   "status": "partial",
   "theorems": [
    "Folx.Layout.C53_reduction",
    "Folx.Layout.C54_masks_at_back",
    "Folx.Layout.C54_shape_raises",
    "Folx.Layout.C54_nested_raises",
    "Folx.Layout.C54_counterexample",
    "Folx.Layout.C56_general",
    "Folx.Layout.C56_layout_counterexample",
    "Folx.Layout.C56_dot_axis_counterexample"
   ],
   "note": "False as stated: index masks are matched with the last axes of the output (C54_masks_at_back), so a function with output axes of its own at the back gets wrong derivatives (C54_counterexample) or raises (C54_shape_raises); per-argument axes raise (C54_nested_raises). True if the kept axes are the last axes of the output (C53_reduction). The second-order term is exact if the batch axes come first in the output (C56_general), otherwise it can be put at wrong elements (C56_layout_counterexample), and dot products along an axis other than the last are wrong (C56_dot_axis_counterexample)."
  },
  {
   "property": "C55",
   "status": "proved",
   "theorems": [
    "Folx.Layout.C55_sparse",
    "Folx.Layout.C55_dense",
    "Folx.Layout.C55_empty",
    "Folx.Layout.C55_dot",
    "Folx.Layout.C55_dot_one_raises",
    "Folx.Layout.C55_extras_raise",
    "Folx.Layout.C55_size_one_raises",
    "Folx.Layout.C55_size_one_raises'"
   ],
   "note": "For every rule for one slice (a parameter whose output shape depends on shapes only). Arrays with elements; one output array. The size-1 raising situation is shown for two concrete calls."
  },
  {
   "property": "C56",
   "status": "proved",
   "theorems": [
    "Folx.Layout.C56_general",
    "Folx.Layout.C56_custom",
    "Folx.Layout.C56_product",
    "Folx.Layout.C56_dot"
   ],
   "note": "jax's nested derivatives of one slice are a parameter (any second derivative); the ring is commutative, no complex conjugation. Arrays with elements; one output array. The rule for functions linear in each of two arguments that are not products (jac_jacT) is C47."
  },
  {
   "property": "C57",
   "status": "proved",
   "theorems": [
    "Folx.Layout.C57_dense",
    "Folx.Layout.C57_elementwise",
    "Folx.Layout.C57_index",
    "Folx.Layout.C57_single",
    "Folx.Layout.C57_mixed",
    "Folx.Layout.C57_sound",
    "Folx.Layout.C57_two_sparse",
    "Folx.Layout.C57_two_sparse_raises",
    "Folx.Layout.C57_repeated_rows_wrong"
   ],
   "note": "The derivative of the function at the point is an arbitrary linear map (jax.jvp, jax.linearize, jax.vmap trusted by meaning). One output array, arrays with elements; scatter functions are C40. Sums of several sparse arguments of SUMMATION functions (reduce_sum has one argument) and of three or more sparse arguments of non-reductions next to dense ones are outside C57_sound."
  },
  {
   "property": "C58",
   "status": "proved",
   "theorems": [
    "Folx.Layout.C58_input",
    "Folx.Layout.C58_linear",
    "Folx.Layout.C58_sum",
    "Folx.Layout.C58_axes",
    "Folx.Layout.C58_general",
    "Folx.Layout.C58_elementwise",
    "Folx.Layout.C58_one",
    "Folx.Layout.C58_function",
    "Folx.Layout.C58_reduction",
    "Folx.Layout.C58_mul",
    "Folx.Layout.C58_times",
    "Folx.Layout.C58_plus",
    "Folx.Layout.C58_dot",
    "Folx.Layout.C58_inner"
   ],
   "note": "One output array, arrays with elements; value and derivatives of the function (jax) are parameters, assumed to be its derivatives at the point. Mixed dense and sparse arguments of non-linear functions: under the conditions of C58_general; dot products under those of C58_dot. Second-order rules of two arguments need the batch axes first in the output (else C54). Scatter functions, custom rules and functions that are linear in each argument but no products are modelled at position level only."
  },
  {
   "property": "C59",
   "status": "proved",
   "theorems": [
    "Folx.C59_exact",
    "Folx.C59_correct",
    "Folx.C59_total",
    "Folx.C59_threshold"
   ],
   "note": "Functions are declared truthfully (structure Truthful: derivatives are those of jax, flags such as LINEAR, INDEXING, MULTIPLICATION, DOT_PRODUCT true of the function, axes fit); with sparsity also SparseSafe (the conditions of C58 on combinations of dense and sparse arguments). One output array per array function; arrays with elements. Totality with sparsity is C52 at position level."
  },
  {
   "property": "C60",
   "status": "proved",
   "theorems": [
    "Folx.C60_real",
    "Folx.C60_holomorphic",
    "Folx.C60_complex_to_real",
    "Folx.C60_slice",
    "Folx.C60_mixed_block",
    "Folx.C60_mixed_block_arrays",
    "Folx.C60_off_diag"
   ],
   "note": "From jax.jvp and jax.vjp, which are trusted and modelled by their meaning; arrays flattened row by row. C60_slice: the slice rule of the array-level model (C56, C58, C59) is this program. C60_mixed_block/C60_off_diag: the block that jax.jacfwd(jax.jacrev(f, 0), 1) computes for functions linear in each of two arguments, and that the rule of C47 contracts it."
  },
  {
   "property": "C61",
   "status": "proved",
   "theorems": [
    "Folx.Layout.C61_exact",
    "Folx.Layout.C61_dense",
    "Folx.Layout.C61_returns",
    "Folx.Layout.C61_programs"
   ],
   "note": "Real operands, arrays with elements, values in the domain of the function (ElemEntry.dom; e.g. denominators not 0, base of pow positive). jax's first and second derivatives of the scalar function are the true ones. Jacobians as they arise in programs (arrInv: a sparse one has a row, a dense one has at least as many rows as inputs or the threshold). div_jac_hessian_jac is modelled on one slice; complex abs is C20."
  },
  {
   "property": "C62",
   "status": "proved",
   "theorems": [
    "Folx.C62_correct",
    "Folx.C62_indexing",
    "Folx.C62_sum",
    "Folx.C62_elementwise"
   ],
   "note": "Programs without scan; arrays with elements; n > 0 inputs. Functions of ArrTotal: array functions declared truthfully that meet NeverRaises (elementwise registry entries, sums, indexing of one array are shown to), functions constant near the point, real-linear functions of every element. A variable is read at most 2^31-1 times (C06)."
  },
  {
   "property": "C63",
   "status": "proved",
   "theorems": [
    "Folx.C63_program",
    "Folx.C63_forward",
    "Folx.C63_builtIn",
    "Folx.C63_correct"
   ],
   "note": "C63_correct: real operands and the functions of the table BuiltIn; C63_program and C63_forward: any rules whose own form is static. Index operands of indexing functions must not depend on the inputs (static marking; literals, constants and what is computed from them). What jax.lax.scan makes of per-step outputs with derivatives is assumed to have a form that depends on theirs only (JunkStable; true of the model stackedY). Function and weights are the same in both runs."
  },
  {
   "property": "C64",
   "status": "proved",
   "theorems": [
    "Folx.C64_correct"
   ],
   "note": "The trace-time check of jax.lax.scan that the carry keeps its shapes is part of the one check. Per-step outputs with derivatives are handed to the same unspecified stacking in both (C29)."
  },
  {
   "property": "C65",
   "status": "proved",
   "theorems": [
    "Folx.C65_exact",
    "Folx.C65_registered",
    "Folx.C65_returns"
   ],
   "note": "Containers are modelled by their children in order (tuple/list/dict not distinguished). Tracing is the contract of jax.make_jaxpr and jax.eval_shape (WellTraced: one input variable per leaf, one output per leaf of the result). No weights (C66), arguments without derivatives; conditions on the traced program as in C59 or C51."
  },
  {
   "property": "C66",
   "status": "partial",
   "theorems": [
    "Folx.C66_weights_partial",
    "Folx.C66_nested_raises",
    "Folx.C66_count_raises",
    "Folx.C66_wrong",
    "Folx.C66_kwargs_raise",
    "Folx.C66_ignored"
   ],
   "note": "Proved for a single weight, or arguments that are arrays. False otherwise: weights are matched against the flattened arguments, so weights inside an argument raise (C66_nested_raises), one weight per argument raises unless there are as many arguments as leaves (C66_count_raises), and then may go to the wrong array (C66_wrong: g((a, b), ()) with weights=(2., 3.)). A keyword argument with an array always raises (C66_kwargs_raise). Weights are ignored if an argument carries derivatives (C66_ignored)."
  },
  {
   "property": "C67",
   "status": "proved",
   "theorems": [
    "Folx.C67_correct",
    "Folx.C67_dense"
   ],
   "note": "Programs with scans, nested or not. C67_correct: array-level functions that never raise (ArrTotal, C62), every threshold. C67_dense: every function with correct rules that do not raise, sparsity disabled. For a reversed scan the body must also be defined for the initial carry and the slices of step 0, with which eval_scan evaluates it before the loop (DomS). Scans with per-step outputs are excluded (C29), and scans of length 0."
  },
  {
   "property": "C68",
   "status": "proved",
   "theorems": [
    "Folx.C68_once",
    "Folx.C68_length"
   ],
   "note": "For bodies whose form is static (C63: OpStable for every equation, at most the scan's constants used as indices)."
  },
  {
   "property": "C69",
   "status": "proved",
   "theorems": [
    "Folx.C69_prod",
    "Folx.C69_prod_value",
    "Folx.C69_cumsum",
    "Folx.C69_cumsum_value",
    "Folx.C69_max",
    "Folx.C69_min",
    "Folx.C69_max_value",
    "Folx.C69_min_value",
    "Folx.C69_prod_raises",
    "Folx.C69_cumsum_raises",
    "Folx.C69_max_raises",
    "Folx.C69_min_raises"
   ],
   "note": "ArrGood is what C59 demands of every function of a program, so the theorems compose with C59_exact/C59_correct (example: jnp.prod(jnp.exp(x), axis=1)). C69_*_raises: a call raises exactly if the Jacobian is sparse and no element depends on an input (B32); examples of both. Ties of max/min are excluded: the function is not differentiable there. Zero-size axes are excluded."
  },
  {
   "property": "C70",
   "status": "proved",
   "theorems": [
    "Folx.C70_rule_dense",
    "Folx.C70_rule_sparse",
    "Folx.C70_returns",
    "Folx.C70_good",
    "Folx.contraction_matmul"
   ],
   "note": "The specification is Dot.contraction (batch, left free, right free dimensions; contraction_matmul reads it for matrices). C70_good is what C59 demands of a function of a program, so it composes with C59_correct/C59_total (example: jnp.exp(x) @ x). With sparse Jacobians: results with an axis of size 1 are excluded (B9: such calls can raise), and the fast-path cases of B20, where the code is wrong (C31_counterexample_*)."
  },
  {
   "property": "C71",
   "status": "proved",
   "theorems": [
    "Folx.C71_run_exact",
    "Folx.C71_run_correct",
    "Folx.C71_run_threshold",
    "Folx.C71_run_of_program",
    "Folx.C71_exact",
    "Folx.C71_correct",
    "Folx.C71_threshold"
   ],
   "note": "C71_exact/correct/threshold: hypotheses on the plain evaluation only (AnyGood), every threshold. C71_run_*: hypotheses on the calls of the run (ArrGoodCall), weaker; C71_run_of_program: every program of the first kind meets them. Example: exp(log|det(exp(x))|) for a (2, 2) array. Contractions as in C70 (B9, B20 excluded)."
  },
  {
   "property": "C72",
   "status": "proved",
   "theorems": [
    "Folx.C72_exact",
    "Folx.C72_correct",
    "Folx.C72_short",
    "Folx.C72_returns",
    "Folx.Layout.C72_inside",
    "Folx.Layout.C72_move_value",
    "Folx.Layout.C72_reshape",
    "Folx.Layout.C72_broadcast_in_dim",
    "Folx.Layout.C72_slice",
    "Folx.Layout.C72_transpose",
    "Folx.Layout.C72_squeeze",
    "Folx.Layout.C72_rev",
    "Folx.Layout.C72_dynamic_slice",
    "Folx.Layout.C72_concatenate",
    "Folx.Layout.C72_select_n",
    "Folx.Layout.C72_select_n_scalar",
    "Folx.Layout.C72_gather",
    "Folx.Layout.C72_elementwise_value",
    "Folx.Layout.C72_sum_value",
    "Folx.Layout.C72_matmul_value",
    "Folx.Layout.C72_table_elementwise",
    "Folx.Layout.C72_table_sum",
    "Folx.Layout.C72_table_prod",
    "Folx.Layout.C72_table_max",
    "Folx.Layout.C72_table_min",
    "Folx.Layout.C72_table_cumsum",
    "Folx.Layout.C72_table_scatter_add",
    "Folx.Layout.C72_table_scatter_max",
    "Folx.Layout.C72_table_scatter_min",
    "Folx.Layout.C72_table_move",
    "Folx.Layout.C72_table_dot",
    "Folx.Layout.C72_table_slogdet",
    "Folx.Layout.C72_scatter_add_value",
    "Folx.Layout.C72_scatter_max_value",
    "Folx.Layout.C72_scatter_min_value",
    "Folx.Layout.C72_good",
    "Folx.Layout.C72_any",
    "Folx.Layout.C72_total",
    "Folx.Layout.ArrBuiltIn.sp_of_ret"
   ],
   "note": "The table is ArrBuiltIn (Verif/ND/BuiltInArr.lean). With sparsity, per entry: dot_general as in C70 (B9, B20), concatenate and select_n of at most two arrays, scatter_add/max/min of non-scalars, slogdet only by C72_short; C72_returns with sparsity: elementwise functions whose operands have the shape of the result up to leading axes (or are linear), sums, copies of one array. Index operands are parameters of the entry (they carry no derivatives). Real operands; abs/conj/real/imag of complex numbers (C20), scatter (C40), discrete types (C37) are not in the table. Arrays with elements."
  },
  {
   "property": "C73",
   "status": "proved",
   "theorems": [
    "Folx.C73_exact",
    "Folx.C73_short",
    "Folx.C73_everywhere"
   ],
   "note": "UsesOnly looks at the program, not at a run: it asks of every function of the program, nested ones included, that it is an entry of ArrBuiltIn whose domain is everything; a jitted function with a registered name must compute what the registered function computes (C27), scan bodies return their carry only (C29). Example: jnp.tanh(y @ y.T).sum() with y = x.reshape(2, 2), every input, every threshold."
  },
  {
   "property": "C74",
   "status": "proved",
   "theorems": [
    "Folx.Layout.C74_read",
    "Folx.Layout.C74_agree",
    "Folx.C74_program",
    "Folx.C74_all_rows",
    "Folx.C74_short",
    "Folx.C74_default"
   ],
   "note": "ReadsOff states what is read off the arrays (row-major layout of the position-level triple, jacArr/tripArr); its right-hand sides are partial derivatives of the elements of the shaped result. Conditions on programs as in C59 (C74_program), C71 (C74_short) and C72 (C74_default)."
  },
  {
   "property": "C75",
   "status": "proved",
   "theorems": [
    "Folx.C75_dense",
    "Folx.C75_dense_returns",
    "Folx.C75_pipeline",
    "Folx.C75_same",
    "Folx.C75_programs"
   ],
   "note": "plainStages is the specification: evalPlain of each program on the (mapped) earlier results. Conditions: C71's on each run (C75_pipeline, C75_same) or on the plain evaluation only (C75_programs); StagesCarry: each later call gets an argument with derivatives (otherwise C42's finding applies)."
  }
 ]
}
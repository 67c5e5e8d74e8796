{"id": "C01", "title": "Dense forward Laplacian is exact", "statement": "For a function f built from twice continuously differentiable primitives, forward_laplacian(f)(x) with sparsity_threshold=0 returns a triple whose x is f(x), whose jacobian.dense_array[i] is the partial derivative of f with respect to the i-th flattened input, and whose laplacian is the sum over all inputs of the second partial derivatives (exact real arithmetic).", "quantifier": "every program (any number of equations, any dataflow, nested jit), every input point at which the primitives are C2, every output element and input coordinate", "why_tests_cant": "Tests compare a handful of networks at random points; the claim ranges over all programs and all points.", "anchors": ["folx/interpreter.py:forward_laplacian", "folx/interpreter.py:eval_jaxpr_with_forward_laplacian", "folx/wrapper.py:wrap_forward_laplacian", "folx/jvp.py:dense_jvp", "folx/hessian.py:general_jac_hessian_jac"]}
{"id": "C02", "title": "Sparse forward Laplacian is exact", "statement": "The README promise 'results are still exact': with any sparsity_threshold, whenever forward_laplacian(f, threshold)(x) returns, the densified Jacobian (padded with zero rows), the value and the Laplacian are the true ones, exactly as with sparsity disabled.", "quantifier": "every program over the modelled primitive rules, every threshold, every input point at which the primitives are C2", "why_tests_cant": "Sparsity patterns are combinatorial: thresholds, masks, duplicate indices and padding interact; tests visit a few patterns.", "anchors": ["folx/interpreter.py:forward_laplacian", "folx/jvp.py:get_jvp_function", "folx/jvp.py:sparse_jvp", "folx/hessian.py:vmapped_jac_hessian_jac", "folx/api.py:FwdJacobian"]}
{"id": "C03", "title": "The sparsity threshold never changes the answer", "statement": "Running forward_laplacian(f, t1)(x) and forward_laplacian(f, t2)(x) yields the same value, the same densified Jacobian (up to trailing zero rows) and the same Laplacian whenever both return.", "quantifier": "every pair of thresholds, every program over the modelled rules, every input", "why_tests_cant": "A pair of thresholds times all programs cannot be enumerated.", "anchors": ["folx/interpreter.py:forward_laplacian", "folx/jvp.py:sparse_jvp", "folx/jvp.py:sparse_sum_jvp", "folx/hessian.py:find_out_idx"]}
{"id": "C04", "title": "Weights scale first derivatives once and second derivatives twice", "statement": "forward_laplacian(f)(x, weights=w) returns a Jacobian whose i-th row is w_i * d f/d x_i and a Laplacian equal to the sum of w_i^2 * d^2 f/d x_i^2.", "quantifier": "every weight vector, program and input", "why_tests_cant": "The repo tests one random weight tensor on one attention block.", "anchors": ["folx/interpreter.py:init_forward_laplacian_state", "folx/interpreter.py:forward_laplacian"]}
{"id": "C05", "title": "Initial state is the (weighted) identity in both representations", "statement": "The state created for the arguments represents the identity map of the flattened input: the sparse and the dense initialisation densify to the same diagonal matrix diag(w), leaves are numbered consecutively in flattening order, and the initial Laplacian is zero.", "quantifier": "every tuple of argument arrays, every weights, sparsity on or off", "why_tests_cant": "Number and shapes of leaves are unbounded.", "anchors": ["folx/interpreter.py:init_forward_laplacian_state", "folx/utils.py:ravel"]}
{"id": "C06", "title": "The reference-counted environment never loses a value", "statement": "Interpreting a jaxpr with the reference-counting environment gives exactly the result (same values or same failure) of interpreting it with an environment that never frees anything: no value is freed while a later equation or the output list still reads it, including variables read several times by one equation, duplicated outputs, literals and unused outputs.", "quantifier": "every jaxpr (any equations, any sharing), every rule set, every argument list, provided each output variable is read fewer than 2^31-1 times", "why_tests_cant": "Depends on the whole dataflow graph; a premature free shows only on particular sharing patterns.", "anchors": ["folx/interpreter.py:JaxExprEnvironment", "folx/interpreter.py:eval_jaxpr_with_forward_laplacian"]}
{"id": "C07", "title": "Intermediates are freed as soon as they are dead", "statement": "After each equation the environment holds no intermediate value that no later equation and no output reads; values nobody reads are never stored. Only inputs, constants, outputs and still-needed intermediates stay alive.", "quantifier": "every jaxpr, every prefix of its execution", "why_tests_cant": "Liveness at every point of every program.", "anchors": ["folx/interpreter.py:JaxExprEnvironment.read", "folx/interpreter.py:JaxExprEnvironment.write"]}
{"id": "C08", "title": "Input-independent computations pass through unchanged", "statement": "An equation none of whose operands carries derivatives is evaluated by the ordinary primitive and yields a plain array equal to the ordinary result; a wrapped function called without any derivative-carrying argument returns the plain function value.", "quantifier": "every program, every equation, every argument split", "why_tests_cant": "Any mixture of constant and dependent operands.", "anchors": ["folx/interpreter.py:eval_jaxpr_with_forward_laplacian", "folx/wrapper.py:wrap_forward_laplacian"]}
{"id": "C09", "title": "Skipping the Hessian is sound for functions flagged linear", "statement": "For a function flagged LINEAR, for a function flagged LINEAR_IN_ONE with one derivative-carrying argument, and for a function flagged LINEAR_IN_FIRST whose only derivative-carrying argument is the first one, the Hessian contribution is dropped; this is exact whenever the flag is truthful. Flag containment follows the bit encoding, so e.g. INDEXING, SUMMATION, MULTIPLICATION and DOT_PRODUCT imply the linearity flags they include and no others.", "quantifier": "all flag combinations, all functions truthful to their flags, all arguments", "why_tests_cant": "The flag lattice and the argument splits multiply; truthful functions are infinitely many.", "anchors": ["folx/hessian.py:get_jacobian_hessian_jacobian_trace", "folx/api.py:FunctionFlags"]}
{"id": "C10", "title": "The three Hessian-trace strategies agree", "statement": "For a general function the trace of J H J^T is the same whether it is computed by materialising the Hessian and contracting with J J^T, by forward-over-forward directional derivatives, or by Hessian-vector products; hence the size-based choice between them does not affect the result.", "quantifier": "all numbers of inputs, outputs and Jacobian rows, all bilinear Hessians", "why_tests_cant": "Branch is selected by sizes; all sizes cannot be tested.", "anchors": ["folx/hessian.py:JHJ_via_hessian", "folx/hessian.py:JHJ_via_trace", "folx/hessian.py:JHJ_via_hvp", "folx/hessian.py:general_jac_hessian_jac", "folx/utils.py:trace_of_product"]}
{"id": "C11", "title": "Elementwise rules are exact for sparse Jacobians with broadcasting and repeated indices", "statement": "Applying an elementwise function of one or several derivative-carrying arguments (with numpy broadcasting between them) to sparse Jacobians gives a sparse Jacobian whose densification is the true Jacobian, even if masks contain padding, repeated indices for one element, or different masks for different arguments.", "quantifier": "all masks, data, arities, broadcast patterns, elementwise functions", "why_tests_cant": "Mask combinations are combinatorial.", "anchors": ["folx/jvp.py:sparse_diag_jvp", "folx/api.py:FwdLaplArgs.one_hot_sparse_jacobian", "folx/jvp.py:dense_elementwise_jvp"]}
{"id": "C12", "title": "Indexing operations move masks and data together", "statement": "For an indexing operation (slice, transpose, reshape, broadcast, gather, concatenate, select, rev, squeeze, ...) each output element carries exactly the Jacobian of the input element it copies and a zero Jacobian if it is a constant; if the operation cannot be evaluated on the masks the result falls back to the dense Jacobian with the same content.", "quantifier": "all index maps, all masks (different row counts per argument), static and dynamic indices", "why_tests_cant": "All index maps cannot be enumerated.", "anchors": ["folx/jvp.py:sparse_index_jvp", "folx/utils.py:broadcast_dim"]}
{"id": "C13", "title": "Sparse summation is exact and respects the threshold", "statement": "Summing an array over any axes yields the summed value, the summed Laplacian and a Jacobian that densifies to the sum of the Jacobians; the result is kept sparse only if its number of rows does not exceed the threshold.", "quantifier": "all masks (padding and repeats included), all groupings of elements, all thresholds", "why_tests_cant": "Mask patterns are unbounded.", "anchors": ["folx/jvp.py:sparse_sum_jvp"]}
{"id": "C14", "title": "General sparse reductions are exact and respect the threshold", "statement": "For a function that mixes only the elements along its reduction axes (reduce_max, reduce_prod, cumsum, user functions with in_axes), the sparse rule returns the true Jacobian; the result is kept sparse only if no output depends on more than threshold inputs in the mask, otherwise the dense rule is used.", "quantifier": "all masks, reductions and thresholds", "why_tests_cant": "Mask patterns are unbounded.", "anchors": ["folx/jvp.py:sparse_jvp", "folx/utils.py:get_jacobian_for_reduction", "folx/utils.py:broadcast_mask_to_jacobian"]}
{"id": "C15", "title": "Mixed sparse/dense arguments are combined argument by argument without loss", "statement": "When some arguments have sparse and others dense Jacobians (or several sparse arguments meet in a non-elementwise function), the Jacobian obtained by differentiating with respect to one argument at a time and adding is the Jacobian with respect to all arguments; the one-argument-at-a-time path is never taken with a single argument.", "quantifier": "all argument counts and representations", "why_tests_cant": "All combinations of representations.", "anchors": ["folx/jvp.py:get_jvp_function", "folx/api.py:FwdJacobian.__add__"]}
{"id": "C16", "title": "Products and dot products have exact Hessian contribution on the shared indices only", "statement": "For functions flagged MULTIPLICATION/DOT_PRODUCT the contribution 2*sum_k J_lhs[k].J_rhs[k] restricted to the indices both operands depend on equals tr(J H J^T); in particular it is zero when the operands share no index.", "quantifier": "all masks (padding, repeats), dense or sparse operands, all thresholds", "why_tests_cant": "Intersections of arbitrary masks.", "anchors": ["folx/hessian.py:dot_product_jac_hessian_jac", "folx/hessian.py:find_out_idx", "folx/hessian.py:merge_and_populate", "folx/utils.py:trace_jac_jacT"]}
{"id": "C17", "title": "Restricting the Jacobians to the union of used indices loses nothing", "statement": "For general functions the Hessian trace computed from Jacobians materialised only at the union of the indices in the masks (padded with -1 to a common width, per broadcast position) equals the trace over all inputs.", "quantifier": "all masks, broadcast positions, thresholds", "why_tests_cant": "Unbounded mask patterns.", "anchors": ["folx/hessian.py:find_out_idx", "folx/hessian.py:remove_fill", "folx/hessian.py:merge_and_populate", "folx/hessian.py:vmapped_jac_hessian_jac", "folx/api.py:FwdJacobian.construct_jac_for"]}
{"id": "C18", "title": "Division rule", "statement": "For x / y with either or both operands depending on the inputs the Jacobian and Laplacian returned are those of the quotient wherever y != 0.", "quantifier": "all operands with y != 0, all Jacobians sparse or dense", "why_tests_cant": "All real operands.", "anchors": ["folx/custom_hessian.py:div_jac_hessian_jac", "folx/wrapped_functions.py:_LAPLACE_FN_REGISTRY"]}
{"id": "C19", "title": "slogdet rule", "statement": "For an invertible real matrix A(x) the log-abs-determinant returned by the slogdet rule has derivative tr(A^-1 dA) and second-derivative contribution -sum_k tr(A^-1 dA_k A^-1 dA_k); the sign is returned as a plain array for real input. For complex A the phase returned has derivative i*phase*Im tr(A^-1 dA) and the matching Laplacian.", "quantifier": "all matrix sizes, all invertible matrices, all Jacobians", "why_tests_cant": "All matrices.", "anchors": ["folx/custom_hessian.py:slogdet_jac_hessian_jac", "folx/wrapped_functions.py:slogdet_jvp", "folx/wrapped_functions.py:slogdet_wrapper"]}
{"id": "C20", "title": "Complex absolute value rule", "statement": "For z(x) != 0 complex, |z| returned by the rule has derivative Re(conj(z) dz)/|z| and second-derivative contribution sum_k (|dz_k|^2/|z| - (Re(conj(z) dz_k))^2/|z|^3), and this is the contribution computed from the stored Jacobian.", "quantifier": "all nonzero z, all Jacobians, sparse masks with repeated indices included", "why_tests_cant": "All masks and complex values.", "anchors": ["folx/custom_hessian.py:complex_abs_jac_hessian_jac", "folx/wrapped_functions.py:complex_abs_jvp", "folx/wrapped_functions.py:abs_wrapper"]}
{"id": "C21", "title": "Densifying a sparse Jacobian is faithful", "statement": "jacobian.dense_array of a sparse Jacobian has at row i, element p the sum of all stored entries of p whose index is i; padding entries (-1) contribute nowhere; construct_jac_for(idx) returns the rows listed in idx, in that order, for sparse and dense storage alike.", "quantifier": "all masks, data, index lists", "why_tests_cant": "Unbounded mask patterns.", "anchors": ["folx/api.py:FwdJacobian.dense_array", "folx/api.py:FwdJacobian.construct_jac_for", "folx/api.py:FwdJacobian.get_index_mask", "folx/api.py:FwdJacobian.materialize_for_idx", "folx/api.py:FwdJacobian.max_n"]}
{"id": "C22", "title": "Adding two Jacobians adds their dense matrices", "statement": "a + b of two FwdJacobians densifies to the (zero padded) sum of their densifications, whatever the representations and row counts.", "quantifier": "all pairs of Jacobians", "why_tests_cant": "Unbounded mask patterns; row-count mismatches.", "anchors": ["folx/api.py:FwdJacobian.__add__", "folx/utils.py:add_jacobians", "folx/utils.py:extend_jacobians"]}
{"id": "C23", "title": "batched_vmap equals vmap", "statement": "batched_vmap(fn, max_batch_size, in_axes, out_axes)(*args) returns exactly jax.vmap(fn, in_axes, out_axes)(*args): same elements in the same order, for every positive batch size and batch length, whether or not the length is divisible, with static arguments (None) and arbitrary mapped axes.", "quantifier": "all batch sizes >= 1, all batch lengths, all axes, all functions", "why_tests_cant": "Tests use three batch sizes and two lengths.", "anchors": ["folx/vmap.py:batched_vmap"]}
{"id": "C24", "title": "auto_batched_vmap equals vmap whatever the memory estimate", "statement": "On a device that reports its memory limit, auto_batched_vmap(fn)(*args) returns vmap(fn)(*args) for every outcome of the memory estimates (including failing, zero, or negative estimates); the batch size it uses is always at least 1.", "quantifier": "all memory statistics and cost estimates", "why_tests_cant": "Depends on device memory.", "anchors": ["folx/experimental/vmap.py:auto_batched_vmap"]}
{"id": "C25", "title": "compute_memory bookkeeping matches the live set", "statement": "While walking a jaxpr, the running memory counter equals the total size of the values currently stored, and the reported peak is at least this counter at every equation.", "quantifier": "all jaxprs", "why_tests_cant": "All dataflow graphs.", "anchors": ["folx/experimental/memory.py:MemoryExprEnvironment", "folx/experimental/memory.py:_compute_jaxpr_memory"]}
{"id": "C26", "title": "Function registry behaves like a map", "statement": "After any sequence of register_function/deregister_function calls, looking up a key yields the last function registered for it and not deregistered since; other keys are unaffected; deregistering an absent key fails and changes nothing; an unregistered primitive gets the default rule, an unregistered name gets none (or a TypeError when a default is requested).", "quantifier": "all histories of registry operations", "why_tests_cant": "All histories.", "anchors": ["folx/wrapped_functions.py:register_function", "folx/wrapped_functions.py:deregister_function", "folx/wrapped_functions.py:is_registered", "folx/wrapped_functions.py:get_laplacian"]}
{"id": "C27", "title": "Jitting a sub-function is transparent", "statement": "Wrapping a sub-computation in jax.jit does not change the forward Laplacian result: an unregistered jitted sub-function is interpreted inline; a registered name is replaced by the registered rule.", "quantifier": "all programs, all nestings", "why_tests_cant": "All nestings and names.", "anchors": ["folx/interpreter.py:eval_jaxpr_with_forward_laplacian.eval_pjit", "folx/wrapped_functions.py:get_laplacian"]}
{"id": "C28", "title": "Scan carries propagate exactly", "statement": "For lax.scan whose carry depends on the inputs, the final carry returned carries the exact Jacobian and Laplacian of the loop, for any number of iterations and either direction, or the call fails with a type/sparsity mismatch error; scanning over input-dependent arrays is rejected.", "quantifier": "all lengths, bodies, carries, both directions", "why_tests_cant": "All loop lengths.", "anchors": ["folx/interpreter.py:eval_jaxpr_with_forward_laplacian.eval_scan", "folx/utils.py:extract_jacobian_mask"]}
{"id": "C29", "title": "Scan per-step outputs carry their Jacobian along the Jacobian axis", "statement": "For lax.scan, the stacked per-step outputs that depend on the inputs are returned with a Jacobian whose leading axis enumerates inputs and whose remaining axes match the stacked output.", "quantifier": "all lengths, bodies", "why_tests_cant": "All loop lengths and Jacobian sizes.", "anchors": ["folx/interpreter.py:eval_jaxpr_with_forward_laplacian.eval_scan"]}
{"id": "C30", "title": "The Laplacian operators agree", "statement": "ForwardLaplacianOperator, LoopLaplacianOperator and ParallelLaplacianOperator applied to the same scalar function return the same Laplacian (a scalar, the trace of the Hessian) and the same gradient.", "quantifier": "all C2 scalar functions, all points and dimensions", "why_tests_cant": "All functions.", "anchors": ["folx/operators.py:ForwardLaplacianOperator", "folx/operators.py:LoopLaplacianOperator", "folx/operators.py:ParallelLaplacianOperator"]}
{"id": "C31", "title": "dot_general equals the tensor contraction", "statement": "The rule for dot_general produces batch dimensions first, then left free, then right free dimensions, each element being the sum over the contracted dimensions, in both the general path and the sparse multiply-and-sum fast path.", "quantifier": "all shapes and dimension numbers", "why_tests_cant": "All dimension numbers.", "anchors": ["folx/wrapped_functions.py:dot_general", "folx/wrapped_functions.py:rearrange"]}
{"id": "C32", "title": "ravel/unravel round trip", "statement": "unravel(flat) of the flattening of a tree returns the same tree and flattening an unravelled vector returns the vector; leaf k occupies the consecutive block after the previous leaves.", "quantifier": "all trees of arrays, all flat vectors", "why_tests_cant": "All trees.", "anchors": ["folx/utils.py:ravel"]}
{"id": "C33", "title": "Splitting arguments and merging them back is the identity", "statement": "split_args separates derivative-carrying arguments from the others and merge puts any replacement values back into the original positions and order; merge of the split parts gives the original arguments.", "quantifier": "all argument lists and masks", "why_tests_cant": "All argument patterns.", "anchors": ["folx/utils.py:split_args", "folx/jvp.py:get_jvp_function.one_by_one_jvp"]}
{"id": "C34", "title": "Vectorising over broadcast axes equals elementwise broadcasting", "statement": "The sequence of vmap axes derived for arrays of different (broadcast compatible) shapes makes nested vmap evaluate the inner function at exactly the elements numpy broadcasting would pair up.", "quantifier": "all ranks and broadcast-compatible shapes", "why_tests_cant": "All shapes.", "anchors": ["folx/utils.py:vmap_sequence", "folx/utils.py:vmap_sequences", "folx/utils.py:arg_squeeze_dims"]}
{"id": "C35", "title": "Layout optimisation in Jacobian materialisation is invisible", "statement": "Collapsing axes along which the index array repeats, transposing, reshaping, segment-summing and undoing the layout yields the same array as summing entry by entry.", "quantifier": "all shapes, index arrays and data", "why_tests_cant": "All shapes and repetition patterns.", "anchors": ["folx/api.py:FwdJacobian.materialize_for_idx", "folx/utils.py:compact_repeated_dims_except", "folx/utils.py:broadcast_except"]}
{"id": "C36", "title": "Logging handlers are always restored", "statement": "Entering and leaving the logging prefix context restores the logger's handlers to what they were before, also on exceptions and for nested contexts (each with its own LoggingPrefix object, as folx uses it).", "quantifier": "all nestings and exception patterns", "why_tests_cant": "All nestings.", "anchors": ["folx/utils.py:LoggingPrefix"]}
{"id": "C37", "title": "dtype conversion keeps or drops derivatives by target type", "statement": "convert_element_type to a floating or complex type converts value, Jacobian and Laplacian alike; conversion to integer or boolean returns a plain array without derivatives.", "quantifier": "all dtypes", "why_tests_cant": "Decision over the whole dtype lattice and all arrays.", "anchors": ["folx/api.py:FwdLaplArray.astype", "folx/wrapped_functions.py:dtype_conversion"]}
{"id": "C38", "title": "real, imag and conj commute with differentiation", "statement": "For complex intermediate values depending on real inputs the rules for real, imag and conj return the exact Jacobian and Laplacian of the real part, imaginary part and conjugate.", "quantifier": "all complex-valued intermediates, all Jacobians sparse or dense", "why_tests_cant": "All values.", "anchors": ["folx/wrapper.py:wrap_elementwise", "folx/wrapped_functions.py:_LAPLACE_FN_REGISTRY"]}
{"id": "C39", "title": "Vector-Jacobian product for real-to-complex functions", "statement": "The vjp used for functions from real to complex values returns v^T J for the complex Jacobian J = J_re + i J_im, and jacrev/jacfwd/hessian built from it return the full (second) derivative arrays.", "quantifier": "all linear maps, cotangents, sizes", "why_tests_cant": "All sizes and values.", "anchors": ["folx/ad.py:vjp_rc", "folx/ad.py:vjp", "folx/ad.py:jacrev", "folx/ad.py:jacfwd", "folx/ad.py:hessian"]}
{"id": "C40", "title": "scatter propagates derivatives of the surviving elements", "statement": "For operand.at[idx].set(updates), an output element has the derivatives of the update written to it if it is overwritten and those of the operand otherwise, whatever the representation (sparse or dense) of operand and updates.", "quantifier": "all operands, indices, updates, representations", "why_tests_cant": "All combinations.", "anchors": ["folx/jvp.py:sparse_scatter_jvp", "folx/jvp.py:sparse_index_jvp", "folx/jvp.py:get_jvp_function.one_by_one_jvp"]}
{"id": "C41", "title": "Custom Hessian rules replace exactly the Hessian term", "statement": "wrap_forward_laplacian(fn, custom_jac_hessian_jac=h) returns the value and Jacobian of fn and a Laplacian equal to the first-order term plus what h returns (unless the flags make the Hessian term vanish, in which case h is not called).", "quantifier": "all functions, rules, arguments", "why_tests_cant": "All rules.", "anchors": ["folx/hessian.py:vmapped_jac_hessian_jac", "folx/wrapper.py:wrap_forward_laplacian"]}
{"id": "C42", "title": "Applying the transformed function to derivative-carrying inputs composes", "statement": "forward_laplacian(g) applied to the result of forward_laplacian(f)(x) gives the value, Jacobian and Laplacian of the composition g(f(x)).", "quantifier": "all functions f, g and inputs", "why_tests_cant": "All compositions.", "anchors": ["folx/interpreter.py:init_forward_laplacian_state", "folx/interpreter.py:forward_laplacian"]}
{"id": "C43", "title": "Threshold interpretation", "statement": "A sparsity_threshold strictly between 0 and 1 is a fraction of the total number of input elements (rounded down); every other value is truncated to an absolute count; sparsity is enabled iff the resulting count is positive.", "quantifier": "all real thresholds, all input sizes", "why_tests_cant": "All values.", "anchors": ["folx/interpreter.py:forward_laplacian"]}
{"id": "C44", "title": "Piecewise linear functions are exact where differentiable", "statement": "abs, max, min, reduce_max, reduce_min (and ReLU-like compositions) are treated as having zero Hessian; this is exact at every point where the function is locally linear.", "quantifier": "all points away from kinks and ties", "why_tests_cant": "All points.", "anchors": ["folx/wrapped_functions.py:abs_wrapper", "folx/wrapped_functions.py:_LAPLACE_FN_REGISTRY"]}
{"id": "C45", "title": "Derivative-dropping primitives return plain values", "statement": "sign, comparisons, logical operations, is_finite and stop_gradient return the ordinary value without derivatives for any mixture of plain and derivative-carrying arguments; for the locally constant ones this is exact at every point where the function is locally constant.", "quantifier": "all arguments", "why_tests_cant": "All arguments.", "anchors": ["folx/wrapper.py:warp_without_fwd_laplacian", "folx/wrapped_functions.py:_LAPLACE_FN_REGISTRY"]}
{"id": "C46", "title": "Sparse storage stays within bounds", "statement": "Every sparse Jacobian produced (other than stacked per-step outputs of scans, see C29) has indices between -1 and n-1 where n is the number of inputs, entries stored at index -1 are zero, and sums/reductions of an array keep at most threshold rows; this holds at all points and also for the rules whose results are wrong (C15, C17, C31, C40).", "quantifier": "all programs of registered functions and of wrapped functions with true axis declarations, all inputs, weights and thresholds", "why_tests_cant": "Invariant over all programs.", "anchors": ["folx/api.py:FwdJacobian", "folx/jvp.py:sparse_jvp", "folx/jvp.py:sparse_sum_jvp", "folx/jvp.py:sparse_diag_jvp", "folx/jvp.py:sparse_index_jvp"]}
{"id": "C47", "title": "Bilinear (LINEAR_IN_ONE) functions get their off-diagonal Hessian term", "statement": "A two-argument function wrapped with flags=LINEAR_IN_ONE (linear in each argument) gets the Hessian contribution 2*sum_k B(J_lhs[k], J_rhs[k]).", "quantifier": "all bilinear functions, sizes and Jacobians", "why_tests_cant": "All sizes.", "anchors": ["folx/hessian.py:off_diagblock_jac_hessian_jac", "folx/utils.py:jac_jacT"]}
{"id": "C48", "title": "Tree utilities obey their algebra", "statement": "tree_add/tree_sub/tree_scale/tree_shift act leafwise, tree_dot and tree_squared_norm are the Euclidean products of the flattened trees, tree_split cuts leaves into consecutive pieces whose concatenation (tree_concat) is the original tree. tree_idx(tree_expand(tree, 0), 0) is the tree, and tree_take with slice(None, -1) and -1 separates the last rows from the others.", "quantifier": "all trees, all size lists", "why_tests_cant": "All trees.", "anchors": ["folx/tree_utils.py:tree_split", "folx/tree_utils.py:tree_concat", "folx/tree_utils.py:tree_dot", "folx/tree_utils.py:tree_squared_norm", "folx/tree_utils.py:tree_add"]}
{"id": "C49", "title": "Array rearrangements are differentiated exactly at every rank and shape", "statement": "reshape, broadcast_in_dim, slice, dynamic_slice, concatenate, select_n, gather, transpose, squeeze and rev keep value, Jacobian and Laplacian attached to the right element: the derivatives of every output element are those of the operand element that the operation's documentation says is copied there, for dense, sparse and mixed Jacobians, plain operands, and index operands known or unknown at trace time; the rules return for all-dense and for all-sparse operands.", "quantifier": "all ranks, shapes, dimension numbers, strides, axes, numbers of operands, index values, Jacobian representations and sparsity thresholds", "why_tests_cant": "Shapes, dimension numbers and the mixture of representations are unbounded.", "anchors": ["folx/wrapped_functions.py:_LAPLACE_FN_REGISTRY", "folx/jvp.py:sparse_index_jvp", "folx/jvp.py:dense_jvp", "folx/wrapper.py:wrap_forward_laplacian"]}
{"id": "C50", "title": "Reductions along axes, cumsum and scatter_add/max/min are differentiated exactly", "statement": "reduce_sum, reduce_prod, reduce_max and reduce_min along any set of axes, cumsum along any axis in both directions, and scatter_add, scatter_max, scatter_min with any dimension numbers give exact value, Jacobian and Laplacian of the function they name (maxima and minima where the extremal element is unique).", "quantifier": "all ranks, shapes, axes, index values and update shapes, Jacobian representations and sparsity thresholds", "why_tests_cant": "Shapes, axes and index values are unbounded.", "anchors": ["folx/wrapped_functions.py:_LAPLACE_FN_REGISTRY", "folx/jvp.py:sparse_sum_jvp", "folx/jvp.py:sparse_jvp", "folx/jvp.py:sparse_jvp"]}
{"id": "C51", "title": "Programs built from the default registry are transformed exactly", "statement": "For a function composed of operations that folx registers by default (elementwise functions, reductions, cumsum, reshapes, slices, gathers, concatenations, selections, transposes, scatter operations, dot_general, slogdet, float conversion, and the functions without derivatives), at points in the domains of these operations: without sparsity forward_laplacian returns and gives value, Jacobian and Laplacian; with sparsity at any threshold and any weights, whatever it returns is exact for all of these operations other than scatter and slogdet.", "quantifier": "all programs (any number of equations, any nesting of jitted functions), all shapes and parameters, all inputs, thresholds and weights", "why_tests_cant": "Programs, shapes and sparsity histories are unbounded.", "anchors": ["folx/interpreter.py:forward_laplacian", "folx/interpreter.py:eval_jaxpr_with_forward_laplacian", "folx/wrapped_functions.py:_LAPLACE_FN_REGISTRY", "folx/jvp.py", "folx/hessian.py"]}
{"id": "C52", "title": "forward_laplacian returns whenever the function can be evaluated, outside named situations", "statement": "For a function composed of the operations folx registers by default, with any threshold and weights: if the function itself can be evaluated, then forward_laplacian does not raise and its values are the function's, provided that no call is scatter, no result is empty, indices do not depend on the input, operations that add up contributions (dot_general, ...) have at most one sparse operand, and operations that copy elements (concatenate, select_n, ...) have at most one sparse operand or only sparse ones (then no array operand is constant). Outside these situations a rule can raise: a reduction along axes of an operand none of whose elements depends on the input raises although the function can be evaluated, and so does an operation that adds up the contributions of two sparse operands which depend on different numbers of inputs.", "quantifier": "all programs without scan (any number of equations, any nesting of jitted functions), all shapes and parameters, all inputs, thresholds and weights", "why_tests_cant": "Programs, shapes and sparsity patterns are unbounded; whether a rule raises depends on the whole history of index masks.", "anchors": ["folx/interpreter.py:forward_laplacian", "folx/interpreter.py:eval_jaxpr_with_forward_laplacian", "folx/jvp.py", "folx/hessian.py", "folx/api.py:FwdJacobian", "folx/wrapped_functions.py"]}
{"id": "C53", "title": "The sparse sum and reduction rules are exact on arrays of every shape and along all axes", "statement": "Summing an array with a sparse Jacobian along any axes gives summed values, summed Laplacian, and for every result and input the sum of the stored derivatives, whatever the order of the axes and the pattern of indices. A function registered with reduction axes that removes them (or repeats its result along leading axes) gets, for every result and input, the image of the stored derivatives under its differential; the rule raises exactly if no element depends on an input and leaves sparsity exactly if some result depends on more inputs than the threshold allows. The index arrays returned have the shape of the data, name only existing inputs and pad with -1 where the data are zero.", "quantifier": "all ranks, shapes, axis tuples (also negative), index patterns, values and thresholds; all linear differentials", "why_tests_cant": "The rules transpose, merge and collapse axes depending on the index pattern; shapes and patterns are unbounded.", "anchors": ["folx/jvp.py:sparse_sum_jvp", "folx/jvp.py:sparse_jvp", "folx/utils.py:get_jacobian_for_reduction", "folx/utils.py:broadcast_mask_to_jacobian", "folx/utils.py:compact_repeated_dims_except", "folx/api.py:FwdJacobian.materialize_for_idx"]}
{"id": "C54", "title": "in_axes declares which axes a registered function needs, whatever its output looks like", "statement": "If a function is registered with in_axes, and each slice of its output depends only on the corresponding slice of its argument along the remaining axes, then its sparse Jacobian and its second-order term are exact, also if the output has axes of its own (such as a softmax along the last axis), and in_axes may be given per argument.", "quantifier": "all registered functions, shapes, axes, index patterns and thresholds", "why_tests_cant": "Whether index masks end up at the right output elements depends on the relation of all shapes; coincidentally matching shapes hide or expose the error.", "anchors": ["folx/wrapper.py:wrap_forward_laplacian", "folx/jvp.py:sparse_jvp", "folx/utils.py:broadcast_mask_to_jacobian", "folx/utils.py:get_jacobian_for_reduction", "folx/hessian.py:vmapped_jac_hessian_jac"]}
{"id": "C55", "title": "Vectorised second-order terms are computed slice by slice, from exactly the inputs that matter there", "statement": "When a function registered with in_axes is applied to arrays with further (batch) axes, the rule that computes its second-order term sees, at every batch position, the slices of all arguments at that position (also where arguments are broadcast) and the list of exactly those inputs on which some argument - for functions linear in each argument: every argument - depends there; if the Jacobians are dense or the result is not sparse enough it sees the complete derivatives instead. Where no input matters the result is zero. For dot products leaving out such positions does not change the others. The computation raises if arguments without derivatives enlarge the batch while sparsity is kept, if exactly one position of a dot product has common inputs, and for dot products with positions left out and batch axes of size 1.", "quantifier": "all functions, shapes, in_axes, numbers of arguments, broadcast batch axes, index patterns, thresholds", "why_tests_cant": "Squeezing, nested vmaps, compressed index arrays and masked positions interact with every combination of shapes and patterns.", "anchors": ["folx/hessian.py:vmapped_jac_hessian_jac", "folx/hessian.py:find_out_idx", "folx/hessian.py:merge_and_populate", "folx/hessian.py:remove_zero_entries", "folx/utils.py:vmap_sequences_and_squeeze", "folx/utils.py:add_vmap_jacobian_dim"]}
{"id": "C56", "title": "The second-order term of a vectorised function is exact on arrays of every shape", "statement": "For a function applied along the in_axes of its arguments and vectorised over the others, with batch axes in front in the output, the second-order term of every output element is the sum over all inputs of the second derivative of the function at the slices of its arguments, in the direction of the derivatives with respect to that input - for dense Jacobians and sparse ones, at every threshold, whichever way of contracting is chosen. For products of two arrays it is twice the dot product of the derivatives, for any mixture of sparse and dense Jacobians, and also when positions of a dot product are left out. Excepted are the raising situations of C55 and, for functions that are not products, a dense Jacobian with fewer rows than inputs next to sparse ones.", "quantifier": "all second derivatives, all numbers of arguments, shapes, in_axes, broadcast batch axes, values, index patterns and thresholds", "why_tests_cant": "Every combination of shapes, broadcast axes and index patterns selects other slices and index lists; only some combinations are wrong when one of them is computed incorrectly.", "anchors": ["folx/hessian.py:vmapped_jac_hessian_jac", "folx/hessian.py:general_jac_hessian_jac", "folx/hessian.py:dot_product_jac_hessian_jac", "folx/hessian.py:find_out_idx", "folx/hessian.py:remove_zero_entries"]}
{"id": "C57", "title": "First derivatives are exact on arrays of every shape, whichever rule is chosen", "statement": "For a differentiable function of any number of arrays of any shapes (with numpy broadcasting), registered as elementwise, indexing, reduction or without axes, the Jacobian returned for the result holds, for every input, the image under the derivative of the function of the arguments' derivatives with respect to that input, and the first-order part of the Laplacian is the image of the arguments' Laplacians - for dense, sparse and mixed Jacobians, with different numbers of rows, at every threshold. Dense arguments, elementwise and indexing functions of sparse arguments never raise. A reduction raises if no element of a sparse argument depends on an input, and a reduction of two sparse arguments raises if elements of one of them depend on a different largest number of inputs than those of the other, both at most the threshold and different from 1; two sparse arguments of a function not registered as elementwise whose elements are scalars can give a wrong sum.", "quantifier": "all linear derivatives, numbers of arguments, shapes, axes, representations and index patterns of Jacobians, thresholds, flags", "why_tests_cant": "The rules rearrange, broadcast, pad and merge index masks; errors show only for particular combinations of shapes, repeated indices and row counts.", "anchors": ["folx/jvp.py:get_jvp_function", "folx/jvp.py:sparse_diag_jvp", "folx/jvp.py:sparse_index_jvp", "folx/jvp.py:sparse_jvp", "folx/jvp.py:dense_jvp", "folx/jvp.py:dense_joint_jvp", "folx/jvp.py:dense_split_jvp", "folx/jvp.py:dense_elementwise_jvp", "folx/api.py:FwdJacobian.__add__", "folx/utils.py:extend_jacobians", "folx/utils.py:broadcast_dim"]}
{"id": "C58", "title": "A wrapped function returns value, derivatives and Laplacian of the composed function on arrays of every shape", "statement": "Apply forward_laplacian to a function whose inputs are arrays, or apply a registered function to arrays that already hold value, derivatives and Laplacian of functions of the inputs. The arrays that forward_laplacian starts from hold value, derivatives and Laplacian of the input leaves (weighted as requested), dense or sparse. A wrapped function - linear, indexing, elementwise with numpy broadcasting, product, dot product along the last axis, or a function of slices along its declared axes - returns arrays that hold value, derivatives and Laplacian of the composition, for dense, sparse and mixed Jacobians and every threshold. Elementwise functions of arguments that are all dense or all sparse, x * y and x + y never raise; a function of one argument raises iff it reduces a sparse argument none of whose elements depends on an input.", "quantifier": "all functions that are twice differentiable at the point (with any derivatives), shapes, axes, numbers of arguments, representations and index patterns of Jacobians, thresholds, flags", "why_tests_cant": "First-order and second-order rules choose batch axes, broadcast and merge index masks independently of each other; their results must agree in shape and layout for every combination of shapes, axes and sparsity.", "anchors": ["folx/wrapper.py:construct_fwd_laplacian_functions", "folx/wrapper.py:wrap_forward_laplacian", "folx/wrapper.py:new_fn", "folx/hessian.py:get_jac_hessian_jac_trace", "folx/jvp.py:get_jvp_function", "folx/tree_utils.py:tree_add", "folx/api.py:FwdLaplArray"]}
{"id": "C59", "title": "forward_laplacian of programs over arrays of every shape is exact", "statement": "forward_laplacian(f, weights)(x), for a program f whose operations are array functions registered with flags and in_axes - elementwise functions with numpy broadcasting, products, sums and other reductions along axes, dot products along the last axis, indexing operations, arbitrary linear functions, arbitrary twice differentiable functions - applied to any mixture of arrays with and without derivatives (constants, closed-over arrays and results of non-differentiable operations take the place of fixed arguments), returns - if it returns - the value of f at x, the rows w_i * d_i f and the Laplacian sum_i w_i^2 * d_i d_i f at x, with dense and sparse Jacobians, for every threshold. Different thresholds give the same answer. With sparsity disabled and without scan it returns whenever f does.", "quantifier": "all programs (any number of equations, nested calls, operands), shapes, axes, values, weights, thresholds, and all array functions whose declared flags and axes are true", "why_tests_cant": "Which arguments are split off as extras, how the Jacobians are merged, and which batch axes are used depends on the whole run; unit tests cover single operations and a few networks.", "anchors": ["folx/wrapper.py:wrap_forward_laplacian", "folx/wrapper.py:new_fn", "folx/interpreter.py:forward_laplacian", "folx/interpreter.py:eval_jaxpr_with_forward_laplacian", "folx/utils.py:split_args", "folx/hessian.py:get_jac_hessian_jac_trace", "folx/jvp.py:get_jvp_function"]}
{"id": "C60", "title": "The rule for general functions computes the trace of the Hessian for any number of arrays and results", "statement": "The second-order term that a registered function without special flags gets - computed by flattening all arguments into one vector, choosing between a materialised Hessian, Hessian-vector products and nested directional derivatives according to sizes and dtypes, and unflattening - is at every position of every result the sum over the rows of the arguments' Jacobians of the second derivative in the direction of the row; for real arguments with real or complex results, for holomorphic functions, and for complex arguments with real results.", "quantifier": "all twice differentiable functions, numbers and sizes of arguments and results, numbers of Jacobian rows", "why_tests_cant": "The strategy depends on sizes and dtypes, and concatenation order of arguments, of Jacobians and of results must agree for every combination of sizes.", "anchors": ["folx/hessian.py:general_jac_hessian_jac", "folx/hessian.py:JHJ_via_hessian", "folx/hessian.py:JHJ_via_hvp", "folx/hessian.py:JHJ_via_trace", "folx/utils.py:flat_wrap", "folx/ad.py:hessian", "folx/ad.py:jacrev", "folx/ad.py:jacfwd"]}
{"id": "C61", "title": "Every registered elementwise function is exact on arrays of all shapes that broadcast", "statement": "Every elementwise function of the registry on real arrays (abs, neg, add, sub, mul, div with its custom second-order rule, pow, integer_pow, sqrt, rsqrt, log, log1p, exp, expm1, tanh, logistic, acos, asin, atan, atan2, cos, sin, tan, max, min, logaddexp, sigmoid, softplus, silu), called on arrays of any shapes that numpy broadcasting accepts, with any mixture of operands with and without derivatives and of dense and sparse Jacobians, at values inside its domain: whatever it returns holds the value, the derivatives and the Laplacian of the composition. With dense Jacobians it always returns; with sparse ones it returns if all operands carry derivatives, or the function is linear in each operand, or the operands without derivatives do not enlarge the result.", "quantifier": "all 29 entries, shapes, values in the domain, Jacobians (dense, sparse, mixed), thresholds", "why_tests_cant": "The rules depend on shapes, on which operands carry derivatives and on the sparsity pattern; tests cover a few shapes per function.", "anchors": ["folx/wrapped_functions.py:_LAPLACE_FN_REGISTRY", "folx/custom_hessian.py:div_jac_hessian_jac", "folx/wrapper.py:wrap_forward_laplacian", "folx/hessian.py:get_jac_hessian_jac_trace", "folx/jvp.py:get_jvp_function"]}
{"id": "C62", "title": "The forward Laplacian of array programs returns, with every sparsity threshold", "statement": "For every program without scan over arrays that is built from elementwise functions of the registry, sums and indexing of one array (slices, reshape, transpose, broadcast, constant padding): if the function itself runs at a point, in the domain of its primitives, then forward_laplacian(f)(x) returns for every sparsity threshold, with value, gradient and Laplacian of f. Functions that are not linear in each operand (div, pow, atan2, ...) must not broadcast an operand to a larger shape (else the library may raise).", "quantifier": "all such programs (any number of equations, nested calls), shapes, points in the domain, thresholds", "why_tests_cant": "Whether a run raises depends on the masks that come up on the way, hence on the whole program; tests run a few programs.", "anchors": ["folx/interpreter.py:forward_laplacian", "folx/interpreter.py:eval_jaxpr_with_forward_laplacian", "folx/wrapper.py:wrap_forward_laplacian", "folx/jvp.py:get_jvp_function", "folx/hessian.py:get_jac_hessian_jac_trace", "folx/hessian.py:vmapped_jac_hessian_jac"]}
{"id": "C63", "title": "The form of the results does not depend on the values of the inputs", "statement": "forward_laplacian(f) at two inputs of the same shapes, with the same weights and threshold, raises the same error or returns results of the same form: same sizes, the same results carry derivatives, the same Jacobians are sparse or dense, with the same number of rows and the same masks (x0_idx). So a function that was traced once gives the same structure for every input. Indices that select entries of masks must not depend on the inputs.", "quantifier": "all programs over the registered functions (any number of equations, nested jit and scan), all pairs of inputs of equal shapes, weights, thresholds", "why_tests_cant": "A hidden dependence of the structure on values (a data-dependent branch in a rule) shows only at particular values; tests compare few values and jit tracing hides the rest.", "anchors": ["folx/interpreter.py:forward_laplacian", "folx/interpreter.py:eval_jaxpr_with_forward_laplacian", "folx/interpreter.py:init_forward_laplacian_state", "folx/api.py:FwdJacobian", "folx/jvp.py:get_jvp_function", "folx/wrapped_functions.py:_LAPLACE_FN_REGISTRY"]}
{"id": "C64", "title": "Checking a scan's carry once is enough", "statement": "scan compares type and sparsity of the carry with the initial carry only for one evaluation of the body before the loop, and restores masks that jax.lax.scan does not carry. For bodies in which indices depend at most on the scan's constants this gives exactly the same results and errors as checking every iteration with the masks the body really produces, whatever happens to the masks between the iterations.", "quantifier": "all programs with scans (nested, any length and direction), all arguments, all ways to change masks between iterations", "why_tests_cant": "A body whose sparsity changes in a later iteration would silently get wrong masks; tests run a few bodies and lengths.", "anchors": ["folx/interpreter.py:eval_jaxpr_with_forward_laplacian", "folx/utils.py:extract_jacobian_mask"]}
{"id": "C65", "title": "Nested arguments and results", "statement": "For a function of nested arguments (tuples, lists, dictionaries of arrays) that returns a nested result, forward_laplacian(fn)(*args) returns a result of the same structure as fn(*args), and the entry at every path holds the value, the Jacobian and the Laplacian of fn's entry at that path, with respect to all numbers in the arguments, counted leaf by leaf. Flattening and unflattening never make a call fail that would work for the flattened function.", "quantifier": "all argument and result structures, all sizes, all inputs, all functions whose traced program satisfies the conditions of C51 or C59, all thresholds", "why_tests_cant": "A mix-up of leaves or Jacobian columns depends on the structure and sizes of arguments and results; tests use flat arguments or one nesting.", "anchors": ["folx/interpreter.py:forward_laplacian", "folx/interpreter.py:init_forward_laplacian_state", "folx/utils.py:ravel", "folx/api.py:IS_LEAF"]}
{"id": "C66", "title": "weights and keyword arguments act as documented", "statement": "The transformed function takes weights that 'must be tree broadcastable (like vmap) of the input arguments' and keyword arguments 'to the function': the weight of every array in the arguments is the leaf of weights met on its path, rows of the Jacobian are w_i d_i f and the Laplacian is the sum of w_i^2 d_i d_i f; keyword arguments are handed to the function.", "quantifier": "all argument structures, all prefix trees of weights, all keyword arguments, all functions, inputs and thresholds", "why_tests_cant": "Depends on the combination of the structures of the arguments and of the weights; tests use flat arguments and one weight.", "anchors": ["folx/interpreter.py:forward_laplacian", "folx/interpreter.py:init_forward_laplacian_state"]}
{"id": "C67", "title": "Programs with scans are right or rejected", "statement": "For a function built from array functions that never raise, jitted functions and lax.scan loops of at least one step (nested, with constants, scanned-over arrays, either direction), forward_laplacian either returns, and then value, gradient and Laplacian are right, or raises one of the three errors that reject a scan: a scanned-over array carries derivatives, the type of the carry changes, the sparsity of the carry changes. No other failure and no wrong result is possible.", "quantifier": "all such programs (any nesting depth and number of equations), all numbers of iterations, all inputs, all thresholds", "why_tests_cant": "Tests run a few loops of fixed length; that nothing else can go wrong in a later iteration, in a nested loop or in the extra evaluation before a reversed loop is a statement about all of them.", "anchors": ["folx/interpreter.py:eval_jaxpr_with_forward_laplacian", "folx/interpreter.py:eval_scan", "folx/interpreter.py:forward_laplacian"]}
{"id": "C68", "title": "Whether a scan is rejected is decided by one evaluation of its body", "statement": "For bodies in which indices depend at most on the scan's constants, forward_laplacian accepts a lax.scan if and only if no scanned-over array carries derivatives and one evaluation of the body, on the initial carry and the slices of step 0, returns a carry of the same form (sizes, which elements carry derivatives, Jacobian rows, masks). In particular a loop without scanned-over arrays is accepted for every number of iterations and direction, or for none.", "quantifier": "all bodies of static form, all constants, carries, scanned-over arrays, numbers of iterations, directions and thresholds", "why_tests_cant": "The number of iterations is unbounded; a test shows acceptance for the lengths it tries.", "anchors": ["folx/interpreter.py:eval_scan"]}
{"id": "C69", "title": "Maxima, minima, products and cumulative sums of arrays", "statement": "Inside any program, jnp.max, jnp.min and jnp.prod along any axes and jax.lax.cumsum along any axis (either direction), applied to an array of any shape, contribute the derivatives and the Laplacian of that function: prod and cumsum everywhere, max and min wherever every extremum is attained by one element only. Their values are those of the function named. A call raises exactly if the array is tracked sparsely and none of its elements depends on an input.", "quantifier": "all shapes without zero-size axes, all lists of distinct axes, all programs around the call, all inputs (for max/min: without ties), dense and sparse Jacobians, all thresholds", "why_tests_cant": "Shapes, axes and the programs around the call are unbounded; tests fix a few.", "anchors": ["folx/wrapped_functions.py:_LAPLACE_FN_REGISTRY", "folx/jvp.py:sparse_reduction_jvp", "folx/jvp.py:get_jvp_function", "folx/wrapper.py:wrap_forward_laplacian"]}
{"id": "C70", "title": "Matrix products and tensor contractions of arrays", "statement": "Inside any program, a dot_general (jnp.dot, @, einsum) of two arrays of any shapes, with any batch and contracted dimensions, contributes value, Jacobian and Laplacian of the contraction, computed by the code's own rearrangements, multiplication, sums and batched dot product. With sparsity disabled this holds always and the rule returns; with sparse Jacobians it holds whenever the rule returns, provided the result has no axis of size 1 and the call is not one of the fast-path cases without transpositions in which the code computes something else (see C31).", "quantifier": "all shapes without zero-size axes, all well-formed dimension numbers, all programs around the call, all inputs, all layouts of the operands' Jacobians (plain, dense, sparse in any mix), all thresholds", "why_tests_cant": "Shapes, dimension numbers and the mix of Jacobian layouts are unbounded; tests fix a few einsum patterns.", "anchors": ["folx/wrapped_functions.py:dot_general", "folx/wrapped_functions.py:rearrange", "folx/hessian.py:dot_product_jac_hessian_jac", "folx/wrapper.py:wrap_forward_laplacian"]}
{"id": "C71", "title": "Programs over arrays with determinants, and programs judged by their run", "statement": "For every program over arrays built from functions that are linear in each operand (indexing, sums, products of arrays, divisions by constants, ...) or have one operand (elementwise functions, maxima and products along axes, ...), tensor contractions, functions that drop derivatives, real-linear elementwise functions and slogdet of batches of invertible matrices, every sparsity threshold and all weights: whatever forward_laplacian(f, weights)(x) returns is the value of f, the weighted Jacobian rows and the weighted Laplacian, although slogdet of an array with a sparse Jacobian returns a dense Jacobian with fewer rows than there are inputs. More generally this holds for every run in which each call is of this kind, or is a function of several operands that meets dense Jacobians only, or sparse ones and dense ones with all rows. Answers with different thresholds agree.", "quantifier": "all such programs, all array shapes without zero-size axes, all inputs at which the functions are smooth, all thresholds, all weights", "why_tests_cant": "Programs, shapes and the layouts of the Jacobians that meet in a call are unbounded.", "anchors": ["folx/wrapped_functions.py:slogdet_wrapper", "folx/wrapped_functions.py:_LAPLACE_FN_REGISTRY", "folx/wrapper.py:wrap_forward_laplacian", "folx/interpreter.py:eval_jaxpr_with_forward_laplacian", "folx/jvp.py:dense_jvp"]}
{"id": "C72", "title": "The default registry on arrays", "statement": "Every function registered by default - the elementwise functions, the functions without derivatives, reduce_sum, reduce_max, reduce_min, reduce_prod, cumsum, broadcast_in_dim, reshape, slice, dynamic_slice, concatenate, select_n, gather, transpose, squeeze, rev, scatter_add, scatter_max, scatter_min, dot_general, slogdet, convert_element_type - applied to arrays of any shapes that it accepts, in any program, with any sparsity threshold and any weights: at every input at which the functions called are smooth, what forward_laplacian(f, weights)(x) returns is the value of f, the weighted Jacobian rows and the weighted Laplacian. With sparsity disabled and without scan it returns whenever f does. Functions that only copy elements copy an existing element; scatter_add, scatter_max and scatter_min give the sum, the largest, the smallest of the operand's element and the updates that go there.", "quantifier": "all programs over the default registry on real arrays, all shapes without zero-size axes, all inputs in the domains of the functions, all thresholds, all weights", "why_tests_cant": "Programs, shapes, parameters and combinations of Jacobian layouts are unbounded.", "anchors": ["folx/wrapped_functions.py:_LAPLACE_FN_REGISTRY", "folx/wrapped_functions.py:get_laplacian", "folx/wrapper.py:wrap_forward_laplacian", "folx/interpreter.py:eval_jaxpr_with_forward_laplacian", "folx/api.py:FunctionFlags"]}
{"id": "C73", "title": "Programs that are smooth everywhere need no conditions on the input", "statement": "For a program whose functions (in nested jitted functions and scan bodies too) are registered functions that are smooth everywhere, such as tanh, exp, products, contractions, sums, reshapes, there is one list of functions f that the program computes, and at every input, for every threshold and all weights, whatever forward_laplacian returns are the value, the weighted Jacobian and the weighted Laplacian of f there. With sparsity disabled and without scan, if the program runs at one input, forward_laplacian returns at every input.", "quantifier": "all such programs, all inputs, all thresholds, all weights", "why_tests_cant": "Programs and inputs are unbounded; a test sees one input.", "anchors": ["folx/interpreter.py:forward_laplacian", "folx/interpreter.py:eval_jaxpr_with_forward_laplacian", "folx/wrapped_functions.py:_LAPLACE_FN_REGISTRY"]}
{"id": "C74", "title": "The attributes of a result are value, partial derivatives and Laplacian", "statement": "Let a result of forward_laplacian(f, weights)(x) have shape s (no zero-size axes). If it carries derivatives: result.x is the value; result.jacobian.dense_array is an array of shape (N, *s) whose entry at (i, p) is w_i times the partial derivative of f's element p with respect to input i, the partial derivatives of inputs i >= N (there are fewer rows than inputs if the last ones do not occur) are zero and so are rows beyond the inputs; at every position p the entries of result.jacobian.data whose index in result.jacobian.mask is i add up to w_i times the partial derivative with respect to input i; result.laplacian is the weighted Laplacian. If it is a plain array, f is constant near x. With sparsity disabled the Jacobian is a dense array of shape (n, *s). The two models of dense_array, by positions and by arrays, agree.", "quantifier": "all programs over arrays (as C59, C71, C72), shapes, thresholds, weights, inputs", "why_tests_cant": "Programs, shapes and index patterns are unbounded; whether the stored indices, the materialisation and the exactness theorems fit together is a statement about all of them.", "anchors": ["folx/api.py:FwdLaplArray", "folx/api.py:FwdJacobian.dense_array", "folx/api.py:FwdJacobian.mask", "folx/api.py:FwdJacobian.materialize_for_idx", "folx/interpreter.py:forward_laplacian"]}
{"id": "C75", "title": "Pipelines of transformed functions; densifying and thresholds stay invisible", "statement": "Call forward_laplacian(f)(x), then repeatedly: pick results of the last call, optionally take .dense, .real, .imag, .conj() or .astype of a floating or complex type (any real-linear function of every number), in any number and order, and pass them to forward_laplacian(g) with any threshold. If all calls return and each gets an argument with derivatives, what comes out at the end are the value, the weighted Jacobian and the weighted Laplacian, with respect to the first inputs, of the composition of all these functions. Hence two such pipelines that differ only in what was densified, in the thresholds and in the weights of later calls give the same answers. .dense keeps value and Laplacian, has a dense Jacobian that gives the same derivatives, and is its own .dense.", "quantifier": "all first programs and inputs, weights; all lists of further programs; all choices of .dense and of thresholds", "why_tests_cant": "The number of calls, the programs, and the combinations of sparse and densified results are unbounded.", "anchors": ["folx/api.py:FwdLaplArray.dense", "folx/api.py:FwdLaplArray.real", "folx/api.py:FwdLaplArray.conj", "folx/api.py:FwdLaplArray.astype", "folx/interpreter.py:forward_laplacian", "folx/interpreter.py:init_forward_laplacian_state"]}

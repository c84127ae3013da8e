{"id": "C01", "title": "Primitive binary serialization round-trips", "statement": "Writing an int, size_t, double or length-prefixed double array to a byte stream and reading it back yields the same value, consumes exactly the bytes written, and leaves whatever follows in the stream for the next reader.", "quantifier": "every 32-bit int, 64-bit size_t, 64-bit double pattern, every array of doubles, every trailing byte string", "why_tests_cant": "The value spaces have 2^32..2^64 elements (and unbounded arrays); a test samples a handful.", "anchors": ["c3/lib_stringmanip/stringmanip.c:serialize_int", "c3/lib_stringmanip/stringmanip.c:deserialize_int", "c3/lib_stringmanip/stringmanip.c:serialize_size_t", "c3/lib_stringmanip/stringmanip.c:serialize_doublep", "c3/lib_stringmanip/stringmanip.c:deserialize_doublep"]}
{"id": "C02", "title": "Splitting a string on a delimiter loses nothing", "statement": "Splitting a string on a character gives one more piece than there are delimiters, no piece contains the delimiter, and joining the pieces with the delimiter restores the input.", "quantifier": "every string and every delimiter character", "why_tests_cant": "Strings are unbounded; edge cases (empty string, leading, trailing, repeated delimiters) combine freely.", "anchors": ["c3/lib_stringmanip/stringmanip.c:parse_string", "c3/lib_stringmanip/stringmanip.c:concat_string"]}
{"id": "C03", "title": "Biting a prefix off a string reconstructs", "statement": "Biting a string at the first occurrence of a character returns the text before it and leaves exactly the text after it; when the character is absent nothing is returned and the string is unchanged.", "quantifier": "every string and every non-NUL token character", "why_tests_cant": "Unbounded strings; correctness depends on where the token occurs.", "anchors": ["c3/lib_stringmanip/stringmanip.c:bite_string"]}
{"id": "C04", "title": "Multi-character bite is sound, and complete only under a no-overlap condition", "statement": "When biting at a multi-character token succeeds, prefix followed by token followed by remainder is the original string. The bite should succeed whenever the token occurs after a non-empty prefix.", "quantifier": "every string and every non-empty token", "why_tests_cant": "A matching automaton without fallback fails only on particular overlaps between token and text.", "anchors": ["c3/lib_stringmanip/stringmanip.c:bite_string2"]}
{"id": "C05", "title": "Integer-to-text conversion is correct in every base", "statement": "The text produced for an integer in base 2..36 denotes that integer: its digits evaluate in that base to the absolute value, a minus sign appears exactly for negatives, and there is no leading zero except for zero itself. Any other base produces the empty string.", "quantifier": "every C int and every base", "why_tests_cant": "2^32 integers times 35 bases.", "anchors": ["c3/lib_stringmanip/stringmanip.c:itoa"]}
{"id": "C06", "title": "Index set keeps insertion order", "statement": "After any sequence of insertions into an index set, the number of nodes is the number of insertions and the i-th retrieved node is a copy of the i-th inserted one.", "quantifier": "every insertion history, every node dimension, every index", "why_tests_cant": "Histories are unbounded; a linked-list bug can depend on length.", "anchors": ["c3/lib_clinalg/indmanage.c:cross_index_add_index", "c3/lib_clinalg/indmanage.c:cross_index_get_node", "c3/lib_clinalg/indmanage.c:cross_node_add"]}
{"id": "C07", "title": "Nested index sets extend old nodes by one coordinate", "statement": "Creating an index set of a requested size nested in an old one yields exactly that many nodes, each of which is an old node extended (on the chosen side) by one of the offered coordinate values, in the documented order, and for the two product orders without repeating an (old node, option) pair.", "quantifier": "every old index set, option list, requested size, nesting side and order", "why_tests_cant": "Result depends on the relation between three unbounded sizes.", "anchors": ["c3/lib_clinalg/indmanage.c:cross_index_create_nested", "c3/lib_clinalg/indmanage.c:cross_index_create_nested_ind"]}
{"id": "C08", "title": "Merging left and right index sets enumerates the full product", "statement": "Merging a left and a right index set with room for the free coordinate produces, for every pair (left node, right node), the point left ++ [free] ++ right at position right_index * n_left + left_index; a missing side contributes nothing.", "quantifier": "every pair of (possibly missing) index sets", "why_tests_cant": "Product over unbounded sets; index arithmetic errors show up only for particular sizes.", "anchors": ["c3/lib_clinalg/indmanage.c:cross_index_merge_wspace", "c3/lib_clinalg/indmanage.c:cross_index_merge"]}
{"id": "C09", "title": "Initial nested index arrays are nested", "statement": "Initialising the array of left (resp. right) index sets from per-dimension option lists gives sets whose k-th member has the requested size and whose nodes have the right number of coordinates, each extending a node of the neighbouring set by an option of the corresponding dimension.", "quantifier": "every dimension count, rank list and option lists large enough", "why_tests_cant": "Property is inductive over dimensions.", "anchors": ["c3/lib_clinalg/indmanage.c:cross_index_array_initialize"]}
{"id": "C10", "title": "Hash table behaves as a first-write-wins map", "statement": "After any sequence of insertions into a string-keyed hash table, looking a key up returns the value of the first insertion with that key or 'absent' if there was none; inserting an existing key reports so and changes nothing; the number of stored pairs is the number of distinct keys. This holds for every table size and whatever collisions occur.", "quantifier": "every history of insertions, every key, every table size >= 1", "why_tests_cant": "Collision behaviour depends on arbitrary hash coincidences and histories.", "anchors": ["c3/lib_funcs/monitoring.c:create_hashtable_cp", "c3/lib_funcs/monitoring.c:add_cpair", "c3/lib_funcs/monitoring.c:lookup_key", "c3/lib_funcs/monitoring.c:nstored_hashtable_cp", "c3/lib_funcs/monitoring.c:hashsimple"]}
{"id": "C11", "title": "Monitored evaluation is transparent and calls the function once per point", "statement": "Evaluating a function through the caching monitor returns the function's value at every requested point, and the underlying function is invoked exactly once for each distinct text key.", "quantifier": "every deterministic function, every evaluation history, every table size", "why_tests_cant": "Quantifies over histories and all points; the text key keeps 15 digits, so transparency fails for points that agree to that precision.", "anchors": ["c3/lib_funcs/monitoring.c:function_monitor_eval", "c3/lib_array/array.c:serialize_darray_to_text"]}
{"id": "C12", "title": "Fiber evaluation substitutes one coordinate", "statement": "Evaluating a wrapped function along a registered fiber at x gives the function's value at the fiber's fixed point with the fiber coordinate replaced by x, for every fiber and for every batch of points, whatever fibers were registered before.", "quantifier": "every dimension, fiber history, batch of points", "why_tests_cant": "All combinations of fiber dimension and history.", "anchors": ["c3/lib_funcs/fwrap.c:fwrap_initialize_fiber_approx", "c3/lib_funcs/fwrap.c:fwrap_add_fiber", "c3/lib_funcs/fwrap.c:fwrap_set_which_fiber", "c3/lib_funcs/fwrap.c:eval_fiber", "c3/lib_funcs/fwrap.c:fwrap_eval"]}
{"id": "C13", "title": "Univariate function serialization round-trips", "statement": "Serializing any univariate function (orthogonal polynomial expansion, piecewise polynomial tree, linear-element or constant-element expansion) and reading it back gives an equal function; the number of bytes written equals the announced size; trailing bytes are untouched.", "quantifier": "every function of each class, arbitrary tree shapes, any trailing bytes", "why_tests_cant": "Recursive data of unbounded size.", "anchors": ["c3/lib_funcs/functions.c:serialize_generic_function", "c3/lib_funcs/funcs_not_standard.c:deserialize_generic_function", "c3/lib_funcs/polynomials.c:serialize_orth_poly_expansion", "c3/lib_funcs/piecewisepoly.c:serialize_piecewise_poly", "c3/lib_funcs/linelm.c:serialize_lin_elem_exp", "c3/lib_funcs/constelm.c:serialize_const_elem_exp"]}
{"id": "C14", "title": "Quasimatrix, qmarray and function-train serialization round-trips", "statement": "Serializing a quasimatrix, a matrix-valued function (qmarray), a function train or an array of function trains, and reading it back, gives an equal object; the announced size is exact; trailing bytes are untouched.", "quantifier": "every well-formed object of any dimension, rank and univariate class", "why_tests_cant": "Unbounded nested structures.", "anchors": ["c3/lib_clinalg/quasimatrix.c:quasimatrix_serialize", "c3/lib_clinalg/qmarray.c:qmarray_serialize", "c3/lib_clinalg/ft.c:function_train_serialize", "c3/lib_clinalg/ft.c:function_train_deserialize", "c3/lib_clinalg/ft.c:ft1d_array_serialize"]}
{"id": "C15", "title": "Function-train evaluation is the matrix chain product", "statement": "Evaluating a function train at x returns the (1x1) product of its cores evaluated at the coordinates of x, for any dimension; the alternating scratch buffers never leak into the result and no buffer is overrun.", "quantifier": "every dimension >= 1, every rank list, every cores, every point", "why_tests_cant": "Ping-pong buffer and index errors depend on dimension parity and rank profile.", "anchors": ["c3/lib_clinalg/ft.c:function_train_eval", "c3/lib_clinalg/ft.c:function_train_eval_next_core", "c3/lib_clinalg/ft.c:function_train_pre_eval"]}
{"id": "C16", "title": "Sum of function trains is pointwise sum", "statement": "For function trains of equal dimension >= 2 the sum evaluates to the sum of the values at every point, and its ranks are the sums of the interior ranks. (The one-dimensional case is included in the claim.)", "quantifier": "every pair of trains, every point", "why_tests_cant": "All ranks/dimensions/points.", "anchors": ["c3/lib_clinalg/ft.c:function_train_sum", "c3/lib_clinalg/qmarray.c:qmarray_stackh", "c3/lib_clinalg/qmarray.c:qmarray_stackv", "c3/lib_clinalg/qmarray.c:qmarray_blockdiag"]}
{"id": "C17", "title": "Product of function trains is pointwise product", "statement": "The product of two function trains evaluates to the product of the values at every point and has ranks equal to the products of ranks.", "quantifier": "every pair of trains of equal dimension, every point", "why_tests_cant": "All ranks/dimensions/points.", "anchors": ["c3/lib_clinalg/ft.c:function_train_product", "c3/lib_clinalg/qmarray.c:qmarray_kron"]}
{"id": "C18", "title": "Scaling a function train scales every value", "statement": "Scaling a function train by a multiplies its value by a at every point, leaving ranks and the other cores unchanged; scaling then adding (the axpy operation with zero tolerance) computes a x + y pointwise.", "quantifier": "every scalar, train, point", "why_tests_cant": "All inputs.", "anchors": ["c3/lib_clinalg/ft.c:function_train_scale", "c3/lib_clinalg/ft.c:c3axpy", "c3/lib_clinalg/ft.c:c3vaxpy", "c3/lib_clinalg/ft.c:c3vaxpy_arr"]}
{"id": "C19", "title": "Integration of a function train is the iterated integral", "statement": "The integral of a function train equals the iterated application of the univariate integral to the function it represents, for any linear univariate integral.", "quantifier": "every train and any linear integration functional per dimension", "why_tests_cant": "All ranks and dimensions.", "anchors": ["c3/lib_clinalg/ft.c:function_train_integrate", "c3/lib_clinalg/qmarray.c:qmarray_integrate"]}
{"id": "C20", "title": "Inner products of function trains agree with the integral of the product", "statement": "The inner product of two function trains equals the integral of their product train; the left-to-right, alternate and right-to-left algorithms give the same number; it is symmetric and bilinear.", "quantifier": "every pair of trains of equal dimension, any univariate bilinear inner product induced by a linear integral", "why_tests_cant": "Kronecker index layouts only go wrong for particular rank combinations.", "anchors": ["c3/lib_clinalg/ft.c:function_train_inner", "c3/lib_clinalg/ft.c:function_train_inner2", "c3/lib_clinalg/ft.c:function_train_inner_rl", "c3/lib_clinalg/qmarray.c:qmarray_vec_kron_integrate", "c3/lib_clinalg/qmarray.c:qmarray_kron_integrate"]}
{"id": "C21", "title": "Gradient evaluation is the gradient", "statement": "For every function train and point, the i-th entry of the evaluated gradient is the value of the train whose i-th core is replaced by its derivative (the i-th partial derivative).", "quantifier": "every dimension, ranks, point", "why_tests_cant": "Index bookkeeping over four flat buffers; depends on dimension and ranks.", "anchors": ["c3/lib_clinalg/ft.c:function_train_gradient_eval", "c3/lib_clinalg/ft.c:function_train_gradient"]}
{"id": "C22", "title": "Coordinate-perturbation evaluation equals 2d separate evaluations", "statement": "Evaluating a train at x together with two perturbed values per coordinate returns the value at x and, for each coordinate i and each sign, the value at x with coordinate i replaced by the perturbed value.", "quantifier": "every dimension, ranks, point and perturbations", "why_tests_cant": "Index bookkeeping depends on dimension/ranks.", "anchors": ["c3/lib_clinalg/ft.c:function_train_eval_co_perturb", "c3/lib_clinalg/ft.c:function_train_eval_co_perturb_ind"]}
{"id": "C23", "title": "Fiber evaluation of a train equals repeated point evaluation", "statement": "Evaluating a train on a fiber (all but one coordinate fixed) gives at each requested location the same value as evaluating the train at the full point.", "quantifier": "every dimension, varying coordinate, ranks, batch", "why_tests_cant": "Parity-dependent scratch buffers from both sides.", "anchors": ["c3/lib_clinalg/ft.c:function_train_eval_fiber_ind", "c3/lib_clinalg/ft.c:function_train_eval_ind"]}
{"id": "C24", "title": "Structured constructors represent the documented functions", "statement": "The constant, linear, quadratic, aligned-quadratic, rank-one-product and sum constructors build trains whose values are a, sum(c_i x_i + a_i), (x-m)'Q(x-m), sum c_i (x_i-m_i)^2, prod a_i x_i and sum f_i(x_i) respectively, with ranks consistent with the cores so that they can be evaluated.", "quantifier": "every dimension allowed by the interface, all coefficients, all points", "why_tests_cant": "Rank bookkeeping per dimension; special cases at dimension 1.", "anchors": ["c3/lib_clinalg/ft.c:function_train_constant", "c3/lib_clinalg/ft.c:function_train_linear", "c3/lib_clinalg/ft.c:function_train_quadratic", "c3/lib_clinalg/ft.c:function_train_quadratic_aligned", "c3/lib_clinalg/ft.c:function_train_rankone_prod", "c3/lib_clinalg/ft.c:function_train_initsum"]}
{"id": "C25", "title": "Partial integration of a train integrates out exactly the requested coordinates", "statement": "Contracting a train over an increasing list of coordinates gives a train in the remaining coordinates whose value is the weighted integral over the contracted ones, with consistent ranks.", "quantifier": "every dimension, every proper increasing list of coordinates", "why_tests_cant": "2^d subsets for each d.", "anchors": ["c3/lib_clinalg/ft.c:function_train_integrate_weighted_subset"]}
{"id": "C26", "title": "Parameter vector layout round-trips", "statement": "Reading all parameters of a train, or updating them, uses one fixed layout: updating with a vector and reading back returns the vector; updating with the vector just read changes nothing; the reported number of parameters is its length; updating with the wrong number is rejected.", "quantifier": "every train and parameter vector", "why_tests_cant": "All shapes.", "anchors": ["c3/lib_clinalg/ft.c:function_train_get_params", "c3/lib_clinalg/ft.c:function_train_update_params", "c3/lib_clinalg/ft.c:function_train_get_nparams", "c3/lib_clinalg/qmarray.c:qmarray_update_params", "c3/lib_clinalg/qmarray.c:qmarray_get_params"]}
{"id": "C27", "title": "Kronecker products with matrix-valued functions are computed correctly", "statement": "The specialised routines for a*kron(B,C) and kron(B,C)*a return exactly those products in the documented column-major layout, for all shapes.", "quantifier": "every shape and every matrix", "why_tests_cant": "The source itself says nobody knows how the index arithmetic happens to be right; errors only show for particular shape combinations.", "anchors": ["c3/lib_clinalg/qmarray.c:qmarray_mat_kron", "c3/lib_clinalg/qmarray.c:qmarray_kron_mat", "c3/lib_funcs/functions.c:generic_function_kronh", "c3/lib_funcs/functions.c:generic_function_kronh2"]}
{"id": "C28", "title": "Matrix times matrix-valued-function products", "statement": "The products Q*R, Q'*R, M*Q, Q1*Q2, Q1'*Q2, Q1*Q2' and Q1'*Q2' of matrix-valued functions and matrices, and their integrated versions, have the documented entries.", "quantifier": "every compatible shapes", "why_tests_cant": "Shape-dependent index errors (one variant writes the transpose and overruns for non-square results).", "anchors": ["c3/lib_clinalg/qmarray.c:qmam", "c3/lib_clinalg/qmarray.c:qmatm", "c3/lib_clinalg/qmarray.c:mqma", "c3/lib_clinalg/qmarray.c:qmaqma", "c3/lib_clinalg/qmarray.c:qmatqma", "c3/lib_clinalg/qmarray.c:qmaqmat", "c3/lib_clinalg/qmarray.c:qmatqmat"]}
{"id": "C29", "title": "Householder QR of a quasimatrix", "statement": "The Householder sweep followed by the Q-forming sweep gives A = Q R with R upper triangular and Q having orthonormal columns, given orthonormal starting columns, in exact arithmetic when no threshold branch is taken.", "quantifier": "every real inner product space, every n", "why_tests_cant": "Universal statement over infinite-dimensional objects.", "anchors": ["c3/lib_clinalg/quasimatrix.c:quasimatrix_householder", "c3/lib_clinalg/quasimatrix.c:quasimatrix_qhouse"]}
{"id": "C30", "title": "Gram-Schmidt QR of a matrix-valued function", "statement": "Gram-Schmidt orthonormalisation of the columns (rows) either aborts on a dependent column or yields A = QR (A = LQ) with orthonormal columns (rows).", "quantifier": "every size and every entries in an inner product space", "why_tests_cant": "Universal.", "anchors": ["c3/lib_clinalg/qmarray.c:qmarray_qr_gs", "c3/lib_clinalg/qmarray.c:qmarray_lq_gs"]}
{"id": "C31", "title": "Cross LU of a quasimatrix factors exactly", "statement": "The LU sweep returns L and U with A = L U, where U is upper triangular, and reports the number of vanishing pivots.", "quantifier": "every quasimatrix", "why_tests_cant": "Universal; pivots decided at run time.", "anchors": ["c3/lib_clinalg/quasimatrix.c:quasimatrix_lu1d", "c3/lib_clinalg/qmarray.c:qmarray_lu1d"]}
{"id": "C32", "title": "Linear-element evaluation is piecewise linear interpolation", "statement": "Evaluating a linear-element expansion returns the coefficient at each node, the linear interpolant between neighbouring nodes, and zero outside the node range.", "quantifier": "every strictly increasing grid with >= 2 nodes, every coefficients, every x", "why_tests_cant": "Real-valued x; interval search boundaries.", "anchors": ["c3/lib_funcs/linelm.c:lin_elem_exp_eval", "c3/lib_funcs/linelm.c:lin_elem_exp_find_interval"]}
{"id": "C33", "title": "Linear-element integral is exact", "statement": "The integral of a linear-element expansion equals the integral of its evaluation over its node range.", "quantifier": "every grid and coefficients", "why_tests_cant": "Equality of a sum with an integral over a continuum.", "anchors": ["c3/lib_funcs/linelm.c:lin_elem_exp_integrate"]}
{"id": "C34", "title": "Linear-element algebra is pointwise", "statement": "On a common grid, adding a multiple of one linear-element expansion to another and scaling act pointwise on evaluations at every x.", "quantifier": "every grid, coefficients, scalars, x", "why_tests_cant": "All x.", "anchors": ["c3/lib_funcs/linelm.c:lin_elem_exp_axpy", "c3/lib_funcs/linelm.c:lin_elem_exp_scale"]}
{"id": "C35", "title": "Linear-element extrema are global extrema", "statement": "The reported maximum (minimum, absolute maximum) of a linear-element expansion is attained at the reported location and bounds the evaluation at every point of the domain.", "quantifier": "every grid, coefficients, x in the domain", "why_tests_cant": "All x.", "anchors": ["c3/lib_funcs/linelm.c:lin_elem_exp_max", "c3/lib_funcs/linelm.c:lin_elem_exp_min", "c3/lib_funcs/linelm.c:lin_elem_exp_absmax"]}
{"id": "C36", "title": "Orthogonal-polynomial evaluation sums the series", "statement": "Evaluating an orthogonal polynomial expansion at x returns sum_k c_k p_k(map(x)) where p_k is given by the family's three-term recurrence and map is the affine map to the reference domain; the Chebyshev evaluation by backward recurrence gives the same number.", "quantifier": "every family, coefficients, x", "why_tests_cant": "Unbounded degree and real x.", "anchors": ["c3/lib_funcs/polynomials.c:orth_poly_expansion_eval", "c3/lib_funcs/polynomials.c:chebyshev_poly_expansion_eval"]}
{"id": "C37", "title": "Conversion of an orthogonal polynomial to monomials preserves the polynomial", "statement": "Converting an expansion from an orthogonal family to monomial coefficients gives a polynomial with the same value everywhere, and its formal derivative is the derivative.", "quantifier": "every recurrence, degree, x", "why_tests_cant": "Unbounded degree.", "anchors": ["c3/lib_funcs/polynomials.c:orth_to_standard_poly", "c3/lib_funcs/polynomials.c:standard_poly_deriv"]}
{"id": "C38", "title": "Polynomial expansion algebra is pointwise", "statement": "Adding, scaling and linearly combining expansions of one family on one domain act pointwise on values (up to the documented truncation of negligible trailing coefficients).", "quantifier": "every expansions, scalars, x", "why_tests_cant": "Branches depend on relative lengths; one branch of the three-term sum is wrong.", "anchors": ["c3/lib_funcs/polynomials.c:orth_poly_expansion_axpy", "c3/lib_funcs/polynomials.c:orth_poly_expansion_sum3_up", "c3/lib_funcs/polynomials.c:orth_poly_expansion_lin_comb"]}
{"id": "C39", "title": "Piecewise polynomial trees evaluate the leaf that contains the point", "statement": "A piecewise polynomial tree evaluates to the polynomial of the leaf whose interval contains x; flattening the tree, copying it, scaling it and summing integrals over its leaves preserve/act on values accordingly.", "quantifier": "every tree shape, x in the domain", "why_tests_cant": "Unbounded recursive trees.", "anchors": ["c3/lib_funcs/piecewisepoly.c:piecewise_poly_eval", "c3/lib_funcs/piecewisepoly.c:piecewise_poly_flatten", "c3/lib_funcs/piecewisepoly.c:piecewise_poly_scale", "c3/lib_funcs/piecewisepoly.c:piecewise_poly_integrate"]}
{"id": "C40", "title": "Tensor-train element lookup, addition and product", "statement": "Element lookup of a discrete tensor train is the matrix chain product; adding and multiplying trains acts element-wise.", "quantifier": "every dimensions, mode sizes, ranks, indices", "why_tests_cant": "Index arithmetic; the stride of later cores is taken from the wrong mode.", "anchors": ["c3/lib_tensdecomp/tensortrain.c:ttelem", "c3/lib_tensdecomp/tt_multilinalg.c:ttadd", "c3/lib_tensdecomp/tt_multilinalg.c:ttmult", "c3/lib_tensor/tensor.c:tensor_stack2h_3d", "c3/lib_tensor/tensor.c:tensor_stack2v_3d", "c3/lib_tensor/tensor.c:tensor_blockdiag_3d"]}
{"id": "C41", "title": "Tensor-train inner product and quadrature", "statement": "The inner product of two trains is the sum over all indices of the products of elements; tensor-train integration is the weighted sum over all indices.", "quantifier": "every mode sizes, ranks, weights", "why_tests_cant": "Exponentially many indices.", "anchors": ["c3/lib_tensdecomp/tt_multilinalg.c:tt_dot", "c3/lib_tensdecomp/tt_integrate.c:tt_integrate", "c3/lib_tensor/tensor.c:tensor_sum2"]}
{"id": "C42", "title": "Flat-to-multi index conversion is a bijection", "statement": "Converting a flat index to a multi-index of a tensor is the inverse of the column-major flattening: in range, injective, and the two compose to the identity.", "quantifier": "every mode-size list and index", "why_tests_cant": "Unbounded sizes.", "anchors": ["c3/lib_tensdecomp/cross.c:big_to_multi"]}
{"id": "C43", "title": "Cross-approximation fiber cache is transparent", "statement": "A fiber requested from the cross-approximation cache always equals the directly evaluated fiber, and each fiber is evaluated at most once.", "quantifier": "every request history", "why_tests_cant": "Histories.", "anchors": ["c3/lib_tensdecomp/cross.c:cross_setup", "c3/lib_tensdecomp/cross.c:CrossIndexExists", "c3/lib_tensdecomp/cross.c:AddCrossFiber", "c3/lib_tensdecomp/cross.c:getCrossFiberListIndex"]}
{"id": "C44", "title": "Least-squares cost and gradient are consistent", "statement": "The least-squares objective is half the sum of squared residuals and the returned gradient is its exact derivative with respect to the parameters; the regularised variants add the documented terms to both.", "quantifier": "every data set, parameter vector and linear-in-parameter model", "why_tests_cant": "Derivative identity for all inputs.", "anchors": ["c3/lib_funcs/functions.c:param_LSregress_cost", "c3/lib_funcs/functions.c:param_RLS2regress_cost", "c3/lib_funcs/functions.c:param_RLSD2regress_cost"]}
{"id": "C45", "title": "Regression set-up decision table", "statement": "One-dimensional regression rejects (returns no function) every option combination that lacks the parameters it needs or is unsupported, and accepts all others.", "quantifier": "every option combination", "why_tests_cant": "Decision table over many optional fields.", "anchors": ["c3/lib_funcs/functions.c:generic_function_regress1d", "c3/lib_funcs/functions.c:regress_1d_opts_create"]}
{"id": "C46", "title": "Packed double encoding is lossless", "statement": "Packing a finite double into a sign/mantissa and exponent pair and unpacking restores it exactly, and text/byte streams of packed doubles read back in order.", "quantifier": "every finite double", "why_tests_cant": "2^64 doubles.", "anchors": ["c3/lib_array/array.c:pack", "c3/lib_array/array.c:unpack", "c3/lib_array/array.c:serialize_double_packed"]}
{"id": "C47", "title": "Linear index grids", "statement": "linspace returns N points starting at min, ending at exactly max, equally spaced; arange returns exactly the points lo + k*step (k = 0, 1, ...) that do not exceed hi.", "quantifier": "every N >= 2, bounds", "why_tests_cant": "All inputs.", "anchors": ["c3/lib_array/array.c:linspace", "c3/lib_array/array.c:arange"]}
{"id": "C48", "title": "Function-train products in BLAS-like routines", "statement": "The array routines compute y <- alpha*sum_i A_i x_i + beta*y (and the array/matrix variants) pointwise, with beta applied exactly once.", "quantifier": "every array sizes, strides, scalars, points with rounding disabled", "why_tests_cant": "All inputs; one variant applies beta twice and one always aborts.", "anchors": ["c3/lib_clinalg/ft.c:c3gemv", "c3/lib_clinalg/ft.c:c3vprodsum", "c3/lib_clinalg/ft.c:c3vgemv", "c3/lib_clinalg/ft.c:c3vgemv_arr"]}
{"id": "C49", "title": "Stripping the ends of a string", "statement": "Stripping blanks from both ends of a string leaves exactly the text between the first and last non-blank characters; stripping given end characters does the same for those characters; both terminate and stay inside the string's storage.", "quantifier": "every string, every pair of end characters, every buffer holding the string", "why_tests_cant": "The loops move memory in place and scan backwards; over-reads and non-termination depend on string length, on buffer slack and on which characters occur.", "anchors": ["c3/lib_stringmanip/stringmanip.c:strip_blank_ends", "c3/lib_stringmanip/stringmanip.c:strip_ends"]}
{"id": "C50", "title": "String concatenation", "statement": "Concatenating two strings gives the first followed by the second; a NULL argument counts as the empty string.", "quantifier": "every pair of (possibly NULL) strings", "why_tests_cant": "Unbounded strings.", "anchors": ["c3/lib_stringmanip/stringmanip.c:concat_string"]}
{"id": "C51", "title": "L2 norm and distance of function trains", "statement": "The L2 norm of a train is the square root of the integral of its square; the distance of two trains is the square root of the integral of the squared difference of their values; the relative distance is that divided by the norm of the second train, or the absolute distance if the squared norm is at most the zero threshold.", "quantifier": "every pair of trains of one dimension", "why_tests_cant": "Integrals over all functions, all ranks and dimensions; a sign slip or a swapped denominator is invisible when the trains coincide.", "anchors": ["c3/lib_clinalg/ft.c:function_train_norm2", "c3/lib_clinalg/ft.c:function_train_norm2diff", "c3/lib_clinalg/ft.c:function_train_relnorm2diff"]}
{"id": "C52", "title": "Evaluating a train up to a core", "statement": "Evaluating a train up to and including core k returns the row vector that is the product of the core matrices 0..k at the point, and its length.", "quantifier": "every train, every k below the dimension, every point", "why_tests_cant": "A product over unboundedly many matrices with alternating buffers; the routine is marked as untested in the source.", "anchors": ["c3/lib_clinalg/ft.c:function_train_eval_up_to_core"]}
{"id": "C53", "title": "Wrapped functions are called as they were set", "statement": "A wrapper created for a documented kind of function accepts exactly the setter of that kind; evaluating it at any batch of points calls the function set last, with the selected output or slot for multi-output and array kinds; an unknown kind ends the program.", "quantifier": "every kind, dimension, batch of points, history of slot assignments, selected slot in range", "why_tests_cant": "All batches and histories.", "anchors": ["c3/lib_funcs/fwrap.c:fwrap_create", "c3/lib_funcs/fwrap.c:fwrap_set_f", "c3/lib_funcs/fwrap.c:fwrap_set_fvec", "c3/lib_funcs/fwrap.c:fwrap_set_mofvec", "c3/lib_funcs/fwrap.c:fwrap_set_func_array", "c3/lib_funcs/fwrap.c:fwrap_eval"]}
{"id": "C54", "title": "Arrays of functions: transposition, stacking, block diagonal and Kronecker product, entry by entry", "statement": "Evaluating the transposed array of functions at a point gives the transposed matrix of values, and transposing twice gives back the same functions at the same positions. Horizontal and vertical stacking place the first array's values first and the second's after, refuse arrays whose shared size differs, and the block diagonal has zeros outside the two blocks. The Kronecker product of two arrays evaluates to the Kronecker product of the two matrices of values.", "quantifier": "for all numbers of rows and columns of both arrays, all functions and all points", "why_tests_cant": "Layout mistakes (row-major against column-major, transposed strides) coincide with correct code on square, symmetric or single-row arrays, which is what tests use; the claim ranges over all shapes.", "anchors": ["c3/lib_clinalg/qmarray.c: qmarray_transpose", "c3/lib_clinalg/qmarray.c: qmarray_stackh", "c3/lib_clinalg/qmarray.c: qmarray_stackv", "c3/lib_clinalg/qmarray.c: qmarray_blockdiag", "c3/lib_clinalg/qmarray.c: qmarray_kron"]}
{"id": "C55", "title": "Initial index sets of the cross approximation are valid", "statement": "The naive initial index sets handed to the discrete cross approximation contain multi-indices that are pairwise distinct and whose entries lie within the number of nodes of the mode they refer to.", "quantifier": "for all dimensions, mode sizes and requested ranks", "why_tests_cant": "Tests use one or two tensors with equal mode sizes; an index that leaves its mode, or is checked against another mode's size, only appears for some combination of sizes and ranks.", "anchors": ["c3/lib_tensdecomp/cross.c:create_naive_index_set", "c3/lib_tensdecomp/cross.c:init_cross_opts_with_naive_set"]}
{"id": "C56", "title": "A cross sweep moves exactly the selected rows into the next index set", "statement": "After a left-to-right step the left set of the next core consists, row by row, of the left index and the node that the selected row of the unfolded core stands for; after a right-to-left step the right set of the previous core consists of the node and right index of the selected row.", "quantifier": "for all core sizes, neighbouring ranks, index sets and row selections", "why_tests_cant": "Which rows are selected depends on the data; tests with equal ranks cannot see a row number being split by the wrong rank.", "anchors": ["c3/lib_tensdecomp/cross.c:process_cores_lr", "c3/lib_tensdecomp/cross.c:process_cores_rl"]}
{"id": "C57", "title": "Linear-element inner product is the integral of the product", "statement": "The inner product of two linear-element expansions equals the integral of the product of their evaluations; it is symmetric, linear in each argument, and positive for nonzero expansions.", "quantifier": "for all grids and coefficients", "why_tests_cant": "The integral of a product is an exact statement about infinitely many points; a quadrature rule that is right for constants passes most tolerance checks on fine grids.", "anchors": ["c3/lib_funcs/linelm.c:lin_elem_exp_inner", "c3/lib_funcs/linelm.c:lin_elem_exp_inner_same"]}
{"id": "C58", "title": "Linear-element parameter gradient is the derivative with respect to the parameters", "statement": "At every point the gradient returned with respect to the coefficients is the derivative of the evaluation: the evaluation with any coefficients is the inner product of the gradient with them; the batched routine writes one such row per point and nothing else.", "quantifier": "for all grids, coefficients, points and numbers of points", "why_tests_cant": "Linearity in all coefficient vectors at all points; tests compare finite differences at a few interior points.", "anchors": ["c3/lib_funcs/linelm.c:lin_elem_exp_param_grad_eval", "c3/lib_funcs/linelm.c:lin_elem_exp_param_grad_eval2"]}
{"id": "C59", "title": "Linear-element derivative evaluation", "statement": "Evaluating the derivative of a linear-element expansion returns the derivative of its evaluation wherever that exists, zero outside the range, the end slopes at the two ends, and at inner nodes a value between the two one-sided slopes.", "quantifier": "for all grids, coefficients and points", "why_tests_cant": "Derivatives at every real point, and a search by bisection over arbitrarily many nodes.", "anchors": ["c3/lib_funcs/linelm.c:lin_elem_exp_deriv_eval"]}
{"id": "C60", "title": "Derivative expansion of linear elements is exact for affine functions", "statement": "The derivative expansion of a linear-element interpolant of an affine function is the constant slope; on uniform grids the inner nodes are exact for polynomials of degree four.", "quantifier": "for all strictly increasing grids and all affine functions; all uniform grids and all polynomials of degree at most four", "why_tests_cant": "An order condition on all grids; the formula's denominator vanishes only on special grids.", "anchors": ["c3/lib_funcs/linelm.c:lin_elem_exp_deriv"]}
{"id": "C61", "title": "Adding linear elements on different grids is pointwise", "statement": "Adding a multiple of one linear-element expansion to another with a different grid yields an expansion on the union of the nodes whose value is the combination of the two values at every point.", "quantifier": "for all pairs of grids, coefficients, scalars and points", "why_tests_cant": "All interleavings of two grids and all points between nodes.", "anchors": ["c3/lib_funcs/linelm.c:lin_elem_exp_axpy", "c3/lib_funcs/linelm.c:lin_elem_exp_interp_same_grid"]}
{"id": "C62", "title": "Approximation by linear elements interpolates the function", "statement": "Approximating a function by linear elements gives a strictly increasing grid that contains the bounds and all requested nodes, coefficients equal to the function values there, and, in the adaptive case with positive minimal spacing, it ends, and every two neighbouring nodes are within the minimal spacing or belong to a segment on which the function is close to its chord. Constants and affine functions are reproduced at every point; products are exact at the nodes.", "quantifier": "for all functions, bounds, starting nodes, tolerances", "why_tests_cant": "Termination and grid quality for every function; a recursion of unbounded depth.", "anchors": ["c3/lib_funcs/linelm.c:lin_elem_exp_approx", "c3/lib_funcs/linelm.c:lin_elem_adapt", "c3/lib_funcs/linelm.c:lin_elem_exp_prod", "c3/lib_funcs/linelm.c:lin_elem_exp_linear", "c3/lib_funcs/linelm.c:lin_elem_exp_constant"]}
{"id": "C63", "title": "Functions with prescribed zeros", "statement": "The linear-element function with prescribed zeros vanishes at every prescribed location, is 1 at some node, and is defined on the whole range.", "quantifier": "for all numbers and positions of zeros, all bounds and grids", "why_tests_cant": "Four case distinctions on zeros at the bounds, each with arbitrarily many zeros; the existence of a nonzero node is a pigeonhole argument.", "anchors": ["c3/lib_funcs/linelm.c:lin_elem_exp_onezero"]}
{"id": "C64", "title": "Orthonormal basis of linear elements", "statement": "The basis returned for linear elements is orthonormal with respect to the library's inner product of linear elements.", "quantifier": "for all grids and numbers of functions", "why_tests_cant": "Pairwise orthogonality of arbitrarily many functions.", "anchors": ["c3/lib_funcs/linelm.c:lin_elem_exp_orth_basis"]}
{"id": "C65", "title": "Parameter gradient of a polynomial expansion", "statement": "The parameter gradient of an orthogonal polynomial expansion at a point gives, for each parameter, the change of the value of the expansion per unit change of that parameter.", "quantifier": "for all families, numbers of polynomials, coefficients, points", "why_tests_cant": "Identity for every real point and unbounded degree; one variant disagrees for weighted expansions.", "anchors": ["c3/lib_funcs/polynomials.c:orth_poly_expansion_param_grad_eval", "c3/lib_funcs/polynomials.c:orth_poly_expansion_param_grad_eval2"]}
{"id": "C66", "title": "Parameters of a polynomial expansion", "statement": "Reading the parameters returns the coefficients in order; updating replaces them, resizes the expansion to the given count, and reading back returns what was written; creating from parameters gives the expansion with these coefficients.", "quantifier": "for all counts, larger or smaller than the current one, all values", "why_tests_cant": "Every combination of counts and allocated sizes.", "anchors": ["c3/lib_funcs/polynomials.c:orth_poly_expansion_get_params", "c3/lib_funcs/polynomials.c:orth_poly_expansion_update_params", "c3/lib_funcs/polynomials.c:orth_poly_expansion_create_with_params"]}
{"id": "C67", "title": "Derivative evaluation of a polynomial expansion", "statement": "Evaluating the (second) derivative of an expansion at a point gives the (second) derivative of its value there.", "quantifier": "for all families, degrees, domains, points", "why_tests_cant": "Derivative identity for every real point and unbounded degree.", "anchors": ["c3/lib_funcs/polynomials.c:orth_poly_expansion_deriv_eval", "c3/lib_funcs/polynomials.c:cheb_expansion_deriv_eval", "c3/lib_funcs/polynomials.c:cheb_expansion_dderiv_eval"]}
{"id": "C68", "title": "Projection onto an orthogonal basis reproduces polynomials", "statement": "Building an expansion of N Legendre, Hermite or Chebyshev polynomials by non-adaptive projection of a function computes the discrete inner products of the function with the basis polynomials; if the function is a polynomial of degree below N (in any mapped interval or any mean and deviation), the resulting expansion evaluates to the function at every real point, not only at the quadrature nodes.", "quantifier": "for all N >= 1, all three families, all admissible mappings, all polynomials of degree below N, all evaluation points", "why_tests_cant": "Exactness at every point for every polynomial of degree below N is an infinite statement; tests sample a few functions with tolerances.", "anchors": ["c3/lib_funcs/polynomials.c:orth_poly_expansion_approx", "c3/lib_quadrature/quadrature.c:cheb_gauss"]}
{"id": "C69", "title": "Quadrature rules integrate their polynomial class exactly", "statement": "The trapezoid rule with N points integrates affine functions exactly, the Simpson rule with an odd number of points integrates cubics and with an even number of points affine functions; the Clenshaw-Curtis rule with N points has positive weights and integrates polynomials of degree below N over [-1,1], also after rescaling to [a,b]; the N-point Chebyshev-Gauss rule integrates polynomials of degree below 2N against the Chebyshev weight; the Fejer rule's weights sum to the length of the interval.", "quantifier": "for all numbers of points, all step sizes, all intervals, all polynomials of the stated degree", "why_tests_cant": "Exactness of a rule for all polynomials and all sizes is a universally quantified identity of trigonometric sums; tests check a few sizes and functions.", "anchors": ["c3/lib_quadrature/quadrature.c:trap_w", "c3/lib_quadrature/quadrature.c:simpson_w", "c3/lib_quadrature/quadrature.c:clenshaw_curtis", "c3/lib_quadrature/quadrature.c:fejer2", "c3/lib_quadrature/quadrature.c:cheb_gauss"]}
{"id": "C70", "title": "Space mapping takes the interval to the reference domain and back", "statement": "A new expansion on [lb,ub] maps lb and ub to the ends of the reference domain and every interior point inside it, its inverse mapping undoes the mapping, and its coefficients are zero; for Hermite expansions built from options the mapping standardises with the given mean and deviation.", "quantifier": "for all bounds lb < ub, all families, all numbers of polynomials, all means and non-zero deviations", "why_tests_cant": "Both compositions of the mapping and its stored inverse must be the identity for all real points and bounds.", "anchors": ["c3/lib_funcs/polynomials.c:orth_poly_expansion_init", "c3/lib_funcs/polynomials.c:orth_poly_expansion_init_from_opts", "c3/lib_funcs/polynomials.c:space_mapping_map", "c3/lib_funcs/polynomials.c:space_mapping_map_inverse"]}
{"id": "C71", "title": "Adaptive projection terminates and meets its tolerance", "statement": "Adaptive approximation by orthogonal polynomials always ends; the result is the projection of the function with at least the requested starting number of polynomials, and either its trailing coefficients are below the tolerance or the size limit has been reached; a polynomial of degree below the starting size is reproduced at every point whatever the tolerance.", "quantifier": "for all functions, starting sizes, check counts, tolerances and size limits", "why_tests_cant": "Termination and the stopping condition are claims about every function and every option setting.", "anchors": ["c3/lib_funcs/polynomials.c:orth_poly_expansion_approx_adapt", "c3/lib_funcs/polynomials.c:orth_poly_expansion_approx_vec"]}
{"id": "C72", "title": "QR and LQ of a matrix-valued function", "statement": "The Householder-based QR (LQ) of a matrix-valued function succeeds for every input and every orthonormal set of starting columns (rows); the columns (rows) of Q are orthonormal, the triangular factor has a nonnegative diagonal, each column (row) of A differs from that of the product by at most a fixed multiple of the truncation threshold, and columns whose diagonal entry is above twice the threshold are reproduced exactly.", "quantifier": "every size, every real inner product space of entries, every threshold, also for linearly dependent columns", "why_tests_cant": "Universal over functions and ranks; dependent columns take branches that random tests hit with probability zero.", "anchors": ["c3/lib_clinalg/qmarray.c:qmarray_qr", "c3/lib_clinalg/qmarray.c:qmarray_lq", "c3/lib_clinalg/qmarray.c:qmarray_householder", "c3/lib_clinalg/qmarray.c:qmarray_qhouse", "c3/lib_clinalg/qmarray.c:qmarray_householder_rows", "c3/lib_clinalg/qmarray.c:qmarray_qhouse_rows"]}
{"id": "C73", "title": "Integrals of polynomial expansions", "statement": "Integrating an expansion over its domain gives the integral of its value function (for Hermite expansions: the expectation under the normal density of the mapping); the weighted integral gives the mean under the family's probability weight.", "quantifier": "for all coefficients, degrees and domains", "why_tests_cant": "Integral over a continuum for unbounded degree; tests sample few coefficient vectors.", "anchors": ["c3/lib_funcs/polynomials.c:orth_poly_expansion_integrate", "c3/lib_funcs/polynomials.c:orth_poly_expansion_integrate_weighted", "c3/lib_funcs/polynomials.c:cheb_integrate2", "c3/lib_funcs/hpoly.c:hermite_integrate"]}
{"id": "C74", "title": "Inner products and norms of polynomial expansions", "statement": "The inner product of two expansions on the same domain is the integral of their product (weighted: with the family's weight), and the norms are the square roots of the inner products with themselves.", "quantifier": "for all pairs of coefficient vectors of any lengths, all domains", "why_tests_cant": "Orthogonality relations of unbounded degree; integrals over a continuum.", "anchors": ["c3/lib_funcs/polynomials.c:orth_poly_expansion_inner", "c3/lib_funcs/polynomials.c:orth_poly_expansion_inner_w", "c3/lib_funcs/polynomials.c:orth_poly_expansion_norm", "c3/lib_funcs/polynomials.c:orth_poly_expansion_norm_w"]}
{"id": "C75", "title": "Gradients of norms and inner products of expansions with respect to coefficients", "statement": "The gradient calls add scale times the partial derivatives of the squared norm (of the decay-weighted squared norm, of the inner product) with respect to every coefficient, and leave the other entries of the array alone.", "quantifier": "for all coefficients, degrees, domains, scales, previous contents", "why_tests_cant": "Derivatives at every real coefficient vector; optimisers silently converge to a wrong point if one family has a wrong factor.", "anchors": ["c3/lib_funcs/polynomials.c:orth_poly_expansion_squared_norm_param_grad", "c3/lib_funcs/polynomials.c:orth_poly_expansion_rkhs_squared_norm_param_grad", "c3/lib_funcs/polynomials.c:orth_poly_expansion_param_grad_inner"]}
{"id": "C76", "title": "Derivative of a Legendre expansion as an expansion", "statement": "Differentiating a Legendre expansion returns an expansion, one degree lower, whose value at every point is the derivative of the original (up to the documented rounding of tiny coefficients).", "quantifier": "for all coefficients, degrees and domains", "why_tests_cant": "Unbounded degree and all real points.", "anchors": ["c3/lib_funcs/polynomials.c:orth_poly_expansion_deriv"]}
{"id": "C77", "title": "Arithmetic of piecewise polynomials on different partitions", "statement": "The sum, linear combination, inner product and norm of piecewise polynomials on a common domain are those of the functions they represent, also when the two are split at different points.", "quantifier": "for all trees and partitions with a common domain, all coefficients, all scalars", "why_tests_cant": "Pairs of partitions interleave in unboundedly many ways; equality at every real point.", "anchors": ["c3/lib_funcs/piecewisepoly.c:piecewise_poly_match", "c3/lib_funcs/piecewisepoly.c:piecewise_poly_finer_grid", "c3/lib_funcs/piecewisepoly.c:piecewise_poly_axpy", "c3/lib_funcs/piecewisepoly.c:piecewise_poly_daxpby", "c3/lib_funcs/piecewisepoly.c:piecewise_poly_inner", "c3/lib_funcs/piecewisepoly.c:piecewise_poly_norm"]}
{"id": "C78", "title": "Gauss rules integrate polynomials of twice their size exactly", "statement": "The Gauss-Hermite and Gauss-Legendre points and weights with N points integrate every polynomial of degree below 2N exactly (against the normal density, the uniform density), given an orthonormal eigenbasis of the tridiagonal matrix passed to LAPACK; points lie inside the interval and weights are positive.", "quantifier": "for all N, all polynomials of degree below 2N, every eigenbasis the eigenvalue routine may return", "why_tests_cant": "Every number of points and a space of polynomials of unbounded dimension; tests compare a few tabulated rules.", "anchors": ["c3/lib_quadrature/quadrature.c:gauss_hermite", "c3/lib_quadrature/quadrature.c:gauss_legendre"]}
{"id": "C79", "title": "Sobol sensitivities are the variance decomposition of the train", "statement": "For a function train of two or more variables that is not constant, the sensitivities that are computed satisfy: the variance is the second moment minus the squared mean; the contribution reported for a set of variables is the variance of the mean conditional on them minus the contributions of all smaller sets; contributions of all sets add up to the variance; the total sensitivity of a variable is the sum of the contributions of the sets that contain it, divided by the variance; with probability weights no contribution is negative and total sensitivities lie between the main effect's share and 1; the traversal with a user function visits each computed set exactly once.", "quantifier": "all dimensions from 2 below 2^64, ranks, cores, requested orders, and sets of variables listed in increasing order", "why_tests_cant": "the decomposition ranges over all subsets of all dimensions, with a tree whose nodes are filled in an order that matters", "anchors": ["c3/lib_probability/probability.c:c3_sobol_sensitivity_calculate", "c3/lib_probability/probability.c: c3_sobol_sensitivity_get_interaction", "c3/lib_probability/probability.c: c3_sobol_sensitivity_get_total", "c3/lib_probability/probability.c: c3_sobol_sensitivity_get_main", "c3/lib_probability/probability.c: c3_sobol_sensitivity_get_variance", "c3/lib_probability/probability.c: c3_sobol_sensitivity_apply_external", "c3/lib_probability/probability.c: function_train_sobol_interact_var"]}
{"id": "C80", "title": "Line searches keep their promises", "statement": "Each of the three line searches (backtracking, weak Wolfe, strong Wolfe) evaluates the objective only at points satisfying the bounds, a bounded number of times; the point left behind satisfies the bounds, the value (and gradient) left behind belong to it, and the code reported is true: success means the sufficient decrease (and slope) condition holds or the step is shorter than the tolerance, 1 means the iteration limit, negative codes mean nothing was changed.", "quantifier": "for all objectives, dimensions, bounds, parameters, starting points and directions", "why_tests_cant": "The number of trial steps depends on the objective; all objectives.", "anchors": ["c3/lib_optimization/optimization.c:c3opt_ls_box", "c3/lib_optimization/optimization.c:c3opt_ls_wolfe_bisect", "c3/lib_optimization/optimization.c:c3opt_ls_strong_wolfe", "c3/lib_optimization/optimization.c:c3opt_ls_zoom", "c3/lib_optimization/optimization.c:c3opt_ls_x_move"]}
{"id": "C81", "title": "Gradient descent: feasible, consistent, honest about why it stopped", "statement": "Minimizing with batch gradient descent from a feasible start always ends; the point returned satisfies the bounds, the value is the objective there, all evaluations were feasible, the iteration limit is respected, every iterate is a projected step along the negative gradient, the objective does not increase while the line searches succeed, and the return code (gradient, function, step tolerance or iteration limit) is true of the last step.", "quantifier": "for all objectives with gradients, dimensions, bounds, feasible starts, tolerances and line searches", "why_tests_cant": "Executions of unbounded length over arbitrary objectives.", "anchors": ["c3/lib_optimization/optimization.c:c3_opt_gradient", "c3/lib_optimization/optimization.c:c3opt_minimize"]}
{"id": "C82", "title": "Brute force returns the first best candidate", "statement": "Minimizing by brute force returns the value and the coordinates of the first candidate with the smallest objective, independently of the start.", "quantifier": "for all objectives, dimensions, tables with at least one candidate", "why_tests_cant": "All tables of all sizes, ties included.", "anchors": ["c3/lib_optimization/optimization.c:c3opt_minimize", "c3/lib_optimization/optimization.c:c3opt_set_brute_force_vals"]}
{"id": "C83", "title": "BFGS: feasible, secant, positive definite", "statement": "Minimizing with BFGS from a feasible start ends; the point returned satisfies the bounds, value and gradient belong to it, all evaluations were feasible, the iteration limit is respected and the return code is true of the last iteration; every iterate is a projected step along minus the approximate inverse Hessian times the gradient; after an update the matrix maps the change of the gradient to the step, stays symmetric, and while iterates stay strictly inside the bounds and the searches succeed it stays positive definite and the objective does not increase.", "quantifier": "for all objectives with gradients, dimensions, bounds, parameters, starting matrices", "why_tests_cant": "All objectives and all runs; the matrix is a product of unboundedly many updates.", "anchors": ["c3/lib_optimization/optimization.c:c3_opt_damp_bfgs", "c3/lib_optimization/optimization.c:c3opt_minimize"]}
{"id": "C84", "title": "The memory of the limited memory optimizer holds the latest pairs", "statement": "Inserting a pair (step, change of gradient) into the circular memory keeps exactly the latest pairs, newest first, up to the configured number; walking forwards and backwards visits them in that order; the two loop recursion over it gives the product of the gradient with the inverse Hessian obtained by applying the BFGS update with these pairs, oldest first, to the scaled identity; that matrix is symmetric and, if all pairs have positive inner product, positive definite.", "quantifier": "for all sequences of insertions, all memory sizes of two or more, all dimensions", "why_tests_cant": "Linked structure that is rewired on every insertion; unboundedly many insertions.", "anchors": ["c3/lib_optimization/optimization.c:c3opt_lbfgs_list_insert", "c3/lib_optimization/optimization.c:c3opt_lbfgs_list_step", "c3/lib_optimization/optimization.c:c3opt_lbfgs_list_step_back", "c3/lib_optimization/optimization.c:lbfgs_hg"]}
{"id": "C85", "title": "L-BFGS: feasible, consistent, honest about why it stopped", "statement": "Minimizing with limited memory BFGS from a feasible start ends; if it returns, the point satisfies the bounds, value and gradient belong to it, all evaluations were feasible, the iteration limit is respected, every iterate is a projected step along minus the matrix of the latest pairs times the gradient, and the return code is true of the last iteration; while iterates stay strictly inside the bounds and searches succeed, directions are ones of descent and the objective does not increase.", "quantifier": "for all objectives with gradients, dimensions, bounds, parameters, memory sizes of two or more", "why_tests_cant": "All objectives, all runs.", "anchors": ["c3/lib_optimization/optimization.c:c3_opt_lbfgs", "c3/lib_optimization/optimization.c:c3opt_minimize"]}
{"id": "C86", "title": "Stochastic gradient descent visits each training sample once per epoch and reports the training cost", "statement": "Minimizing with stochastic gradient descent always returns; every epoch takes exactly one step for each of a set of distinct samples; the value returned is the mean cost over the last such set at the returned point; epochs, evaluations and gradient evaluations are counted exactly, the limit on epochs is kept and the return code is true. The shuffle is a permutation and can produce every permutation.", "quantifier": "for all objectives, numbers of samples, dimensions, learning rates, and all sequences of random numbers", "why_tests_cant": "All random sequences and all orders.", "anchors": ["c3/lib_optimization/optimization.c:c3_opt_sgd", "c3/lib_optimization/optimization.c:shuffle", "c3/lib_optimization/optimization.c:sgd_term_check"]}
{"id": "C87", "title": "Linear transforms are applied, inverted, copied and stored faithfully", "statement": "Applying a transform to a point returns A x + b. Inverting a lower triangular transform gives the transform that takes every image back to the point it came from and every point to a preimage, with reciprocal determinant, and inverting again changes nothing. A copy has the same matrix, offset, determinant and inverse. Writing a transform to bytes and reading it back returns it, with the announced number of bytes, whatever follows in the buffer.", "quantifier": "all dimensions, matrices, offsets, points; all byte contents after the record", "why_tests_cant": "Tests apply one transform of one size; inverting copies, freshly allocated transforms or a matrix with entries above the diagonal is never tried, nor is the state of the optional inverse in the byte format.", "anchors": ["c3/lib_probability/probability.c:linear_transform_alloc", "c3/lib_probability/probability.c:linear_transform_copy", "c3/lib_probability/probability.c:linear_transform_apply", "c3/lib_probability/probability.c:linear_transform_invert", "c3/lib_probability/probability.c:linear_transform_serialize", "c3/lib_probability/probability.c:linear_transform_deserialize"]}
{"id": "C88", "title": "Probability densities transform, integrate, differentiate and sample consistently", "statement": "A density defined by a base density and an affine map x = A t + b evaluates to the base density at the preimage divided by the absolute determinant and to zero if the preimage is outside the bounds. It integrates to the mass of the base density. For a normal density the map is built from mean and Cholesky factor, so that the exponent is the quadratic form of the inverse covariance, and samples made from uncorrelated unit-variance numbers have the requested mean and covariance. The log gradient is the gradient of the logarithm of the density and the log Hessian the derivative of the log gradient, with or without map.", "quantifier": "all dimensions, base densities with correct gradient and Hessian, lower triangular maps, points, means and covariances", "why_tests_cant": "Tests compare a few values with tolerances at a few points for a few covariances; the change of variables, the mass over the whole space and moments of the sampler quantify over all points and distributions.", "anchors": ["c3/lib_probability/probability.c:probability_density_eval", "c3/lib_probability/probability.c:probability_density_standard_normal", "c3/lib_probability/probability.c:probability_density_mvn", "c3/lib_probability/probability.c:probability_density_sample", "c3/lib_probability/probability.c:probability_density_log_gradient_eval", "c3/lib_probability/probability.c:probability_density_log_hessian_eval"]}
{"id": "C89", "title": "Fast Fourier transform is the discrete Fourier transform and inverts exactly", "statement": "For every size N that is a power of two, fft writes the N sums X[k] = sum_j x[j] exp(-2 pi i j k/N), ifft writes the normalised inverse sums and restores its input array, fft followed by ifft returns the data, and the sum of squares is preserved up to N. For every other size the code returned is 1 and the output is untouched. The Chebyshev coefficients computed from N+1 values at cos(pi j/N) define the interpolating Chebyshev sum.", "quantifier": "for all sizes (64 bit), all complex input vectors of that length and all output buffers large enough", "why_tests_cant": "Tests compare a handful of sizes against a slow transform within a tolerance; the recursion with strides and in-place butterflies must be right for every power of two, and refusal for every other size.", "anchors": ["c3/lib_fft/fft.c:fft", "c3/lib_fft/fft.c:ifft", "c3/lib_fft/fft.c:fft_base", "c3/lib_fft/fft.c:cheb_vals_to_coeff"]}
{"id": "C90", "title": "Fourier expansions: evaluation, derivatives and integral agree", "statement": "A Fourier expansion with coefficients c_0..c_n stands for Re c_0 + sum 2 Re(c_k exp(i k t)) with t the position in the domain scaled to [0, 2 pi]; evaluation returns this value, the evaluated derivative and the derivative expansion are its derivative, the second derivative expansion the derivative of that, and the integral is the integral over the domain.", "quantifier": "for all coefficient vectors, all domains with nonzero width and all points", "why_tests_cant": "The identity between evaluation, derivative and integral holds for infinitely many points and coefficient vectors; tests sample finite differences.", "anchors": ["c3/lib_funcs/fourier.c:fourier_expansion_eval", "c3/lib_funcs/fourier.c:fourier_expansion_deriv_eval", "c3/lib_funcs/fourier.c:fourier_expansion_deriv", "c3/lib_funcs/fourier.c:fourier_expansion_dderiv", "c3/lib_funcs/fourier.c:fourier_integrate"]}
{"id": "C91", "title": "Fourier approximation reproduces trigonometric polynomials", "statement": "Approximating a function that is a real trigonometric polynomial of degree below num_poly - 1 (twice that number a power of two) yields an expansion equal to the function everywhere on the domain; other sizes are refused with a nonzero code and leave the expansion alone.", "quantifier": "for all trigonometric polynomials of admissible degree, all domains, all sizes", "why_tests_cant": "Exactness at all points for all polynomials of a degree is an aliasing argument, not a finite check; tests choose one smooth function and a tolerance.", "anchors": ["c3/lib_funcs/fourier.c:fourier_expansion_approx_vec", "c3/lib_funcs/polynomials.c:orth_poly_expansion_approx_vec"]}
{"id": "C92", "title": "Products and inner products of Fourier expansions are exact below the aliasing limit", "statement": "For two expansions on the same domain whose degrees add up to less than the degree of the representation, the product expansion equals the pointwise product everywhere, and the inner product equals the integral of the product as long as the degrees add up to less than twice that degree.", "quantifier": "for all pairs of expansions of admissible degrees on a common domain", "why_tests_cant": "A universal statement over functions and points; tests check two or three functions.", "anchors": ["c3/lib_funcs/fourier.c:fourier_expansion_prod", "c3/lib_funcs/polynomials.c:orth_poly_expansion_inner", "c3/lib_funcs/polynomials.c:orth_poly_expansion_prod"]}
{"id": "C93", "title": "Linear algebra on Fourier expansions and their orthonormal basis", "statement": "Scaling, flipping the sign, y <- a x + y and a x + b y act pointwise on the represented functions, also for different numbers of coefficients, up to the threshold below which coefficients are dropped; the orthonormal basis returned for Fourier expansions is orthonormal in L2 of the domain.", "quantifier": "for all expansions on a common domain, all scalars and thresholds, all numbers of basis functions below the number of coefficients", "why_tests_cant": "Different lengths, reallocation and trailing coefficient trimming interact; only a proof covers all combinations.", "anchors": ["c3/lib_funcs/polynomials.c:orth_poly_expansion_axpy", "c3/lib_funcs/polynomials.c:orth_poly_expansion_daxpby", "c3/lib_funcs/polynomials.c:orth_poly_expansion_scale", "c3/lib_funcs/polynomials.c:orth_poly_expansion_flip_sign", "c3/lib_funcs/polynomials.c:orth_poly_expansion_orth_basis"]}
{"id": "C94", "title": "Gaussian kernel expansions: value, derivative, integral and inner product agree", "statement": "A kernel expansion with coefficients a_i and Gaussian kernels of scale s_i, squared width w_i and centre c_i stands for f(x) = sum a_i s_i exp(-(x-c_i)^2/w_i). Evaluation (one point or many with strides) returns this value, the evaluated derivative is its derivative, the integral is the integral over the domain, the inner product of two expansions is the integral of their product over the intersection of the domains, and the absolute maximum over given nodes is attained at the returned node and bounds all others.", "quantifier": "for all numbers of kernels, all coefficients, scales, positive widths, centres, domains and points", "why_tests_cant": "The closed formulas use the error function and completion of squares; agreement with the integral of the represented function holds for a continuum of parameters that no finite comparison with quadrature can settle.", "anchors": ["c3/lib_funcs/kernels.c:kernel_expansion_eval", "c3/lib_funcs/kernels.c:kernel_expansion_evalN", "c3/lib_funcs/kernels.c:kernel_expansion_deriv_eval", "c3/lib_funcs/kernels.c:kernel_expansion_integrate", "c3/lib_funcs/kernels.c:kernel_expansion_inner", "c3/lib_funcs/kernels.c:kernel_expansion_absmax", "c3/lib_funcs/kernels.c:gauss_kernel_inner"]}
{"id": "C95", "title": "Kernel expansions are built from options and parameters and give the parameters back", "statement": "Creating an expansion from options with given centres and a parameter vector yields the function with those coefficients (and, with adaptive centres, those centres); reading the parameters returns the vector. Adding kernels one at a time, with growth of the storage, adds their functions. Copies are equal. A new number of parameters places equally spaced centres between the extreme centres.", "quantifier": "for all centres, scales, nonzero widths, parameter vectors, numbers of kernels and histories of additions", "why_tests_cant": "Growth of storage and the two parameter layouts have to be right for every number of kernels; tests use one size.", "anchors": ["c3/lib_funcs/kernels.c:kernel_expansion_create_with_params", "c3/lib_funcs/kernels.c:kernel_expansion_update_params", "c3/lib_funcs/kernels.c:kernel_expansion_get_params", "c3/lib_funcs/kernels.c:kernel_expansion_add_kernel", "c3/lib_funcs/kernels.c:kernel_expansion_copy", "c3/lib_funcs/kernels.c:kernel_approx_opts_gauss", "c3/lib_funcs/kernels.c:kernel_approx_opts_set_nparams"]}
{"id": "C96", "title": "Linear algebra and parameter gradients of kernel expansions", "statement": "Scaling and change of sign act pointwise; y <- a x + y acts pointwise when both have the same kernels and is refused otherwise. The parameter gradient returned for each point holds the partial derivatives of the value with respect to every coefficient and, with adaptive centres, every centre; the gradient of the squared norm adds the scaled partial derivatives of the integral of the square.", "quantifier": "for all expansions, scalars, points and gradient buffers large enough", "why_tests_cant": "Partial derivatives are limits; tests compare with finite differences at sampled parameters and cannot exclude wrong entries elsewhere or writes beyond the row.", "anchors": ["c3/lib_funcs/kernels.c:kernel_expansion_scale", "c3/lib_funcs/kernels.c:kernel_expansion_axpy", "c3/lib_funcs/kernels.c:kernel_expansion_param_grad_eval", "c3/lib_funcs/kernels.c:kernel_expansion_param_grad_eval2", "c3/lib_funcs/kernels.c:kernel_expansion_squared_norm_param_grad"]}
{"id": "C97", "title": "Orthonormal basis of Gaussian kernels", "statement": "From n pairwise different centres the orthonormal basis routine returns n functions that are orthonormal on the domain; function j is a combination of the first j+1 kernels with a positive last coefficient, so that the spans agree.", "quantifier": "for all numbers of functions up to the number of centres, all pairwise different centres, scales, widths and domains of positive length", "why_tests_cant": "That the process never divides by zero rests on linear independence of shifted Gaussians on every interval; tests run one set of centres.", "anchors": ["c3/lib_funcs/kernels.c:kernel_expansion_orth_basis"]}
{"id": "C98", "title": "Parameter gradient of a parameterised train", "statement": "The value returned together with a parameter gradient is the value of the train, and entry p of the gradient is the partial derivative of the value with respect to parameter p, with general univariate functions as well as with precomputed basis values.", "quantifier": "for all numbers of variables, ranks, numbers of parameters per function, parameters and points", "why_tests_cant": "The derivative is a limit and the bookkeeping of the running products depends on all ranks; finite differences at sampled trains cannot exclude a wrong block for other rank patterns.", "anchors": ["c3/lib_superlearn/parameterization.c:ft_param_gradeval", "c3/lib_superlearn/parameterization.c:ft_param_gradeval_lin", "c3/lib_superlearn/parameterization.c:ft_param_eval_lin"]}
{"id": "C99", "title": "Alternating least squares solves exact subproblems", "statement": "During alternating least squares every subproblem handed to the optimizer predicts, for every candidate for the parameters of the active core, exactly what the whole train with the candidate in place predicts, with exact gradients; hence if the optimizer never increases the objective, neither does the whole run.", "quantifier": "for all trains, data sets, numbers of sweeps and optimizers, whatever the optimizer returns", "why_tests_cant": "The predictions come from running products stored earlier in the sweep; stale products show up only for particular sequences of updates.", "anchors": ["c3/lib_superlearn/regress.c:c3_regression_run_als", "c3/lib_superlearn/regress.c:ft_param_learning_interface", "c3/lib_superlearn/parameterization.c:ft_param_core_gradeval_lin", "c3/lib_superlearn/parameterization.c:ft_param_core_eval_lin"]}
{"id": "C100", "title": "Regression objective and its gradient", "statement": "The objective of a regression is the mean of the weighted squared residuals over the batch, plus half the regularisation weight times the sum of squared norms if requested; the returned gradient holds its partial derivatives whatever the buffer contained; averaging the stochastic objective over the data gives the full objective.", "quantifier": "for all data sets, batches, sample weights, parameters and gradient buffers", "why_tests_cant": "Gradient accumulation over several objective functions depends on their order and on earlier buffer content; tests use one configuration.", "anchors": ["c3/lib_superlearn/objective_functions.c:c3_objective_function_least_squares", "c3/lib_superlearn/objective_functions.c:objective_eval", "c3/lib_superlearn/regress.c:build_objective", "c3/lib_superlearn/regress.c:ft_param_grad_sqnorm_learning_interface"]}
{"id": "C101", "title": "Optimisation of the parameters beyond given ranks", "statement": "The number of free parameters beyond given start ranks is the number of parameters of univariate functions whose row or column is at least the start rank; updating the outside (inside) parameters from a vector replaces exactly those, in storage order, and leaves all others alone. When ranks are raised after rounding, exactly the ranks that rounding did not reduce grow by the kick, capped by the maximal rank, and the raised train starts with the parameters of the rounded train in its leading block and a constant elsewhere.", "quantifier": "for all dimensions, ranks, start ranks, numbers of parameters per function and parameter values", "why_tests_cant": "The correspondence of flat parameter vectors of trains of different ranks depends on all ranks at once; tests raise one rank of one train.", "anchors": ["c3/lib_superlearn/parameterization.c:ft_param_get_nparams_restrict", "c3/lib_superlearn/parameterization.c:ft_param_update_restricted_ranks", "c3/lib_superlearn/parameterization.c:ft_param_update_inside_restricted_ranks", "c3/lib_superlearn/regress.c:ft_regress_run_rankadapt"]}
{"id": "C102", "title": "Cross validation uses every sample once", "statement": "The folds of a cross validation partition the samples: every sample is tested exactly once, by a fit on exactly the samples outside its fold, in their order and with their own values and weights; the result is the sum of squared test errors relative to the sum of squared values.", "quantifier": "for all data sets, numbers of folds and learners, whatever the learner does to its state", "why_tests_cant": "Fold boundaries depend on the remainder of the division of sample count by fold count, and leaking a sample is invisible in the error of one test run.", "anchors": ["c3/lib_superlearn/regress.c:extract_data", "c3/lib_superlearn/regress.c:cross_validate_run", "c3/lib_superlearn/regress.c:cross_validate_init"]}
{"id": "C103", "title": "Grid search selects the best setting", "statement": "The grid search tries every combination of the listed values exactly once and finally sets the combination with the least cross validation error (up to the built-in factor); a setting processed later leaves no trace of settings processed before with the same names.", "quantifier": "for all grids, all error functions and all learners", "why_tests_cant": "Enumeration order and remembered position must agree for every grid; tests cannot tell a wrong winner from a good one.", "anchors": ["c3/lib_superlearn/regress.c:cv_opt_grid_setup_cases", "c3/lib_superlearn/regress.c:cross_validate_grid_opt", "c3/lib_superlearn/regress.c:cv_case_process", "c3/lib_superlearn/regress.c:cv_opt_grid_add_param"]}
{"id": "C104", "title": "Rank adaptation of a regression", "statement": "A regression with rank adaptation returns a train fitted in the settings with the least cross validation error met among the accepted settings, or the rounding of that train; the error is never larger than with the initial ranks; ranks tried lie between the initial and the maximal rank; at most eleven cross validations are made.", "quantifier": "for all learners, optimizers and data, whatever errors and rounded ranks come out, for initial ranks up to the maximal rank", "why_tests_cant": "Accepting or rejecting a step depends on a sequence of errors of up to eleven cross validations; tests see one sequence.", "anchors": ["c3/lib_superlearn/regress.c:ft_regress_run_rankadapt"]}
{"id": "C105", "title": "Rounding a train", "statement": "Rounding returns a train of the same dimension in which no rank has grown (and none exceeds the rank bound if one is given); the difference to the original function is orthogonal to the result, so the norm never grows; the relative L2 error is at most the relative threshold handed in; threshold zero keeps the function.", "quantifier": "for all trains, ranks, thresholds and rank bounds", "why_tests_cant": "The error of each truncation adds up over the dimensions and depends on the scaling of the function; tests round a few functions of moderate size and look at a few points.", "anchors": ["c3/lib_clinalg/ft.c:function_train_round", "c3/lib_clinalg/ft.c:function_train_round_maxrank_all", "c3/lib_clinalg/ft.c:function_train_orthor", "c3/lib_clinalg/qmarray.c:qmarray_truncated_svd", "c3/lib_linalg/linalg.c:truncated_svd"]}
{"id": "C106", "title": "Maximum volume pivots", "statement": "For an array of functions with linearly independent columns the search for pivots returns as many rows and points of the domain as there are columns, together with the inverse of the matrix of values at exactly these pivots; the absolute determinant there is at least that at the pivots of the LU decomposition, and expressed through the values at the pivots every row of the array has coefficients of absolute value at most 2.02, unless the iteration limit was reached, in which case the determinant has grown by at least 1.01^32. The pseudoinverse used is the inverse for nonsingular matrices. Pivots that are apart are not changed when duplicates are removed.", "quantifier": "for all arrays of functions with independent columns, all numbers of rows and columns, whatever pivots the LU decomposition starts with", "why_tests_cant": "The exchanges depend on the maxima of products of the array with an inverse that changes in every pass; tests look at one or two arrays and compare with stored pivots.", "anchors": ["c3/lib_clinalg/qmarray.c:qmarray_maxvol1d", "c3/lib_clinalg/qmarray.c:qmarray_absmax1d", "c3/lib_clinalg/qmarray.c:remove_duplicates", "c3/lib_funcs/functions.c:generic_function_array_absmax", "c3/lib_linalg/linalg.c:pinv"]}
{"id": "C107", "title": "Cross approximation: interpolation at the final nodes, exactness for spanning nodes, and when the loop ends", "statement": "Let a function of d >= 2 variables be wrapped for cross approximation such that each of its one-dimensional fibers can be represented exactly by the univariate approximation, and let the requested ranks be positive and 1 at both ends with matching right index sets. With a positive limit on the number of passes, ftapprox_cross returns, within that many passes, a well-formed train with exactly the requested ranks which agrees with the function on every line in the first coordinate through a node of the final right index set; there are as many nodes as the first rank, and the wrapper is out of fiber mode. If in addition each section of the function is a linear combination of its sections at the starting right nodes (which holds for a sum of r products as soon as the r by r matrix of tail functions at the nodes is invertible), then whatever is returned equals the function on the whole domain, and for every positive tolerance the loop ends after at most three passes whatever the limit. maxiter = 0 means no limit: with a tolerance that is not positive the loop never ends. The tolerance compares successive trains and says nothing about the error.", "quantifier": "for all dimensions >= 2, functions, ranks, nodes, reference trains, tolerances and limits", "why_tests_cant": "The function ranges over an infinite class and the guarantee is about all points of a continuum, while a test evaluates at some points; termination within three passes concerns every tolerance.", "anchors": ["c3/lib_clinalg/ft.c:ftapprox_cross", "c3/lib_clinalg/ft.c:prepCore", "c3/lib_clinalg/indmanage.c:cross_index_create_nested_ind"]}
{"id": "C108", "title": "Rank adaptive cross approximation: which ranks come out, that it ends, and accuracy", "statement": "Under the conditions of C107, with a positive kick, a positive limit on passes and a maximal rank for each interior position, rank adaptive cross approximation ends after at most as many further cross approximations as the ranks can grow by one. It returns a well-formed train; no rank is lowered or raised beyond the larger of its start value and its maximum; and at the end each interior rank was either found larger than needed (rounding made it smaller) or has reached its maximum. If the sections of the function are spanned by the sections at the starting nodes, raising ranks by repeating nodes does not lose this, and the result is the function up to the error of rounding. Without adaptation the result is that of plain cross approximation.", "quantifier": "for all dimensions >= 2, functions, start ranks, maximal ranks, kicks, nodes and tolerances", "why_tests_cant": "The sequence of ranks tried depends on the function through every rounding; tests see a handful of sequences, none of them the endless one.", "anchors": ["c3/lib_clinalg/ft.c:ftapprox_cross_rankadapt", "c3/lib_clinalg/indmanage.c:cross_index_copylast"]}
{"id": "C109", "title": "Derivative trains represent the partial derivatives", "statement": "The gradient of a function train is a list of trains whose values are the partial derivatives; entry i n + j of the Jacobian of n trains is the derivative of train j in variable i; entry i d + j of the Hessian is the second partial derivative in variables i and j, and the diagonal routine gives the second derivatives in each variable; all with the ranks of the train. The Laplace operator returns one train, with twice the inner ranks, whose value at each point is the sum of the second partial derivatives, and the diffusion operator a train whose value is the divergence of the coefficient times the gradient. The results can be evaluated and used in further operations.", "quantifier": "all dimensions (from two on for Laplace and diffusion), ranks, trains and points; all function classes with exact derivatives", "why_tests_cant": "Tests compare a few functions on grids with finite differences; they cannot show the identity for all ranks and dimensions, nor that the block structure of the operators is right in the first and last core.", "anchors": ["c3/lib_clinalg/ft.c: function_train_gradient, ft1d_array_jacobian, function_train_hessian, function_train_hessian_diag, function_train_hessian_diag_periodic, function_train_operate", "c3/lib_clinalg/diffusion.c: exact_laplace, exact_laplace_op, exact_laplace_periodic, exact_diffusion", "c3/lib_clinalg/qmarray.c: qmarray_deriv, qmarray_dderiv, qmarray_axpy, qmarray_zeros"]}
{"id": "C110", "title": "Piecewise constant functions evaluate to the coefficient of the nearest node", "statement": "A piecewise constant function given by increasing nodes and one coefficient per node evaluates, at every point of the range of the nodes, to the coefficient of the nearest node (the upper one if two are equally near), and to zero outside; batch evaluation agrees with point evaluation; scaling and sign change act on every value; reported maxima, minima and largest absolute values bound all values and are attained at the reported place; approximation of a function reproduces it at the nodes, and a constant function has its value on the whole range.", "quantifier": "all increasing node arrays of any size with gaps above twice the search tolerance, all coefficients, all evaluation points, all strides", "why_tests_cant": "Every point of every cell of every grid would have to be evaluated; tests sample a few points, rarely the midpoints, ends and neighbourhoods of nodes.", "anchors": ["c3/lib_funcs/constelm.c:const_elem_exp_eval", "c3/lib_funcs/constelm.c:const_elem_exp_find_node", "c3/lib_funcs/constelm.c:const_elem_exp_evalN", "c3/lib_funcs/constelm.c:const_elem_exp_max", "c3/lib_funcs/constelm.c:const_elem_exp_min", "c3/lib_funcs/constelm.c:const_elem_exp_absmax", "c3/lib_funcs/constelm.c:const_elem_exp_scale", "c3/lib_funcs/constelm.c:const_elem_exp_approx", "c3/lib_funcs/constelm.c:const_elem_exp_constant"]}
{"id": "C111", "title": "Sums, products and integrals of piecewise constant functions are those of the functions evaluated", "statement": "Adding a multiple of a piecewise constant function to another and multiplying two of them acts on the values at every point, the integral is the integral over the range of the function that evaluation returns, and the inner product and norm are the integral of the product and the root of the integral of the square.", "quantifier": "all pairs of piecewise constant functions, all coefficients and factors, all points", "why_tests_cant": "Integrals of the evaluated function are not available to a test, and agreement at sampled points says nothing about the cells of a merged grid.", "anchors": ["c3/lib_funcs/constelm.c:const_elem_exp_axpy", "c3/lib_funcs/constelm.c:const_elem_exp_prod", "c3/lib_funcs/constelm.c:const_elem_exp_integrate", "c3/lib_funcs/constelm.c:const_elem_exp_inner", "c3/lib_funcs/constelm.c:const_elem_exp_norm"]}
{"id": "C112", "title": "Parameters, derivatives, zeros and orthonormal bases of piecewise constant functions", "statement": "Parameters set are the parameters read back; the gradient with respect to the parameters, multiplied with any parameters, is the value at the point; the derivative on the nodes consists of difference quotients; a function requested with given zeros is zero at them and one at the other nodes; a requested basis is orthonormal; options report the bounds of the nodes they were made from.", "quantifier": "all grids, parameter vectors, points, zero sets and basis sizes", "why_tests_cant": "The gradient is right only for every possible parameter vector and every contents of the output array; orthonormality is a statement about integrals.", "anchors": ["c3/lib_funcs/constelm.c:const_elem_exp_param_grad_eval", "c3/lib_funcs/constelm.c:const_elem_exp_param_grad_eval2", "c3/lib_funcs/constelm.c:const_elem_exp_deriv", "c3/lib_funcs/constelm.c:const_elem_exp_deriv_eval", "c3/lib_funcs/constelm.c:const_elem_exp_update_params", "c3/lib_funcs/constelm.c:const_elem_exp_onezero", "c3/lib_funcs/constelm.c:const_elem_exp_orth_basis", "c3/lib_funcs/constelm.c:const_elem_exp_aopts_alloc"]}
{"id": "C113", "title": "Standalone gradient descent makes sufficient-decrease moves and returns 0 only at a point with small gradient", "statement": "backtrack_line_search(d,x,fx,p,newx,...) with alpha in (0,1/2) tries x+beta^k p for k=0,1,..., accepts the first point with f(newx) <= fx + alpha t grad.p, returns that t, and with code 1 no trial point was acceptable. Along a descent direction of a differentiable function it succeeds if maxiter is large enough. gradient_descent(...) always returns; *fval is the objective at the final x; every accepted move decreases the objective by at least alpha t |grad|^2; 0 is returned only if the gradient at the final point has norm <= tol; the objective is called at most 1 + maxiter*(maxsubiter-1) times; on a function bounded below with Lipschitz gradient it returns 0 for large enough budgets. Invalid parameters are reported, and the gradient left behind belongs to the final point.", "quantifier": "All dimensions, objectives, gradients, starting points, parameters and budgets (exact arithmetic, callbacks without memory).", "why_tests_cant": "A test runs a few functions; that every return value 0 is a stationary point, the cost bound and convergence for all smooth functions need a proof.", "anchors": ["c3/lib_optimization/optimization.c:backtrack_line_search", "c3/lib_optimization/optimization.c:gradient_descent"]}
{"id": "C114", "title": "Standalone projected gradient descent stays in the box and decreases the objective", "statement": "backtrack_line_search_bc from a point of the box searches over the projections of x+beta^k p and accepts the first with sufficient decrease; a point outside of the box is reported with -3. box_pg_descent(...) started in the box always returns a point of the box with *fval its objective, not worse than the start if 0 is returned; 0 is returned if the last move was shorter than tol (or the gradient at the start was). A constrained minimum is recognised as such.", "quantifier": "All dimensions, boxes, objectives, gradients, starting points, parameters and budgets (exact arithmetic, callbacks without memory).", "why_tests_cant": "Feasibility of every iterate and the meaning of the return codes must hold for all objectives and boxes.", "anchors": ["c3/lib_optimization/optimization.c:backtrack_line_search_bc", "c3/lib_optimization/optimization.c:box_pg_descent"]}
{"id": "C115", "title": "Newton's method solves quadratic problems in two passes; damped Newton stays in the box and decreases", "statement": "newton(...) with step 1 on a quadratic objective with nonsingular Hessian ends after at most two passes at a point with zero gradient; whenever it ends, the last step was shorter than tol. box_damp_newton(...) started in the box, with solvable systems, always returns a point of the box with *fval its objective; the codes -20+?, -30+? report failing derivatives; with a positive semidefinite Hessian no move increases the objective. Both end for every input.", "quantifier": "All dimensions, objectives, derivatives, boxes, starting points and budgets (exact arithmetic, linear solver by its contract).", "why_tests_cant": "Newton iterations depend on the objective; cycles and boundary minima are not found by sample runs.", "anchors": ["c3/lib_optimization/optimization.c:newton", "c3/lib_optimization/optimization.c:box_damp_newton"]}
{"id": "C116", "title": "Standalone damped BFGS stays in the box, decreases the objective and satisfies the secant equation", "statement": "box_damp_bfgs(...) started in the box always returns a point of the box with *fval its objective; with a positive definite matrix a move does not increase the objective; the matrix stays positive definite when the gradient change has a nonnegative product with the direction; after a move inside the box the matrix maps the change of the gradient to the change of the point; the documented workspace of 3*d numbers suffices.", "quantifier": "All dimensions, boxes, objectives, gradients, starting matrices, parameters and budgets (exact arithmetic, callbacks without memory).", "why_tests_cant": "The quality of the matrix is invisible in the returned point; memory errors show only for particular workspaces.", "anchors": ["c3/lib_optimization/optimization.c:box_damp_bfgs"]}
{"id": "C117", "title": "Products and sums of products of polynomial expansions are the products of the functions", "statement": "generic_function_prod and generic_function_sum_prod on polynomial expansions of the same type and domain return an expansion whose value at every point is the product (the sum of the products) of the values of the factors, up to the removal of coefficients below the rounding threshold; the domain is that of the first factor. Factors of different types are refused.", "quantifier": "all numbers of polynomials, coefficients, domains, strides and points; Legendre, Hermite and Chebyshev families; tables of triple products and quadrature rules by their defining property", "why_tests_cant": "A product is right only if it is right for all coefficients and points; the branch (table or projection) changes with the number of polynomials, and the mapping of the domain enters each branch differently.", "anchors": ["c3/lib_funcs/polynomials.c:orth_poly_expansion_prod", "c3/lib_funcs/polynomials.c:orth_poly_expansion_sum_prod", "c3/lib_funcs/polynomials.c:orth_poly_expansion_eval3"]}
{"id": "C118", "title": "Derivative and second derivative of a polynomial expansion are expansions of the derivatives", "statement": "generic_function_deriv and generic_function_dderiv on Legendre, Chebyshev and Hermite expansions return expansions on the same domain whose values at every point are the derivative and the second derivative of the function, up to the removal of coefficients below the rounding threshold.", "quantifier": "all coefficients, numbers of polynomials, domains, means and deviations and points; quadrature rules by their defining property", "why_tests_cant": "Derivatives are compared with difference quotients at a few points in tests; the missing chain-rule factor shows only for particular numbers of polynomials on particular domains.", "anchors": ["c3/lib_funcs/polynomials.c:orth_poly_expansion_deriv", "c3/lib_funcs/polynomials.c:orth_poly_expansion_dderiv", "c3/lib_funcs/polynomials.c:cheb_expansion_dderiv_eval"]}
{"id": "C119", "title": "Real roots of an orthogonal expansion", "statement": "The list of real roots of a Legendre or Chebyshev expansion over its domain is increasing, lies in the domain, contains every real root in the domain, and every member is within a tolerance of a root.", "quantifier": "all degrees, all coefficients not near the rounding threshold, all domains", "why_tests_cant": "roots come from the eigenvalues of a companion matrix built by index arithmetic; samples cannot show that its characteristic polynomial is the expansion for every degree", "anchors": ["c3/lib_funcs/polynomials.c:legendre_expansion_real_roots", "c3/lib_funcs/polynomials.c:chebyshev_expansion_real_roots", "c3/lib_funcs/polynomials.c:orth_poly_expansion_real_roots"]}
{"id": "C120", "title": "Extrema of an orthogonal expansion", "statement": "Maximum, minimum and largest absolute value of an expansion over its domain, with the place where they are attained, are the true ones over all points of the domain; with candidate points of the caller, the best among these.", "quantifier": "all expansions with coefficients not near the rounding threshold, all domains", "why_tests_cant": "the claim is about all real points of an interval; it needs a compactness argument and completeness of the list of critical points", "anchors": ["c3/lib_funcs/polynomials.c:orth_poly_expansion_max", "c3/lib_funcs/polynomials.c:orth_poly_expansion_min", "c3/lib_funcs/polynomials.c:orth_poly_expansion_absmax"]}
{"id": "C121", "title": "Real roots of a polynomial in the monomial basis", "statement": "The list of real roots contains every root with real part in the domain and small imaginary part, nothing outside the domain, and every member is near such a root.", "quantifier": "all polynomials whose coefficients from degree two on are zero or above the threshold, all domains", "why_tests_cant": "correctness for all degrees rests on the characteristic polynomial of the companion matrix", "anchors": ["c3/lib_funcs/polynomials.c:standard_poly_real_roots"]}
{"id": "C122", "title": "Adaptive piecewise polynomial approximation tiles the interval with the projections of its cells, and ends", "statement": "Approximating a function by piecewise polynomials on [lb,ub] returns, after finitely many splits, a list of polynomial pieces whose intervals cover [lb,ub] from left to right without gaps or overlaps. Each piece is the projection of the function, computed with the quadrature rule, on its own interval, up to the rounding of tiny coefficients. Every piece of a split approximation is shorter than the minimum size or has trailing coefficients below the tolerance. The function is never evaluated outside [lb,ub]. A polynomial of degree up to the maximum order is reproduced exactly.", "quantifier": "all functions, intervals, orders up to 197, numbers of regions at least one, positive minimum sizes, tolerances and numbers of checked coefficients", "why_tests_cant": "Tests approximate a few functions with default options; they cannot show that the refinement ends for every function and every option, nor that no gap appears after repeated splitting and flattening.", "anchors": ["c3/lib_funcs/piecewisepoly.c: piecewise_poly_approx1, piecewise_poly_approx1_adapt, pw_poly_opts_set_maxorder, pw_poly_opts_set_nregions, pw_poly_opts_set_minsize, pw_poly_opts_set_tol"]}
{"id": "C123", "title": "Extrema, roots, second derivatives and products of piecewise polynomials are those of the function", "statement": "For a piecewise polynomial on consecutive intervals: the maximum, minimum and largest absolute value returned are attained by a piece at the returned point of its interval, no piece takes a better value anywhere on its interval, and among equally good pieces the first is reported. The list of roots is increasing, contains every zero of every nonzero piece inside its interval, and every member is near a root of a piece. The second derivative is piecewise the second derivative. The product of two piecewise polynomials on the same domain but with different breaks is the product of the two functions at every point.", "quantifier": "all trees of pieces of any shape and depth, any breaks, all coefficients away from the rounding threshold", "why_tests_cant": "Tests compare a few functions on grids; they cannot show that no piece of an arbitrarily nested tree is skipped, nor that products on all pairs of partitions agree everywhere.", "anchors": ["c3/lib_funcs/piecewisepoly.c: piecewise_poly_max, piecewise_poly_min, piecewise_poly_absmax, piecewise_poly_real_roots, piecewise_poly_dderiv, piecewise_poly_prod"]}
{"id": "C124", "title": "Constructors of polynomial expansions represent the documented functions, and generated bases are orthonormal", "statement": "A constant expansion has the constant as its value everywhere, or zero if the constant is below the rounding threshold; the linear constructor gives a x + offset, the update of a linear expansion changes it to the new slope and offset, and the quadratic constructor gives a (x - offset)^2 up to rounding. The functions generated for the different orders have exactly that degree and are orthonormal on the domain: for Legendre with respect to the plain integral, for Chebyshev with the Chebyshev weight, for Hermite with the Gaussian weight. A list of basis functions asked for with one call is orthonormal in the same sense, also for Chebyshev, where it is orthonormalised with respect to the plain integral.", "quantifier": "all slopes, offsets, constants, domains, orders and numbers of basis functions", "why_tests_cant": "Tests check a few orders on the default domain, where the Jacobian factors are one; they cannot show orthonormality for every pair of orders and every domain.", "anchors": ["c3/lib_funcs/polynomials.c: orth_poly_expansion_constant, orth_poly_expansion_linear, orth_poly_expansion_linear_update, orth_poly_expansion_quadratic, orth_poly_expansion_genorder, orth_poly_expansion_orth_basis"]}
{"id": "C125", "title": "Splitting a piecewise polynomial keeps the function, its constructors give the documented functions, and discontinuities are found", "statement": "Splitting a single piece at a point inside its interval, or at any increasing list of points from its left to its right end, gives consecutive pieces with exactly those ends, each of which represents the same polynomial up to rounding; without rounding all values stay the same. Points outside the interval and inner nodes are refused. The constant, linear and quadratic constructors and the functions of a given order give one piece with the documented values. The check for a discontinuity between two neighbouring functions answers 'none' exactly when the values and all derivatives up to the given order at the common end agree within the tolerance (relative if the value is at least one).", "quantifier": "all pieces of every polynomial family, all increasing lists of split points, all orders of derivatives, all tolerances", "why_tests_cant": "Tests split a few functions at one point and compare on a grid; they cannot show equality everywhere for every list of points, nor that the check looks at every derivative.", "anchors": ["c3/lib_funcs/piecewisepoly.c: piecewise_poly_split, piecewise_poly_splitn, piecewise_poly_constant, piecewise_poly_linear, piecewise_poly_quadratic, piecewise_poly_genorder, piecewise_poly_check_discontinuity"]}
{"id": "C126", "title": "The product of the parameter Hessian with a vector is the derivative of the gradient", "statement": "For a function train whose univariate functions are linear in their parameters, asking for the product of the Hessian with a vector at a point fills the result buffer with one number per parameter, and each number is the directional derivative, along the vector, of the partial derivative of the train value with respect to that parameter. All accesses stay inside the buffers.", "quantifier": "all dimensions, ranks, numbers of parameters per function, parameter values, points and vectors", "why_tests_cant": "Tests compare with finite differences for a few trains; they cannot show that every pair of parameters in different cores is counted exactly once for arbitrary ranks.", "anchors": ["c3/lib_superlearn/parameterization.c: ft_param_hessvec"]}
{"id": "C127", "title": "Gradient of an inner product with respect to the parameters", "statement": "Asking a parameterised function train for the gradient of its inner product with another train returns that inner product, and the gradient array receives, core by core and function by function in storage order, the derivative of the inner product of the two represented functions with respect to each parameter; entries of the array behind the gradient stay as they were.", "quantifier": "For all trains with at least one dimension and all ranks, all linear univariate integrals and all function families that depend linearly on their parameters", "why_tests_cant": "The gradient combines partial products from two sweeps with different storage orders; tests compare a few trains with finite differences and cannot cover all ranks, dimensions and the mapping from parameters to positions; one dimensional trains are easy to overlook.", "anchors": ["c3/lib_superlearn/parameterization.c:ft_param_grad_inner", "c3/lib_funcs/functions.c:generic_function_param_grad_inner"]}
{"id": "C128", "title": "Initial guesses of a parameterised train copy the template into the leading block of every core", "statement": "Setting the parameters of a parameterised train from a constant, or from a linear least squares fit to data, adds to a random perturbation the parameters of the constant or linear train function by function in the upper left block of every core and nothing elsewhere. Without perturbation the train then evaluates to the constant for all ranks, and, with all inner ranks at least two, to an affine function whose sum of squared errors over the data no other affine function beats.", "quantifier": "For all dimensions, ranks, numbers of parameters per function (at least those of the template), data sets, perturbations, and functions linear in their parameters.", "why_tests_cant": "Tests try one rank pattern; misplaced parameters in a block only show for particular combinations of ranks and numbers of parameters.", "anchors": ["c3/lib_superlearn/parameterization.c: ft_param_create_constant, ft_param_create_from_lin_ls", "c3/lib_linalg/linalg.c: linear_ls"]}
{"id": "C129", "title": "Compressing a full tensor into a tensor train", "statement": "Compressing a full array with at least two dimensions into a tensor train with a relative tolerance eps returns a well-formed train with the same sizes, ranks no larger than those of the unfoldings, and the sum over all multi-indices of the squared difference between the array and the train equals the sum of d-1 truncation errors, each of which is zero or smaller than |a| eps / sqrt(d-1); with eps = 0 every entry is reproduced exactly.", "quantifier": "for every array with at least two dimensions and positive sizes, every tolerance, every singular value decomposition routine that meets the LAPACK contract", "why_tests_cant": "The error is a sum over all entries of a tensor of any dimension, and depends on how the truncation errors of successive unfoldings combine; a test sees a few arrays and cannot separate the square of the tolerance from the tolerance.", "anchors": ["c3/lib_tensdecomp/tensortrain.c:full_to_tt", "c3/lib_linalg/linalg.c:truncated_svd", "c3/lib_linalg/matrix_util.c:diagv2m"]}
{"id": "C130", "title": "Rounding a tensor train", "statement": "Rounding a tensor train with at least two dimensions and a relative tolerance eps returns a well-formed train with the same sizes and no larger ranks; the sum over all multi-indices of the squared differences equals the sum of d-1 truncation errors, each of which is zero or smaller than |a| eps / sqrt(d-1); with eps = 0 the tensor is unchanged. The orthogonalisation sweep keeps every entry and leaves orthonormal rows in every core but the first.", "quantifier": "for every train whose ranks are at most the product of the size and the rank to the right, every tolerance, every singular value decomposition and RQ factorisation that meets the LAPACK contract", "why_tests_cant": "The claim concerns all entries of tensors of any dimension and the way truncation errors of successive cores combine through two sweeps of orthogonal factors; a test sees single trains and cannot show that the errors add up.", "anchors": ["c3/lib_tensdecomp/tt_multilinalg.c:tt_round", "c3/lib_tensdecomp/tensortrain.c:right_left_orth", "c3/lib_tensdecomp/tensortrain.c:right_ortho_core", "c3/lib_linalg/linalg.c:rq_with_rmult"]}
{"id": "C131", "title": "Driving an approximation session end to end", "statement": "After creating a cross approximation session, giving options for every dimension (in any order, the last call counts), initialising it with a rank and at least that many starting points per dimension, and any sequence of argument calls, the approximation runs on exactly these settings: the arguments hold the last values set and defaults otherwise, the index sets consist of the columns of the starting points, and if the sections of the function at these columns span all its sections the returned train equals the function everywhere with the requested rank. Argument calls or approximation before the initialisation are refused, and with rank adaptation no rank exceeds the maximal rank in force.", "quantifier": "For all dimensions of at least two, all option and argument call sequences, all ranks and starting points, all functions whose fibers belong to the function families", "why_tests_cant": "The outcome depends on the whole history of calls; tests run a handful of fixed call sequences with one rank.", "anchors": ["c3/lib_interface/approximate.c: c3approx_create, c3approx_set_approx_opts_dim, c3approx_init_cross, c3approx_init_cross_het, c3approx_set_cross_tol, c3approx_do_cross", "c3/lib_clinalg/ft.c: ft_cross_args_alloc, ft_cross_args_set_maxrank_all", "c3/lib_clinalg/indmanage.c: cross_index_array_initialize"]}
{"id": "C132", "title": "The alternating fit of a product is exact when nothing is cut off", "statement": "Given two function trains with at least two dimensions, the alternating product (starting from a copy of the first factor, with any stopping threshold, any number of sweeps and any truncation tolerance) always returns a well-formed train of the same dimension whose ranks never exceed the products of the ranks of the factors. If at least one sweep is made and the truncation tolerance is not positive, the returned train equals the pointwise product of the two factors at every point of the domain. The loop makes at most the requested number of sweeps and stops as soon as the relative change falls to the threshold. With zero sweeps the first factor is returned unchanged.", "quantifier": "for all pairs of trains with equal dimension >= 2, all ranks, all thresholds, sweep counts and tolerances, all points", "why_tests_cant": "The sweep combines orthogonal decompositions, products with cached left and right projections and truncated singular value decompositions; a test compares one product at a few points up to a tolerance and cannot tell an exact fit from a fit that happens to be close", "anchors": ["c3/lib_clinalg/dmrg.c: dmrg_approx, dmrg_sweep_lr, dmrg_sweep_rl, dmrg_super_r_all, dmrg_super_r, dmrg_update_right", "c3/lib_clinalg/dmrgprod.c: dmrg_product, dmrg_prod_support"]}
{"id": "C133", "title": "The diffusion operator computed by sweeps equals the divergence of a grad f", "statement": "For two function trains a and f of the same dimension, at least two, the diffusion operator by alternating sweeps always returns a well-formed train of that dimension, for any stopping threshold, number of sweeps and truncation tolerance. After at least one sweep its ranks are at most twice the products of the ranks of a and f. If the truncation tolerance is not positive, the returned train equals, at every point of the domain, the sum over the coordinates of the derivative of a times the derivative of f. With zero sweeps f is returned.", "quantifier": "for all pairs of trains with equal dimension >= 2, all ranks, thresholds, sweep counts and tolerances, all points", "why_tests_cant": "The operator is assembled from block products of cores, derivatives and multiplier matrices inside the sweeps; tests compare one instance with the exact operator up to a tolerance and do not reach all positions and block halves", "anchors": ["c3/lib_clinalg/diffusion.c: dmrg_diffusion, dmrg_diffusion_support, dmrg_diffusion_midleft, dmrg_diffusion_lastleft, dmrg_diffusion_midright, dmrg_diffusion_firstright", "c3/lib_clinalg/dmrg.c: dmrg_approx"]}
{"id": "C134", "title": "Optimizer objects keep their settings, copies are equal and traces are kept", "statement": "An optimizer made by c3opt_create or c3opt_alloc and configured by any sequence of fitting calls (number of variables, bounds, tolerances, line search, brute force points, objective, storage) always has bounds for every variable and a workspace of the size its algorithm uses, and every query returns the value of the last call that set it. c3opt_copy gives an object that answers all queries in the same way, without touching memory outside the buffers. With storage switched on, row i of the stored values, gradients and points is iterate i of the run, and c3opt_print_stored_values prints exactly these rows.", "quantifier": "for all algorithms, numbers of variables, sequences of calls with any arguments of sufficient length, and all runs whose iterates fit in the buffers", "why_tests_cant": "Tests configure one optimizer in one order and do not copy it; a buffer overrun by a factor of two in a copy, an uncopied function pointer or a wrong stride in the printed table gives plausible output, and sequences of calls are unbounded.", "anchors": ["c3/lib_optimization/optimization.c: c3opt_create, c3opt_alloc, c3opt_set_nvars, c3opt_copy, c3ls_copy, c3sgd_copy, c3opt_add_lb, c3opt_add_ub, c3opt_set_brute_force_vals, c3opt_set_storage_options, c3opt_get_stored_function, c3opt_print_stored_values"]}
{"id": "C135", "title": "The derivative check compares the gradient with central differences", "statement": "c3opt_check_deriv and c3opt_check_deriv_each evaluate the gradient once and the objective at the 2d points x +- eps e_i, return the norm of (central differences - gradient), divided by the norm of the central differences if that exceeds one, and store the difference for every variable. For an objective that is quadratic along every coordinate the correct gradient gives exactly zero for every step, and a returned zero means that the gradient equals the central differences.", "quantifier": "for all dimensions, objectives, gradients, points and non-zero steps", "why_tests_cant": "Tests use the check as their oracle for other code; whether the check itself would accept a wrong gradient or reject a right one is a statement about all objectives.", "anchors": ["c3/lib_optimization/optimization.c: c3opt_check_deriv, c3opt_check_deriv_each, c3opt_eval"]}
{"id": "C136", "title": "Canonical decompositions evaluate and convert to trains correctly", "statement": "A canonical (CP) decomposition evaluates at a multi-index to the sum over its rank of the products of the factor entries, and converting it to a tensor train gives a train with the same mode sizes, all inner ranks equal to the canonical rank, and the same element at every multi-index.", "quantifier": "every decomposition with consistent factors of any dimension >= 2, rank > 0, sizes and values in any commutative ring, and every multi-index", "why_tests_cant": "The conversion is exact for all sizes only if every core is laid out with the right strides; tests check a few shapes up to a tolerance and never dimension 1.", "anchors": ["c3/lib_tensdecomp/candecomp.c: cdelem, cd2tt_corem, cd2tt_corel, cd2tt_corer", "c3/lib_tensdecomp/convert.c: cd2tt"]}
{"id": "C137", "title": "A regression run never ends with a worse fit than it starts from, and Kristoffel weighting only changes the weights of the data", "statement": "Run a least squares regression with all parameters of a function train at once and an optimizer that, given values and correct partial derivatives, never returns parameters with a larger objective than its first guess. Then the run succeeds, the train returned has the dimensions, ranks, functions and number of parameters of the one given, and its mean squared residual is at most the one of the parameters the run started from: the parameters given, or those of the linear fit that replaces them if the sum of their squares is at most 1e-15. With the Kristoffel option set to 1 on a train of polynomials whose functions in one core have the same weight, the same holds with each residual divided by the weight of its point (the product over the variables), for the train without weighting, and no function of the train returned is weighted. With the option on a train with a function that is not a polynomial the call is refused before anything is fitted.", "quantifier": "for all numbers of variables of at least two, ranks, numbers of parameters, bases, weights without zero, data, first guesses and optimizers with the property stated", "why_tests_cant": "Tests fit a few functions and compare with a tolerance; they cannot show for all trains and data that scaling the labels and the basis functions separately is the same as weighting the residuals, nor that an arbitrary descending optimizer keeps the fit from getting worse through the copies of the parameters.", "anchors": ["c3/lib_superlearn/regress.c: c3_regression_run, c3_regression_run_aio, ft_regress_run, create_initial_guess", "c3/lib_superlearn/superlearn.c: slp_solve", "c3/lib_clinalg/ft.c: function_train_activate_kristoffel, function_train_deactivate_kristoffel, function_train_get_kristoffel_weight", "c3/lib_funcs/functions.c: generic_function_get_kristoffel_weight"]}
{"id": "C138", "title": "The rows selected for maximum volume are distinct, come with the inverse of their submatrix, and dominate all rows", "statement": "Call the maximum volume selection on a column-major matrix with more rows than columns whose starting submatrix (the rows LAPACK's pivots lead to) is nonsingular. Then the call reports success, the selected rows are pairwise different and in range, the second output is the inverse of the submatrix of the selected rows, the absolute value of its determinant is at least that of the starting submatrix, and either every row of the matrix is a combination of the selected rows with coefficients of absolute value below 1 + delta, or the volume has grown at least by the factor (1+delta)^(rows+1). A square matrix is accepted as well, and a matrix of full rank is never answered with a singular submatrix.", "quantifier": "for all numbers of rows and columns, all matrices over an ordered field, all pivot vectors LAPACK may return and all positive tolerances", "why_tests_cant": "The claim is about the rank-one updates of inverse and coefficient matrix over arbitrarily many exchanges; tests look at one or two matrices and cannot exclude that the inverse drifts away from the selected rows.", "anchors": ["c3/lib_linalg/linalg.c: maxvol_rhs, maxabselem, rows_to_top_col, getrows"]}
{"id": "C139", "title": "A skeleton decomposition reproduces every table spanned by its starting columns from the kept rows and columns", "statement": "Give the skeleton decomposition (of a matrix, of a function of two indices, or of a function of two variables with stored fibers) starting columns of which all columns are combinations. If the selection of rows and columns works, the call ends, with code 1 after the second pass for a table different from zero and a positive tolerance and with code 2 otherwise; the kept rows and columns are in range, and kept columns times any generalized inverse of their common submatrix times kept rows is the whole table. For the variant with stored fibers, fibers are computed at most once per number, the stored ones stay right, and expanding the decomposition to the full array gives the table row by row, provided no singular value of the submatrix lies strictly between zero and the cutoff.", "quantifier": "for all sizes, ranks not above the sizes, tables, starting columns that span, tolerances, factors with the QR property and initial stored fibers that are right", "why_tests_cant": "Exactness for every table of low rank is a statement about infinitely many matrices and about the interplay of two selections, the cache and the pseudoinverse; tests check a few matrices with random entries up to a tolerance.", "anchors": ["c3/lib_linalg/linalg.c: skeleton, skeleton_func, skeleton_func2, sk_decomp_to_full, init_skf, AddFiber, IndexExists, getIndex, pinv"]}
{"id": "C140", "title": "Cross approximation of a discrete tensor returns the tensor itself when the starting index sets determine it", "statement": "Call the cross approximation of a discrete tensor with ranks and right index sets such that every slice of the tensor with fixed last indices is a combination of the slices through the sets. If the selection of rows works for the fiber matrices met, then for every outcome of the convergence test the call ends after at most maxiter+1 passes, makes no access outside its arrays, never asks the user function for the same fiber of a core twice, and returns a well-formed tensor train of the requested sizes and ranks whose element equals the tensor element at every multi-index, not only at those evaluated.", "quantifier": "for all numbers of modes above one, mode sizes, tensors, equal inner ranks not above the sizes of the fiber matrices, starting index sets that span, stored fibers that are right, numbers of passes and outcomes of the convergence test", "why_tests_cant": "The claim is about all elements of all tensors of a given rank after any number of sweeps of coupled index selections; tests compare a few tensors up to a tolerance on the evaluated entries or a norm.", "anchors": ["c3/lib_tensdecomp/cross.c: tt_cross, process_first_core_lr, process_cores_lr, process_last_core_rl, process_cores_rl, cross_setup, build_fiber_mat"]}
{"id": "C141", "title": "Generic functions of different classes are combined with the right values and the right class, or refused", "statement": "Take generic functions (piecewise polynomial, polynomial, piecewise constant, piecewise linear, kernel expansion) whose class tag matches what they hold and whose class implementations add, scale, multiply, integrate and evaluate correctly. Scaled sums, sums into an allocated empty function, and linear combinations of any number of functions of one class, or of polynomials mixed with piecewise polynomials, succeed, evaluate to the combination of the values, and carry the tag of the common class (piecewise polynomial for a mixture); a missing summand counts as zero. Inner products give the inner product of the two functions. Sums and inner products of functions of other different classes stop the program. Products evaluate to the product of the values whatever the two classes are, or are refused likewise. An update of an array of functions reports success for every number of functions, and a pivot that holds an index is evaluated at that node.", "quantifier": "for all generic functions, coefficients, numbers of functions and evaluation points, and all implementations of the classes that satisfy the contracts", "why_tests_cant": "The tag and the object behind the untyped pointer agree only as an invariant over every way of combining functions; a wrong tag is undefined behaviour that a test may survive by luck, and tests combine few classes.", "anchors": ["c3/lib_funcs/funcs_mixed.c: generic_function_inner, generic_function_sum_prod, generic_function_prod, generic_function_daxpby, generic_function_weighted_sum_pa", "c3/lib_funcs/functions.c: generic_function_lin_comb, generic_function_axpy, generic_function_array_axpy, generic_function_scale, generic_function_1d_eval, generic_function_1d_eval_ind, generic_function_1d_eval_gen", "c3/lib_funcs/futil.h: GF_IN_OUT, GF_SWITCH_TWOOUT"]}
{"id": "C142", "title": "Functions with prescribed zeros", "statement": "A nodal function requested to be one at a point and zero at points given in increasing order, all strictly inside the domain and further apart than the tolerance of evaluation, is created, lives on the requested domain, and evaluates to 1 at the point and to 0 at every requested zero and at both ends. The array version, used to replace vanishing columns in elimination, sets the next pivot to a position in the array and a location in the domain such that the function there has the value 1, no function of the array exceeds 1 in absolute value anywhere, and every function vanishes at the locations of the earlier pivots that lie in it; earlier pivots are unchanged.", "quantifier": "For every number and position of zeros, every domain, every number of functions and every list of earlier pivots.", "why_tests_cant": "Tests use one or two zeros in a fixed order; a misplaced node or a pivot counted for the wrong function only shows for particular orders and distributions of pivots.", "anchors": ["c3/lib_funcs/functions.c: generic_function_onezero", "c3/lib_funcs/functions.c: generic_function_array_onezero"]}
{"id": "C143", "title": "Parameterisations around an existing train", "statement": "Building a parameterised train from an existing function train and approximation options succeeds exactly when no univariate function has more parameters than the options of its dimension ask for and every function with fewer is a polynomial. The result then has the same ranks and, for every input, the same value as the train it was built from; every function has exactly the requested number of parameters, its old ones followed by zeros; the tables (parameters per function, per core, total, largest) agree with each other; and the stored parameter vector is the one read back from the train. Otherwise the call ends the program. Reading one parameter, or the first n, returns the stored values, never reads past the end and leaves the rest of the caller's buffer alone.", "quantifier": "For every number of dimensions, all ranks, all mixtures of function classes and parameter counts, all options.", "why_tests_cant": "Tests build one parameterisation of polynomials that already have the right size; padding in the wrong order or counts that disagree for mixed sizes need unequal functions and ranks.", "anchors": ["c3/lib_superlearn/parameterization.c: ft_param_alloc_with_ft, ft_param_get_param, ft_param_get_params", "c3/lib_clinalg/qmarray.c: qmarray_uni_pad_params", "c3/lib_funcs/polynomials.c: orth_poly_expansion_pad_params"]}
{"id": "C144", "title": "Jumps of functions are found by polynomial annihilation", "statement": "At distinct points with the values of a polynomial of small degree plus a constant to the right of x, the jump function at x is that constant (zero for a polynomial), unless the check of the normalisation aborts; on equispaced points with spacing at most one it never aborts. The stencil lies within the points and contains both neighbours of x. The minmod of several orders is zero if two of them differ in sign, else the one of smallest magnitude. locate_jumps ends for every positive resolution, keeps the edges found before, and appends locations strictly inside the domain in increasing order; an affine function on a domain at least as wide as the resolution gets none; an affine function with one jump, higher than the first spacing, gets an edge closer to the jump than half the resolution.", "quantifier": "for all fields, points, values, polynomials, jump heights and locations, orders up to eight, numbers of subdomains of at least five, domains no wider than the number of subdomains, resolutions, and thresholds between zero and the spacing", "why_tests_cant": "Tests locate the jumps of a few functions; exactness for all polynomials, termination for every resolution and the distance to an arbitrary jump are statements about all inputs.", "anchors": ["c3/lib_funcs/piecewisepoly.c:eval_jump", "c3/lib_funcs/piecewisepoly.c:get_stencil", "c3/lib_funcs/piecewisepoly.c:minmod_eval", "c3/lib_funcs/piecewisepoly.c:minmod_disc_exists", "c3/lib_funcs/piecewisepoly.c:locate_jumps"]}
{"id": "C145", "title": "Matrix utilities build Kronecker products, joined and block diagonal matrices", "statement": "The Kronecker product of two matrices holds a(i,j)*b(k,l) in row i*rows(b)+k and column j*cols(b)+l; joining two matrices with the same number of rows holds the first in the first columns and the second in the rest; the block diagonal matrix holds in the rows of block i its values in the columns of that block and zero in all others; a vector turned into a matrix is one row or one column with the same values; the matrix of ones holds ones. All results have the stated sizes and no store is out of bounds.", "quantifier": "for all commutative rings of values, sizes (including zero), matrices whose values fill them, and lists of blocks", "why_tests_cant": "Tests use one or two small matrices; index arithmetic for all sizes, empty blocks and blocks of different shapes is a statement about all inputs.", "anchors": ["c3/lib_linalg/linalg.c:kron", "c3/lib_linalg/matrix_util.c:horizcat", "c3/lib_linalg/matrix_util.c:block_diag", "c3/lib_linalg/matrix_util.c:v2m", "c3/lib_linalg/matrix_util.c:mat_ones"]}
{"id": "C146", "title": "Operations on quasimatrices agree with the operations on their columns", "statement": "For quasimatrices (rows of one-dimensional functions): quasimatrix_inner returns the sum of the inner products of corresponding columns and refuses NULL and different widths; qmv returns the combination of the columns with the given weights; qmm with a matrix stored by columns returns a quasimatrix whose column j is the combination with column j of the matrix, and qmmt the same with the rows; quasimatrix_daxpby returns a x + b y column by column, with NULL standing for zero and NULL for two NULLs; quasimatrix_absmax returns the first column with the largest absolute maximum together with its value and location. generic_function_array_daxpby does the sums with strides.", "quantifier": "all numbers of columns, all functions of the classes that can be mixed, all matrices and weights, all points of evaluation", "why_tests_cant": "tests use two or three fixed functions of one class and compare at sample points", "anchors": ["c3/lib_clinalg/quasimatrix.c: quasimatrix_absmax, quasimatrix_inner, qmv, qmm, qmmt, quasimatrix_daxpby", "c3/lib_funcs/functions.c: generic_function_array_daxpby"]}
{"id": "C147", "title": "Rank adaptation of the discrete cross approximation stops when rounding reduces every inner rank or the iterations are used up", "statement": "tt_cross_adapt returns the rounding of a cross approximation that was run with index sets belonging to its ranks. It runs the cross approximation once when maxiter is 0 and at most maxiter + 2 times otherwise; if it stops earlier, rounding has changed every inner rank and the options hold the ranks that were used. Between runs exactly the inner ranks that rounding kept are increased, by kickrank; outer ranks never change. It always ends when the modes are large enough for the ranks it can reach. After stopping because of maxiter the options hold increased ranks with index sets of the old size.", "quantifier": "all numbers of modes, sizes, starting ranks, increments, iteration limits, and all behaviours of the approximation and the rounding", "why_tests_cant": "tests run one function with one set of options and only look at the error of the result", "anchors": ["c3/lib_tensdecomp/cross.c: tt_cross_adapt, create_naive_index_set"]}
{"id": "C148", "title": "Rows and columns of quasimatrix arrays are set and extracted exactly, and norms are those of the entries", "statement": "Access to an entry of a quasimatrix array returns that entry and is refused outside of the array. Setting a row or column replaces exactly that row or column by copies of the functions of the quasimatrix and leaves every other entry as it was; extracting it afterwards gives the quasimatrix back; a quasimatrix with too few functions is never accepted. Extracted rows and columns hold the entries in order. The norm is the root of the sum of the inner products of the entries with themselves, and the distance of two arrays is the root of the sum of the inner products of the entrywise differences with themselves. Row and column numbers outside of the array are refused by setting and extracting, and arrays of different shapes by the distance.", "quantifier": "all numbers of rows and columns, all positions, all functions of the classes that can be mixed, all inner products", "why_tests_cant": "tests set one row or column of a small array of one class and compare sample values; aliasing of column-major positions and behaviour outside of the array are not tried", "anchors": ["c3/lib_clinalg/qmarray.c: qmarray_get_func, qmarray_set_row, qmarray_extract_row, qmarray_set_column, qmarray_set_column_gf, qmarray_extract_column, qmarray_norm2, qmarray_norm2diff", "c3/lib_clinalg/quasimatrix.c: quasimatrix_get_func, quasimatrix_set_func"]}
{"id": "C149", "title": "Bounding boxes hold exactly the bounds they were given", "statement": "The standard box has bounds -1 and 1 in every dimension; a box made from two numbers or from two arrays has those bounds in every dimension; number of dimensions, single bounds and whole arrays of bounds are read back exactly. Setting one bound changes that bound and no other. A missing box is refused by every access. A dimension outside of the box is refused, and so are bounds in the wrong order.", "quantifier": "all numbers of dimensions, all bounds, all sequences of single accesses", "why_tests_cant": "tests never read a box directly; they use the standard box in a few dimensions through the approximation", "anchors": ["c3/lib_funcs/space.c: bounding_box_init_std, bounding_box_init, bounding_box_vec, bounding_box_get_dim, bounding_box_get_lb, bounding_box_get_ub, bounding_box_get_ub_dim, bounding_box_set_ub_dim, bounding_box_get_lb_dim, bounding_box_set_lb_dim"]}

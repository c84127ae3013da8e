{
 "claims": [
  {
   "property": "C01",
   "status": "proved",
   "theorems": [
    "C3.Serial.int_roundtrip",
    "C3.Serial.size_t_roundtrip",
    "C3.Serial.double_roundtrip",
    "C3.Serial.doublep_roundtrip",
    "C3.Serial.doublep_overread",
    "C3.Serial.doublep_truncated"
   ],
   "note": "Byte-level model; little-endian x86-64 sizes; doubles as 64-bit patterns."
  },
  {
   "property": "C02",
   "status": "proved",
   "theorems": [
    "C3.Str.parse_string_split"
   ],
   "note": "Every NUL-free string, every delimiter byte."
  },
  {
   "property": "C03",
   "status": "proved",
   "theorems": [
    "C3.Str.bite_string_found",
    "C3.Str.bite_string_absent",
    "C3.Str.bite_string_nul"
   ],
   "note": ""
  },
  {
   "property": "C04",
   "status": "partial",
   "theorems": [
    "C3.Str.bite_string2_sound",
    "C3.Str.bite_string2_none",
    "C3.Str.bite_string2_total",
    "C3.Str.bite_string2_complete_partial",
    "C3.Str.bite_string2_complete_counterexample"
   ],
   "note": "Soundness proved; completeness is false ('ab' in 'aab' is missed) and proved when the token's first character does not occur before it."
  },
  {
   "property": "C05",
   "status": "proved",
   "theorems": [
    "C3.Str.itoa_denotes",
    "C3.Str.itoa_bad_base"
   ],
   "note": "Buffer of at least 34 bytes."
  },
  {
   "property": "C06",
   "status": "proved",
   "theorems": [
    "C3.Ind.insertion_order",
    "C3.Ind.insertion_wrong_dim",
    "C3.Ind.copy_equal",
    "C3.Ind.copylast_spec"
   ],
   "note": ""
  },
  {
   "property": "C07",
   "status": "partial",
   "theorems": [
    "C3.Ind.create_nested_old_major",
    "C3.Ind.create_nested_opt_major",
    "C3.Ind.create_nested_zip",
    "C3.Ind.create_nested_too_large",
    "C3.Ind.create_nested_ind_spec",
    "C3.Ind.create_nested_zero_counterexample"
   ],
   "note": "Proved for every positive requested size; a request of 0 returns all pairs (counterexample)."
  },
  {
   "property": "C08",
   "status": "partial",
   "theorems": [
    "C3.Ind.merge_wspace_product",
    "C3.Ind.merge_wspace_no_left",
    "C3.Ind.merge_wspace_no_right",
    "C3.Ind.merge_pairs_partial",
    "C3.Ind.merge_pairs_counterexample"
   ],
   "note": "Merge with free coordinate fully proved; cross_index_merge always uses the first left node (counterexample)."
  },
  {
   "property": "C09",
   "status": "partial",
   "theorems": [
    "C3.Ind.array_initialize_forward",
    "C3.Ind.array_initialize_reverse",
    "C3.Ind.array_initialize_dim1_counterexample"
   ],
   "note": "Proved for dim >= 2; dim = 1 writes out of bounds."
  },
  {
   "property": "C10",
   "status": "proved",
   "theorems": [
    "C3.Mon.hashtable_first_write_wins",
    "C3.Mon.hashtable_reinsert_noop",
    "C3.Mon.hashtable_create_zero"
   ],
   "note": "64-bit hash arithmetic and bucket lists modelled; any size >= 1, any history."
  },
  {
   "property": "C100",
   "status": "partial",
   "theorems": [
    "C3.Sl.lsObj_none",
    "C3.Sl.lsObj_some_actual",
    "C3.Sl.lsObj_no_data_actual",
    "C3.Sl.regObj_none",
    "C3.Sl.regObj_some",
    "C3.Sl.objective_reg",
    "C3.Sl.objective_ls",
    "C3.Sl.objStoch_value",
    "C3.Sl.objBatch_value",
    "C3.Sl.stoch_mean",
    "C3.Sl.preCompute_ok",
    "C3.Sl.aio_map",
    "C3.Sl.aio_objective_partial",
    "C3.Sl.objEval_weight_counterexample",
    "C3.Sl.objEval_order_counterexample",
    "C3.Sl.regObj_stale_counterexample"
   ],
   "note": "Exact arithmetic. The weight of an objective function is not applied to its gradient, the regulariser before the least squares function is divided by the number of data, and the regulariser looks at the train left by the previous evaluation (counterexamples)."
  },
  {
   "property": "C101",
   "status": "partial",
   "theorems": [
    "C3.Sl.nparamsRestrict_ok",
    "C3.Sl.updOutside_ok",
    "C3.Sl.updInside_ok",
    "C3.Sl.kickParams_ok",
    "C3.Sl.kickRanks_ok",
    "C3.Sl.kick_last_core_actual",
    "C3.Sl.kick_last_core_counterexample"
   ],
   "note": "The start rank of the last core is never set by rank adaptation, so its rounded parameters are all replaced by the constant (counterexample). The univariate functions are represented by their parameter vectors."
  },
  {
   "property": "C102",
   "status": "partial",
   "theorems": [
    "C3.Sl.bd_partition",
    "C3.Sl.extractData_ok",
    "C3.Sl.foldErr_ok",
    "C3.Sl.cvRun_ok",
    "C3.Sl.cv_many_folds_actual",
    "C3.Sl.cv_zero_folds_actual",
    "C3.Sl.cv_weights_actual",
    "C3.Sl.cv_weights_counterexample"
   ],
   "note": "Exact arithmetic. Sample weights are not split with the samples (counterexample); more folds than samples give empty folds, no folds divide by zero."
  },
  {
   "property": "C103",
   "status": "partial",
   "theorems": [
    "C3.Sl.mem_prodCases",
    "C3.Sl.length_prodCases",
    "C3.Sl.setupCases_ok",
    "C3.Sl.process_ok",
    "C3.Sl.process_process",
    "C3.Sl.gridOpt_best",
    "C3.Sl.gridOpt_empty_actual",
    "C3.Sl.setupCases_four_actual",
    "C3.Sl.gridAdd_unknown_actual",
    "C3.Sl.gridOpt_four_counterexample"
   ],
   "note": "One to three parameters, exact arithmetic. All four parameters or an empty list of values end in a NULL dereference, an unknown name indexes a table at -1 (counterexamples)."
  },
  {
   "property": "C104",
   "status": "proved",
   "theorems": [
    "C3.Sl.raRun_err",
    "C3.Sl.raRun_count",
    "C3.Sl.raRun_ranks",
    "C3.Sl.raStep_cases",
    "C3.Sl.raRun_above_actual"
   ],
   "note": "Cross validation, fit and rounding are arbitrary functions with laws about ranks (shown satisfiable). Initial ranks above the maximal rank are never lowered. The final run after adaptation is a plain fit. The parameters of raised trains are C101."
  },
  {
   "property": "C105",
   "status": "partial",
   "theorems": [
    "C3.Round.round_partial",
    "C3.Round.round_exact",
    "C3.Round.round_maxrank",
    "C3.Round.round_small",
    "C3.Round.svdRank_spec",
    "C3.Round.orthor_ok",
    "C3.Round.svdAny_law",
    "C3.Round.s_qr",
    "C3.Round.s_lq",
    "C3.Round.round_eps_counterexample",
    "C3.Round.round_dim1_actual",
    "C3.Round.orthor_dim1_actual"
   ],
   "note": "Exact arithmetic; univariate functions, integrals, QR, LQ and SVD by contract, shown satisfiable together for square-summable sequences with the modelled Householder sweeps and an existence proof for singular value decompositions. The squared error is bounded by sqrt(d-1) times norm times epsilon, not by epsilon squared times squared norm: the sum of squares of dropped singular values is compared with an unsquared tolerance, so half of the squared norm can be lost for every epsilon (counterexample). Dimension 1 reads a core that does not exist, and orthogonalisation multiplies by the factor instead of keeping the function."
  },
  {
   "property": "C106",
   "status": "partial",
   "theorems": [
    "C3.Mv.arrAbsmax_ok",
    "C3.Mv.absmax1d_ok",
    "C3.Mv.maxvol_partial",
    "C3.Mv.maxvol_exact",
    "C3.Mv.colInd_of_on",
    "C3.Mv.s_mvLaws",
    "C3.Mv.pinv_formula",
    "C3.Mv.pinv_inverse",
    "C3.Mv.pinv_nonsingular",
    "C3.Mv.pinv_zero_cutoff_actual",
    "C3.Mv.rdup_spec",
    "C3.Mv.rdup_diverges"
   ],
   "note": "Exact arithmetic; LU decomposition (which is C31), maximisation of one function and SVD by contract, shown satisfiable together for square-summable sequences. The search stops at 1.01 but the last exchange comes after that, so the bound proved is 2.02 (or the volume has grown by 1.01^32). Pivots moved apart because they nearly coincide are outside the theorem; moving them apart can go on for ever (counterexample). A pseudoinverse with positive cutoff drops small singular values, with cutoff zero a singular matrix divides by zero."
  },
  {
   "property": "C107",
   "status": "partial",
   "theorems": [
    "C3.Xa.cross_interpolates_partial",
    "C3.Xa.cross_exact_partial",
    "C3.Xa.cross_exact_any",
    "C3.Xa.rspan_of_sep",
    "C3.Xa.prepCore_ok",
    "C3.Xa.s_xLaws",
    "C3.Xa.cross_diverges",
    "C3.Xa.cross_tolerance_actual"
   ],
   "note": "Exact arithmetic; approximation of one fiber, QR, LQ and the parts of the maximum volume search by contract, shown satisfiable together for square-summable sequences. Partial because in floating point the fibers are approximated only up to a tolerance, and because pivots moved apart by the search are excluded by contract. Memory release of old index sets and cores is not modelled."
  },
  {
   "property": "C108",
   "status": "partial",
   "theorems": [
    "C3.Xa.crossAdapt_ranks_partial",
    "C3.Xa.crossAdapt_exact_partial",
    "C3.Xa.crossAdapt_off",
    "C3.Xa.kickAll_ok",
    "C3.Xa.rspan_append",
    "C3.Xa.s_xLaws2",
    "C3.Xa.s_zero2",
    "C3.Xa.crossAdapt_diverges"
   ],
   "note": "Exact arithmetic; the contracts of C107 and a zero train by contract, satisfiable for square-summable sequences. Partial: the error of rounding is bounded as the code sets its threshold (squared error against the unsquared tolerance, see C105), and a kick of zero never ends (theorem)."
  },
  {
   "property": "C109",
   "status": "partial",
   "theorems": [
    "C3.Dif.gradient_hasDerivAt",
    "C3.Dif.jacobian_hasDerivAt",
    "C3.Dif.hessian_hasDerivAt",
    "C3.Dif.hessDiag_second",
    "C3.Dif.laplace_value_partial",
    "C3.Dif.diffusion_value_partial",
    "C3.Dif.blockTrain_ok",
    "C3.Dif.operate_actual",
    "C3.Dif.laplace_one_actual"
   ],
   "note": "Exact arithmetic; the derivative of one univariate function by contract (proved elsewhere for expansions), satisfiable for polynomials. In dimension one the Laplace operator returns a core of the wrong size whose evaluation writes out of bounds, and trains made by applying operators to each core have first rank zero, so they cannot be evaluated (theorems)."
  },
  {
   "property": "C11",
   "status": "partial",
   "theorems": [
    "C3.Mon.monitor_calls_once",
    "C3.Mon.monitor_transparent_partial",
    "C3.Mon.monitor_transparent_packed_partial",
    "C3.Mon.monitor_transparent_counterexample"
   ],
   "note": "Exactly one call per distinct key proved. Transparency needs equal keys to have equal values; the 15-digit text key identifies 1 and 1+2^-52 (counterexample)."
  },
  {
   "property": "C110",
   "status": "proved",
   "theorems": [
    "C3.Pc.findNode_nearest",
    "C3.Pc.eval_value",
    "C3.Pc.eval_total",
    "C3.Pc.eval_node",
    "C3.Pc.evalN_value",
    "C3.Pc.scale_value",
    "C3.Pc.flipSign_value",
    "C3.Pc.max_value",
    "C3.Pc.min_value",
    "C3.Pc.absmax_value",
    "C3.Pc.absmaxOver_value",
    "C3.Pc.approx_value",
    "C3.Pc.constant_value",
    "C3.Pc.approx_adapt_actual",
    "C3.Pc.eval_close_counterexample"
   ],
   "note": "Exact arithmetic. Nodes closer than the tolerance of the search may be confused (counterexample, outside of the quantifier)."
  },
  {
   "property": "C111",
   "status": "partial",
   "theorems": [
    "C3.Pc.axpy_value",
    "C3.Pc.prod_value",
    "C3.Pc.integrate_value",
    "C3.Pc.inner_value",
    "C3.Pc.norm_value",
    "C3.Pc.axpyMerged_node_partial",
    "C3.Pc.prod_grids_actual",
    "C3.Pc.axpy_grids_counterexample",
    "C3.Pc.inner_grids_counterexample",
    "C3.Pc.inner_disjoint_actual",
    "C3.Pc.innerGrid_values"
   ],
   "note": "Proved for functions on a common grid, exact arithmetic. On different grids the sum is right only at the nodes and the inner product is not the integral (counterexamples), products fail an assertion and separate ranges read out of bounds."
  },
  {
   "property": "C112",
   "status": "partial",
   "theorems": [
    "C3.Pc.params_roundtrip",
    "C3.Pc.createWithParams_value",
    "C3.Pc.paramGrad_value_partial",
    "C3.Pc.deriv_value_partial",
    "C3.Pc.derivEval_value",
    "C3.Pc.onezero_fixed_value",
    "C3.Pc.orthBasis_value_partial",
    "C3.Pc.aoptsAdapt_value",
    "C3.Pc.paramGrad2_actual",
    "C3.Pc.paramGrad_stale_counterexample",
    "C3.Pc.paramGrad_outside_counterexample",
    "C3.Pc.paramGrad2_counterexample",
    "C3.Pc.deriv_last_counterexample",
    "C3.Pc.aoptsAlloc_counterexample",
    "C3.Pc.onezero_none_counterexample",
    "C3.Pc.onezero_lower_counterexample",
    "C3.Pc.orthBasis_extra_counterexample"
   ],
   "note": "Exact arithmetic. The gradient leaves one entry unwritten, is not zero outside, and the combined routine returns the node; the last difference quotient uses an overwritten value; options record the wrong bounds; free nodes lose zeros; more basis functions than nodes are not orthonormal (counterexamples)."
  },
  {
   "property": "C113",
   "status": "partial",
   "theorems": [
    "C3.Opt.backtrack_spec",
    "C3.Opt.backtrack_rejects",
    "C3.Opt.Searched.calls_le",
    "C3.Opt.Searched.succeeds",
    "C3.Opt.Searched.descent",
    "C3.Opt.backtrack_terminates",
    "C3.Opt.gradientDescent_spec",
    "C3.Opt.gradientDescent_start_fails",
    "C3.Opt.GdOut.success",
    "C3.Opt.Accepted.descent",
    "C3.Opt.gradientDescent_converges",
    "C3.Opt.gradientDescent_code_counterexample",
    "C3.Opt.gradientDescent_maxiter_counterexample",
    "C3.Opt.gradientDescent_worse_counterexample",
    "C3.Opt.backtrack_beta_counterexample"
   ],
   "note": "Exact arithmetic. A beta outside (0,1) is never rejected, a gradient failing with code 20 reads as success, at the iteration limit the gradient is the one of the previous point, and a failing search leaves the last trial point (counterexamples)."
  },
  {
   "property": "C114",
   "status": "partial",
   "theorems": [
    "C3.Opt.backtrackBc_spec",
    "C3.Opt.backtrackBc_infeasible",
    "C3.Opt.boxPgDescent_spec",
    "C3.Opt.PgOut.success",
    "C3.Opt.boxPg_stationary_actual",
    "C3.Opt.boxPg_linear_counterexample",
    "C3.Opt.backtrackBc_scaling_counterexample"
   ],
   "note": "Exact arithmetic. At a constrained minimum with nonzero gradient the search cannot succeed, so that code 1 is returned for all budgets (theorem and counterexample); the returned scaling is multiplied by alpha."
  },
  {
   "property": "C115",
   "status": "partial",
   "theorems": [
    "C3.Opt.newton_exit",
    "C3.Opt.newton_quadratic",
    "C3.Opt.newton_diverges",
    "C3.Opt.boxDampNewton_spec",
    "C3.Opt.DnMove.descent",
    "C3.Opt.boxDampNewton_boundary_counterexample"
   ],
   "note": "Exact arithmetic, dgesv by contract. newton has no iteration limit and may cycle (theorem); damped Newton reports failure at a minimum on the boundary (counterexample)."
  },
  {
   "property": "C116",
   "status": "partial",
   "theorems": [
    "C3.Opt.boxDampBfgs_spec",
    "C3.Opt.DbMove.descent",
    "C3.Opt.DbMove.posDef",
    "C3.Opt.DbMove.secant_actual",
    "C3.Opt.boxDampBfgs_workspace_counterexample",
    "C3.Opt.boxDampBfgs_secant_counterexample"
   ],
   "note": "Exact arithmetic, workspace of 4*d numbers. The documented 3*d numbers are overrun, and the matrix satisfies the secant equation for alpha times the step (theorem and counterexamples)."
  },
  {
   "property": "C117",
   "status": "partial",
   "theorems": [
    "C3.Poly.prod_value",
    "C3.Poly.prod_exact",
    "C3.Poly.sumProd_leg",
    "C3.Poly.sumProd_exact",
    "C3.Poly.sumProd_types",
    "C3.Poly.exists_tripleTab",
    "C3.Poly.projects_leg",
    "C3.Poly.projects_herm",
    "C3.Poly.projects_cheb",
    "C3.Poly.prod_map_counterexample",
    "C3.Poly.prod_type_counterexample",
    "C3.Poly.prod_small_counterexample"
   ],
   "note": "Exact arithmetic; the tables (external headers, not in the repository) and the Gauss rules by their defining property. The table branch discards the mapping of Hermite expansions with mean or deviation, the type of the second factor is not compared, and the projection returns zero when the squared coefficients of one factor are below the threshold (three counterexamples)."
  },
  {
   "property": "C118",
   "status": "partial",
   "theorems": [
    "C3.Poly.derivAll_other",
    "C3.Poly.derivAll_exact",
    "C3.Poly.dderiv_exact",
    "C3.Poly.dderiv_cheb_partial",
    "C3.Poly.dderiv_counterexample",
    "C3.Poly.diffable_cheb"
   ],
   "note": "Exact arithmetic, Gauss rules by their defining property. The second derivative of a quadratic Chebyshev expansion lacks the chain-rule factor unless the domain has length two (counterexample)."
  },
  {
   "property": "C119",
   "status": "partial",
   "theorems": [
    "C3.Poly.comrade",
    "C3.Poly.nsComp_ok",
    "C3.Poly.famRoots_spec",
    "C3.Poly.cheb_roots_partial",
    "C3.Poly.leg_roots_partial",
    "C3.Poly.exists_isEig",
    "C3.Poly.roots_herm",
    "C3.Poly.leg_linear_counterexample",
    "C3.Poly.cheb_right_end_counterexample",
    "C3.Poly.roots_complex_counterexample",
    "C3.Poly.roots_zero_counterexample"
   ],
   "note": "Exact arithmetic; eigenvalues (LAPACK) by contract, shown satisfiable. The root of a linear Legendre expansion lacks the factor sqrt(3), a linear Chebyshev expansion loses a root at the right end, a function without real roots may have members in its list, and the zero function with three coefficients divides by zero (counterexamples). Hermite is not implemented (assertion)."
  },
  {
   "property": "C12",
   "status": "proved",
   "theorems": [
    "C3.Fw.fiber_eval_points",
    "C3.Fw.fiber_eval",
    "C3.Fw.fiber_eval_vec",
    "C3.Fw.eval_plain",
    "C3.Fw.clean_restores",
    "C3.Fw.stale_fiber_counterexample"
   ],
   "note": "All wrapper types. Re-initialising without selecting a fiber keeps the old selection (counterexample recorded)."
  },
  {
   "property": "C120",
   "status": "partial",
   "theorems": [
    "C3.Poly.candLoop_ok",
    "C3.Poly.best_of_candidates",
    "C3.Poly.derivAll_sharp",
    "C3.Poly.cf_unique",
    "C3.Poly.cheb_extrema_partial",
    "C3.Poly.leg_extrema_partial",
    "C3.Poly.affine_extrema",
    "C3.Poly.absmax_nodes",
    "C3.Poly.absmax_herm",
    "C3.Poly.leg_max_counterexample",
    "C3.Poly.absmax_small_counterexample",
    "C3.Poly.absmax_no_nodes_counterexample"
   ],
   "note": "Exact arithmetic; eigenvalues and Gauss rules by contract. Coefficients near the rounding threshold are excluded. The maximum of a Legendre quadratic is missed unless its vertex is in the middle of the domain, a function with norm below the threshold is reported to have absolute maximum zero, and an empty list of candidates is read (counterexamples)."
  },
  {
   "property": "C121",
   "status": "partial",
   "theorems": [
    "C3.Poly.stdComp_ok",
    "C3.Poly.std_eig_iff",
    "C3.Poly.stdTrim_ok",
    "C3.Poly.std_roots_partial",
    "C3.Poly.exists_isEigG",
    "C3.Poly.std_end_counterexample",
    "C3.Poly.std_small_counterexample"
   ],
   "note": "Exact arithmetic; eigenvalues by contract, shown satisfiable. A linear polynomial loses a root at an end of the domain, and leading coefficients below the threshold are dropped with their roots (counterexamples)."
  },
  {
   "property": "C122",
   "status": "partial",
   "theorems": [
    "C3.Pw.leafApprox_ok",
    "C3.Pw.approx1_even",
    "C3.Pw.adaptBranches_ok",
    "C3.Pw.adaptHelp_ok",
    "C3.Pw.approxAdapt_ok",
    "C3.Pw.approxAdapt_poly",
    "C3.Pw.approx1_pts",
    "C3.Pw.approxAdapt_many_counterexample",
    "C3.Pw.approxAdapt_pts_counterexample"
   ],
   "note": "Exact arithmetic; the quadrature rules by contract (satisfiable). More than 199 polynomials per piece give the zero function (counterexample); points set by the user abort the adaptive approximation."
  },
  {
   "property": "C123",
   "status": "partial",
   "theorems": [
    "C3.Pw.max_value_partial",
    "C3.Pw.min_value_partial",
    "C3.Pw.absmax_value_partial",
    "C3.Pw.realRoots_partial",
    "C3.Pw.dderiv_value_partial",
    "C3.Pw.prod_value_partial"
   ],
   "note": "Exact arithmetic. Leaves are restricted as in C119 (roots), C120 (extrema), C118 (second derivative) and C77/C117 (products of Legendre pieces of degree below eight, breaks equal or well separated)."
  },
  {
   "property": "C124",
   "status": "partial",
   "theorems": [
    "C3.Poly.constant_value",
    "C3.Poly.zero_value",
    "C3.Poly.linear_value",
    "C3.Poly.linearUpdate_value_partial",
    "C3.Poly.quadratic_value",
    "C3.Poly.genorder_leg",
    "C3.Poly.genorder_cheb",
    "C3.Poly.orthBasis_leg",
    "C3.Poly.orthBasis_cheb_partial",
    "C3.Poly.orthBasis_herm_partial",
    "C3.Poly.genorder_herm_actual",
    "C3.Poly.linearUpdate_counterexample"
   ],
   "note": "Exact arithmetic; quadrature rules by contract. Updating an expansion with one coefficient ignores the slope (counterexample). Hermite functions have norm 1/sqrt(std) instead of one, so Hermite bases are orthonormal for standard deviation one only. The Chebyshev basis is proved for a zero rounding threshold."
  },
  {
   "property": "C125",
   "status": "partial",
   "theorems": [
    "C3.Pw.splitn_value",
    "C3.Pw.split_value",
    "C3.Pw.split_refused",
    "C3.Pw.pwConstant_value",
    "C3.Pw.pwLinear_value",
    "C3.Pw.pwQuadratic_value",
    "C3.Pw.pwGenorder_leg",
    "C3.Pw.checkDisc_value_partial",
    "C3.Pw.checkDisc_diverges"
   ],
   "note": "Exact arithmetic; quadrature rules by contract. The check for discontinuities is proved for Legendre pieces without rounding; it does not end for smooth functions and a number of derivatives below -1."
  },
  {
   "property": "C126",
   "status": "partial",
   "theorems": [
    "C3.Sl.hessIJ_ok",
    "C3.Sl.hessvec_ok",
    "C3.Sl.hessvec_hasDerivAt_partial",
    "C3.Sl.hessvec_value_counterexample",
    "C3.Sl.hessvec_nonlinear_counterexample"
   ],
   "note": "Exact arithmetic; functions linear in their parameters (the second derivatives within one function are not computed: counterexample) and at least as many parameters as functions. The return value is documented as the value of the train but is always zero (counterexample)."
  },
  {
   "property": "C127",
   "status": "partial",
   "theorems": [
    "C3.Ft.gradInner_value_partial",
    "C3.Ft.gradInner_affine",
    "C3.Ft.gradInner_hasDerivAt",
    "C3.Ft.gradInner_dim1_counterexample"
   ],
   "note": "Exact arithmetic; the univariate gradient routine enters by contract (for Legendre expansions the C routine itself violates it, see C70 paramGradInner_leg_counterexample); at least two dimensions (one dimension dereferences NULL: counterexample)."
  },
  {
   "property": "C128",
   "status": "partial",
   "theorems": [
    "C3.Sl.guess_params_partial",
    "C3.Sl.guessConst_value",
    "C3.Sl.guessLin_value_partial",
    "C3.Sl.lsMat_value",
    "C3.Sl.guessLin_leastSquares_partial",
    "C3.Sl.guessLin_rank1_counterexample",
    "C3.Sl.guessLin_mixed_counterexample",
    "C3.Sl.guessLin_short_counterexample"
   ],
   "note": "Exact arithmetic; the LAPACK least squares solver and the template trains (Ft/Build) by contract. For rank one the guess is the intercept, not the mean of the data as documented; mixed ranks 1 and 2, or fewer parameters than the template, misplace parameters (counterexamples)."
  },
  {
   "property": "C129",
   "status": "partial",
   "theorems": [
    "C3.Tt.fullToTt_partial",
    "C3.Tt.fullToTt_error_partial",
    "C3.Tt.fullToTt_exact",
    "C3.Tt.fullToTt_dim1_actual",
    "C3.Tt.fullToTt_eps_counterexample"
   ],
   "note": "Exact real arithmetic, the singular value decomposition by its contract (satisfiable for every matrix, svdRAny_law). The documented relative error is false (fullToTt_eps_counterexample); one dimension reads out of bounds (fullToTt_dim1_actual)."
  },
  {
   "property": "C13",
   "status": "partial",
   "theorems": [
    "C3.Serial.ope_roundtrip",
    "C3.Serial.elem_roundtrip",
    "C3.Serial.kernel_roundtrip",
    "C3.Serial.kernexp_roundtrip",
    "C3.Serial.pw_roundtrip",
    "C3.Serial.generic_function_roundtrip",
    "C3.Serial.ope_standard_counterexample",
    "C3.Serial.pw_empty_node_counterexample"
   ],
   "note": "Round trip proved for every well-formed univariate function of the five classes; STANDARD-type polynomials cannot be read back (counterexample)."
  },
  {
   "property": "C130",
   "status": "partial",
   "theorems": [
    "C3.Tt.ttRound_partial",
    "C3.Tt.ttRound_error_partial",
    "C3.Tt.ttRound_exact_partial",
    "C3.Tt.rightLeftOrth_partial",
    "C3.Tt.ttRound_rank_counterexample",
    "C3.Tt.ttRound_dim1_counterexample"
   ],
   "note": "Exact real arithmetic, LAPACK's SVD and RQ by their contracts (both shown satisfiable for every matrix: svdRAny_law, rqAny_law). One dimension and ranks above the number of values to the right fail (counterexamples)."
  },
  {
   "property": "C131",
   "status": "partial",
   "theorems": [
    "C3.Xa.configured",
    "C3.Xa.initCross_ready",
    "C3.Xa.initCross_grid",
    "C3.Xa.initHet_partial",
    "C3.Xa.setArgs_ready",
    "C3.Xa.not_ready",
    "C3.Xa.kind_refused",
    "C3.Xa.session_exact_partial",
    "C3.Xa.session_adapt_partial",
    "C3.Xa.initHet_grid_counterexample",
    "C3.Xa.initCross_dim1_actual"
   ],
   "note": "Exact arithmetic; the univariate and matrix routines by the contracts of C107/C108. Different ranks without given starting points read out of bounds (initHet_grid_counterexample); one dimension is refused (initCross_dim1_actual)."
  },
  {
   "property": "C132",
   "status": "partial",
   "theorems": [
    "C3.Dmrg.dmrg_product_partial",
    "C3.Dmrg.dmrg_stop",
    "C3.Dmrg.dmrg_nosweep_actual",
    "C3.Dmrg.dmrg_dim1_actual",
    "C3.Dmrg.superR_actual"
   ],
   "note": "Exact real arithmetic; the orthogonal decompositions of function arrays and the singular value decomposition by their contracts (shown satisfiable together on L2). No error bound for a positive truncation tolerance. One dimension reads out of bounds (dmrg_dim1_actual)."
  },
  {
   "property": "C133",
   "status": "partial",
   "theorems": [
    "C3.Dmrg.dmrg_diffusion_partial",
    "C3.Dmrg.dmrg_diffusion_nosweep_actual",
    "C3.Dmrg.lastLeft_value",
    "C3.Dmrg.firstRight_value"
   ],
   "note": "Exact real arithmetic; univariate routines and decompositions by contract, shown satisfiable together by polynomials with the inner product on [0,1]. No error bound for a positive truncation tolerance."
  },
  {
   "property": "C134",
   "status": "partial",
   "theorems": [
    "C3.Oo.optimizer_session",
    "C3.Oo.nvars_fresh",
    "C3.Oo.session_room",
    "C3.Oo.copy_object_partial",
    "C3.Oo.trace_recorded",
    "C3.Oo.print_row_partial",
    "C3.Oo.copy_batchgrad_actual",
    "C3.Oo.copy_sgd_actual",
    "C3.Oo.print_stride_counterexample",
    "C3.Oo.print_oob_actual"
   ],
   "note": "Sessions and stored traces hold as stated. The copy of a batch gradient optimizer reads and writes behind the workspace (copy_batchgrad_actual), the copy of an SGD optimizer has an uninitialised objective (copy_sgd_actual), and the printed trace uses the wrong stride (print_stride_counterexample, print_oob_actual)."
  },
  {
   "property": "C135",
   "status": "partial",
   "theorems": [
    "C3.Cd.check_deriv_value",
    "C3.Cd.check_deriv_quadratic",
    "C3.Cd.check_deriv_sound",
    "C3.Cd.check_deriv_cubic_counterexample"
   ],
   "note": "Exact arithmetic; the square root is an argument (zero only at zero for check_deriv_sound)."
  },
  {
   "property": "C136",
   "status": "partial",
   "theorems": [
    "C3.Tt.cdelem_value",
    "C3.Tt.cd2tt_value_partial",
    "C3.Tt.cd2tt_dim1_counterexample"
   ],
   "note": "Exact arithmetic. In dimension 1 the conversion produces a train with first rank equal to the canonical rank (counterexample proved). Allocation and I/O of the factors are not modelled."
  },
  {
   "property": "C137",
   "status": "partial",
   "theorems": [
    "C3.Sl.aio_run",
    "C3.Sl.kristoffel_run_partial",
    "C3.Sl.plain_run",
    "C3.Sl.als_run",
    "C3.Sl.kristoffel_refused",
    "C3.Sl.ftDeactivate_id",
    "C3.Sl.ft_regress_run_partial",
    "C3.Sl.twoPoint_descends",
    "C3.Sl.slpSolve_actual",
    "C3.Sl.kristoffel_two_counterexample",
    "C3.Sl.kristoffel_mixed_counterexample"
   ],
   "note": "Exact arithmetic; linear parameters, least squares without regulariser or rank adaptation. With the option set to a value other than 0 and 1 the weights stay active, and functions of one core with different weights make the minimised loss differ from the weighted loss (counterexamples). The failure code of the optimizer is dropped (slpSolve_actual)."
  },
  {
   "property": "C138",
   "status": "partial",
   "theorems": [
    "C3.Sk.maxvol_partial",
    "C3.Sk.maxvol_square_actual",
    "C3.Sk.maxvol_singular_counterexample",
    "C3.Sk.luId_law",
    "C3.Sk.invAny_law"
   ],
   "note": "Exact arithmetic, nonsingular start, more rows than columns. LAPACK's pivots count from 1 but are used as if they counted from 0: a square matrix makes the code read behind its row list (maxvol_square_actual), and the column (1,0) is answered with the zero row and success (maxvol_singular_counterexample)."
  },
  {
   "property": "C139",
   "status": "partial",
   "theorems": [
    "C3.Sk.skeleton_exact_partial",
    "C3.Sk.skeletonFunc_exact_partial",
    "C3.Sk.skeletonFunc2_exact_partial",
    "C3.Sk.toFull_ok",
    "C3.Sk.maxvol_good",
    "C3.Sk.qrId_law",
    "C3.Sk.skeleton_singular_counterexample"
   ],
   "note": "Exact arithmetic; the selection of rows is assumed to work for the factors of spanning selections, which maxvol_good proves for maxvol_rhs under nonsingular starts. Without it a matrix of rank one is answered with code 2 and zero rows and columns (skeleton_singular_counterexample).  A fiber is stored exactly when it is computed; FibOk of the result says each number is stored once."
  },
  {
   "property": "C14",
   "status": "proved",
   "theorems": [
    "C3.Serial.quasimatrix_roundtrip",
    "C3.Serial.qmarray_roundtrip",
    "C3.Serial.function_train_roundtrip",
    "C3.Serial.ft1d_array_roundtrip"
   ],
   "note": "For containers of well-formed univariate functions (as in C13)."
  },
  {
   "property": "C140",
   "status": "partial",
   "theorems": [
    "C3.Tc.ttCross_exact_partial",
    "C3.Tc.pass_ok",
    "C3.Tc.good_exact",
    "C3.Tc.loop_ok"
   ],
   "note": "Exact arithmetic; the inner ranks are equal, because process_cores_rl splits the row number with the wrong rank otherwise (C3.Cross.updateRight_counterexample, updateRight_oob_counterexample of C56); the selection of rows is assumed to work for fibers through spanning sets, which C3.Sk.maxvol_good proves for maxvol_rhs under nonsingular starts. The outcome of the convergence test is arbitrary. tt_cross_adapt is not modelled."
  },
  {
   "property": "C141",
   "status": "partial",
   "theorems": [
    "C3.Gf.eval_ok",
    "C3.Gf.daxpby_ok",
    "C3.Gf.daxpby_null",
    "C3.Gf.daxpby_refused",
    "C3.Gf.inner_ok",
    "C3.Gf.inner_refused",
    "C3.Gf.prod_ok_partial",
    "C3.Gf.weightedSumPa_ok",
    "C3.Gf.weightedSumPa_used",
    "C3.Gf.linComb_ok",
    "C3.Gf.arrayAxpy_ok",
    "C3.Gf.lops_linLaw",
    "C3.Gf.lops_spLaw_partial",
    "C3.Gf.prod_poly_pw_counterexample",
    "C3.Gf.prod_nodal_counterexample",
    "C3.Gf.sumProd_mixed_counterexample",
    "C3.Gf.arrayAxpy_zero_actual",
    "C3.Gf.evalGen_actual"
   ],
   "note": "Exact arithmetic; the class implementations by contract. A polynomial times a piecewise polynomial gets the wrong tag and cannot be used (prod_poly_pw_counterexample, sumProd_mixed_counterexample), products with nodal functions of another class are not refused (prod_nodal_counterexample), an empty array update reports an error (arrayAxpy_zero_actual), indices in pivots are read as numbers (evalGen_actual)."
  },
  {
   "property": "C142",
   "status": "partial",
   "theorems": [
    "C3.Gf.hat_value_partial",
    "C3.Gf.onezero_shape",
    "C3.Gf.hat_unsorted_counterexample",
    "C3.Gf.arrayOnezero_value"
   ],
   "note": "Exact arithmetic. Zeros given in another order give unsorted nodes and wrong values (hat_unsorted_counterexample). For arrays the function with given zeros, the largest absolute value and scaling enter by contract."
  },
  {
   "property": "C143",
   "status": "partial",
   "theorems": [
    "C3.Sl.allocWith_ok",
    "C3.Sl.allocWith_refused",
    "C3.Sl.allocWith_null",
    "C3.Sl.padded_value",
    "C3.Sl.getParam_value",
    "C3.Sl.getParamsN_value"
   ],
   "note": "Exact arithmetic. Fourier polynomials (which refuse padding) are not modelled; the value theorem covers every evaluation in which a polynomial is the sum of its parameters times a basis. The padding routines of the other classes only print a message; the call is still refused because the count of parameters differs at the end."
  },
  {
   "property": "C144",
   "status": "partial",
   "theorems": [
    "C3.Jmp.evalJump_value",
    "C3.Jmp.getStencil_value",
    "C3.Jmp.minmod_value",
    "C3.Jmp.discExists_value",
    "C3.Jmp.locate_value",
    "C3.Jmp.tenThr_law",
    "C3.Jmp.locate_narrow_counterexample",
    "C3.Jmp.locate_few_counterexample",
    "C3.Jmp.locate_wide_counterexample",
    "C3.Jmp.locate_tol_diverges"
   ],
   "note": "Exact arithmetic; the evaluation of the function never fails. Domains narrower than the resolution get an edge without a jump (locate_narrow_counterexample); fewer than five subdomains or wide spacings abort by assertion (locate_few_counterexample, locate_wide_counterexample); a resolution of zero never ends (locate_tol_diverges)."
  },
  {
   "property": "C145",
   "status": "partial",
   "theorems": [
    "C3.Mu.kron_value",
    "C3.Mu.horizcat_value",
    "C3.Mu.blockDiag_value",
    "C3.Mu.v2m_value",
    "C3.Mu.ones_value",
    "C3.Mu.v2m_flag_counterexample",
    "C3.Mu.horizcat_rows_counterexample",
    "C3.Mu.horizcat_lost_counterexample"
   ],
   "note": "Exact arithmetic (it only matters for the products of kron). A flag other than 0 and 1 leaves the sizes of v2m undefined (v2m_flag_counterexample); joining matrices with different numbers of rows reads out of bounds or loses rows (horizcat_rows_counterexample, horizcat_lost_counterexample)."
  },
  {
   "property": "C146",
   "status": "partial",
   "theorems": [
    "C3.Gf.qmInner_value",
    "C3.Gf.qmInner_refused",
    "C3.Gf.qmv_value",
    "C3.Gf.qmm_value",
    "C3.Gf.qmmt_value",
    "C3.Gf.qmDaxpby_value",
    "C3.Gf.qmAbsmax_value",
    "C3.Gf.arrayDaxpby_value",
    "C3.Gf.qmDaxpby_width_counterexample",
    "C3.Gf.qmAbsmax_empty_counterexample"
   ],
   "note": "Exact arithmetic; the operations on functions of one class and the maximum of one function enter by their laws. Products need at least one column. Sums do not compare the widths (qmDaxpby_width_counterexample); the maximum of an empty quasimatrix reads out of bounds (qmAbsmax_empty_counterexample)."
  },
  {
   "property": "C147",
   "status": "partial",
   "theorems": [
    "C3.Adp.adapt_value",
    "C3.Adp.ttAdapt_value",
    "C3.Adp.crossOf_law",
    "C3.Adp.adapt_total_partial",
    "C3.Adp.converged_fit",
    "C3.Adp.exhausted_counterexample",
    "C3.Adp.maxiter_counterexample"
   ],
   "note": "The rounding enters as an arbitrary function, the cross approximation by a contract that the modelled sweeps are shown to meet (crossOf_law, ttAdapt_value). Termination with a result is shown for modes at least as large as the ranks that can be reached (beyond that the naive index sets leave the index range, see C55). Stopping by maxiter leaves options whose ranks do not belong to their index sets (exhausted_counterexample), and the number of passes is maxiter + 1 (maxiter_counterexample)."
  },
  {
   "property": "C148",
   "status": "partial",
   "theorems": [
    "C3.Gf.qmaGet_value",
    "C3.Gf.setRow_value",
    "C3.Gf.setCol_value",
    "C3.Gf.setColGf_value",
    "C3.Gf.set_short",
    "C3.Gf.extract_value",
    "C3.Gf.roundtrip",
    "C3.Gf.qmaNorm2_value",
    "C3.Gf.qmaNorm2_refused",
    "C3.Gf.qmaNorm2diff_value",
    "C3.Gf.extractCol_range_counterexample",
    "C3.Gf.qmaNorm2diff_shape_counterexample"
   ],
   "note": "Exact arithmetic, the square root is an arbitrary function; copies and inner products of functions of one class enter by their laws. The last sentence does not hold: a column number outside of the array is not refused but read beyond the end (extractCol_range_counterexample) and the distance does not compare the shapes (qmaNorm2diff_shape_counterexample)."
  },
  {
   "property": "C149",
   "status": "partial",
   "theorems": [
    "C3.Box.initStd_value",
    "C3.Box.init_value",
    "C3.Box.initVec_value",
    "C3.Box.get_value",
    "C3.Box.set_value",
    "C3.Box.null_refused",
    "C3.Box.dim_range_counterexample",
    "C3.Box.order_counterexample"
   ],
   "note": "References to the arrays of bounds are modelled by their contents. The last sentence does not hold: a dimension outside of the box is read and written beyond the end (dim_range_counterexample), and the order of the bounds is not checked (order_counterexample)."
  },
  {
   "property": "C15",
   "status": "proved",
   "theorems": [
    "C3.Ft.eval_value",
    "C3.Ft.evals_value",
    "C3.Ft.evalInd_value",
    "C3.Ft.eval_parr_counterexample"
   ],
   "note": "Any dimension, ranks and scratch state; univariate evaluation abstract and exact arithmetic. Cores with more than 1000 polynomial entries overflow a local array (counterexample)."
  },
  {
   "property": "C16",
   "status": "partial",
   "theorems": [
    "C3.Ft.sum_value_partial",
    "C3.Ft.sum_dim1_counterexample"
   ],
   "note": "Proved for dimension >= 2, all ranks, over any family of univariate functions closed under scaling; for dimension 1 the result cannot be evaluated (counterexample)."
  },
  {
   "property": "C17",
   "status": "proved",
   "theorems": [
    "C3.Ft.prod_value"
   ],
   "note": "Over any family of univariate functions with a pointwise product."
  },
  {
   "property": "C18",
   "status": "partial",
   "theorems": [
    "C3.Ft.scale_value",
    "C3.Ft.axpy_value_partial",
    "C3.Ft.sum_dim1_counterexample"
   ],
   "note": "Scaling proved in full; axpy for dimension >= 2 (it uses the sum)."
  },
  {
   "property": "C19",
   "status": "proved",
   "theorems": [
    "C3.Ft.integrate_value"
   ],
   "note": "For any linear univariate integral (weighted or not) that the univariate class computes; interval integrals of continuous functions are given as an instance."
  },
  {
   "property": "C20",
   "status": "proved",
   "theorems": [
    "C3.Ft.inner_value",
    "C3.Ft.inner2_value",
    "C3.Ft.innerRl_value",
    "C3.Ft.inner_agree",
    "C3.Ft.inner_comm",
    "C3.Ft.inner_eq_integrate_prod",
    "C3.Ft.inner_add_partial",
    "C3.Ft.inner_smul"
   ],
   "note": "All dimensions and ranks. Additivity through the library's own sum is stated for dimension >= 2 (for dimension 1 the sum itself is broken, C16); additivity in terms of represented functions is immediate from inner_value."
  },
  {
   "property": "C21",
   "status": "partial",
   "theorems": [
    "C3.Ft.gradEval_value_partial",
    "C3.Ft.gradEval_hasDerivAt_partial",
    "C3.Ft.gradEval_dim1_counterexample"
   ],
   "note": "All trains of dimension >= 2, all ranks; for dimension 1 the routine returns 0 (counterexample)."
  },
  {
   "property": "C22",
   "status": "partial",
   "theorems": [
    "C3.Ft.coPerturb_value_partial",
    "C3.Ft.coPerturb_dim1_counterexample"
   ],
   "note": "All trains of dimension >= 2 with any contents of the reused buffers; for dimension 1 it reads out of bounds (counterexample)."
  },
  {
   "property": "C23",
   "status": "proved",
   "theorems": [
    "C3.Ft.fiberInd_value",
    "C3.Ft.evalInd_value"
   ],
   "note": "All dimensions, varying coordinates, node lists and ranks."
  },
  {
   "property": "C24",
   "status": "partial",
   "theorems": [
    "C3.Ft.initsum_value_partial",
    "C3.Ft.initsum_dim1_counterexample",
    "C3.Ft.linear_value_partial",
    "C3.Ft.linear_dim1_counterexample",
    "C3.Ft.quadraticAligned_value_partial",
    "C3.Ft.quadraticAligned_dim1_counterexample",
    "C3.Ft.quadraticAligned_counterexample",
    "C3.Ft.quadratic_value",
    "C3.Ft.quadratic_refuses",
    "C3.Ft.rankoneProd_value",
    "C3.Ft.constant_value",
    "C3.Ft.constant_root_ok",
    "C3.Ft.zeros_value",
    "C3.Ft.linearUpdate_value_partial"
   ],
   "note": "Rank-one products, constants, zeros and full quadratics proved for all dimensions. Sums, linear and aligned quadratics proved for dimension >= 2; dimension 1 is out of bounds or cannot be evaluated, and the aligned quadratic uses the wrong options for the last dimension (counterexamples)."
  },
  {
   "property": "C25",
   "status": "partial",
   "theorems": [
    "C3.Ft.intSubset_value_partial",
    "C3.Ft.intSubset_all_refused",
    "C3.Ft.intSubset_empty_counterexample"
   ],
   "note": "Every nonempty strictly increasing list shorter than the dimension; an empty list is read out of bounds (counterexample)."
  },
  {
   "property": "C26",
   "status": "proved",
   "theorems": [
    "C3.Ft.nparams_length",
    "C3.Ft.get_params_layout",
    "C3.Ft.update_params_layout",
    "C3.Ft.update_then_get",
    "C3.Ft.get_then_update",
    "C3.Ft.core_update",
    "C3.Ft.uni_update",
    "C3.Ft.poly_resize",
    "C3.Ft.fixed_refuse"
   ],
   "note": "Polynomial, linear/constant element and kernel expansions (with and without centres as parameters); piecewise polynomials have no parameters in the code. Fourier expansions are not modelled. The whole-train update takes no count, so the count check is proved for core and function updates."
  },
  {
   "property": "C27",
   "status": "proved",
   "theorems": [
    "C3.Ft.matKron_value",
    "C3.Ft.kronMat_value"
   ],
   "note": "All shapes, column-major layout."
  },
  {
   "property": "C28",
   "status": "partial",
   "theorems": [
    "C3.Ft.qmam_value",
    "C3.Ft.qmatm_value",
    "C3.Ft.mqma_value",
    "C3.Ft.qmaqma_value",
    "C3.Ft.qmatqma_value",
    "C3.Ft.qmaqmat_value",
    "C3.Ft.qmatqmat_value_partial",
    "C3.Ft.qmatqmat_square_actual",
    "C3.Ft.qmatqmaInt_value",
    "C3.Ft.qmaqmaInt_value",
    "C3.Ft.qmaqmatInt_value",
    "C3.Ft.qmatqmatInt_actual",
    "C3.Ft.qmaInt_value",
    "C3.Ft.qmatqmat_counterexample",
    "C3.Ft.qmatqmat_oob_counterexample"
   ],
   "note": "All products proved except Q1'*Q2', which reads the wrong entries (counterexamples) and is only right when the index slip is harmless."
  },
  {
   "property": "C29",
   "status": "proved",
   "theorems": [
    "C3.Qr.quasimatrix_qr_spec"
   ],
   "note": "Exact arithmetic in any real inner product space; with a positive threshold the deviation is bounded, with threshold 0 the factorization is exact."
  },
  {
   "property": "C30",
   "status": "proved",
   "theorems": [
    "C3.Qr.qmarray_qr_gs_spec",
    "C3.Qr.qmarray_lq_gs_spec"
   ],
   "note": "Exact arithmetic; the abort condition is characterised exactly."
  },
  {
   "property": "C31",
   "status": "partial",
   "theorems": [
    "C3.Qr.Lu.quasimatrix_lu1d_partial",
    "C3.Qr.Lu.quasimatrix_lu1d_exact",
    "C3.Qr.Lu.quasimatrix_lu1d_bound",
    "C3.Qr.Lu.quasimatrix_lu1d_counterexample",
    "C3.Qr.Lu.qmarray_lu1d_spec",
    "C3.Qr.Lu.qmarray_lu1d_exact",
    "C3.Qr.Lu.create_any_L_spec"
   ],
   "note": "Proved for every result of the pivot search. For a quasimatrix pivots in [thr, 2 thr) are reported as full rank although A differs from LU (counterexample). The replacement column of piecewise linear functions (generic_function_array_onezero) is covered only through the stated requirement on it."
  },
  {
   "property": "C32",
   "status": "partial",
   "theorems": [
    "C3.Lin.eval_value_partial",
    "C3.Lin.eval_value_exact",
    "C3.Lin.eval_node",
    "C3.Lin.eval_close",
    "C3.Lin.evalN_value",
    "C3.Lin.eval_counterexample"
   ],
   "note": "Exact for tolerance 0 and for every point not within the tolerance 1e-15 of a node; otherwise the node's coefficient is returned (counterexample), within slope*tolerance of the interpolant."
  },
  {
   "property": "C33",
   "status": "proved",
   "theorems": [
    "C3.Lin.integrate_trapezoid",
    "C3.Lin.integrate_value",
    "C3.Lin.integrate_eval"
   ],
   "note": "Exact arithmetic."
  },
  {
   "property": "C34",
   "status": "proved",
   "theorems": [
    "C3.Lin.scale_value",
    "C3.Lin.flipSign_value",
    "C3.Lin.axpySame_value",
    "C3.Lin.axpy_value"
   ],
   "note": "Common grid, as stated; exact arithmetic; any tolerance."
  },
  {
   "property": "C35",
   "status": "partial",
   "theorems": [
    "C3.Lin.max_value",
    "C3.Lin.min_value",
    "C3.Lin.absmax_value",
    "C3.Lin.absmaxOver_value",
    "C3.Lin.max_counterexample"
   ],
   "note": "Bounds proved for every grid; attainment at the reported location when neighbouring nodes are further apart than the search tolerance 1e-15 (counterexample otherwise)."
  },
  {
   "property": "C36",
   "status": "partial",
   "theorems": [
    "C3.Poly.eval_value",
    "C3.Poly.eval_krist",
    "C3.Poly.eval_cheb_krist",
    "C3.Poly.val_cheb",
    "C3.Poly.evalN_value",
    "C3.Poly.kristWeight_value",
    "C3.Poly.arrEval_value",
    "C3.Poly.arrEval_each",
    "C3.Poly.arrEvalN_value",
    "C3.Poly.orthPolyEval_value_partial",
    "C3.Poly.orthPolyEval_counterexample"
   ],
   "note": "Expansion evaluation (single, batched, arrays, weighted) proved for every family; the single-polynomial routine uses the recurrence coefficient of the wrong order and is wrong from order 3 on (counterexample)."
  },
  {
   "property": "C37",
   "status": "partial",
   "theorems": [
    "C3.Poly.orthToStd_value",
    "C3.Poly.exToStd_value_partial",
    "C3.Poly.exToStd_counterexample",
    "C3.Poly.stdDeriv_value"
   ],
   "note": "Basis polynomials and monomial derivative proved in full; expansions proved when the mapping takes the bounds to the reference domain, which fails for Hermite (counterexample)."
  },
  {
   "property": "C38",
   "status": "partial",
   "theorems": [
    "C3.Poly.copy_value",
    "C3.Poly.round_value",
    "C3.Poly.round_exact",
    "C3.Poly.flipSign_value",
    "C3.Poly.scale_value",
    "C3.Poly.axpy_value",
    "C3.Poly.daxpby_value",
    "C3.Poly.daxpby_single",
    "C3.Poly.linComb_value",
    "C3.Poly.linComb_types",
    "C3.Poly.sum3up_value_partial",
    "C3.Poly.sum3up_twice_counterexample",
    "C3.Poly.sum3up_free_counterexample",
    "C3.Poly.sum3up_alloc_counterexample",
    "C3.Poly.axpy_map_counterexample"
   ],
   "note": "Proved for all operations except the three-term update, which is wrong for some relative lengths (counterexamples), and for expansions whose mappings differ although their bounds agree (counterexample). Truncation error bounded explicitly."
  },
  {
   "property": "C39",
   "status": "proved",
   "theorems": [
    "C3.Pw.eval_leaf",
    "C3.Pw.eval_outside_actual",
    "C3.Pw.evalN_value",
    "C3.Pw.copy_value",
    "C3.Pw.flipSign_value",
    "C3.Pw.scale_value",
    "C3.Pw.scale_exact",
    "C3.Pw.deriv_value",
    "C3.Pw.nregions_value",
    "C3.Pw.boundaries_value_partial",
    "C3.Pw.boundaries_counterexample",
    "C3.Pw.flatten_value",
    "C3.Pw.integrate_value"
   ],
   "note": "Every tree shape whose leaves cover consecutive intervals. At a seam the left piece is used up to the 1e-14 margin of the code. The boundary list dereferences NULL on an inner node with a single leaf (counterexample)."
  },
  {
   "property": "C40",
   "status": "partial",
   "theorems": [
    "C3.Tt.ttelem_value_partial",
    "C3.Tt.ttadd_value_partial",
    "C3.Tt.ttmult_value",
    "C3.Tt.ttscal_value",
    "C3.Tt.copyTt_value",
    "C3.Tt.ttOnes_value",
    "C3.Tt.tensorElem_value",
    "C3.Tt.copy3_transpose_partial",
    "C3.Tt.copy3_transpose_data",
    "C3.Tt.ttelem_counterexample",
    "C3.Tt.ttelem_dim1_counterexample",
    "C3.Tt.ttadd_dim1_counterexample",
    "C3.Tt.ttX_counterexample",
    "C3.Tt.copy3_counterexample"
   ],
   "note": "Product, scaling, copy and ones proved in full. Element access is proved when the leading dimension slip (node count of mode 1 used for every core) is harmless, sum for dimension >= 2; the remaining cases are refuted by counterexamples."
  },
  {
   "property": "C41",
   "status": "partial",
   "theorems": [
    "C3.Tt.ttIntegrate_value",
    "C3.Tt.ttDot_value_partial",
    "C3.Tt.ttDot_same_ranks",
    "C3.Tt.ttDot_dim2",
    "C3.Tt.ttDot_counterexample",
    "C3.Tt.ttDot_exit_counterexample",
    "C3.Tt.ttX_integrate_counterexample"
   ],
   "note": "Weighted sum proved for all dimensions. Inner product proved when the ranks of the two trains agree (and in dimension at most 2); with different ranks the code reads out of bounds or aborts (counterexamples)."
  },
  {
   "property": "C42",
   "status": "partial",
   "theorems": [
    "C3.Arr.iprodSz_value",
    "C3.Arr.bigToMulti_value_partial",
    "C3.Arr.bigToMulti_flatten_partial",
    "C3.Arr.bigToMulti_counterexample",
    "C3.Arr.colPos_inj"
   ],
   "note": "Quotient goes through double: proved for every round-to-nearest arithmetic when the trailing products fit 2^53; false beyond (counterexample)."
  },
  {
   "property": "C43",
   "status": "proved",
   "theorems": [
    "C3.Cross.setup_value",
    "C3.Cross.cache_transparent"
   ],
   "note": "For every fiber function that depends only on its arguments; any sequence of requests."
  },
  {
   "property": "C44",
   "status": "partial",
   "theorems": [
    "C3.Reg.lsCost_spec",
    "C3.Reg.rls2Cost_spec",
    "C3.Reg.poly_isModel",
    "C3.Reg.poly_ls",
    "C3.Reg.legendre_rls2",
    "C3.Reg.legendre_rkhs_partial",
    "C3.Reg.legendre_rlsd2_value_partial",
    "C3.Reg.rkhsCost_spec_partial",
    "C3.Reg.rlsd2Cost_value_partial",
    "C3.Reg.rlsd2_counterexample",
    "C3.Reg.rkhs_hermite_counterexample"
   ],
   "note": "Least squares and ridge proved for every model linear in its parameters (polynomial expansions instantiated). The penalty on the second derivative returns a wrong gradient, the decaying-weight penalty one with the wrong factor (counterexamples). Exact arithmetic."
  },
  {
   "property": "C45",
   "status": "partial",
   "theorems": [
    "C3.Reg.regress1d_spec_partial",
    "C3.Reg.regress1d_init_counterexample",
    "C3.Reg.objective_some",
    "C3.Reg.objective_eq",
    "C3.Reg.opts_accepted",
    "C3.Reg.setDecay_spec"
   ],
   "note": "Decision table complete; a missing starting point is not rejected but dereferenced (counterexample). The optimizer is an arbitrary function."
  },
  {
   "property": "C46",
   "status": "proved",
   "theorems": [
    "C3.Packed.unpack_pack",
    "C3.Packed.pack_range",
    "C3.Packed.packed_roundtrip",
    "C3.Packed.packed_array_roundtrip"
   ],
   "note": "Every finite binary64 value and every round-to-nearest arithmetic; -0.0 comes back as +0.0 (identified in the model); infinities and NaN are out of scope."
  },
  {
   "property": "C47",
   "status": "proved",
   "theorems": [
    "C3.Arr.linspace_value",
    "C3.Arr.linspace_ends",
    "C3.Arr.linspace_one",
    "C3.Arr.arange_value",
    "C3.Arr.diag_value",
    "C3.Arr.dconcatCols_value"
   ],
   "note": "Exact arithmetic; the end points of linspace are exact under rounding too."
  },
  {
   "property": "C48",
   "status": "partial",
   "theorems": [
    "C3.Ft.vaxpy_value_partial",
    "C3.Ft.vaxpyArr_value_partial",
    "C3.Ft.vprodsum_value_partial",
    "C3.Ft.vprodsum_zero_counterexample",
    "C3.Ft.vgemv_counterexample",
    "C3.Ft.vgemvArr_actual",
    "C3.Ft.vgemvArr_value_partial",
    "C3.Ft.vgemvArr_counterexample",
    "C3.Ft.ft1dScale_value"
   ],
   "note": "Dimension >= 2, no rounding. c3vgemv always fails an assertion, c3vgemv_arr applies beta twice, c3vprodsum with no terms adds the first product (counterexamples). c3gemv is not modelled (it releases the caller's train)."
  },
  {
   "property": "C49",
   "status": "partial",
   "theorems": [
    "C3.Str.strip_blank_ends_partial",
    "C3.Str.strip_blank_ends_overread_counterexample",
    "C3.Str.strip_blank_ends_blank_counterexample",
    "C3.Str.strip_ends_duplicate_counterexample",
    "C3.Str.strip_ends_diverge_counterexample"
   ],
   "note": "Blank stripping proved for non-blank strings with a spare byte; otherwise out-of-bounds. strip_ends duplicates a character or loops forever (counterexamples)."
  },
  {
   "property": "C50",
   "status": "proved",
   "theorems": [
    "C3.Str.concat_string_spec"
   ],
   "note": ""
  },
  {
   "property": "C51",
   "status": "partial",
   "theorems": [
    "C3.Ft.norm2_value",
    "C3.Ft.norm2diff_value_partial",
    "C3.Ft.relnorm2diff_value_partial",
    "C3.Ft.relnorm2diff_small_partial",
    "C3.Ft.sum_dim1_counterexample"
   ],
   "note": "Norm for all dimensions; distances for dimension >= 2, because they use the sum (C16)."
  },
  {
   "property": "C52",
   "status": "partial",
   "theorems": [
    "C3.Ft.evalUpTo_first_partial",
    "C3.Ft.evalUpTo_counterexample"
   ],
   "note": "Holds for k = 0; for k >= 1 the routine omits core k (counterexample)."
  },
  {
   "property": "C53",
   "status": "proved",
   "theorems": [
    "C3.Fw.create_known",
    "C3.Fw.setter_matches_kind",
    "C3.Fw.point_lifecycle",
    "C3.Fw.vec_lifecycle",
    "C3.Fw.array_lifecycle",
    "C3.Fw.which_eval_counterexample"
   ],
   "note": "A selection beyond the array is not refused by the code (counterexample recorded); the statement is for selections in range."
  },
  {
   "property": "C54",
   "status": "proved",
   "theorems": [
    "C3.Ft.transpose_value",
    "C3.Ft.transpose_twice",
    "C3.Ft.stackh_value",
    "C3.Ft.stackv_value",
    "C3.Ft.stack_refuses",
    "C3.Ft.blockdiag_value",
    "C3.Ft.kron_value"
   ],
   "note": "All shapes; Kronecker product over any family of univariate functions with a pointwise product."
  },
  {
   "property": "C55",
   "status": "partial",
   "theorems": [
    "C3.Cross.naive_value_partial",
    "C3.Cross.naive_in_range_partial",
    "C3.Cross.naive_counterexample",
    "C3.Cross.naive_right_counterexample"
   ],
   "note": "Proved when the requested rank fits the first mode; otherwise indices leave the mode, and right sets are built with another mode's size (counterexamples)."
  },
  {
   "property": "C56",
   "status": "partial",
   "theorems": [
    "C3.Cross.updateLeft_value",
    "C3.Cross.updateRight_value_partial",
    "C3.Cross.updateRight_counterexample",
    "C3.Cross.updateRight_oob_counterexample"
   ],
   "note": "Left-to-right proved in full; right-to-left splits the row number with the wrong rank, so it is right only when both ranks of the core agree. The row selection itself (maxvol) is an arbitrary input."
  },
  {
   "property": "C57",
   "status": "partial",
   "theorems": [
    "C3.Lin.inner_common",
    "C3.Lin.inner_symm",
    "C3.Lin.inner_linear",
    "C3.Lin.inner_pos",
    "C3.Lin.inner_integral_partial",
    "C3.Lin.inner_counterexample"
   ],
   "note": "Symmetry, bilinearity and positivity on a common grid proved; the value is the trapezoid rule for the product, which is the integral when one factor is constant and not in general (counterexample)."
  },
  {
   "property": "C58",
   "status": "partial",
   "theorems": [
    "C3.Lin.paramGrad2_value_partial",
    "C3.Lin.paramGrad_value_partial",
    "C3.Lin.paramGrad2_counterexample"
   ],
   "note": "Proved inside the node range (points within 1e-15 of a node excepted); outside, the gradient extrapolates although evaluation is zero (counterexample)."
  },
  {
   "property": "C59",
   "status": "proved",
   "theorems": [
    "C3.Lin.derivEval_hasDerivAt",
    "C3.Lin.derivEval_first",
    "C3.Lin.derivEval_last",
    "C3.Lin.derivEval_node"
   ],
   "note": "Exact arithmetic; points at least the tolerance away from all nodes, and nodes further apart than the tolerance."
  },
  {
   "property": "C60",
   "status": "partial",
   "theorems": [
    "C3.Lin.deriv_affine_partial",
    "C3.Lin.deriv_uniform",
    "C3.Lin.deriv_counterexample"
   ],
   "note": "Proved unless the fourth-order formula divides by zero, which happens on a strictly increasing grid of six nodes (counterexample)."
  },
  {
   "property": "C61",
   "status": "partial",
   "theorems": [
    "C3.Lin.axpyMerged_value_partial",
    "C3.Lin.axpy_different_partial",
    "C3.Lin.axpy_ends_counterexample"
   ],
   "note": "Proved for equal end points and nodes equal or further apart than the tolerance; false for different end points (counterexample)."
  },
  {
   "property": "C62",
   "status": "proved",
   "theorems": [
    "C3.Lin.approx_adapt_value",
    "C3.Lin.approx_nodes_value",
    "C3.Lin.approx_fixed_value",
    "C3.Lin.interp_eval",
    "C3.Lin.prodSame_value",
    "C3.Lin.linear_value",
    "C3.Lin.constant_value",
    "C3.Lin.adapt_zero_diverges"
   ],
   "note": "Exact arithmetic. Product on a common grid; products of different grids are the adaptive approximation of the product."
  },
  {
   "property": "C63",
   "status": "partial",
   "theorems": [
    "C3.Lin.onezero_fixed_value",
    "C3.Lin.onezero_adapt_value_partial",
    "C3.Lin.onezero_none_counterexample",
    "C3.Lin.onezero_lower_counterexample",
    "C3.Lin.onezero_unsorted_counterexample"
   ],
   "note": "Fixed grids proved; adaptive case proved for sorted zeros unless a zero lies at the lower bound only; refuted otherwise (counterexamples)."
  },
  {
   "property": "C64",
   "status": "partial",
   "theorems": [
    "C3.Lin.orthBasis_value_partial",
    "C3.Lin.orthBasis_counterexample"
   ],
   "note": "Proved for at most as many functions as nodes; further functions are zero (counterexample). The inner product is the trapezoid rule (C57)."
  },
  {
   "property": "C65",
   "status": "partial",
   "theorems": [
    "C3.Poly.paramGrad_value",
    "C3.Poly.paramGrad_krist",
    "C3.Poly.paramGrad2_value_partial",
    "C3.Poly.val_set",
    "C3.Poly.paramGrad2_counterexample"
   ],
   "note": "Proved for unweighted expansions by both routines; the value returned by the second one ignores the weighting (counterexample)."
  },
  {
   "property": "C66",
   "status": "proved",
   "theorems": [
    "C3.Poly.getParams_value",
    "C3.Poly.updateParams_value",
    "C3.Poly.update_get",
    "C3.Poly.createWithParams_value"
   ],
   "note": "All counts."
  },
  {
   "property": "C67",
   "status": "partial",
   "theorems": [
    "C3.Poly.val_hasDerivAt",
    "C3.Poly.derivEval_value",
    "C3.Poly.chebDerivEval_value",
    "C3.Poly.chebDDerivEval_value_partial",
    "C3.Poly.chebDDerivEval_counterexample"
   ],
   "note": "First derivative proved for every family; second derivative of Chebyshev expansions with exactly three polynomials lacks the squared slope (counterexample)."
  },
  {
   "property": "C68",
   "status": "partial",
   "theorems": [
    "C3.Poly.approx_value",
    "C3.Poly.approx_exact",
    "C3.Poly.approx_poly",
    "C3.Poly.approx_leg",
    "C3.Poly.approx_herm",
    "C3.Poly.approx_cheb",
    "C3.Poly.cheb_orthogonal",
    "C3.Poly.leg_orthonormal",
    "C3.Poly.herm_orthonormal"
   ],
   "note": "Chebyshev proved in full with the computed rule. For Legendre and Hermite the Gauss rule enters as the hypothesis that it integrates monomials of degree below 2n, which C78 proves for the rules computed with LAPACK; orthonormality of the bases is proved."
  },
  {
   "property": "C69",
   "status": "partial",
   "theorems": [
    "C3.Quad.trapW_value",
    "C3.Quad.trapW_exact",
    "C3.Quad.simpsonW_value",
    "C3.Quad.simpsonW_exact_odd",
    "C3.Quad.simpsonW_exact_even",
    "C3.Quad.simpsonW_two_counterexample",
    "C3.Quad.trapW_zero_counterexample",
    "C3.Quad.clenshawCurtis_value",
    "C3.Quad.clenshawCurtis_exact",
    "C3.Quad.clenshawCurtis_pos",
    "C3.Quad.rescaleCC_exact",
    "C3.Quad.fejer2_counterexample",
    "C3.Quad.chebGauss_value",
    "C3.Quad.chebGauss_exact"
   ],
   "note": "Trapezoid, Simpson (three points or more), Clenshaw-Curtis and Chebyshev-Gauss proved for all sizes in exact real arithmetic; Simpson with two points and the Fejer rule for every N > 2 are wrong (counterexamples)."
  },
  {
   "property": "C70",
   "status": "proved",
   "theorems": [
    "C3.Poly.init_map",
    "C3.Poly.init_map_mem",
    "C3.Poly.initOpts_herm",
    "C3.Poly.initOpts_other"
   ],
   "note": "Exact arithmetic."
  },
  {
   "property": "C71",
   "status": "partial",
   "theorems": [
    "C3.Poly.approxAdapt_gauss",
    "C3.Poly.approxAdapt_exact",
    "C3.Poly.approxAdapt_cheb",
    "C3.Poly.approxVec_cc",
    "C3.Poly.approxVec_table_counterexample",
    "C3.Poly.tooBig_counterexample",
    "C3.Poly.approxAdapt_many_counterexample",
    "C3.Poly.adaptLoop_cc_counterexample"
   ],
   "note": "Proved for Gauss rules when the number of checked coefficients does not exceed the starting size and the latter is at most 191; other option settings read before the block, return the zero function or never end (counterexamples)."
  },
  {
   "property": "C72",
   "status": "proved",
   "theorems": [
    "C3.Qr.qmarray_qr_spec",
    "C3.Qr.qmarray_lq_spec",
    "C3.Qr.qmarray_householder_spec",
    "C3.Qr.qmarray_householder_rows_spec"
   ],
   "note": "Exact arithmetic in any real inner product space; the orthonormal starting columns come from the caller."
  },
  {
   "property": "C73",
   "status": "partial",
   "theorems": [
    "C3.Poly.integrate_leg",
    "C3.Poly.integrate_cheb",
    "C3.Poly.integrate_herm",
    "C3.Poly.integrateWeighted_leg",
    "C3.Poly.integrateWeighted_herm",
    "C3.Poly.integrateWeighted_cheb_counterexample"
   ],
   "note": "Integrals proved for all three families. The weighted integral of a Chebyshev expansion is its first coefficient, which does not belong to the weight of the weighted inner product (counterexample)."
  },
  {
   "property": "C74",
   "status": "partial",
   "theorems": [
    "C3.Poly.inner_leg",
    "C3.Poly.innerW_leg",
    "C3.Poly.innerW_cheb",
    "C3.Poly.inner_herm",
    "C3.Poly.norm_leg",
    "C3.Poly.norm_herm",
    "C3.Poly.normW_counterexample"
   ],
   "note": "The unweighted inner product with a Chebyshev expansion goes through re-approximation and is not covered; the weighted norm takes the square root twice (counterexample)."
  },
  {
   "property": "C75",
   "status": "partial",
   "theorems": [
    "C3.Poly.sqNormGrad_leg",
    "C3.Poly.sqNormGrad_herm_partial",
    "C3.Poly.sqNormGrad_herm_counterexample",
    "C3.Poly.sqNormGrad_cheb_counterexample",
    "C3.Poly.paramGradInner_value",
    "C3.Poly.paramGradInner_herm",
    "C3.Poly.paramGradInner_leg_counterexample",
    "C3.Poly.rkhs_herm",
    "C3.Poly.rkhs_herm_weights",
    "C3.Poly.rkhs_leg_counterexample"
   ],
   "note": "Right for Legendre (squared norm), Hermite (inner product, decay-weighted norm); wrong factors in the other combinations (counterexamples). The Chebyshev branch of the decay-weighted norm is not modelled."
  },
  {
   "property": "C76",
   "status": "proved",
   "theorems": [
    "C3.Poly.deriv_leg",
    "C3.Poly.deriv_leg_exact"
   ],
   "note": "Rounding characterised by the same relation as for the rounding call itself; exact without a threshold."
  },
  {
   "property": "C77",
   "status": "partial",
   "theorems": [
    "C3.Pw.matchNodes_union",
    "C3.Pw.matchNodes_counterexample",
    "C3.Pw.matchNodes_close_counterexample",
    "C3.Pw.finerGrid_ok",
    "C3.Pw.match_ok",
    "C3.Pw.axpy_value_partial",
    "C3.Pw.daxpby_value_partial",
    "C3.Pw.daxpby_null",
    "C3.Pw.inner_value_partial",
    "C3.Pw.norm_value_partial"
   ],
   "note": "Legendre pieces of degree below 8, exact arithmetic, no truncation, split points equal or farther apart than the tolerances; Gauss rules enter as exact rules (existence in C78). Split points closer than the tolerance lose or duplicate nodes (counterexamples)."
  },
  {
   "property": "C78",
   "status": "partial",
   "theorems": [
    "C3.Quad.gaussHermite_exact",
    "C3.Quad.gaussLegendre_exact",
    "C3.Quad.gaussLeg_inside",
    "C3.Quad.golub",
    "C3.Quad.exists_eig",
    "C3.Quad.exists_dstev",
    "C3.Quad.exists_gaussLeg",
    "C3.Quad.exists_gaussHerm"
   ],
   "note": "Exact real arithmetic; dstev_ is any function returning an orthonormal eigenbasis. Below 200 points the Legendre rule is read from tables, whose exactness is a hypothesis."
  },
  {
   "property": "C79",
   "status": "proved",
   "theorems": [
    "C3.Prob.sobol_value",
    "C3.Prob.inter_nonneg",
    "C3.Prob.sobol_bounds",
    "C3.Prob.sobolTree_spec",
    "C3.Prob.interactVar_value",
    "C3.Prob.calls_spec",
    "C3.Prob.interactions_value",
    "C3.Prob.sobol_one_counterexample",
    "C3.Prob.sobol_constant_counterexample",
    "C3.Prob.interaction_order_counterexample"
   ],
   "note": "Univariate routines enter through their laws (linear integral, inner product), exact arithmetic. In one variable the program is aborted, a constant divides 0 by 0, and unordered variables index out of bounds (counterexamples). An order of 0 or 1 computes all orders (maxOrder_low)."
  },
  {
   "property": "C80",
   "status": "partial",
   "theorems": [
    "C3.Opt.lsWolfe_spec",
    "C3.Opt.lsWolfe_unit",
    "C3.Opt.lsBox_spec",
    "C3.Opt.lsBox_unit",
    "C3.Opt.lsStrong_spec",
    "C3.Opt.lsStrong_total",
    "C3.Opt.lsWolfe_zero_actual",
    "C3.Opt.badPar_beta_actual",
    "C3.Opt.lsBox_tol_counterexample",
    "C3.Opt.lsStrong_abort_counterexample",
    "C3.Opt.lsStrong_gaveup_counterexample"
   ],
   "note": "All objectives, exact arithmetic, at least two search iterations. The strong Wolfe search aborts on a convex parabola with default options, and reports success after an increase when its zoom gives up (counterexamples); -2 is never returned (badPar_beta_actual)."
  },
  {
   "property": "C81",
   "status": "partial",
   "theorems": [
    "C3.Opt.optGradient_spec",
    "C3.Opt.optGradient_descent",
    "C3.Opt.optGradient_total",
    "C3.Opt.optGradient_infeasible_counterexample",
    "C3.Opt.optGradient_alpha_counterexample",
    "C3.Opt.optGradient_ascent_counterexample"
   ],
   "note": "Exact arithmetic, tracing not modelled. With the strong Wolfe search the run may abort (C80). Codes of failed line searches are ignored: an infeasible start or a bad parameter is reported as converged (counterexamples)."
  },
  {
   "property": "C82",
   "status": "proved",
   "theorems": [
    "C3.Opt.bruteForce_spec",
    "C3.Opt.bruteForce_unset_counterexample",
    "C3.Opt.bruteForce_empty_counterexample"
   ],
   "note": "A table that was never set or is empty is read all the same (counterexamples)."
  },
  {
   "property": "C83",
   "status": "partial",
   "theorems": [
    "C3.Opt.bfgsUpdate_ok",
    "C3.Opt.optBfgs_spec",
    "C3.Opt.optBfgs_total",
    "C3.Opt.bmoved_secant",
    "C3.Opt.bmoved_posDef",
    "C3.Opt.run_posDef",
    "C3.Opt.minBfgs_start",
    "C3.Opt.bfgs_box_counterexample",
    "C3.Opt.bfgs_maxiter_actual",
    "C3.Opt.bfgs_infeasible_actual",
    "C3.Opt.bfgs_strong_counterexample"
   ],
   "note": "Exact arithmetic, tracing not modelled. With active bounds the matrix can become indefinite (counterexample); the iteration limit is exceeded by one; with the strong Wolfe search the run may abort; an infeasible start is reported as converged."
  },
  {
   "property": "C84",
   "status": "partial",
   "theorems": [
    "C3.Opt.insert_holds",
    "C3.Opt.insert_rep",
    "C3.Opt.lstep_ok",
    "C3.Opt.lback_ok",
    "C3.Opt.lbfgsHg_ok",
    "C3.Opt.lbfgsHg_zero",
    "C3.Opt.two_loop",
    "C3.Opt.lmat_symm",
    "C3.Opt.lmat_posDef",
    "C3.Opt.insert_one_counterexample",
    "C3.Opt.insert_zero_counterexample"
   ],
   "note": "Memories of two or more pairs, all inner products nonzero, exact arithmetic. With one stored pair the second insertion dereferences NULL, with none the first does (counterexamples)."
  },
  {
   "property": "C85",
   "status": "partial",
   "theorems": [
    "C3.Opt.optLbfgs_spec",
    "C3.Opt.ldir_descent",
    "C3.Opt.run_lposDef",
    "C3.Opt.lbfgs_stationary_counterexample",
    "C3.Opt.lbfgs_infeasible_actual",
    "C3.Opt.lbfgs_store_counterexample"
   ],
   "note": "Exact arithmetic, tracing not modelled. The run may be stopped by an assertion (negative code of a line search) or divide by a zero inner product, for example when started at a stationary point (counterexamples)."
  },
  {
   "property": "C86",
   "status": "partial",
   "theorems": [
    "C3.Opt.optSgd_spec",
    "C3.Opt.path_plain",
    "C3.Opt.shuffle_perm",
    "C3.Opt.shuffle_any",
    "C3.Opt.shuffle_large_counterexample",
    "C3.Opt.sgd_validation_actual",
    "C3.Opt.sgd_zero_actual",
    "C3.Opt.sgd_few_actual"
   ],
   "note": "Exact arithmetic, tracing and the printed validation error not modelled. Bounds on the variables are not looked at by this optimizer. Above 46341 elements some orders cannot come out of the shuffle (counterexample). No data are kept for validation with up to five samples."
  },
  {
   "property": "C87",
   "status": "partial",
   "theorems": [
    "C3.Prob.ltApply_ok",
    "C3.Prob.ltInvert_ok",
    "C3.Prob.ltInvert_again",
    "C3.Prob.lt_roundtrip",
    "C3.Prob.ltCopy_ok",
    "C3.Prob.triInv_triRef",
    "C3.Prob.lt_serialize_roundtrip",
    "C3.Prob.copy_invert_counterexample",
    "C3.Prob.alloc_invert_counterexample",
    "C3.Prob.lt_upper_counterexample",
    "C3.Prob.copy_serialize_counterexample"
   ],
   "note": "Exact arithmetic, LAPACK's dtrtri as a contract (shown satisfiable). Copies and transforms straight from the allocator have no matrix type, so inverting or storing them reads an unset field (counterexamples); entries above the diagonal break the inverse (counterexample)."
  },
  {
   "property": "C88",
   "status": "partial",
   "theorems": [
    "C3.Prob.densEval_ok",
    "C3.Prob.densEval_plain",
    "C3.Prob.dens_mass",
    "C3.Prob.mvnOn_ok",
    "C3.Prob.mvn_mass",
    "C3.Prob.mvn_quadratic",
    "C3.Prob.densSample_ok",
    "C3.Prob.back_sample",
    "C3.Prob.sample_moments",
    "C3.Prob.logGrad_correct",
    "C3.Prob.logGrad_plain",
    "C3.Prob.logHess_correct",
    "C3.Prob.logHess_plain",
    "C3.Prob.stdNormal_counterexample",
    "C3.Prob.mvn_counterexample",
    "C3.Prob.sample_counterexample"
   ],
   "note": "Exact arithmetic; the base density is given by its value, gradient and Hessian functions instead of a function train; LAPACK's dpotrf and dtrtri as contracts. The standard normal constructor dereferences NULL options in every dimension, so the normal densities are proved on a given base density (counterexamples)."
  },
  {
   "property": "C89",
   "status": "partial",
   "theorems": [
    "C3.Fft.fft_ok",
    "C3.Fft.ifft_ok",
    "C3.Fft.fft_ifft",
    "C3.Fft.idft_dft",
    "C3.Fft.dft_idft",
    "C3.Fft.parseval",
    "C3.Fft.isPow2_iff",
    "C3.Fft.is2_iff",
    "C3.Fft.fftBase_ok",
    "C3.Fft.ifftSlow_ok",
    "C3.Fft.fftBase_three_counterexample",
    "C3.Fft.chebCoeff_actual",
    "C3.Fft.chebCoeff_refused",
    "C3.Fft.chebCoeff_order_counterexample"
   ],
   "note": "Exact complex arithmetic, exact roots of unity. The transforms are fully proved; the Chebyshev coefficients come out in decreasing order of the degree, the reverse of the order used by expansions (counterexample)."
  },
  {
   "property": "C90",
   "status": "partial",
   "theorems": [
    "C3.Fourier.init_ok",
    "C3.Fourier.eval_ok",
    "C3.Fourier.derivEval_ok",
    "C3.Fourier.copy_ok",
    "C3.Fourier.deriv_ok",
    "C3.Fourier.dderiv_ok",
    "C3.Fourier.integrate_ok",
    "C3.Fourier.subst_integral",
    "C3.Fourier.init_fn"
   ],
   "note": "Exact arithmetic (sine, cosine and exponential of the reals); all coefficient vectors."
  },
  {
   "property": "C91",
   "status": "partial",
   "theorems": [
    "C3.Fourier.approx_exact",
    "C3.Fourier.approx_nodes_actual",
    "C3.Fourier.approx_refused",
    "C3.Fourier.approxVec_ok",
    "C3.Fourier.approxAdapt_default_counterexample",
    "C3.Fourier.approx_top_counterexample"
   ],
   "note": "Exact arithmetic. The coefficient of the highest frequency is counted twice, so the expansion does not interpolate; with the default number of 8 coefficients every function is approximated by zero because the refusal code is dropped (counterexamples)."
  },
  {
   "property": "C92",
   "status": "partial",
   "theorems": [
    "C3.Fourier.prod_exact_partial",
    "C3.Fourier.inner_exact_partial",
    "C3.Fourier.trapezoid",
    "C3.Fourier.prod_const_counterexample",
    "C3.Fourier.prod_refused_counterexample",
    "C3.Fourier.inner_top_counterexample"
   ],
   "note": "Requires that twice the degree of the first factor is a power of two; otherwise the product is silently zero (counterexample), as is the product of two constants with one coefficient."
  },
  {
   "property": "C93",
   "status": "partial",
   "theorems": [
    "C3.Fourier.scale_ok",
    "C3.Fourier.flip_ok",
    "C3.Fourier.axpy_ok",
    "C3.Fourier.daxpby_ok",
    "C3.Fourier.constant_ok",
    "C3.Fourier.trim_ok",
    "C3.Fourier.orthBasis_partial",
    "C3.Fourier.orthBasis_full_counterexample"
   ],
   "note": "Exact arithmetic. Asking for as many basis functions as there are coefficients starts from zero functions (counterexample)."
  },
  {
   "property": "C94",
   "status": "proved",
   "theorems": [
    "C3.Kern.gaussEval_ok",
    "C3.Kern.gaussDeriv_ok",
    "C3.Kern.gaussInt_ok",
    "C3.Kern.gaussInner_ok",
    "C3.Kern.eval_ok",
    "C3.Kern.evalN_ok",
    "C3.Kern.derivEval_ok",
    "C3.Kern.integrate_ok",
    "C3.Kern.inner_ok",
    "C3.Kern.absmax_ok",
    "C3.Kern.absmax_empty_counterexample",
    "C3.Kern.gaussEval_zero_actual"
   ],
   "note": "Exact real arithmetic with the mathematical exp, sqrt and erf."
  },
  {
   "property": "C95",
   "status": "partial",
   "theorems": [
    "C3.Kern.copy_ok",
    "C3.Kern.add_ok",
    "C3.Kern.add_fn",
    "C3.Kern.init_ok",
    "C3.Kern.updateParams_coeff",
    "C3.Kern.updateParams_centers",
    "C3.Kern.createWith_fixed",
    "C3.Kern.createWith_adapt",
    "C3.Kern.getParams_ok",
    "C3.Kern.params_roundtrip",
    "C3.Kern.optsGauss_ok",
    "C3.Kern.setNparams_ok",
    "C3.Kern.setNparams_zero_counterexample",
    "C3.Kern.adapt_off_counterexample",
    "C3.Kern.updateParams_size_counterexample",
    "C3.Kern.updateParams_long_counterexample"
   ],
   "note": "Exact arithmetic. With adaptive centres a parameter vector of the wrong size is not rejected, because the assertion is an assignment; switching adaptive centres off again leaves a wrong number of parameters (counterexamples)."
  },
  {
   "property": "C96",
   "status": "partial",
   "theorems": [
    "C3.Kern.scale_ok",
    "C3.Kern.flip_ok",
    "C3.Kern.sameKernel_ok",
    "C3.Kern.axpy_coeff",
    "C3.Kern.axpy_ok",
    "C3.Kern.axpy_exit_counterexample",
    "C3.Kern.paramGrad_ok",
    "C3.Kern.paramGrad2_ok",
    "C3.Kern.sqNormGrad_ok",
    "C3.Kern.paramGrad_flag_counterexample",
    "C3.Kern.sqNormGrad_adapt_counterexample"
   ],
   "note": "Exact arithmetic. The gradient of the squared norm is refused by an assertion for adaptive centres; kernels that agree only up to 1e-15 are treated as equal, then the coefficients are added."
  },
  {
   "property": "C97",
   "status": "partial",
   "theorems": [
    "C3.Kern.gsum_indep",
    "C3.Kern.orthBasis_partial",
    "C3.Kern.orthBasis_equal_counterexample"
   ],
   "note": "Exact arithmetic and threshold zero for skipping projections (1e-14 in the code). Equal centres divide by zero (counterexample)."
  },
  {
   "property": "C98",
   "status": "partial",
   "theorems": [
    "C3.Sl.gradeval_ok",
    "C3.Sl.gradevalLin_ok",
    "C3.Sl.evalLin_ok",
    "C3.Sl.gradeval_hasDerivAt_partial",
    "C3.Sl.gradevalLin_hasDerivAt_partial",
    "C3.Sl.gradeval_dim_one_actual",
    "C3.Sl.gradeval_dim_one_counterexample"
   ],
   "note": "Exact arithmetic, at least two variables. With one variable every gradient entry of the general routine is multiplied by the value of the train (counterexample)."
  },
  {
   "property": "C99",
   "status": "partial",
   "theorems": [
    "C3.Sl.alsEval_exact",
    "C3.Sl.alsEvalGrad_exact",
    "C3.Sl.alsRun_exact_partial",
    "C3.Sl.alsRun_monotone_partial",
    "C3.Sl.alsRun_dim_one_actual"
   ],
   "note": "Linear parameterisations, all data in one batch, no regularisation, at least two variables (with one the arrays are overrun), exact arithmetic; the optimizer is an arbitrary function."
  }
 ]
}
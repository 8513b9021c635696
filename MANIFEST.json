{
 "claims": [
  {
   "property": "C01",
   "status": "proved",
   "theorems": [
    "EQ.Basis.c01_total_order",
    "EQ.Basis.c01_total_order_empty"
   ],
   "note": "Full characterisation plus error branch."
  },
  {
   "property": "C02",
   "status": "proved",
   "theorems": [
    "EQ.Basis.c02_tensor_grid",
    "EQ.Basis.c02_tensor_grid_empty"
   ],
   "note": "Full characterisation plus error branch."
  },
  {
   "property": "C03",
   "status": "proved",
   "theorems": [
    "EQ.Basis.c03_euclidean",
    "EQ.Basis.c03_contains_total_order"
   ],
   "note": ""
  },
  {
   "property": "C04",
   "status": "proved",
   "theorems": [
    "EQ.Basis.c04_hyperbolic",
    "EQ.Basis.c04_hyperbolic_is_total_order",
    "EQ.Basis.c04_hyperbolic_mono",
    "EQ.Basis.c04_pure_powers"
   ],
   "note": "Real exponents, exact arithmetic."
  },
  {
   "property": "C05",
   "status": "proved",
   "theorems": [
    "EQ.Basis.c05_total_order_downclosed",
    "EQ.Basis.c05_tensor_grid_downclosed",
    "EQ.Basis.c05_euclidean_downclosed",
    "EQ.Basis.c05_hyperbolic_downclosed"
   ],
   "note": ""
  },
  {
   "property": "C06",
   "status": "proved",
   "theorems": [
    "EQ.Basis.c06_sort"
   ],
   "note": "For every tie-breaking of argsort."
  },
  {
   "property": "C07",
   "status": "partial",
   "theorems": [
    "EQ.Basis.c07_prune_partial",
    "EQ.Basis.c07_prune_too_many",
    "EQ.Basis.c07_repeated_prune_law",
    "EQ.Basis.c07_repeated_prune_violated"
   ],
   "note": "One call is correct; a history of calls is not: the stored cardinality is stale, the exact law and the negation are proved."
  },
  {
   "property": "C08",
   "status": "proved",
   "theorems": [
    "EQ.Basis.c08_sparse_coefficients",
    "EQ.Basis.c08_sparse_grid_basis",
    "EQ.Basis.c08_unknown_growth"
   ],
   "note": ""
  },
  {
   "property": "C09",
   "status": "partial",
   "theorems": [
    "EQ.Basis.c09_get_basis_partial",
    "EQ.Basis.c09_get_basis_violated"
   ],
   "note": "Holds for the five exact names; violated for \"tensor\"/\"univariate\" and for names in another case."
  },
  {
   "property": "C10",
   "status": "proved",
   "theorems": [
    "EQ.Param.c10_polynomials"
   ],
   "note": ""
  },
  {
   "property": "C11",
   "status": "proved",
   "theorems": [
    "EQ.Param.c11_derivatives"
   ],
   "note": ""
  },
  {
   "property": "C12",
   "status": "proved",
   "theorems": [
    "EQ.Param.c12_jacobi_matrix"
   ],
   "note": ""
  },
  {
   "property": "C13",
   "status": "proved",
   "theorems": [
    "EQ.Param.c13_gauss_weights",
    "EQ.Param.c13_eigh_reachable"
   ],
   "note": "For every output allowed by the contracts of eigh and argsort; the contracts are shown satisfiable for every table."
  },
  {
   "property": "C14",
   "status": "proved",
   "theorems": [
    "EQ.Param.c14_gauss_exact",
    "EQ.Param.c14_gauss_exact_beta",
    "EQ.Param.c14_rule_beta"
   ],
   "note": "General functional, and the expectation of every Beta-type law."
  },
  {
   "property": "C15",
   "status": "partial",
   "theorems": [
    "EQ.Param.c15_single_point_uniform_partial",
    "EQ.Param.c15_single_point_missing_bound_partial",
    "EQ.Param.c15_single_point_violated"
   ],
   "note": "True for uniform parameters; false for Beta parameters (midpoint, or mean of the [0,1] law)."
  },
  {
   "property": "C16",
   "status": "partial",
   "theorems": [
    "EQ.Param.c16_radau",
    "EQ.Param.c16_radau_beta",
    "EQ.Param.c16_lobatto_beta",
    "EQ.Param.c16_rules_partial",
    "EQ.Param.c16_zero_violated",
    "EQ.Param.c16_bounds_violated"
   ],
   "note": "From order one on, with both bounds given, the rule returned by the code for the Beta-type laws (uniform, beta, Chebyshev) has order+1 points, contains the requested ends and is exact to the expected degree. Refuted at order zero (Radau returns the midpoint, Lobatto divides by zero) and for a uniform parameter whose bounds are left to their defaults (TypeError)."
  },
  {
   "property": "C17",
   "status": "proved",
   "theorems": [
    "EQ.Param.c17_jacobi_positive"
   ],
   "note": ""
  },
  {
   "property": "C18",
   "status": "proved",
   "theorems": [
    "EQ.Param.c18_uniform_orthonormal",
    "EQ.Param.c18_uniform_support"
   ],
   "note": ""
  },
  {
   "property": "C19",
   "status": "proved",
   "theorems": [
    "EQ.Param.c19_custom_orthonormal"
   ],
   "note": ""
  },
  {
   "property": "C20",
   "status": "partial",
   "theorems": [
    "EQ.Param.c20_uniform_moments_partial",
    "EQ.Param.c20_unit_moments_partial",
    "EQ.Param.c20_moments_violated"
   ],
   "note": "True for uniform, and for beta/Chebyshev on [0,1]; false for beta/Chebyshev on other supports."
  },
  {
   "property": "C21",
   "status": "proved",
   "theorems": [
    "EQ.Sampling.c21_tensor_mesh",
    "EQ.Sampling.c21_no_dimensions",
    "EQ.Sampling.c21_factorises",
    "EQ.Sampling.c21_weights_sum_one",
    "EQ.Sampling.c21_parameters"
   ],
   "note": ""
  },
  {
   "property": "C22",
   "status": "proved",
   "theorems": [
    "EQ.Sampling.c22_discrete_orthonormal",
    "EQ.Sampling.c22_discrete_orthonormal_one"
   ],
   "note": "Gauss rules (endpoints None)."
  },
  {
   "property": "C23",
   "status": "partial",
   "theorems": [
    "EQ.Sampling.c23_sparse_mesh_partial",
    "EQ.Sampling.c23_sparse_mesh_violated"
   ],
   "note": "Shared points keep only their first weight; weights sum to 1 before deduplication."
  },
  {
   "property": "C24",
   "status": "partial",
   "theorems": [
    "EQ.Sampling.c24_sample_weights",
    "EQ.Sampling.c24_sample_weights_one",
    "EQ.Sampling.c24_induced_violated"
   ],
   "note": "True for Monte-Carlo and user-defined meshes; false for induced meshes (not normalised)."
  },
  {
   "property": "C25",
   "status": "partial",
   "theorems": [
    "EQ.Sampling.c25_pivots_distinct",
    "EQ.Sampling.c25_lu_distinct",
    "EQ.Sampling.c25_renormalised",
    "EQ.Sampling.c25_newton_partial",
    "EQ.Sampling.c25_newton_violated"
   ],
   "note": "True for qr, svd, lu; the Newton method loses rows on ties."
  },
  {
   "property": "C26",
   "status": "partial",
   "theorems": [
    "EQ.Sampling.c26_lu_partial",
    "EQ.Sampling.c26_lu_violated",
    "EQ.Sampling.c26_witness_reachable"
   ],
   "note": "The code applies the permutation instead of its inverse; right only for involutions."
  },
  {
   "property": "C27",
   "status": "partial",
   "theorems": [
    "EQ.Sampling.c27_induced_partial",
    "EQ.Sampling.c27_induced_violated"
   ],
   "note": "Without the optional package every point is the mean vector."
  },
  {
   "property": "C28",
   "status": "partial",
   "theorems": [
    "EQ.Poly.c28_get_poly",
    "EQ.Poly.c28_one_dimension_partial",
    "EQ.Poly.c28_one_dimension_violated"
   ],
   "note": "True in two or more dimensions; in one dimension a custom index set is ignored."
  },
  {
   "property": "C29",
   "status": "proved",
   "theorems": [
    "EQ.Poly.c29_derivatives",
    "EQ.Poly.c29_dim_index"
   ],
   "note": ""
  },
  {
   "property": "C30",
   "status": "proved",
   "theorems": [
    "EQ.Poly.c30_exact_recovery"
   ],
   "note": "Any index set inside the orders of the tensor grid, any dimension."
  },
  {
   "property": "C31",
   "status": "proved",
   "theorems": [
    "EQ.Poly.c31_least_squares"
   ],
   "note": "For every output allowed by the contract of lstsq; the contract is shown satisfiable for every system."
  },
  {
   "property": "C32",
   "status": "partial",
   "theorems": [
    "EQ.Stats.c32_mean_variance_partial",
    "EQ.Stats.c32_constant_violated"
   ],
   "note": "True with at least two coefficients; raises UnboundLocalError with one."
  },
  {
   "property": "C33",
   "status": "partial",
   "theorems": [
    "EQ.Poly.c33_statistics_current_partial",
    "EQ.Poly.c33_stale_violated"
   ],
   "note": "True for set_model histories; false after user-defined coefficients or changed parameters."
  },
  {
   "property": "C34",
   "status": "partial",
   "theorems": [
    "EQ.Poly.c34_nan_partial",
    "EQ.Poly.c34_no_nan",
    "EQ.Poly.c34_few_values_violated",
    "EQ.Poly.c34_gradients_violated"
   ],
   "note": "Raises when at most d values are left and the basis is larger, and always with gradient data."
  },
  {
   "property": "C35",
   "status": "partial",
   "theorems": [
    "EQ.Poly.c35_gradient_rows",
    "EQ.Poly.c35_one_dimension_violated"
   ],
   "note": "True in two or more dimensions; raises in one dimension."
  },
  {
   "property": "C36",
   "status": "proved",
   "theorems": [
    "EQ.Poly.c36_grid",
    "EQ.Poly.c36_rejects"
   ],
   "note": ""
  },
  {
   "property": "C37",
   "status": "proved",
   "theorems": [
    "EQ.Stats.c37_sobol",
    "EQ.Stats.c37_sobol_meaning"
   ],
   "note": ""
  },
  {
   "property": "C38",
   "status": "proved",
   "theorems": [
    "EQ.Stats.c38_total"
   ],
   "note": ""
  },
  {
   "property": "C39",
   "status": "partial",
   "theorems": [
    "EQ.Stats.c39_queries_partial",
    "EQ.Stats.c39_violated"
   ],
   "note": "Fails in one dimension and with a single coefficient."
  },
  {
   "property": "C40",
   "status": "proved",
   "theorems": [
    "EQ.Stats.c40_central_moments",
    "EQ.Stats.c40_first_row",
    "EQ.Stats.c40_invariant",
    "EQ.Stats.c40_grid"
   ],
   "note": ""
  },
  {
   "property": "C41",
   "status": "partial",
   "theorems": [
    "EQ.Stats.c41_conditional_skewness_partial",
    "EQ.Stats.c41_pruned_violated"
   ],
   "note": "True for unpruned bases on tensor grids of Gauss rules; raises IndexError after prune (stale cardinality)."
  },
  {
   "property": "C42",
   "status": "partial",
   "theorems": [
    "EQ.Stats.c42_conditional_kurtosis_partial",
    "EQ.Stats.c41_pruned_violated"
   ],
   "note": "As C41."
  },
  {
   "property": "C43",
   "status": "proved",
   "theorems": [
    "EQ.Solver.c43_null_space",
    "EQ.Solver.c43_constrained"
   ],
   "note": "qr and lstsq are parameters with their contracts."
  },
  {
   "property": "C44",
   "status": "partial",
   "theorems": [
    "EQ.Solver.c44_minimum_norm_partial",
    "EQ.Solver.c44_minimum_norm_violated"
   ],
   "note": "For full row rank the result solves the system; it is the basic solution and not of minimum norm."
  },
  {
   "property": "C45",
   "status": "proved",
   "theorems": [
    "EQ.Solver.c45_folds"
   ],
   "note": ""
  },
  {
   "property": "C46",
   "status": "partial",
   "theorems": [
    "EQ.Solver.c46_level_errors_partial",
    "EQ.Solver.c46_level_errors_violated"
   ],
   "note": "The list of errors is not reset between levels: the recorded mean is over all levels so far; violation shown to change the result."
  },
  {
   "property": "C47",
   "status": "partial",
   "theorems": [
    "EQ.Solver.c47_conjugate_gradient_partial",
    "EQ.Solver.c47_best_violated"
   ],
   "note": "Residual invariant and termination within n steps proved; the returned iterate is the last one and need not be the best."
  },
  {
   "property": "C48",
   "status": "partial",
   "theorems": [
    "EQ.Solver.c48_least_absolute_partial",
    "EQ.Solver.c48_default_partial",
    "EQ.Solver.c48_without_cvxpy_partial",
    "EQ.Solver.c48_least_absolute_violated"
   ],
   "note": "With cvxpy installed the result minimises over all vectors; without it the linear program uses the default bounds x >= 0 and is optimal among non-negative coefficient vectors only."
  },
  {
   "property": "C49",
   "status": "proved",
   "theorems": [
    "EQ.Solver.c49_rvm_partition",
    "EQ.Solver.c49_rvm"
   ],
   "note": "One-dimensional right-hand side, unless a division by zero occurs; inv is a parameter with its contract."
  },
  {
   "property": "C50",
   "status": "partial",
   "theorems": [
    "EQ.Poly.c50_solver_partial",
    "EQ.Poly.c50_unknown_rejected",
    "EQ.Poly.c50_dispatch_violated"
   ],
   "note": "The solver accepts any letter case; Poly does not, and accepts \"integration\" which has no solver."
  },
  {
   "property": "C51",
   "status": "proved",
   "theorems": [
    "EQ.Tree.c51_split",
    "EQ.Tree.c51_leaves_partition"
   ],
   "note": ""
  },
  {
   "property": "C52",
   "status": "partial",
   "theorems": [
    "EQ.Tree.c52_shape_partial",
    "EQ.Tree.c52_splits_violated"
   ],
   "note": "Depth, leaf sizes and the number of leaves hold; get_splits lists equal splits of different branches once, so the count fails on some data."
  },
  {
   "property": "C53",
   "status": "proved",
   "theorems": [
    "EQ.Tree.c53_predict"
   ],
   "note": ""
  },
  {
   "property": "C54",
   "status": "partial",
   "theorems": [
    "EQ.Tree.c54_refit_partial",
    "EQ.Tree.c54_refit_violated"
   ],
   "note": "Tree and min_samples_leaf are stable under any number of fits; the smoothing constant is multiplied by min_samples_leaf each time."
  },
  {
   "property": "C55",
   "status": "partial",
   "theorems": [
    "EQ.Tree.c55_agnostic_partial",
    "EQ.Tree.c55_agnostic_violated",
    "EQ.Tree.c88_exhaustive",
    "EQ.Tree.c88_grid"
   ],
   "note": "The split made has the smallest reduction of the standard deviation, not the largest."
  },
  {
   "property": "C56",
   "status": "partial",
   "theorems": [
    "EQ.Tree.c56_prune_partial",
    "EQ.Tree.c56_error_violated",
    "EQ.Tree.c56_unreached_violated",
    "EQ.Tree.c56_unsplit_violated"
   ],
   "note": "Pruning only collapses subtrees; children are weighted by training counts so the validation error can grow; subtrees no validation row reaches are lost for prediction; unsplit trees raise TypeError."
  },
  {
   "property": "C57",
   "status": "proved",
   "theorems": [
    "EQ.Opt.c57_evaluations"
   ],
   "note": ""
  },
  {
   "property": "C58",
   "status": "proved",
   "theorems": [
    "EQ.Opt.c58_result",
    "EQ.Opt.c58_monotone"
   ],
   "note": ""
  },
  {
   "property": "C59",
   "status": "proved",
   "theorems": [
    "EQ.Opt.c59_bounds",
    "EQ.Opt.c59_scaling",
    "EQ.Opt.c59_get_scale"
   ],
   "note": "The minimiser of the model and the search for new points are parameters that respect the bounds they are given."
  },
  {
   "property": "C60",
   "status": "partial",
   "theorems": [
    "EQ.Opt.c60_reductions_finite",
    "EQ.Opt.c60_radii_partial",
    "EQ.Opt.c60_run_partial",
    "EQ.Opt.c60_radius_violated"
   ],
   "note": "rho is monotone, above rho_min, and reaches it after finitely many reductions; the radius is at least alpha_2 rho but can be below rho, as a concrete run shows."
  },
  {
   "property": "C61",
   "status": "partial",
   "theorems": [
    "EQ.Opt.c61_budget_partial",
    "EQ.Opt.c61_budget_violated"
   ],
   "note": "At most max(max_evals, 2) + 2 (q-1) evaluations with q = (n+1)(n+2)/2; max_evals = 1 always makes two evaluations."
  },
  {
   "property": "C62",
   "status": "proved",
   "theorems": [
    "EQ.Opt.c62_maximise",
    "EQ.Opt.Cons.c62_scipy",
    "EQ.Opt.Cons.c62_gradient"
   ],
   "note": ""
  },
  {
   "property": "C63",
   "status": "partial",
   "theorems": [
    "EQ.Opt.Cons.c63_bounds",
    "EQ.Opt.Cons.c63_linear_partial",
    "EQ.Opt.Cons.c63_mixed_violated",
    "EQ.Opt.Cons.c63_mixed_violated_point",
    "EQ.Opt.Cons.c63_nonlinear",
    "EQ.Opt.Cons.c63_jacobians"
   ],
   "note": "SLSQP and COBYLA: one infinite entry removes the limits of all rows of that side."
  },
  {
   "property": "C64",
   "status": "partial",
   "theorems": [
    "EQ.Opt.c64_pairs",
    "EQ.Opt.c64_points_partial",
    "EQ.Opt.c64_bound_violated"
   ],
   "note": "Every pair occurs exactly once, and all points differ if the incumbent is not at a bound; at a bound duplicates occur."
  },
  {
   "property": "C65",
   "status": "proved",
   "theorems": [
    "EQ.Sub.c65_zonotope_ends"
   ],
   "note": ""
  },
  {
   "property": "C66",
   "status": "partial",
   "theorems": [
    "EQ.Sub.c66_one_partial",
    "EQ.Sub.c66_one_violated",
    "EQ.Sub.c66_many"
   ],
   "note": "For one active direction the second right-hand side has the wrong sign: only the upper end is feasible. For more directions the inequalities are sound, and exact when all vertices were found."
  },
  {
   "property": "C67",
   "status": "partial",
   "theorems": [
    "EQ.Sub.c67_active_partial",
    "EQ.Sub.c67_start_partial",
    "EQ.Sub.c67_box_partial",
    "EQ.Sub.c67_box_violated",
    "EQ.Sub.c67_axis_violated"
   ],
   "note": "Number of samples and active coordinates always right; the walk starts in the box; a step stays in the box if it starts more than 2^-26 from the faces. A concrete two-step run leaves the box; a subspace containing a coordinate axis makes the routine raise."
  },
  {
   "property": "C68",
   "status": "proved",
   "theorems": [
    "EQ.Data.c68_split"
   ],
   "note": "For every permutation and fraction."
  },
  {
   "property": "C69",
   "status": "partial",
   "theorems": [
    "EQ.Data.c69_standardise_partial",
    "EQ.Data.c69_integer_violated"
   ],
   "note": "Holds for float data without constant columns; integer arrays are truncated in place."
  },
  {
   "property": "C70",
   "status": "partial",
   "theorems": [
    "EQ.Weight.c70_loop_partial",
    "EQ.Weight.c70_first_violated",
    "EQ.Weight.c70_nan_violated"
   ],
   "note": "Termination and the stopping rule are proved; the first value is compared with 10 and nan stops the loop."
  },
  {
   "property": "C71",
   "status": "partial",
   "theorems": [
    "EQ.Corr.c71_orthonormal_partial",
    "EQ.Corr.c71_univariate_violated"
   ],
   "note": "Holds for two or more parameters; with one parameter the correction is never applied."
  },
  {
   "property": "C72",
   "status": "proved",
   "theorems": [
    "EQ.Corr.c72_fictive",
    "EQ.Corr.c72_samples",
    "EQ.Corr.c72_law"
   ],
   "note": ""
  },
  {
   "property": "C73",
   "status": "partial",
   "theorems": [
    "EQ.Polynet.c73_last_layer_partial",
    "EQ.Polynet.c73_unchanged_partial",
    "EQ.Polynet.c73_coefficients_partial",
    "EQ.Polynet.c73_first_layer_violated",
    "EQ.Polynet.c73_narrowing_violated",
    "EQ.Polynet.c73_stale_violated"
   ],
   "note": "True in the first iteration for the last layer; false afterwards (stale derivatives), for the coefficients of the first of several layers, and for narrowing layers."
  },
  {
   "property": "C74",
   "status": "partial",
   "theorems": [
    "EQ.Basis.c74_sort_respects_componentwise_partial",
    "EQ.Basis.c74_sort_by_total_degree_violated"
   ],
   "note": "The documented total-degree order fails; the component-wise order is respected."
  },
  {
   "property": "C75",
   "status": "proved",
   "theorems": [
    "EQ.Basis.c75_prune_downclosed"
   ],
   "note": ""
  },
  {
   "property": "C76",
   "status": "proved",
   "theorems": [
    "EQ.Param.c76_beta_orthonormal",
    "EQ.Param.c76_beta_rejected"
   ],
   "note": ""
  },
  {
   "property": "C77",
   "status": "proved",
   "theorems": [
    "EQ.Param.c77_chebyshev_orthonormal"
   ],
   "note": ""
  },
  {
   "property": "C78",
   "status": "proved",
   "theorems": [
    "EQ.Param.c78_points_inside"
   ],
   "note": ""
  },
  {
   "property": "C79",
   "status": "partial",
   "theorems": [
    "EQ.Poly.c79_gradient_source_partial",
    "EQ.Poly.c79_sample_gradients_violated"
   ],
   "note": "True when a model is passed; set_model() never uses sample-gradients."
  },
  {
   "property": "C80",
   "status": "partial",
   "theorems": [
    "EQ.Poly.c80_setup_partial",
    "EQ.Poly.c80_integration_violated"
   ],
   "note": "Numerical integration fails for basis types that are not mesh names."
  },
  {
   "property": "C81",
   "status": "proved",
   "theorems": [
    "EQ.Basis.c81_constant_first"
   ],
   "note": ""
  },
  {
   "property": "C82",
   "status": "partial",
   "theorems": [
    "EQ.Stats.c82_law_moments_partial",
    "EQ.Stats.c82_kurtosis_violated"
   ],
   "note": "True if 3 (4) times every degree is at most 2 o + 1; the code uses o = degree + 1, so kurtosis is wrong from degree 2 on, for every law."
  },
  {
   "property": "C83",
   "status": "partial",
   "theorems": [
    "EQ.Solver.c83_huber_partial",
    "EQ.Solver.c83_huber_verbose_violated"
   ],
   "note": "With verbose and no param1 a TypeError is raised."
  },
  {
   "property": "C84",
   "status": "proved",
   "theorems": [
    "EQ.Solver.c84_elastic_net"
   ],
   "note": "The convex solver is a parameter that minimises the objective it is given."
  },
  {
   "property": "C85",
   "status": "proved",
   "theorems": [
    "EQ.Solver.c85_noise_level"
   ],
   "note": ""
  },
  {
   "property": "C86",
   "status": "proved",
   "theorems": [
    "EQ.Solver.c86_selection",
    "EQ.Solver.c86_compressed_sensing"
   ],
   "note": ""
  },
  {
   "property": "C87",
   "status": "partial",
   "theorems": [
    "EQ.Solver.c87_vector_shapes_partial",
    "EQ.Solver.c87_column_violated"
   ],
   "note": "Shape-level model of numpy; a column raises ValueError."
  },
  {
   "property": "C88",
   "status": "proved",
   "theorems": [
    "EQ.Tree.c88_aware_split",
    "EQ.Tree.c88_training_error",
    "EQ.Tree.c88_exhaustive",
    "EQ.Tree.c88_grid"
   ],
   "note": ""
  },
  {
   "property": "C89",
   "status": "partial",
   "theorems": [
    "EQ.Tree.c89_logging_partial",
    "EQ.Tree.c89_logging_violated"
   ],
   "note": "True for the model-aware criterion; UnboundLocalError for the model-agnostic one."
  },
  {
   "property": "C90",
   "status": "partial",
   "theorems": [
    "EQ.Opt.c90_line_partial",
    "EQ.Opt.c90_initial_partial",
    "EQ.Opt.c90_poised_violated"
   ],
   "note": "Proved for one variable and for the initial coordinate set in every dimension; false in two variables: the pivots are not those of the elimination from the fourth point on."
  },
  {
   "property": "C91",
   "status": "partial",
   "theorems": [
    "EQ.Opt.c91_repeat_partial",
    "EQ.Opt.c91_objective_violated",
    "EQ.Opt.c91_scaled_violated"
   ],
   "note": "True for any history of calls without scaling and with the same objective; stored values survive a change of objective, and stored points of a scaled run are unscaled once more in the next one."
  },
  {
   "property": "C92",
   "status": "proved",
   "theorems": [
    "EQ.Opt.c92_sample_set"
   ],
   "note": ""
  },
  {
   "property": "C93",
   "status": "partial",
   "theorems": [
    "EQ.Opt.Cons.c93_equality_partial",
    "EQ.Opt.Cons.c93_methods_violated",
    "EQ.Opt.Cons.c93_poly_violated"
   ],
   "note": "Linear and custom equalities are exact; no method is ever refused; polynomial equalities raise AttributeError."
  },
  {
   "property": "C94",
   "status": "partial",
   "theorems": [
    "EQ.Opt.c57_evaluations",
    "EQ.Opt.Cons.c94_nfev_violated"
   ],
   "note": "True for the trust-region method; always 0 for the methods of scipy."
  },
  {
   "property": "C95",
   "status": "partial",
   "theorems": [
    "EQ.Sub.c95_vertices",
    "EQ.Sub.c95_complete",
    "EQ.Sub.c95_distinct_violated"
   ],
   "note": "All but distinctness hold as stated (completeness when no drawn direction is orthogonal to a row); rows with a zero entry can be returned twice because +0 and -0 are told apart."
  },
  {
   "property": "C96",
   "status": "proved",
   "theorems": [
    "EQ.Sub.c96_active"
   ],
   "note": ""
  },
  {
   "property": "C97",
   "status": "partial",
   "theorems": [
    "EQ.Sub.c97_vector_partial",
    "EQ.Sub.c97_scalar_partial",
    "EQ.Sub.c97_samples_violated"
   ],
   "note": "All of the statement holds when the samples are given; without samples the routine raises AttributeError since the method it calls does not exist."
  },
  {
   "property": "C98",
   "status": "proved",
   "theorems": [
    "EQ.Sub.c98_dist"
   ],
   "note": ""
  },
  {
   "property": "C99",
   "status": "partial",
   "theorems": [
    "EQ.Sub.c99_orthogonal_partial",
    "EQ.Sub.c99_residual_partial",
    "EQ.Sub.c99_step_violated",
    "EQ.Sub.c99_maxiter_violated"
   ],
   "note": "Orthogonality always; the residual decreases as long as each line search finds a sufficient decrease before its step falls below 1e-10, otherwise the step 1e-11 is accepted unchecked; maxiter = 0 raises."
  },
  {
   "property": "C100",
   "status": "partial",
   "theorems": [
    "EQ.Data.c100_errors_partial",
    "EQ.Data.c100_r2_partial",
    "EQ.Data.c100_r2_violated"
   ],
   "note": "The error metrics behave as stated; r2 is the squared correlation, so 1 is also reported for wrong predictions that are an affine function of the outputs."
  },
  {
   "property": "C101",
   "status": "partial",
   "theorems": [
    "EQ.Data.c101_rows_partial",
    "EQ.Data.c101_ratio_violated"
   ],
   "note": "Row counts are checked; the fraction is never refused."
  },
  {
   "property": "C102",
   "status": "partial",
   "theorems": [
    "EQ.Weight.c102_density_partial",
    "EQ.Weight.c102_errors_violated",
    "EQ.Weight.c102_nan_violated"
   ],
   "note": "Normalisation, mean and variance hold; bad supports raise TypeError instead of ValueError, a zero integral raises ZeroDivisionError, and a function that is nan at a node is accepted."
  },
  {
   "property": "C103",
   "status": "proved",
   "theorems": [
    "EQ.Corr.c103_marginals"
   ],
   "note": ""
  },
  {
   "property": "C104",
   "status": "proved",
   "theorems": [
    "EQ.Corr.c104_independent"
   ],
   "note": ""
  },
  {
   "property": "C105",
   "status": "partial",
   "theorems": [
    "EQ.Polynet.c105_verbose_partial",
    "EQ.Polynet.c105_verbose_violated"
   ],
   "note": "The early stop exists only with verbose=True."
  },
  {
   "property": "C106",
   "status": "partial",
   "theorems": [
    "EQ.Polynet.c106_fixed_partial",
    "EQ.Polynet.c106_momentum_violated"
   ],
   "note": "True for all strategies but momentum, whose remembered change starts as the weights themselves."
  },
  {
   "property": "C107",
   "status": "partial",
   "theorems": [
    "EQ.Dist.c107_own_partial",
    "EQ.Dist.c107_exponential",
    "EQ.Dist.c107_scipy",
    "EQ.Dist.c107_scipy_partial",
    "EQ.Dist.c107_truncated_partial",
    "EQ.Dist.c107_cauchy_violated",
    "EQ.Dist.c107_truncated_violated"
   ],
   "note": "Mean, variance and skewness. Moments taken from scipy are true under the contract that scipy reports moments of its own laws. False for Cauchy (mean of a random sample) and for the skewness of the truncated Gaussian."
  },
  {
   "property": "C108",
   "status": "partial",
   "theorems": [
    "EQ.Dist.c108_law_partial",
    "EQ.Dist.c108_unit_partial",
    "EQ.Dist.c108_support_violated"
   ],
   "note": "False for beta and arcsine parameters on an interval other than [0,1]: their densities are those on [0,1]."
  },
  {
   "property": "C109",
   "status": "partial",
   "theorems": [
    "EQ.Dist.c109_kurtosis_partial",
    "EQ.Dist.c109_convention_violated"
   ],
   "note": "Some distributions report the excess kurtosis, some the kurtosis, the uniform none, Rayleigh neither."
  },
  {
   "property": "C110",
   "status": "partial",
   "theorems": [
    "EQ.Dist.c110_tested_partial",
    "EQ.Dist.c110_accepted_violated"
   ],
   "note": "True for twelve distributions. Negative or missing Gaussian variance, negative gamma scale, reversed or single uniform bounds are accepted; beta shapes in (0,1) are refused though documented."
  },
  {
   "property": "C111",
   "status": "partial",
   "theorems": [
    "EQ.Dist.c111_one_end_partial",
    "EQ.Dist.c111_endpoints_violated"
   ],
   "note": "True for one end point, but the error is a TypeError; both end points are accepted for half-infinite laws; the truncated Gaussian is refused."
  },
  {
   "property": "C112",
   "status": "partial",
   "theorems": [
    "EQ.Dist.c112_mean_inside_partial",
    "EQ.Dist.c112_grid_violated"
   ],
   "note": "The first coefficient is inside the grid; the grids of exponential, Weibull and Cauchy parameters do not scale with the parameter."
  },
  {
   "property": "C113",
   "status": "proved",
   "theorems": [
    "EQ.Dist.c113_affine",
    "EQ.Dist.c113_gaussian",
    "EQ.Dist.c113_scale"
   ],
   "note": ""
  },
  {
   "property": "C114",
   "status": "proved",
   "theorems": [
    "EQ.Dist.c114_gaussian_symmetric"
   ],
   "note": ""
  },
  {
   "property": "C115",
   "status": "proved",
   "theorems": [
    "EQ.Opt.c115_omorf",
    "EQ.Opt.c115_maximise"
   ],
   "note": ""
  },
  {
   "property": "C116",
   "status": "proved",
   "theorems": [
    "EQ.Opt.c116_bounds"
   ],
   "note": "The searches are asked to respect the bounds given to them (documented behaviour of TNC and linprog)."
  },
  {
   "property": "C117",
   "status": "proved",
   "theorems": [
    "EQ.Opt.c117_sample_sets"
   ],
   "note": ""
  },
  {
   "property": "C118",
   "status": "proved",
   "theorems": [
    "EQ.Opt.c118_radii",
    "EQ.Opt.c118_passes"
   ],
   "note": ""
  },
  {
   "property": "C119",
   "status": "partial",
   "theorems": [
    "EQ.Opt.c119_budget_partial",
    "EQ.Opt.c119_budget_violated"
   ],
   "note": "Bounded excess proved; the points of the first quadratic set are evaluated without a look at the budget."
  },
  {
   "property": "C120",
   "status": "proved",
   "theorems": [
    "EQ.Opt.c120_choice",
    "EQ.Opt.c120_alternative"
   ],
   "note": ""
  },
  {
   "property": "C121",
   "status": "proved",
   "theorems": [
    "EQ.Opt.c121_directions"
   ],
   "note": ""
  },
  {
   "property": "C122",
   "status": "partial",
   "theorems": [
    "EQ.Opt.c122_arguments_partial",
    "EQ.Opt.c122_name_violated"
   ],
   "note": "Proved for new objects; an object that already ran accepts every name and keeps its old directions."
  },
  {
   "property": "C123",
   "status": "partial",
   "theorems": [
    "EQ.Opt.c123_line_partial",
    "EQ.Opt.c123_plane_partial",
    "EQ.Opt.c123_linear_violated"
   ],
   "note": "Proved for one and two variables; false for three."
  },
  {
   "property": "C124",
   "status": "partial",
   "theorems": [
    "EQ.Opt.c124_keywords_partial",
    "EQ.Opt.c124_given",
    "EQ.Opt.c124_limits_violated"
   ],
   "note": "del_k is honoured; delmin and delmax are never read."
  },
  {
   "property": "C125",
   "status": "proved",
   "theorems": [
    "EQ.Poly.c125_sparse_recovery"
   ],
   "note": ""
  },
  {
   "property": "C126",
   "status": "partial",
   "theorems": [
    "EQ.Poly.c126_band_partial",
    "EQ.Poly.c126_interpolation_partial",
    "EQ.Poly.c126_band_violated"
   ],
   "note": "The band exists, is not negative and vanishes for interpolants. It is 1.96 standard deviations times the square root of the number of samples for equal weights: it does not shrink."
  },
  {
   "property": "C127",
   "status": "partial",
   "theorems": [
    "EQ.Poly.c127_available_partial",
    "EQ.Poly.c127_mesh_violated",
    "EQ.Poly.c127_nan_violated"
   ],
   "note": "Exact condition proved; AttributeError for fits on a mesh, ValueError if a sample with its own variance is dropped."
  },
  {
   "property": "C128",
   "status": "partial",
   "theorems": [
    "EQ.Poly.c128_score_partial",
    "EQ.Poly.c128_score_violated",
    "EQ.Poly.c128_stale_violated"
   ],
   "note": "True if the last set_model used the stored outputs; otherwise AttributeError or a comparison with the old outputs."
  },
  {
   "property": "C129",
   "status": "proved",
   "theorems": [
    "EQ.Sampling.c129_cdf_exact"
   ],
   "note": "Exact arithmetic; the eigenvalue solver meets its documentation."
  },
  {
   "property": "C130",
   "status": "proved",
   "theorems": [
    "EQ.Sampling.c130_quantile",
    "EQ.Sampling.c130_sample"
   ],
   "note": "brentq meets its documentation. Uses the inequalities of Chebyshev, Markov and Stieltjes, proved in Markov.lean."
  },
  {
   "property": "C131",
   "status": "partial",
   "theorems": [
    "EQ.Sampling.c131_mesh_partial",
    "EQ.Sampling.c131_uniform01_violated",
    "EQ.Sampling.c131_sample01_violated",
    "EQ.Sampling.c131_unsupported_violated"
   ],
   "note": "True with ray if all parameters are uniform and the first has the bounds -1 and 1. For a first parameter on [0, 1] nearly half of the draws raise ValueError; other distributions give nothing."
  },
  {
   "property": "C132",
   "status": "proved",
   "theorems": [
    "EQ.Sampling.c132_unbiased"
   ],
   "note": "With ray. The draws are independent and uniform on [0, 1]; brentq meets its documentation and the points it returns depend measurably on the draw."
  },
  {
   "property": "C133",
   "status": "proved",
   "theorems": [
    "EQ.Sampling.Newton.c133_progress"
   ],
   "note": "Exact arithmetic; lstsq and cholesky solve the linear systems exactly."
  },
  {
   "property": "C134",
   "status": "partial",
   "theorems": [
    "EQ.Sampling.Newton.c134_ends_partial",
    "EQ.Sampling.Newton.c134_balanced_violated",
    "EQ.Sampling.Newton.c134_all_rows_violated",
    "EQ.Sampling.Newton.c134_too_many_violated"
   ],
   "note": "For 0 < k < m the call ends, with at most k distinct rows or ValueError. Equal leverages and k = m raise ValueError; for k > m with unequal leverages the line search never ends."
  },
  {
   "property": "C135",
   "status": "proved",
   "theorems": [
    "EQ.Sampling.Newton.c135_optimal",
    "EQ.Sampling.Newton.c135_gap"
   ],
   "note": "The tolerance of the stopping test is not modelled in this claim: it is about an exactly vanishing step."
  },
  {
   "property": "C136",
   "status": "proved",
   "theorems": [
    "EQ.Sub.c136_jacobian"
   ],
   "note": "Exact arithmetic; pinv meets the conditions of Moore and Penrose."
  },
  {
   "property": "C137",
   "status": "proved",
   "theorems": [
    "EQ.Sub.c137_fit",
    "EQ.Sub.c137_subspace"
   ],
   "note": ""
  },
  {
   "property": "C138",
   "status": "partial",
   "theorems": [
    "EQ.Sub.c138_slope",
    "EQ.Sub.c138_descent",
    "EQ.Sub.c138_test_partial",
    "EQ.Sub.c138_test_violated",
    "EQ.Sub.c138_units_violated"
   ],
   "note": "Slope and descent are proved in full. The test compares the residual with the slope of half its square: short steps pass it only if the residual is less than 10^4, and in small enough units no step passes it."
  },
  {
   "property": "C139",
   "status": "partial",
   "theorems": [
    "EQ.Sub.c139_gauss_newton",
    "EQ.Sub.c139_few_samples_violated"
   ],
   "note": "Proved for at least m n samples and generic problems; with fewer samples singular values are dropped that need not vanish, with at most n^2 samples all of them."
  },
  {
   "property": "C140",
   "status": "partial",
   "theorems": [
    "EQ.Sampling.c140_points_partial",
    "EQ.Sampling.c140_column_violated"
   ],
   "note": "Holds for parameters whose samples are flat arrays; with a Weibull or an analytical parameter a mesh of two or more points raises ValueError."
  },
  {
   "property": "C141",
   "status": "partial",
   "theorems": [
    "EQ.Sampling.c141_limit_partial",
    "EQ.Sampling.c141_bias_violated"
   ],
   "note": "The limit is the mean of f/K over the mean of 1/K, K the sum of squares of the basis functions; it is not the mean of f in general, as f = K shows whenever K is not constant."
  },
  {
   "property": "C142",
   "status": "partial",
   "theorems": [
    "EQ.Sub.c142_samples",
    "EQ.Sub.c142_poly_partial",
    "EQ.Sub.c142_range_violated"
   ],
   "note": "Full for sample points and outputs. With full_space_poly it holds when the points of the polynomial fill [-1, 1] in every direction and fails on other ranges."
  },
  {
   "property": "C143",
   "status": "partial",
   "theorems": [
    "EQ.Sub.c143_range_partial",
    "EQ.Sub.c143_range_violated"
   ],
   "note": "All but the last part; the eigenvalues lie between the bounds if some trial draws every point once, and need not otherwise."
  },
  {
   "property": "C144",
   "status": "partial",
   "theorems": [
    "EQ.Poly.c144_recovery_partial",
    "EQ.Poly.c144_both_violated"
   ],
   "note": "Holds up to the order without end points or with one, and below the order where both ends are prescribed. With both ends the coefficient of the top degree comes out too large for every law and every order."
  },
  {
   "property": "C145",
   "status": "partial",
   "theorems": [
    "EQ.Tree.c145_fit_partial",
    "EQ.Tree.c145_zero_leaf_violated",
    "EQ.Tree.c145_empty_violated"
   ],
   "note": "Holds for non-empty data, min_samples_leaf not zero (or the model-agnostic criterion) and no logging of the model-agnostic criterion. UnboundLocalError for min_samples_leaf=0 with the model-aware criterion and for empty data."
  },
  {
   "property": "C146",
   "status": "proved",
   "theorems": [
    "EQ.Opt.c146_pivot",
    "EQ.Opt.c146_pivot_omorf",
    "EQ.Opt.c146_model",
    "EQ.Opt.c146_model_omorf"
   ],
   "note": "The gradient is specified by Fréchet differentiability; the models are those fitted by least squares, for every sample set."
  },
  {
   "property": "C147",
   "status": "proved",
   "theorems": [
    "EQ.Opt.c147_new",
    "EQ.Opt.c147_new_omorf",
    "EQ.Opt.c147_full",
    "EQ.Opt.c147_link",
    "EQ.Opt.c147_link_omorf",
    "EQ.Opt.c147_run",
    "EQ.Opt.c147_run_omorf"
   ],
   "note": "Contracts of scipy minimize (TNC) and linprog as hypotheses, shown satisfiable; the runs use the models, steps and searches of the code."
  },
  {
   "property": "C148",
   "status": "proved",
   "theorems": [
    "EQ.Opt.c148_exact",
    "EQ.Opt.c148_interpolates",
    "EQ.Opt.c148_first",
    "EQ.Opt.c148_step",
    "EQ.Opt.c148_omorf"
   ],
   "note": "For sample sets that determine a quadratic; C90 says which sets do."
  },
  {
   "property": "C149",
   "status": "proved",
   "theorems": [
    "EQ.Opt.c149_within",
    "EQ.Opt.c149_independent",
    "EQ.Opt.c149_points",
    "EQ.Opt.c149_linear",
    "EQ.Opt.c149_distinct",
    "EQ.Opt.c149_further"
   ],
   "note": "The orthogonal factor of numpy qr is a hypothesis (orthogonality only); draws are arbitrary non-zero vectors."
  },
  {
   "property": "C150",
   "status": "proved",
   "theorems": [
    "EQ.Corr.c150_density",
    "EQ.Corr.c150_region"
   ],
   "note": "Densities agree up to null sets; outside the support of a marginal the inverse normal is evaluated at 0 or 1, where the code computes nan. The inverse normal distribution function of scipy is a hypothesis."
  },
  {
   "property": "C151",
   "status": "proved",
   "theorems": [
    "EQ.Param.c151_unique",
    "EQ.Param.c151_solver",
    "EQ.Param.c151_symmetric"
   ],
   "note": "The eigenvalue solver enters through its contract; beta-type laws, without prescribed end points."
  },
  {
   "property": "C152",
   "status": "proved",
   "theorems": [
    "EQ.Corr.c152_equation",
    "EQ.Corr.c152_correlation",
    "EQ.Corr.c152_zero"
   ],
   "note": "The root finder is arbitrary: its residual appears in the statement. Mean and variance of the parameters are those of their laws (C20, C107)."
  },
  {
   "property": "C153",
   "status": "proved",
   "theorems": [
    "EQ.Param.c153_rule",
    "EQ.Param.c153_unique"
   ],
   "note": "Exactness is for the sampled law, not for the continuous one; without prescribed end points."
  },
  {
   "property": "C154",
   "status": "proved",
   "theorems": [
    "EQ.Poly.c154_recovery",
    "EQ.Poly.c154_moments"
   ],
   "note": "C30 and C32 ask for laws with infinitely many points of support; here the law has finitely many. Numerical integration on tensor grids; moments for at least two coefficients with the constant first."
  },
  {
   "property": "C155",
   "status": "partial",
   "theorems": [
    "EQ.Corr.c155_recovery_partial",
    "EQ.Corr.c155_linear",
    "EQ.Corr.c155_points_violated"
   ],
   "note": "Proved but for the last part, which is false: the transformed polynomial is a function of the standard variables and does not return the model at the points of get_points. Numerical integration on tensor grids; the normal law is the sampled one."
  },
  {
   "property": "C156",
   "status": "proved",
   "theorems": [
    "EQ.Dist.c156_cdf",
    "EQ.Dist.c156_icdf",
    "EQ.Dist.c156_samples"
   ],
   "note": "The density is the discrete law scipy builds from the points and values; the uniform numbers are taken as uniform."
  },
  {
   "property": "C157",
   "status": "partial",
   "theorems": [
    "EQ.Poly.c157_model",
    "EQ.Poly.c157_gradients",
    "EQ.Poly.c157_short",
    "EQ.Poly.c157_callable_partial",
    "EQ.Poly.c157_correlated_violated"
   ],
   "note": "Values and gradients are proved; false for gradients through Correlations.set_model, which leaves out the format argument: TypeError for every gradient function."
  },
  {
   "property": "C158",
   "status": "partial",
   "theorems": [
    "EQ.Data.c158_linear_partial",
    "EQ.Data.c158_bias_violated",
    "EQ.Data.c158_nan_violated",
    "EQ.Data.c158_friedman_partial",
    "EQ.Data.c158_shape_violated",
    "EQ.Data.c158_noise_violated"
   ],
   "note": "The forms of both functions are proved. False: the constant term is not the bias, standardising constant outputs gives nan, the outputs are no column without normalise, and the deviation of the noise is noise times that of the outputs."
  },
  {
   "property": "C159",
   "status": "partial",
   "theorems": [
    "EQ.Param.c159_eigenvectors_partial",
    "EQ.Param.c159_default_violated",
    "EQ.Param.c159_one_violated"
   ],
   "note": "Holds for given orders of at least two. Without an order all three functions raise, and order one gives a scalar that eigh refuses."
  },
  {
   "property": "C160",
   "status": "partial",
   "theorems": [
    "EQ.Poly.c160_arguments_partial",
    "EQ.Poly.c160_ratio_partial",
    "EQ.Poly.c160_typo_violated",
    "EQ.Poly.c160_variances_violated",
    "EQ.Poly.c160_ratio_violated"
   ],
   "note": "Known keys are read and dictionaries without one are refused. False: misspelt keys beside a known one, variances without outputs and the sampling ratio without subsampling are ignored."
  },
  {
   "property": "C161",
   "status": "partial",
   "theorems": [
    "EQ.Poly.c161_important",
    "EQ.Poly.c161_statistics_partial",
    "EQ.Poly.c161_fresh_violated",
    "EQ.Poly.c161_spoken_partial",
    "EQ.Poly.c161_text",
    "EQ.Poly.c161_sign_violated"
   ],
   "note": "The most important parameter is proved. False: right after a fit no statistics are stated, and negative numbers keep their sign."
  },
  {
   "property": "C162",
   "status": "proved",
   "theorems": [
    "EQ.Stats.c162_closed",
    "EQ.Stats.c162_first",
    "EQ.Stats.c162_total"
   ],
   "note": "Conditional means are defined by integrating the polynomial over the inputs left out, apart from the coefficients."
  },
  {
   "property": "C163",
   "status": "proved",
   "theorems": [
    "EQ.Param.c163_laguerre"
   ],
   "note": "scipy.special.gamma is the gamma function; exact arithmetic."
  },
  {
   "property": "C164",
   "status": "partial",
   "theorems": [
    "EQ.Param.c164_hermite_partial",
    "EQ.Param.c164_rows_violated",
    "EQ.Param.c164_mass_violated"
   ],
   "note": "Orthogonality is proved for every pair of parameters. False: the number of rows is the order, order zero raises IndexError, and the first row belongs to the first parameter, the others to the second."
  },
  {
   "property": "C165",
   "status": "proved",
   "theorems": [
    "EQ.Tree.c165_graph",
    "EQ.Tree.c165_tree"
   ],
   "note": "The text of the picture is modelled as statements (nodes and edges); graphviz itself is not modelled."
  },
  {
   "property": "C166",
   "status": "proved",
   "theorems": [
    "EQ.Stats.c166_projection",
    "EQ.Stats.c166_interpolation",
    "EQ.Stats.c166_moments"
   ],
   "note": "Any outputs; exact arithmetic; quadrature contract of the parameters as in C18."
  },
  {
   "property": "C167",
   "status": "proved",
   "theorems": [
    "EQ.Basis.c167_orders",
    "EQ.Basis.c167_kinds",
    "EQ.Basis.c167_symmetric",
    "EQ.Basis.c167_levels"
   ],
   "note": ""
  },
  {
   "property": "C168",
   "status": "partial",
   "theorems": [
    "EQ.Poly.c168_recovery_partial",
    "EQ.Poly.c168_unequal_violated"
   ],
   "note": "Proved for tensor-grid, Euclidean-degree and univariate bases and for equal orders. False for every total-order and hyperbolic basis with different orders: a polynomial of the basis vanishes on the whole grid, so no method recovers all of them."
  },
  {
   "property": "C169",
   "status": "proved",
   "theorems": [
    "EQ.Poly.c169_linear"
   ],
   "note": "Under the contract of lstsq; exact arithmetic."
  },
  {
   "property": "C170",
   "status": "proved",
   "theorems": [
    "EQ.Poly.c170_rearranged"
   ],
   "note": "Under the contract of lstsq; the design matrix of the model is the one of C31."
  },
  {
   "property": "C171",
   "status": "proved",
   "theorems": [
    "EQ.Poly.c171_enlarged"
   ],
   "note": "Under the contract of lstsq."
  },
  {
   "property": "C172",
   "status": "proved",
   "theorems": [
    "EQ.Stats.c172_statistics"
   ],
   "note": "Sobol' indices are compared as the whole dictionary returned by the code."
  },
  {
   "property": "C173",
   "status": "proved",
   "theorems": [
    "EQ.Stats.c173_inert"
   ],
   "note": ""
  },
  {
   "property": "C174",
   "status": "proved",
   "theorems": [
    "EQ.Stats.c174_fit",
    "EQ.Stats.c174_statistics"
   ],
   "note": "Under the contract of lstsq; no correlations."
  },
  {
   "property": "C175",
   "status": "partial",
   "theorems": [
    "EQ.Sampling.c175_jacobi_partial",
    "EQ.Sampling.c175_jacobi_violated"
   ],
   "note": "Exact for alpha = beta = 0. For |alpha| >= 1 every call at an interior point raises. For 0 < |alpha| < 1 or beta not zero the rule of the code is an approximation by design; no accuracy is claimed."
  },
  {
   "property": "C176",
   "status": "partial",
   "theorems": [
    "EQ.Sampling.c176_choice_partial",
    "EQ.Sampling.c176_unknown_violated"
   ],
   "note": "Under the contracts of the factorisations. False for undocumented names: random raises TypeError after the mesh is built, other names AttributeError."
  },
  {
   "property": "C177",
   "status": "partial",
   "theorems": [
    "EQ.Poly.c177_callables_partial",
    "EQ.Poly.c177_resized_violated",
    "EQ.Poly.c177_one_nan_violated"
   ],
   "note": "Two or more dimensions, least squares. False for the callable of values once the number of coefficients changed, which a NaN output can cause."
  },
  {
   "property": "C178",
   "status": "proved",
   "theorems": [
    "EQ.Stats.c178_convergence"
   ],
   "note": "Beta-type inputs (bounded support), equal orders; exact arithmetic; no correlations."
  },
  {
   "property": "C179",
   "status": "proved",
   "theorems": [
    "EQ.Stats.c179_sobol_convergence"
   ],
   "note": "Beta-type inputs, equal orders, all orders of interaction considered (see C180 for the bound chosen by the code)."
  },
  {
   "property": "C180",
   "status": "partial",
   "theorems": [
    "EQ.Stats.c180_complete_partial",
    "EQ.Stats.c180_orders_violated",
    "EQ.Stats.c180_many_violated"
   ],
   "note": "False when the basis has larger orders than the parameters (total order), and for nine or more inputs (tensor grid)."
  },
  {
   "property": "C181",
   "status": "partial",
   "theorems": [
    "EQ.Poly.c181_values",
    "EQ.Poly.c181_mesh_partial",
    "EQ.Poly.c181_beta",
    "EQ.Poly.c181_constant_violated"
   ],
   "note": "Inputs of order at least one. The single point of an input of order zero with a Beta law of unequal shapes does not follow the units."
  },
  {
   "property": "C182",
   "status": "proved",
   "theorems": [
    "EQ.Stats.c182_structure"
   ],
   "note": "All orders of interaction considered (see C180 for the bound chosen by the code); no correlations."
  },
  {
   "property": "C183",
   "status": "proved",
   "theorems": [
    "EQ.Stats.c183_integration",
    "EQ.Stats.c183_least_squares"
   ],
   "note": "Exact arithmetic; no correlations."
  },
  {
   "property": "C184",
   "status": "proved",
   "theorems": [
    "EQ.Poly.c184_scale",
    "EQ.Poly.c184_repeated",
    "EQ.Poly.c184_on_fit"
   ],
   "note": "The contract of lstsq (a minimiser is returned) is assumed."
  },
  {
   "property": "C185",
   "status": "proved",
   "theorems": [
    "EQ.Dist.c185_density",
    "EQ.Dist.c185_quantiles"
   ],
   "note": "Contract of scipy: pdf is the documented density, cdf its mass, ppf the least point with the given mass, rvs returns as many numbers as asked for. Which density it is, is C108; analytical parameters are C156."
  },
  {
   "property": "C186",
   "status": "proved",
   "theorems": [
    "EQ.Tree.c186_tree",
    "EQ.Tree.c186_least_squares",
    "EQ.Tree.c186_poly_tree"
   ],
   "note": "c186_tree: for fits at the nodes that follow the units. c186_poly_tree: those of the code do (least squares, total-order basis, contract of numpy lstsq), when every set of samples that a node may hold determines the polynomials; with fewer samples the solution of minimal norm need not follow a constant."
  },
  {
   "property": "C187",
   "status": "proved",
   "theorems": [
    "EQ.Opt.c187_constant",
    "EQ.Opt.c187_model"
   ],
   "note": "Contract: models and searches do not mind a constant. c187_model: the fitted quadratic models do not, on every set of points that determines a quadratic, if scipy goes by gradients and differences of values. A factor is not covered: the ratio of decreases has an absolute tolerance."
  },
  {
   "property": "C188",
   "status": "proved",
   "theorems": [
    "EQ.Stats.c188_structure",
    "EQ.Stats.c188_product"
   ],
   "note": "Any model whatever, not only polynomials; the fit is the numerical integration of the code with the rules of the parameters."
  },
  {
   "property": "C189",
   "status": "proved",
   "theorems": [
    "EQ.Sampling.c189_interlace"
   ],
   "note": "Contract: numpy.linalg.eigh returns the eigenpairs in increasing order. Order 0 is left out: its single point is not always the zero of the first polynomial."
  },
  {
   "property": "C190",
   "status": "proved",
   "theorems": [
    "EQ.Sub.c190_units"
   ],
   "note": "Contracts of numpy (lstsq, eigh, argsort). The polynomial over the subspace is not covered: its weights depend on the basis of the subspace."
  },
  {
   "property": "C191",
   "status": "partial",
   "theorems": [
    "EQ.Tree.c191_tree_partial",
    "EQ.Tree.c191_units_violated"
   ],
   "note": "Holds for all data such that every set of samples a node may hold spreads at least 0.1 in every input in both units. Missing: the bounds of a node are moved apart by 0.01 if they are closer than 0.1, whatever the units; c191_units_violated gives a training set whose predictions change from 1/6 to 4/15."
  },
  {
   "property": "C192",
   "status": "proved",
   "theorems": [
    "EQ.Tree.c192_tree",
    "EQ.Tree.c192_poly_tree"
   ],
   "note": "c192_tree: for fits at the nodes that do not depend on the order. c192_poly_tree: those of the code do not (least squares, total-order basis, contract of numpy lstsq), when every set of samples that a node may hold determines the polynomials."
  },
  {
   "property": "C193",
   "status": "proved",
   "theorems": [
    "EQ.Poly.c193_derivatives"
   ],
   "note": "With the Gram-Schmidt correction of correlated parameters or without; a regular object (see C29)."
  },
  {
   "property": "C194",
   "status": "proved",
   "theorems": [
    "EQ.Polynet.c194_order"
   ],
   "note": "The initial weights and coefficients, which the code draws at random, are the same for both orders. Exact arithmetic."
  },
  {
   "property": "C195",
   "status": "partial",
   "theorems": [
    "EQ.Polynet.c195_descent_partial",
    "EQ.Polynet.c195_two_layers_violated"
   ],
   "note": "Holds for networks with one layer (steepest descent and the adaptive rate). Missing: with two layers the activations use the polynomials of the next layer but the gradients those of the layer itself; c195_two_layers_violated gives a network whose loss rises for every learning rate below 1/8."
  },
  {
   "property": "C196",
   "status": "proved",
   "theorems": [
    "EQ.Stats.c196_fit",
    "EQ.Stats.c196_mean"
   ],
   "note": "Beta-type inputs (bounded support), orders of at least 1, two or more basis functions; exact arithmetic; no correlations."
  },
  {
   "property": "C197",
   "status": "proved",
   "theorems": [
    "EQ.Data.c197_units",
    "EQ.Data.c197_order"
   ],
   "note": "Exact arithmetic."
  },
  {
   "property": "C198",
   "status": "proved",
   "theorems": [
    "EQ.Poly.c198_r2",
    "EQ.Poly.c198_enlarged"
   ],
   "note": "No correlations; lstsq enters through its contract (a minimiser of the residual)."
  },
  {
   "property": "C199",
   "status": "partial",
   "theorems": [
    "EQ.Opt.c199_units_partial",
    "EQ.Opt.c199_omorf_partial",
    "EQ.Opt.c199_model",
    "EQ.Opt.c199_units_violated"
   ],
   "note": "Holds if the predicted decreases of all passes fall on the same side of the absolute threshold 100 eps in both units. Missing: this condition; c199_units_violated gives a run whose radius is halved in one unit and doubled in another. The outside calls enter through the contract that they follow the units; c199_model derives it for the fitted models of the trust-region method from the same contract of the minimiser."
  },
  {
   "property": "C200",
   "status": "proved",
   "theorems": [
    "EQ.Opt.c200_constant"
   ],
   "note": "The outside calls (directions of a linear fit, variable projection, correlations, minimisers) enter through the contract that they follow a constant added to the values."
  },
  {
   "property": "C201",
   "status": "proved",
   "theorems": [
    "EQ.Stats.c201_rate"
   ],
   "note": "Exact arithmetic; the rule of a parameter enters through the contract of the eigenvalue routine (Valid)."
  },
  {
   "property": "C202",
   "status": "proved",
   "theorems": [
    "EQ.Stats.c202_smooth"
   ],
   "note": "As C201. Basis names univariate, tensor-grid and tensor."
  },
  {
   "property": "C203",
   "status": "proved",
   "theorems": [
    "EQ.Poly.c203_units",
    "EQ.Poly.c203_order"
   ],
   "note": "The solver enters through its contract (it minimises the weighted sum of squares); the Cholesky routine as in C126; units need the constants among the polynomials."
  },
  {
   "property": "C204",
   "status": "proved",
   "theorems": [
    "EQ.Solver.c204_selection",
    "EQ.Solver.c204_zero",
    "EQ.Solver.c204_path",
    "EQ.Solver.c204_stable"
   ],
   "note": "The convex solver is a parameter that minimises the objective it is given, as in C84."
  },
  {
   "property": "C205",
   "status": "proved",
   "theorems": [
    "EQ.Solver.c205_huber",
    "EQ.Solver.c205_absolute"
   ],
   "note": "The convex solver is a parameter with its contract, as in C48 and C83; cvxpy installed."
  },
  {
   "property": "C206",
   "status": "proved",
   "theorems": [
    "EQ.Stats.c206_combination",
    "EQ.Stats.c206_error",
    "EQ.Stats.c206_degree"
   ],
   "note": "The single point of a rule of order zero is assumed to lie in the range of its parameter: it is the midpoint if both bounds are given and not zero, and the stored mean otherwise (C15). Exact arithmetic."
  },
  {
   "property": "C207",
   "status": "proved",
   "theorems": [
    "EQ.Stats.c207_models",
    "EQ.Stats.c207_laws"
   ],
   "note": "Expansions without Gram-Schmidt correction; lstsq is a parameter with its contract, as in C31. Exact arithmetic: in floating point the laws decide the conditioning of the system."
  },
  {
   "property": "C208",
   "status": "proved",
   "theorems": [
    "EQ.Stats.c208_noise",
    "EQ.Stats.c208_constant"
   ],
   "note": "Level at least one, so that there are two coefficients. Exact arithmetic."
  },
  {
   "property": "C209",
   "status": "proved",
   "theorems": [
    "EQ.Stats.c209_bound",
    "EQ.Stats.c209_convergence"
   ],
   "note": "As in C206 the single point of a rule of order zero is assumed to lie in the range of its parameter."
  },
  {
   "property": "C210",
   "status": "partial",
   "theorems": [
    "EQ.Poly.c210_determined_partial",
    "EQ.Poly.c210_lu_violated",
    "EQ.Poly.c210_svd_violated"
   ],
   "note": "Holds for qr, and for lu if the permutation is its own inverse. Missing: lu with other permutations and svd, where four points that determine the planes are reduced to three points on a line. The factorisations enter through their contracts (PivotedQR, PivotedLU, Svd)."
  },
  {
   "property": "C211",
   "status": "proved",
   "theorems": [
    "EQ.Poly.c211_volume",
    "EQ.Poly.c211_growth",
    "EQ.Poly.c211_fit"
   ],
   "note": "The factorisation enters through its contract PivotedQR. c211_growth also covers more points kept than basis terms."
  },
  {
   "property": "C212",
   "status": "proved",
   "theorems": [
    "EQ.Poly.c212_unbiased",
    "EQ.Poly.c212_best",
    "EQ.Poly.c212_total",
    "EQ.Poly.c212_estimate"
   ],
   "note": "np.linalg.lstsq enters through its contract (LsqFit). The disturbances are random variables on an arbitrary probability space; exists_noise shows they exist for all weights and variances."
  },
  {
   "property": "C213",
   "status": "proved",
   "theorems": [
    "EQ.Stats.c213_error",
    "EQ.Stats.c213_inputs"
   ],
   "note": "c213_error is the case of one input with the univariate or tensor-grid index set; c213_inputs has any number of inputs."
  },
  {
   "property": "C214",
   "status": "proved",
   "theorems": [
    "EQ.Stats.c214_any",
    "EQ.Stats.c214_grid"
   ],
   "note": "c214_any holds for every fitting method; c214_grid is numerical integration on a tensor grid. The indices are those of the shares of variance explained by sets of inputs, as in C162 and C179."
  },
  {
   "property": "C215",
   "status": "partial",
   "theorems": [
    "EQ.Solver.c215_rotation",
    "EQ.Solver.c215_order",
    "EQ.Solver.c215_sign",
    "EQ.Solver.c215_units_partial",
    "EQ.Solver.c215_passes",
    "EQ.Solver.c215_units_violated"
   ],
   "note": "Order and sign hold. Units: the coefficients after a given number of passes follow the units, but the number of passes does not; c215_units_violated is a system with two samples for which the outputs (2, 1) and (20, 10) get four and three passes. np.linalg.inv enters through InvContract."
  },
  {
   "property": "C216",
   "status": "partial",
   "theorems": [
    "EQ.Polynet.c216_rate_partial",
    "EQ.Polynet.c216_layers",
    "EQ.Polynet.c216_fixed",
    "EQ.Polynet.c216_layers_violated"
   ],
   "note": "Holds for one layer. With L layers the rule is applied L times in each pass, so the factor is raised to the power L and successive layers of a pass use different rates."
  },
  {
   "property": "C217",
   "status": "partial",
   "theorems": [
    "EQ.Opt.c217_radius_partial",
    "EQ.Opt.c217_omorf_partial",
    "EQ.Opt.c217_tiny_violated",
    "EQ.Opt.c217_rise_violated"
   ],
   "note": "Holds for predictions of at least 100 eps. A smaller one counts as fulfilled and the radius grows although the function may have risen. Both methods."
  },
  {
   "property": "C218",
   "status": "partial",
   "theorems": [
    "EQ.Opt.c218_trust",
    "EQ.Opt.c218_omorf_partial",
    "EQ.Opt.c218_factor_violated"
   ],
   "note": "Holds for trust-region; omorf halves the radius instead of using gam_dec."
  },
  {
   "property": "C219",
   "status": "partial",
   "theorems": [
    "EQ.Dist.c219_description_partial",
    "EQ.Dist.c219_truncated_violated",
    "EQ.Dist.c219_support_violated"
   ],
   "note": "Descriptions identify every law but the truncated Gaussian, whose text reports the mean and variance after the truncation; the support named for Beta and Chebyshev laws is not that of the law."
  },
  {
   "property": "C220",
   "status": "proved",
   "theorems": [
    "EQ.Solver.L1.c220_slope",
    "EQ.Solver.L1.c220_newton",
    "EQ.Solver.L1.c220_search",
    "EQ.Solver.L1.c220_reach",
    "EQ.Solver.L1.c220_descent",
    "EQ.Solver.L1.c220_gap",
    "EQ.Solver.c220_result"
   ],
   "note": "np.linalg.solve is a parameter that solves invertible systems. Not claimed: that 50 Newton iterations and 32 halvings suffice."
  },
  {
   "property": "C221",
   "status": "proved",
   "theorems": [
    "EQ.Sampling.Newton.c221_newton"
   ],
   "note": "The Cholesky factorisation and the two triangular least squares solves are the exact solution of the system with the Hessian."
  },
  {
   "property": "C222",
   "status": "partial",
   "theorems": [
    "EQ.Solver.c222_fold_partial",
    "EQ.Solver.c222_default",
    "EQ.Solver.c222_fold_violated"
   ],
   "note": "The mean deviation of a fold is divided once more by the number of rows of the fold, so that a smaller last fold counts more."
  },
  {
   "property": "C223",
   "status": "proved",
   "theorems": [
    "EQ.Tree.c223_depth",
    "EQ.Tree.c223_error"
   ],
   "note": "The polynomial fits are an arbitrary function of the samples of a node."
  },
  {
   "property": "C224",
   "status": "proved",
   "theorems": [
    "EQ.Tree.c224_again"
   ],
   "note": "For every tree, fitted or not, and whatever the polynomials."
  },
  {
   "property": "C225",
   "status": "proved",
   "theorems": [
    "EQ.Tree.c225_weights",
    "EQ.Tree.c225_limit"
   ],
   "note": "For a tree whose fits on the way to the leaf succeeded (otherwise C53 gives the exception); min_samples_leaf not 0."
  },
  {
   "property": "C226",
   "status": "proved",
   "theorems": [
    "EQ.Polynet.c226_turn"
   ],
   "note": "For every basis of polynomials and their stated derivatives; at least one layer."
  },
  {
   "property": "C227",
   "status": "partial",
   "theorems": [
    "EQ.Polynet.c227_numbering_partial",
    "EQ.Polynet.c227_equal_ridges",
    "EQ.Polynet.c227_numbering_violated"
   ],
   "note": "Holds for networks of one layer. With two layers the hidden ridges are passed through the polynomials of the second layer, which are numbered like the ridges of that layer."
  },
  {
   "property": "C228",
   "status": "proved",
   "theorems": [
    "EQ.Poly.c228_influence",
    "EQ.Poly.c228_left_out"
   ],
   "note": "The sample is the first in the list; by C170 the order does not matter. Parameters that are not correlated."
  },
  {
   "property": "C229",
   "status": "proved",
   "theorems": [
    "EQ.Param.c229_jacobi",
    "EQ.Param.c229_sampled",
    "EQ.Param.c229_classical"
   ],
   "note": "Rows up to the order are meant; for order 0 the sampled laws return one more row, which is not filled (shown in an example). This also justifies that the model of Poly reads one table per parameter."
  },
  {
   "property": "C230",
   "status": "proved",
   "theorems": [
    "EQ.Poly.c230_size",
    "EQ.Poly.c230_estimated"
   ],
   "note": "The Cholesky factorisation is assumed for positive definite matrices only. Complements C126."
  },
  {
   "property": "C231",
   "status": "partial",
   "theorems": [
    "EQ.Tree.c231_constructor",
    "EQ.Tree.c231_names",
    "EQ.Tree.c231_selected",
    "EQ.Tree.c231_failed_fit_partial",
    "EQ.Tree.c231_failed_fit_violated"
   ],
   "note": "The constructor and the names are as claimed, and a failing fit keeps the old tree and all other arguments; but it has already multiplied the smoothing constant."
  },
  {
   "property": "C232",
   "status": "proved",
   "theorems": [
    "EQ.Poly.c232_weight",
    "EQ.Poly.c232_repeated",
    "EQ.Poly.c232_added"
   ],
   "note": "The sample is the first in the list; by C170 the order does not matter. Also for correlated parameters. The weights of a user-defined mesh are equal; by C184 a common factor does not matter."
  },
  {
   "property": "C233",
   "status": "proved",
   "theorems": [
    "EQ.Tree.c233_tree",
    "EQ.Tree.c233_aware"
   ],
   "note": "Total-order bases, least squares. Pruning with the smoothing constant 0 may give nan instead, as no sample is left in a node (C56)."
  },
  {
   "property": "C234",
   "status": "partial",
   "theorems": [
    "EQ.Sub.c234_active_partial",
    "EQ.Sub.c234_projection_partial",
    "EQ.Sub.c234_names_violated"
   ],
   "note": "The documented names do what they name; no other name is refused, nor is variable-projection recognised with capital letters."
  },
  {
   "property": "C235",
   "status": "proved",
   "theorems": [
    "EQ.Data.c235_units",
    "EQ.Data.c235_rows",
    "EQ.Data.c235_spacing",
    "EQ.Data.c235_back"
   ],
   "note": "Arrays of floating-point type; for arrays of integers see C69."
  },
  {
   "property": "C236",
   "status": "proved",
   "theorems": [
    "EQ.Solver.c236_huber",
    "EQ.Solver.c236_absolute",
    "EQ.Solver.c236_elastic"
   ],
   "note": "Where minimisers are not unique the transformed coefficients are one of the new minimisers and the losses agree. Elastic net with alpha below 1; the optimisers by their contracts as in C48, C83, C84."
  },
  {
   "property": "C237",
   "status": "proved",
   "theorems": [
    "EQ.Solver.c237_superposition",
    "EQ.Solver.c237_recovery",
    "EQ.Solver.c237_order",
    "EQ.Solver.c237_weights"
   ],
   "note": "lstsq and qr by their contracts as in C43; the reordered or reweighted matrix may have any complete factorisation."
  },
  {
   "property": "C238",
   "status": "proved",
   "theorems": [
    "EQ.Data.c238_rows",
    "EQ.Data.c238_outputs",
    "EQ.Data.c238_fraction"
   ],
   "note": "Fractions not below zero; that the generator draws the same permutation for the same seed and number of rows is the contract of numpy."
  },
  {
   "property": "C239",
   "status": "proved",
   "theorems": [
    "EQ.Solver.c239_huber",
    "EQ.Solver.c239_absolute"
   ],
   "note": "The optimisers by their contracts as in C48 and C83."
  },
  {
   "property": "C240",
   "status": "proved",
   "theorems": [
    "EQ.Data.c240_errors",
    "EQ.Data.c240_stable",
    "EQ.Data.c240_parts",
    "EQ.Data.c240_exchanged"
   ],
   "note": "Exact arithmetic; the correlation coefficient of scipy as in C100."
  },
  {
   "property": "C241",
   "status": "proved",
   "theorems": [
    "EQ.Sub.c241_combined",
    "EQ.Sub.c241_units",
    "EQ.Sub.c241_unweighted"
   ],
   "note": "sqrtm by its contract as in C97; eigh is any function of the matrix. The gradients of combined outputs are the combined gradients (C157, C177)."
  },
  {
   "property": "C242",
   "status": "proved",
   "theorems": [
    "EQ.Solver.c242_similar",
    "EQ.Solver.c242_equal"
   ],
   "note": "The optimiser by its contract as in C84 and C204."
  },
  {
   "property": "C243",
   "status": "proved",
   "theorems": [
    "EQ.Solver.c243_columns",
    "EQ.Solver.c243_superposition"
   ],
   "note": "The pivoted factorisation by its contract as in C44."
  }
 ]
}
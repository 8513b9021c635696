{"id": "C01", "title": "Total-order index set is exactly the simplex", "statement": "Basis('total-order', orders=o).get_elements() lists exactly the multi-indices of length len(o) whose entries sum to at most max(o): each once, C(max(o)+d, d) rows, rows in non-decreasing total degree, the all-zero row first.", "quantifier": "every dimension d >= 1 and every non-empty list of non-negative orders", "why_tests_cant": "the number of (dimension, order) pairs is unbounded; unit tests compare a handful of literal tables", "anchors": ["equadratures/basis.py:Basis.set_orders", "equadratures/basis.py:total_order_basis", "equadratures/basis.py:getTotalOrderBasisRecursion"]}
{"id": "C02", "title": "Tensor-grid index set is exactly the box, in lexicographic order", "statement": "Basis('tensor-grid', orders=o).get_elements() lists exactly the multi-indices n with n_i <= o_i: each once, prod(o_i+1) rows, in lexicographic order with the last coordinate varying fastest, the all-zero row first.", "quantifier": "every list of non-negative orders", "why_tests_cant": "anisotropic order lists form an infinite family", "anchors": ["equadratures/basis.py:tensor_grid_basis", "equadratures/basis.py:Basis.set_orders"]}
{"id": "C03", "title": "Euclidean-degree index set", "statement": "Basis('euclidean-degree', orders=o) lists exactly the multi-indices inside the box n_i <= o_i whose squares sum to at most max(o)^2, each once, all-zero row first; on isotropic orders it contains the total-order set.", "quantifier": "every non-empty list of non-negative orders", "why_tests_cant": "unbounded family of dimensions and orders", "anchors": ["equadratures/basis.py:euclidean_degree_basis"]}
{"id": "C04", "title": "Hyperbolic-cross index set", "statement": "Basis('hyperbolic-basis', orders=o, q=q) is exactly the set of multi-indices with (sum n_i^q)^(1/q) <= max(o) among the total-order set; it is the total-order set when q = 1, it shrinks as q decreases in (0,1], and it always keeps every pure power n e_i with n <= max(o) and the zero index first.", "quantifier": "every dimension, every orders list, every real q in (0,1]", "why_tests_cant": "q is real-valued and the claim compares different runs", "anchors": ["equadratures/basis.py:hyperbolic_basis"]}
{"id": "C05", "title": "Every index set is downward closed", "statement": "For total-order, tensor-grid, euclidean-degree and hyperbolic bases, if a multi-index is in the set then so is every multi-index that is component-wise smaller (so the spanned polynomial space is closed under differentiation and is independent of the recurrence's lower terms).", "quantifier": "every basis type except sparse-grid, every orders list, every pair of multi-indices", "why_tests_cant": "quantifies over all pairs of rows of all index sets", "anchors": ["equadratures/basis.py:total_order_basis", "equadratures/basis.py:tensor_grid_basis", "equadratures/basis.py:euclidean_degree_basis", "equadratures/basis.py:hyperbolic_basis"]}
{"id": "C06", "title": "sort() only reorders rows and puts the constant first", "statement": "Basis.sort() returns a permutation of the rows (no multi-index lost, added or changed) in non-decreasing order of the sort key, and if the all-zero row is present it ends up first, so coefficient 0 stays the mean.", "quantifier": "every index set, every dimension, every tie-breaking order of the (unstable) argsort", "why_tests_cant": "numpy's argsort may break ties arbitrarily; all tie-breakings must be covered", "anchors": ["equadratures/basis.py:Basis.sort"]}
{"id": "C07", "title": "prune(k) removes exactly k rows and keeps the constant", "statement": "Basis.prune(k) with k at most the number of rows leaves exactly rows-k of the original multi-indices, all with sort key no larger than the removed ones; k larger than the number of rows is rejected and leaves the object's row set unchanged up to order; pruning repeatedly removes the sum of the requested amounts.", "quantifier": "every index set and every finite sequence of prune calls", "why_tests_cant": "a history property: successive prune calls interact through the stored cardinality", "anchors": ["equadratures/basis.py:Basis.prune", "equadratures/basis.py:Basis.sort", "equadratures/basis.py:Basis.get_cardinality"]}
{"id": "C08", "title": "Sparse-grid combination coefficients sum to one", "statement": "The weights returned by Basis('sparse-grid', level=l, growth_rule=g).get_basis() sum to 1 (so the combination technique reproduces constants), every returned tensor order has the level sum in [l, l+d-1], and each sign is (-1)^(l+d-1-sum).", "quantifier": "every level l >= 1 and every dimension d >= 1", "why_tests_cant": "a binomial identity over all d and l", "anchors": ["equadratures/basis.py:sparse_grid_basis"]}
{"id": "C09", "title": "get_basis agrees with the stored elements", "statement": "For every basis_type string accepted by the constructor, get_basis() succeeds and returns the same multi-indices the constructor stored.", "quantifier": "every basis_type string (including case variants and aliases) and every orders list", "why_tests_cant": "the set of accepted strings is infinite because the constructor lower-cases them", "anchors": ["equadratures/basis.py:Basis.set_orders", "equadratures/basis.py:Basis.get_basis"]}
{"id": "C10", "title": "Orthogonal polynomial recurrence gives degree-n polynomials", "statement": "Row n of the univariate evaluation used by Poly.get_poly is a polynomial of exact degree n in the point with leading coefficient prod 1/sqrt(b_k) > 0; row 0 is the constant 1.", "quantifier": "every sequence of recurrence coefficients with positive b_k, every order and every point", "why_tests_cant": "real inputs and unbounded order", "anchors": ["equadratures/parameter.py:Parameter._get_orthogonal_polynomial"]}
{"id": "C11", "title": "Derivative recurrences are the true derivatives", "statement": "The first- and second-derivative tables returned with the univariate polynomials are, row by row, the exact first and second derivatives of the evaluated polynomials.", "quantifier": "every recurrence sequence, every order, every real point", "why_tests_cant": "an analytic identity for all real points; finite differences in tests only approximate it", "anchors": ["equadratures/parameter.py:Parameter._get_orthogonal_polynomial", "equadratures/poly.py:Poly.get_poly_grad", "equadratures/poly.py:Poly.get_poly_hess"]}
{"id": "C12", "title": "Jacobi matrix is symmetric tridiagonal and carries the recurrence", "statement": "get_jacobi_matrix(n) is the n-by-n symmetric tridiagonal matrix with a_i on the diagonal and sqrt(b_i) beside it, and x p(x) = J p(x) + sqrt(b_n) p_n(x) e_n for the vector p of the first n orthogonal polynomials.", "quantifier": "every n >= 1, recurrence sequence and real x", "why_tests_cant": "unbounded matrix size", "anchors": ["equadratures/parameter.py:Parameter.get_jacobi_matrix", "equadratures/parameter.py:Parameter._get_orthogonal_polynomial"]}
{"id": "C13", "title": "Gauss weights are positive, sum to one and match their points", "statement": "Parameter._get_local_quadrature(order) returns order+1 points in increasing order, non-negative weights summing to the zeroth recurrence coefficient, and weight i belongs to point i although the code reverses the eigenvector columns twice.", "quantifier": "every symmetric eigendecomposition the linear-algebra routine may return, every order >= 1", "why_tests_cant": "depends on every admissible output of an external eigen-solver (signs, sizes)", "anchors": ["equadratures/parameter.py:get_local_quadrature", "equadratures/parameter.py:Parameter.get_jacobi_matrix"]}
{"id": "C14", "title": "Gauss quadrature is exact to degree 2n-1", "statement": "The n-point rule returned for a parameter makes the univariate polynomials p_0..p_{n-1} discretely orthonormal and integrates every polynomial of degree at most 2n-1 exactly with respect to the measure that defines the recurrence coefficients.", "quantifier": "every n, every recurrence with positive b_k and every polynomial of degree <= 2n-1", "why_tests_cant": "infinite-dimensional family of integrands and all orders", "anchors": ["equadratures/parameter.py:get_local_quadrature", "equadratures/sampling_methods/tensorgrid.py:Tensorgrid._set_points"]}
{"id": "C15", "title": "Single-point quadrature uses the mean", "statement": "An order-0 parameter's one-point rule places its point at the distribution's mean with weight 1, so it integrates linear functions exactly.", "quantifier": "every distribution, lower and upper bound", "why_tests_cant": "fails only for particular combinations of bounds and shape", "anchors": ["equadratures/parameter.py:get_local_quadrature"]}
{"id": "C16", "title": "Gauss-Radau and Gauss-Lobatto include the requested endpoints", "statement": "With endpoints='lower'/'upper'/'both', the modified Jacobi matrix has the requested endpoint(s) as eigenvalue(s), so the rule contains those points, and the rule stays exact to degree 2n-2 (Radau) and 2n-3 (Lobatto).", "quantifier": "every order, recurrence sequence and end points for which the modifying quotient is defined", "why_tests_cant": "all recurrences and orders; tests use one distribution", "anchors": ["equadratures/parameter.py:get_local_quadrature_radau", "equadratures/parameter.py:get_local_quadrature_lobatto"]}
{"id": "C17", "title": "Jacobi recurrence coefficients are well defined and positive", "statement": "For shape parameters a,b > -1 and lower < upper, jacobi_recurrence_coefficients never divides by zero for n >= 1 and returns b_n > 0 for every n, so every square root taken downstream is of a positive number.", "quantifier": "all real a,b > -1, all lower < upper, all n", "why_tests_cant": "real parameters, unbounded order; singular denominators at isolated values", "anchors": ["equadratures/distributions/recurrence_utils.py:jacobi_recurrence_coefficients"]}
{"id": "C18", "title": "Uniform parameters give Legendre polynomials orthonormal on [lower, upper]", "statement": "For distribution='uniform', the polynomials produced are orthonormal for the uniform probability measure on [lower, upper].", "quantifier": "every lower < upper, every pair of orders", "why_tests_cant": "integral identity for all orders", "anchors": ["equadratures/distributions/recurrence_utils.py:jacobi_recurrence_coefficients", "equadratures/distributions/uniform.py:Uniform.get_recurrence_coefficients", "equadratures/parameter.py:Parameter._get_orthogonal_polynomial"]}
{"id": "C19", "title": "Discretised (custom/analytical) recurrences are orthogonal for the sampled density", "statement": "custom_recurrence_coefficients(x, w, order) (used by Gaussian, truncated Gaussian, Weibull, ... and the Analytical distribution) yields polynomials orthonormal for the normalised discrete measure on the non-zero-weight samples, provided there are more distinct samples than the order.", "quantifier": "every finite sample set with positive weights, every order below the number of distinct samples", "why_tests_cant": "arbitrary sizes and real weights", "anchors": ["equadratures/distributions/recurrence_utils.py:custom_recurrence_coefficients", "equadratures/distributions/analytical.py:Analytical.get_recurrence_coefficients", "equadratures/distributions/template.py:Distribution.get_recurrence_coefficients"]}
{"id": "C20", "title": "Parameter moments agree with its recurrence", "statement": "A parameter's reported mean equals its zeroth recurrence coefficient a_0 and its reported variance equals b_1, i.e. reported moments and quadrature describe the same distribution on [lower, upper].", "quantifier": "every uniform, Chebyshev and beta parameter, all bounds and shapes", "why_tests_cant": "disagreement appears only off the default support", "anchors": ["equadratures/distributions/beta.py:Beta.__init__", "equadratures/distributions/uniform.py:Uniform.__init__", "equadratures/distributions/chebyshev.py:Chebyshev.__init__", "equadratures/distributions/recurrence_utils.py:jacobi_recurrence_coefficients"]}
{"id": "C21", "title": "Tensor-grid quadrature pairs every point with its product weight", "statement": "The tensor-grid mesh contains each combination of univariate points exactly once, its weight is the product of the univariate weights, the weights sum to 1, and a product function's quadrature sum factorises into univariate sums.", "quantifier": "every number of dimensions, all orders, all univariate rules", "why_tests_cant": "unbounded dimension", "anchors": ["equadratures/sampling_methods/tensorgrid.py:Tensorgrid._set_points"]}
{"id": "C22", "title": "Tensor-product basis is discretely orthonormal on the tensor grid", "statement": "On the tensor-grid mesh the multivariate basis functions are discretely orthonormal: sum_i w_i Psi_n(x_i) Psi_m(x_i) = [n = m], so the design matrix A = W P^T satisfies A^T A = I.", "quantifier": "all dimensions, orders and basis subsets of the tensor grid", "why_tests_cant": "unbounded dimension and order", "anchors": ["equadratures/sampling_methods/tensorgrid.py:Tensorgrid._set_points", "equadratures/poly.py:Poly.get_poly", "equadratures/poly.py:Poly._set_points_and_weights"]}
{"id": "C23", "title": "Sparse-grid mesh weights integrate constants", "statement": "The sparse-grid mesh returned by get_points_and_weights has weights that sum to 1 and lists each distinct point once with the total weight the combination technique assigns to it.", "quantifier": "every level, growth rule, dimension and univariate rule", "why_tests_cant": "needs points shared between tensor grids; tests only check sizes", "anchors": ["equadratures/sampling_methods/sparsegrid.py:Sparsegrid._set_points", "equadratures/basis.py:sparse_grid_basis"]}
{"id": "C24", "title": "Sample weights are positive and sum to one", "statement": "For Monte-Carlo, induced and user-defined meshes the returned weights are positive, sum to 1 and are inversely proportional to the sum of squares of the basis functions at the point.", "quantifier": "every sample set and basis containing the constant", "why_tests_cant": "all real sample sets", "anchors": ["equadratures/sampling_methods/sampling_template.py:Sampling._set_weights"]}
{"id": "C25", "title": "Subsampling returns distinct rows and renormalised weights", "statement": "Every subsampling algorithm returns exactly the requested number of distinct in-range rows of the tensor grid, and the retained weights are the original ones rescaled to sum to 1.", "quantifier": "every pivoting permutation returned by the factorisation, every sampling ratio", "why_tests_cant": "all permutations and ratios", "anchors": ["equadratures/subsampling.py:Subsampling", "equadratures/poly.py:Poly._set_points_and_weights"]}
{"id": "C26", "title": "LU subsampling keeps the pivot rows", "statement": "subsampling-algorithm 'lu' selects the rows that partial pivoting moved to the top of the factorisation.", "quantifier": "every row-permutation matrix the factorisation may return", "why_tests_cant": "involutive permutations hide the difference between a permutation and its inverse", "anchors": ["equadratures/subsampling.py:get_lu_row_pivoting"]}
{"id": "C27", "title": "Induced sampling depends on the random draws", "statement": "With mesh='induced' the mesh consists of the sampled points (one per row of the repeated index set), independently of whether the optional parallel backend is installed.", "quantifier": "every random stream and both installation states of the optional package", "why_tests_cant": "depends on the environment and on the random source", "anchors": ["equadratures/sampling_methods/induced.py:Induced"]}
{"id": "C28", "title": "get_poly evaluates products of univariate polynomials in basis order", "statement": "Row k of Poly.get_poly(X) at point x equals the product over dimensions of the univariate orthonormal polynomial of degree elements[k][i] at x_i, for every row and point, and the constant basis row is identically 1.", "quantifier": "all bases, dimensions, point sets", "why_tests_cant": "unbounded dimension and basis size", "anchors": ["equadratures/poly.py:Poly.get_poly"]}
{"id": "C29", "title": "Gradient and Hessian of the fit are exact", "statement": "Poly.get_polyfit_grad and get_polyfit_hess return the exact partial derivatives and second partial derivatives of the function evaluated by get_polyfit; the Hessian is symmetric; dim_index only zeroes the unrequested rows.", "quantifier": "all bases, coefficients, points and dimensions", "why_tests_cant": "analytic identity at every real point", "anchors": ["equadratures/poly.py:Poly.get_polyfit_grad", "equadratures/poly.py:Poly.get_poly_grad", "equadratures/poly.py:Poly.get_polyfit_hess", "equadratures/poly.py:Poly.get_poly_hess"]}
{"id": "C30", "title": "Numerical integration recovers polynomials exactly", "statement": "With method='numerical-integration' on a tensor-grid basis, if the model is a polynomial in the span of the basis then get_coefficients returns exactly its coefficients and get_polyfit reproduces the model at every point.", "quantifier": "every polynomial in the span, all dimensions and orders", "why_tests_cant": "infinite family of models and points", "anchors": ["equadratures/poly.py:Poly.set_model", "equadratures/poly.py:Poly._set_coefficients", "equadratures/solver.py:Solver.orthogonal_linear_system"]}
{"id": "C31", "title": "Least squares is optimal and recovers models in the span", "statement": "With method='least-squares' the coefficients minimise the weighted residual over all coefficient vectors; if the model lies in the span and the design matrix has full column rank the coefficients are recovered exactly.", "quantifier": "every sample set, weights and outputs", "why_tests_cant": "minimality over an infinite set", "anchors": ["equadratures/solver.py:Solver.least_squares", "equadratures/poly.py:Poly._set_coefficients"]}
{"id": "C32", "title": "Mean and variance of the expansion", "statement": "get_mean_and_variance returns the exact mean and variance, under the orthonormality measure, of the function evaluated by get_polyfit, for every coefficient vector (including a constant-only basis).", "quantifier": "all coefficients and bases with the constant first", "why_tests_cant": "all real coefficients; error branch at one coefficient", "anchors": ["equadratures/stats.py:Statistics.get_mean", "equadratures/stats.py:private_get_variance", "equadratures/poly.py:Poly.get_mean_and_variance"]}
{"id": "C33", "title": "Statistics always describe the current coefficients", "statement": "After any sequence of set_model / coefficient / parameter updates, the statistics queries answer for the coefficients currently returned by get_coefficients.", "quantifier": "every finite sequence of public operations", "why_tests_cant": "a history property of a lazily cached object", "anchors": ["equadratures/poly.py:Poly._set_statistics", "equadratures/poly.py:Poly.set_model", "equadratures/poly.py:Poly._set_coefficients", "equadratures/poly.py:Poly._set_parameters"]}
{"id": "C34", "title": "NaN outputs are dropped together with their inputs", "statement": "If some model evaluations are NaN, set_model refits on exactly the pairs whose output is not NaN, keeping input/output pairing and order, and the refit system has at least as many rows as basis terms.", "quantifier": "every pattern of NaNs", "why_tests_cant": "exponentially many NaN patterns", "anchors": ["equadratures/poly.py:Poly._set_coefficients", "equadratures/basis.py:Basis.prune"]}
{"id": "C35", "title": "Gradient stacking keeps row pairing", "statement": "For least-squares-with-gradients the stacked derivative matrix and the stacked gradient data use the same (dimension-major) row order and the same square-root weights, so a model in the span with consistent gradients gives zero residual.", "quantifier": "all dimensions, sample counts and bases", "why_tests_cant": "index bookkeeping for all sizes", "anchors": ["equadratures/poly.py:cell2matrix", "equadratures/poly.py:Poly.set_model", "equadratures/poly.py:Poly.get_poly_grad"]}
{"id": "C36", "title": "vector_to_2D_grid places every coefficient at its index", "statement": "vector_to_2D_grid puts coefficient k at cell (i_k, j_k) of the grid, leaves every other cell NaN, and loses nothing when the indices are distinct.", "quantifier": "every 2-D index set", "why_tests_cant": "all sizes", "anchors": ["equadratures/poly.py:vector_to_2D_grid"]}
{"id": "C37", "title": "Sobol' indices are non-negative and sum to one", "statement": "Over all orders up to the dimension, the Sobol' indices are non-negative, defined for every non-empty subset of inputs, and sum to 1 whenever the variance is non-zero.", "quantifier": "every basis, coefficient vector and dimension >= 2", "why_tests_cant": "all subsets of all dimensions", "anchors": ["equadratures/stats.py:private_get_all_sobol_indices", "equadratures/stats.py:Statistics.get_sobol"]}
{"id": "C38", "title": "Total Sobol' indices", "statement": "The total index of input i equals the sum of all Sobol' indices of subsets containing i; it lies between the first-order index and 1, and is 0 when no basis term with non-zero coefficient involves i.", "quantifier": "every basis, coefficient vector and dimension >= 2", "why_tests_cant": "all subsets", "anchors": ["equadratures/stats.py:Statistics.get_sobol_total"]}
{"id": "C39", "title": "Sobol queries on one-dimensional and constant expansions", "statement": "Sobol and variance queries on one-dimensional expansions and on expansions with a single coefficient return a value rather than failing.", "quantifier": "every one-dimensional or single-coefficient expansion", "why_tests_cant": "corner case of all inputs", "anchors": ["equadratures/stats.py:private_get_all_sobol_indices", "equadratures/stats.py:private_get_variance", "equadratures/stats.py:Statistics.get_sobol"]}
{"id": "C40", "title": "Skewness and kurtosis are the standardised central moments", "statement": "get_skewness_and_kurtosis returns the third and fourth standardised central moments of the fit under the supplied quadrature and is invariant under adding a constant to the model and under positive scaling.", "quantifier": "all coefficients and quadratures", "why_tests_cant": "invariance over all shifts and scalings", "anchors": ["equadratures/stats.py:private_get_skewness", "equadratures/stats.py:private_get_kurtosis"]}
{"id": "C41", "title": "Conditional skewness indices decompose the skewness", "statement": "Summed over all subsets of inputs, the conditional skewness indices equal 1 (each triple of basis terms is counted once with the right multiplicity and attributed to the union of its supports).", "quantifier": "every basis, coefficients and an exact product quadrature", "why_tests_cant": "all triples of basis terms", "anchors": ["equadratures/stats.py:private_get_conditional_skewness", "equadratures/stats.py:delta_p_qr", "equadratures/stats.py:delta_pqr"]}
{"id": "C42", "title": "Conditional kurtosis indices decompose the kurtosis", "statement": "Summed over all subsets of inputs, the conditional kurtosis indices equal 1.", "quantifier": "every basis, coefficients and an exact product quadrature", "why_tests_cant": "all quadruples of basis terms", "anchors": ["equadratures/stats.py:private_get_conditional_kurtosis", "equadratures/stats.py:delta_pqrs"]}
{"id": "C43", "title": "Null-space solver satisfies the constraints exactly and optimally", "statement": "The null-space method returns x with C x = d exactly, and among all such x it minimises ||A x - b||.", "quantifier": "every C with full row rank, every A, b, d", "why_tests_cant": "minimality over an affine subspace", "anchors": ["equadratures/solver.py:null_space_method", "equadratures/solver.py:Solver.constrained_least_squares"]}
{"id": "C44", "title": "Minimum-norm method returns the minimum-norm solution", "statement": "method='minimum-norm' returns a solution of A x = b whose Euclidean norm is minimal among all solutions.", "quantifier": "every full-row-rank A and every b", "why_tests_cant": "minimality over an affine subspace; a square test matrix hides the difference", "anchors": ["equadratures/solver.py:Solver.minimum_norm"]}
{"id": "C45", "title": "Cross-validation folds partition the data", "statement": "The folds used by compressed sensing to choose the noise level are disjoint, cover all rows, and each training set is the complement of its validation set.", "quantifier": "every number of rows", "why_tests_cant": "all N including those not divisible by 5", "anchors": ["equadratures/solver.py:Solver.basis_pursuit_denoising"]}
{"id": "C46", "title": "Cross-validation errors are per noise level", "statement": "The mean error recorded for each candidate noise level is the mean of that level's own fold errors.", "quantifier": "every list of candidate levels and fold errors", "why_tests_cant": "history property of an accumulator", "anchors": ["equadratures/solver.py:Solver.basis_pursuit_denoising"]}
{"id": "C47", "title": "Conjugate gradient returns its best iterate", "statement": "_CG_solve returns an iterate whose relative residual is the smallest among those visited, maintains r = b - A x, and on a positive definite system of size n reaches zero residual within n steps.", "quantifier": "every symmetric positive definite system and right-hand side", "why_tests_cant": "all sizes and matrices", "anchors": ["equadratures/solver.py:_CG_solve"]}
{"id": "C48", "title": "Least absolute residual minimises over all coefficients", "statement": "method='least-absolute-residual' returns coefficients minimising the sum of absolute residuals over all real coefficient vectors.", "quantifier": "every A and b", "why_tests_cant": "needs optimal solutions with negative entries", "anchors": ["equadratures/solver.py:Solver.least_absolute_residual"]}
{"id": "C49", "title": "Relevance vector machine bookkeeping", "statement": "Throughout the relevance-vector-machine loop the kept and removed column indices partition the original columns, and a coefficient returned non-zero belongs to a kept column.", "quantifier": "every sequence of pruning decisions", "why_tests_cant": "history property over all pruning sequences", "anchors": ["equadratures/solver.py:Solver.rvm"]}
{"id": "C50", "title": "Solver and method dispatch", "statement": "Every method string accepted by Poly is accepted by the solver regardless of letter case, and unknown strings are rejected with ValueError before any computation.", "quantifier": "every method string", "why_tests_cant": "infinite set of strings and case variants", "anchors": ["equadratures/solver.py:Solver.__init__", "equadratures/poly.py:Poly.__init__"]}
{"id": "C51", "title": "Splits partition the samples", "statement": "Every split sends each sample to exactly one child, keeps X and y rows paired and in order, and the leaves' sample counts add up to the number of training samples.", "quantifier": "every dataset, split feature and threshold, every tree", "why_tests_cant": "all datasets and trees", "anchors": ["equadratures/polytree.py:PolyTree._split_data", "equadratures/polytree.py:PolyTree.fit"]}
{"id": "C52", "title": "Tree shape limits", "statement": "A fitted tree's depth never exceeds max_depth, each leaf created by a split has at least min_samples_leaf samples, and the number of leaves is one more than the number of splits reported by get_splits.", "quantifier": "every dataset, hyper-parameters and split-search outcome", "why_tests_cant": "all trees", "anchors": ["equadratures/polytree.py:PolyTree.fit", "equadratures/polytree.py:PolyTree.get_splits", "equadratures/polytree.py:PolyTree.get_polys"]}
{"id": "C53", "title": "Prediction follows the training route and is a convex blend", "statement": "predict sends each test point to the leaf whose region contains it (a training point reaches the leaf that was fitted with it), and with smoothing the prediction is a convex combination of the polynomials on the root-to-leaf path; with smoothing constant 0 it is exactly the leaf's value.", "quantifier": "every tree, point and smoothing constant >= 0", "why_tests_cant": "all trees and points", "anchors": ["equadratures/polytree.py:PolyTree.predict"]}
{"id": "C54", "title": "Refitting a tree is idempotent", "statement": "Calling fit twice with the same data gives the same tree and the same predictions as calling it once.", "quantifier": "every dataset and every number of fit calls", "why_tests_cant": "history property of mutable hyper-parameters", "anchors": ["equadratures/polytree.py:PolyTree.fit"]}
{"id": "C55", "title": "Model-agnostic splits reduce the spread", "statement": "With search 'model_agnostic' the chosen split is the one that reduces the weighted standard deviation the most.", "quantifier": "every dataset", "why_tests_cant": "extremality over all candidate splits", "anchors": ["equadratures/polytree.py:PolyTree.fit"]}
{"id": "C56", "title": "Pruning only collapses subtrees and never raises the test error", "statement": "prune replaces internal nodes below the root by leaves carrying the node's own polynomial, never changes the root, the routing of points or surviving polynomials, and each collapse does not increase the recorded test loss.", "quantifier": "every tree and validation set", "why_tests_cant": "all trees and validation sets", "anchors": ["equadratures/polytree.py:PolyTree.prune"]}
{"id": "C57", "title": "Black-box evaluations are recorded once and stay paired", "statement": "During trust-region optimisation each distinct point is evaluated at most once, the stored points and values stay paired, and the reported number of evaluations equals the number of stored points.", "quantifier": "every sequence of evaluation requests", "why_tests_cant": "history property", "anchors": ["equadratures/optimisation.py:Optimisation._blackbox_evaluation"]}
{"id": "C58", "title": "The incumbent is the best point seen and never worsens", "statement": "The reported optimum value is the minimum over all evaluated points and the incumbent value is non-increasing over the run.", "quantifier": "every run and objective", "why_tests_cant": "all runs", "anchors": ["equadratures/optimisation.py:Optimisation._set_iterate", "equadratures/optimisation.py:Optimisation._trust_region"]}
{"id": "C59", "title": "Bounds are never violated", "statement": "When bounds are given, every trial point generated for sampling stays inside the bounds, and scaling to the unit box and back is the identity.", "quantifier": "all bounds, centres, radii and random directions", "why_tests_cant": "all real inputs and random directions", "anchors": ["equadratures/optimisation.py:Optimisation._generate_set", "equadratures/optimisation.py:Optimisation._update_bounds", "equadratures/optimisation.py:Optimisation._apply_scaling", "equadratures/optimisation.py:Optimisation._remove_scaling", "equadratures/optimisation.py:Optimisation._get_scale"]}
{"id": "C60", "title": "Trust-region radius schedule", "statement": "The resolution rho never increases, never drops below rho_min, reaches rho_min after finitely many reductions, and the radius never falls below rho.", "quantifier": "all parameter settings and accept/reject histories", "why_tests_cant": "all histories", "anchors": ["equadratures/optimisation.py:Optimisation._update_geometry_trust_region", "equadratures/optimisation.py:Optimisation._trust_region"]}
{"id": "C61", "title": "Evaluation budget is respected", "statement": "The number of objective evaluations never exceeds max_evals.", "quantifier": "all runs", "why_tests_cant": "depends on where in the loop the budget is exhausted", "anchors": ["equadratures/optimisation.py:Optimisation._trust_region", "equadratures/optimisation.py:Optimisation._omorf", "equadratures/optimisation.py:Optimisation._blackbox_evaluation"]}
{"id": "C62", "title": "Maximisation is minimisation of the negative", "statement": "optimise with maximise=True returns the true (unnegated) maximum value, and adding an objective with maximise=True and an objective f is equivalent to minimising -f.", "quantifier": "all objectives", "why_tests_cant": "all objectives", "anchors": ["equadratures/optimisation.py:Optimisation.add_objective", "equadratures/optimisation.py:Optimisation.optimise"]}
{"id": "C63", "title": "Linear constraints are all passed on", "statement": "add_linear_ineq_con enforces every finite component of b_l <= A x <= b_u for each solver choice; only infinite components are dropped.", "quantifier": "every A, b_l, b_u including infinite entries", "why_tests_cant": "mixed finite and infinite entries", "anchors": ["equadratures/optimisation.py:Optimisation.add_linear_ineq_con", "equadratures/optimisation.py:Optimisation.add_bounds"]}
{"id": "C64", "title": "Coordinate sampling directions enumerate each direction once", "statement": "The coordinate-direction generator yields, for any requested number, distinct directions: plus and minus each coordinate first and then the pairs, each unordered pair once.", "quantifier": "all dimensions and counts up to (n+1)(n+2)/2", "why_tests_cant": "all dimensions", "anchors": ["equadratures/optimisation.py:Optimisation._coordinate_directions"]}
{"id": "C65", "title": "One-dimensional zonotope bounds are exact", "statement": "For a one-dimensional projection W, the zonotope end points returned are exactly the minimum and maximum of W^T x over the box [-1,1]^m.", "quantifier": "every m and every W", "why_tests_cant": "extremality over the cube", "anchors": ["equadratures/subspaces.py:Subspaces.get_zonotope_vertices"]}
{"id": "C66", "title": "Zonotope linear inequalities describe the zonotope", "statement": "get_linear_inequalities returns A, b such that a reduced coordinate y satisfies A y <= b if and only if y is the projection of some point of the box.", "quantifier": "every one-dimensional W and every y", "why_tests_cant": "all reduced points", "anchors": ["equadratures/subspaces.py:Subspaces.get_linear_inequalities"]}
{"id": "C67", "title": "Hit-and-run samples keep the active coordinates and stay in the box", "statement": "Every sample returned by get_samples_constraining_active_coordinates projects to the requested active coordinates and stays in [-1,1]^m, for every number of steps.", "quantifier": "all random streams, all step counts, all feasible starting points", "why_tests_cant": "all random streams", "anchors": ["equadratures/subspaces.py:Subspaces.get_samples_constraining_active_coordinates"]}
{"id": "C68", "title": "Train/test split is a partition", "statement": "train_test_split returns disjoint train and test sets that together contain every sample once, with X and y rows paired.", "quantifier": "every dataset, ratio and random permutation", "why_tests_cant": "all permutations", "anchors": ["equadratures/datasets.py:train_test_split"]}
{"id": "C69", "title": "Standardise and unstandardise are inverse and map to [-1,1]", "statement": "standardise maps every non-constant column into [-1,1] attaining both ends, and unstandardise undoes it exactly.", "quantifier": "every data matrix with non-constant columns", "why_tests_cant": "all real data", "anchors": ["equadratures/datasets.py:standardise", "equadratures/datasets.py:unstandardise"]}
{"id": "C70", "title": "Analytical-weight quadrature loop terminates", "statement": "The adaptive loop of Weight that increases the quadrature order stops after a bounded number of steps and either returns converged moments or raises.", "quantifier": "every integrand and support", "why_tests_cant": "termination over all integrands", "anchors": ["equadratures/weight.py:Weight._iterative_quadrature_computation"]}
{"id": "C71", "title": "Gram-Schmidt correction orthonormalises the correlated basis", "statement": "With method='gram-schmidt' the corrected basis functions are discretely orthonormal on the correlated samples and the first corrected function is the constant +1.", "quantifier": "every sample set of full column rank and every QR sign choice", "why_tests_cant": "all samples and sign conventions of the factorisation", "anchors": ["equadratures/correlations.py:Correlations.__init__", "equadratures/poly.py:Poly.get_poly"]}
{"id": "C72", "title": "Correlated samples have the prescribed fictive correlation", "statement": "Correlated normal samples X A^T have covariance R0 when X has identity covariance; R0 is symmetric with unit diagonal and zero wherever the requested correlation is zero.", "quantifier": "every correlation matrix and sample", "why_tests_cant": "all matrices", "anchors": ["equadratures/correlations.py:Correlations.__init__", "equadratures/correlations.py:Correlations.get_correlated_samples"]}
{"id": "C73", "title": "Network training uses the gradient of its loss", "statement": "Polynet.fit's update directions for weights and coefficients are (positive multiples of) the exact gradients of loss(), and every stored coefficient influences the output.", "quantifier": "every architecture, data set and parameter values", "why_tests_cant": "all real parameters", "anchors": ["equadratures/polynet.py:Polynet.update_delta", "equadratures/polynet.py:Polynet.gradient_Wk", "equadratures/polynet.py:Polynet.gradient_alphak", "equadratures/polynet.py:Polynet.evaluate_fit"]}
{"id": "C74", "title": "Sorting lists lower total degrees first", "statement": "After Basis.sort the multi-indices are listed in order of non-decreasing total degree, as its documentation says.", "quantifier": "every index set and every tie-breaking of the underlying argsort", "why_tests_cant": "all index sets", "anchors": ["equadratures/basis.py:Basis.sort"]}
{"id": "C75", "title": "Pruning keeps the index set downward closed", "statement": "Removing rows with prune from a downward closed index set leaves a downward closed index set.", "quantifier": "every downward closed index set, every amount, every tie-breaking", "why_tests_cant": "all index sets and amounts", "anchors": ["equadratures/basis.py:Basis.prune", "equadratures/basis.py:Basis.sort"]}
{"id": "C76", "title": "Beta parameters give polynomials orthonormal for the Beta law", "statement": "For distribution='beta' with accepted shapes, the polynomials produced are orthonormal for the Beta probability law with these shapes on [lower, upper]; shapes below one are rejected.", "quantifier": "every pair of shapes >= 1, every lower < upper, every pair of orders", "why_tests_cant": "an integral identity for all real shapes and all orders", "anchors": ["equadratures/distributions/recurrence_utils.py:jacobi_recurrence_coefficients", "equadratures/distributions/beta.py:Beta.get_recurrence_coefficients", "equadratures/parameter.py:Parameter._get_orthogonal_polynomial"]}
{"id": "C77", "title": "Chebyshev parameters give polynomials orthonormal for the arcsine law", "statement": "For distribution='chebyshev', the polynomials produced are orthonormal for the arcsine law on [lower, upper].", "quantifier": "every lower < upper, every pair of orders", "why_tests_cant": "an improper integral identity for all orders", "anchors": ["equadratures/distributions/recurrence_utils.py:jacobi_recurrence_coefficients", "equadratures/distributions/chebyshev.py:Chebyshev.get_recurrence_coefficients", "equadratures/parameter.py:Parameter._get_orthogonal_polynomial"]}
{"id": "C78", "title": "Quadrature points lie strictly inside the bounds", "statement": "Every Gauss point of a uniform, beta or Chebyshev parameter lies strictly between lower and upper, so the model is never evaluated outside its domain.", "quantifier": "every order, all shapes and bounds, every admissible eigen-solver output", "why_tests_cant": "all orders and real shapes; a violation would be a rare out-of-domain evaluation", "anchors": ["equadratures/parameter.py:get_local_quadrature", "equadratures/parameter.py:Parameter.get_jacobi_matrix"]}
{"id": "C79", "title": "Supplied gradients are the ones fitted", "statement": "With method='least-squares-with-gradients' every set_model call fits the values it is asked to fit together with the gradients supplied for them (as argument, or as sample-gradients at construction), whatever calls came before.", "quantifier": "every history of set_model calls with or without arguments", "why_tests_cant": "the effect depends on the call history", "anchors": ["equadratures/poly.py:Poly.set_model", "equadratures/poly.py:Poly._set_coefficients"]}
{"id": "C80", "title": "Every documented method and basis type yields a mesh", "statement": "Constructing Poly with a documented method succeeds in choosing a mesh for every basis type; the mesh argument and sample points override the default; unknown meshes are rejected.", "quantifier": "every method, basis type and mesh string", "why_tests_cant": "infinite set of strings and combinations", "anchors": ["equadratures/poly.py:Poly.__init__", "equadratures/quadrature.py:Quadrature.__init__"]}
{"id": "C81", "title": "The constant basis function comes first", "statement": "Whatever the basis type, the first multi-index of a basis is the zero multi-index (so the first coefficient is the mean), all multi-indices have the same length, and this stays true after any sequence of sort and prune calls that leaves at least one row.", "quantifier": "every basis type and orders, every level and growth rule, every sequence of sort/prune calls, every tie-breaking of argsort", "why_tests_cant": "Tests look at a few bases; the mean of every fit depends on this for all of them.", "anchors": ["equadratures/basis.py:Basis.set_orders", "equadratures/basis.py:Basis.sort", "equadratures/basis.py:Basis.prune"]}
{"id": "C82", "title": "Reported skewness and kurtosis are those of the fitted model under the input law", "statement": "get_skewness_and_kurtosis returns the third and fourth standardised central moments of the fitted polynomial under the joint law of its inputs, whatever the degree of the fit.", "quantifier": "all input laws, index sets, orders and coefficients", "why_tests_cant": "Depends on the exactness degree of the quadrature for every polynomial degree; agreement for low orders says nothing about higher ones.", "anchors": ["equadratures/poly.py:Poly._set_statistics", "equadratures/stats.py:Statistics.get_skewness", "equadratures/stats.py:Statistics.get_kurtosis"]}
{"id": "C83", "title": "Huber regression minimises the Huber loss", "statement": "method='huber' returns coefficients minimising the Huber loss of the residuals with threshold param1 (default 1) over all coefficient vectors; verbosity does not matter.", "quantifier": "every A, b, threshold and verbosity", "why_tests_cant": "minimality over all real vectors", "anchors": ["equadratures/solver.py:huber"]}
{"id": "C84", "title": "Elastic-net regression minimises the documented objective", "statement": "method='elastic-net' returns coefficients minimising 0.5||Ax-b||^2 + lambda (alpha ||x||_1 + 0.5 (1-alpha) ||x||^2), with lambda and alpha defaulting to 1 and 0.5; alpha=0 is ridge regression, alpha=1 the lasso, lambda=0 ordinary least squares.", "quantifier": "every A, b, lambda >= 0 and alpha in [0,1]", "why_tests_cant": "minimality over all real vectors", "anchors": ["equadratures/solver.py:elastic_net"]}
{"id": "C85", "title": "Basis pursuit de-noising respects its noise level", "statement": "For every noise level eta > 0 the de-noising solver returns coefficients with ||A x - b|| < eta when A A^T is invertible, whatever the number of barrier and Newton iterations, and raises LinAlgError otherwise.", "quantifier": "every A, non-zero b, eta > 0 and every iteration count", "why_tests_cant": "an invariant of nested loops with a line search, over all real data", "anchors": ["equadratures/solver.py:_bp_denoise", "equadratures/solver.py:_l1qc_newton"]}
{"id": "C86", "title": "Compressed sensing returns the candidate with the smallest recorded error", "statement": "Compressed sensing returns the de-noising solution on all the data for the candidate noise level with the smallest recorded cross-validation error among those that do not fail; its residual is below that level; ValueError is raised exactly when every candidate fails.", "quantifier": "every A, data and list of candidates, every tie-breaking of argsort", "why_tests_cant": "all failure patterns and all real data", "anchors": ["equadratures/solver.py:Solver.basis_pursuit_denoising"]}
{"id": "C87", "title": "The relevance vector machine accepts the data supplied by set_model", "statement": "method='relevance-vector-machine' computes coefficients for model evaluations given as a vector or as the column that set_model forms from a callable.", "quantifier": "every number of rows and columns and every sequence of pruning decisions", "why_tests_cant": "array shapes change with the pruning history", "anchors": ["equadratures/solver.py:rvm", "equadratures/poly.py:Poly.set_model"]}
{"id": "C88", "title": "Model-aware splits never raise the training error", "statement": "With the model-aware criterion a node is split exactly when some admissible split has a smaller weighted loss than the node's own polynomial, the split made has the smallest weighted loss, and the training error of the fitted tree (the errors of the leaf polynomials on their own samples) is at most that of a single polynomial fitted to all the data.", "quantifier": "every data set, hyper-parameters and outcome of the polynomial fits", "why_tests_cant": "extremality over all candidate splits and induction over all trees", "anchors": ["equadratures/polytree.py:PolyTree.fit"]}
{"id": "C89", "title": "Logging does not change a fitted tree", "statement": "Fitting with logging=True gives the same tree as fitting with logging=False.", "quantifier": "every data set, criterion and hyper-parameters", "why_tests_cant": "all configurations and data sets", "anchors": ["equadratures/polytree.py:PolyTree.fit"]}
{"id": "C90", "title": "Interpolation sets kept by the trust-region method determine the model", "statement": "Every sample set returned by the pivoting procedure whose pivots all exceed the acceptance threshold determines a quadratic model uniquely (the interpolation matrix is nonsingular).", "quantifier": "every dimension, incumbent and set of stored points", "why_tests_cant": "nonsingularity for all real point sets; random tests never hit degenerate configurations", "anchors": ["equadratures/optimisation.py:Optimisation._LU_pivoting"]}
{"id": "C91", "title": "Repeated optimise calls on one object stay correct", "statement": "Calling optimise again on the same object, with other settings, another starting point or another objective, returns a point with its objective value, re-using only evaluations that are valid for the new call.", "quantifier": "every history of optimise calls", "why_tests_cant": "the effect depends on the call history", "anchors": ["equadratures/optimisation.py:Optimisation.optimise", "equadratures/optimisation.py:Optimisation._start", "equadratures/optimisation.py:Optimisation._finish"]}
{"id": "C92", "title": "Sample sets stay complete and paired", "statement": "At every pass of the trust-region method the interpolation set has exactly (n+1)(n+2)/2 points, each was evaluated, each is paired with its own value, and the incumbent is kept when the set is rebuilt.", "quantifier": "every run, objective, dimension and outcome of the model minimisations", "why_tests_cant": "invariant of a loop with data-dependent insertions and removals", "anchors": ["equadratures/optimisation.py:Optimisation._sample_set", "equadratures/optimisation.py:Optimisation._LU_pivoting", "equadratures/optimisation.py:Optimisation._remove_furthest_point", "equadratures/optimisation.py:Optimisation._remove_point_from_set"]}
{"id": "C93", "title": "Equality constraints are all passed on and refused by methods that cannot handle them", "statement": "add_linear_eq_con and add_nonlinear_eq_con restrict the problem to exactly the points satisfying the equality (for polynomials: g(x) = value), and raise for methods other than trust-constr and SLSQP.", "quantifier": "every method, matrix, right-hand side, function and polynomial", "why_tests_cant": "all methods and all real points", "anchors": ["equadratures/optimisation.py:Optimisation.add_linear_eq_con", "equadratures/optimisation.py:Optimisation.add_nonlinear_eq_con"]}
{"id": "C94", "title": "The number of function evaluations is reported", "statement": "The 'nfev' entry of the result of optimise is the number of evaluations of the objective, for every method.", "quantifier": "every method, objective and problem", "why_tests_cant": "all runs", "anchors": ["equadratures/optimisation.py:Optimisation.optimise"]}
{"id": "C95", "title": "Zonotope vertices are extreme projections, and complete unless the warning is printed", "statement": "For more than one active direction every point returned by get_zonotope_vertices is the projection of a point of the box and maximises some direction over the zonotope; the set is symmetric and without repetitions; and if the routine ends without its warning the convex hull of the points is the whole zonotope.", "quantifier": "every matrix, every stream of random directions and every limit on the number of passes", "why_tests_cant": "all random streams and all matrices; completeness is a counting argument about all sign patterns", "anchors": ["equadratures/subspaces.py:Subspaces.get_zonotope_vertices", "equadratures/subspaces.py:get_unique_rows"]}
{"id": "C96", "title": "Active subspace directions are the principal directions of the mean squared gradient", "statement": "With method 'active-subspace' the eigenvalues are non-negative and in descending order, the directions are orthonormal, eigenvalue k is the mean over the sample points of the squared derivative of the polynomial along direction k, the first k directions maximise the sum of these means among all k orthonormal directions, and a direction with zero eigenvalue is one along which the gradient vanishes at every sample point.", "quantifier": "every polynomial, sample set and dimension, and every choice the eigensolver makes", "why_tests_cant": "optimality over all sets of orthonormal directions", "anchors": ["equadratures/subspaces.py:Subspaces._get_active_subspace", "equadratures/subspaces.py:Subspaces.get_eigenvalues", "equadratures/subspaces.py:Subspaces.get_subspace"]}
{"id": "C97", "title": "Vector-valued active subspaces", "statement": "vector_AS returns eigenvalues in descending order and orthonormal directions; with weights R the eigenvalues are the mean over the samples of the R-weighted sum of squared directional derivatives of the outputs, so that for one output and R = 1 the result is that of the scalar method; it works with samples omitted.", "quantifier": "every list of polynomials, weight matrix and sample set", "why_tests_cant": "all inputs; compares two routines", "anchors": ["equadratures/subspaces.py:vector_AS", "equadratures/subspaces.py:jacobian_vec"]}
{"id": "C98", "title": "Distance between subspaces", "statement": "subspace_dist of two matrices with orthonormal columns is a metric on the subspaces they span: symmetric, satisfying the triangle inequality, zero exactly if the spans are equal, unchanged when either basis is rotated, and at most one when the dimensions agree.", "quantifier": "all pairs and triples of matrices with orthonormal columns", "why_tests_cant": "equalities over all bases of all subspaces", "anchors": ["equadratures/subspaces.py:subspace_dist"]}
{"id": "C99", "title": "Variable projection returns an orthonormal basis and never worsens the fit", "statement": "With method 'variable-projection' get_subspace returns a square orthogonal matrix whose first columns are the active directions; each iteration does not increase the residual; the returned directions are those of the last iterate.", "quantifier": "every data set, initial subspace and number of iterations", "why_tests_cant": "all histories of the line search", "anchors": ["equadratures/subspaces.py:Subspaces._get_variable_projection", "equadratures/subspaces.py:Subspaces.get_subspace"]}
{"id": "C100", "title": "A perfect score means perfect predictions", "statement": "score returns 0 for mean absolute error, mean squared error and normalised errors exactly if all predictions equal the outputs, and r2 = 1 exactly if they do; r2 is the fraction of variance explained, and the adjusted value is at most r2.", "quantifier": "every outputs, predictions and metric", "why_tests_cant": "an equivalence over all real vectors", "anchors": ["equadratures/datasets.py:score"]}
{"id": "C101", "title": "Splitting refuses inconsistent arguments", "statement": "train_test_split raises when the numbers of rows of X and y differ, and when the training fraction is outside (0,1).", "quantifier": "every data set and fraction", "why_tests_cant": "all argument combinations", "anchors": ["equadratures/datasets.py:train_test_split"]}
{"id": "C102", "title": "Weight densities are normalised", "statement": "A Weight built from a non-negative function on a bounded support evaluates to a non-negative function of integral one (as measured by its own quadrature), has a mean within the support and a non-negative variance, keeps moments that are given, and raises ValueError for an empty or unbounded support.", "quantifier": "every non-negative function, support and given moments", "why_tests_cant": "all functions; the loop of orders is data-dependent", "anchors": ["equadratures/weight.py:Weight", "equadratures/weight.py:Weight.get_pdf"]}
{"id": "C103", "title": "Correlated samples have the requested marginals", "statement": "Each column of the samples returned by get_correlated_samples for standard normal input is distributed as its own parameter, for every correlation matrix, and the joint law is the Gaussian copula with the fictive correlation matrix.", "quantifier": "every correlation matrix, number of parameters and marginal distributions", "why_tests_cant": "a statement about probability laws", "anchors": ["equadratures/correlations.py:Correlations.get_correlated_samples"]}
{"id": "C104", "title": "No correlation means independence", "statement": "If no correlation is requested, the fictive matrix and its factor are the identity, each sample column depends only on its own input column, and the joint density is the product of the marginal densities.", "quantifier": "every number of parameters and all marginal distributions", "why_tests_cant": "all distributions and samples", "anchors": ["equadratures/correlations.py:Correlations.__init__", "equadratures/correlations.py:Correlations.get_pdf"]}
{"id": "C105", "title": "The verbose flag of a network only prints", "statement": "Polynet.fit gives the same weights and coefficients with verbose=True as with verbose=False.", "quantifier": "every network, data set, strategy and number of iterations", "why_tests_cant": "all training histories", "anchors": ["equadratures/polynet.py:Polynet.fit"]}
{"id": "C106", "title": "A perfect network is a fixed point of training", "statement": "If the network reproduces all its training outputs, fit leaves weights and coefficients unchanged, for every strategy, rate and number of iterations.", "quantifier": "every network, data set, strategy and number of iterations", "why_tests_cant": "an invariant of all training histories", "anchors": ["equadratures/polynet.py:Polynet.fit"]}
{"id": "C107", "title": "Reported moments are those of the law", "statement": "The mean, variance, skewness and kurtosis that a parameter reports are those of the law that its density, distribution function and samples follow.", "quantifier": "every distribution and all admissible shape parameters", "why_tests_cant": "integrals over continuous families of densities", "anchors": ["equadratures/distributions/gaussian.py:Gaussian", "equadratures/distributions/beta.py:Beta", "equadratures/distributions/weibull.py:Weibull", "equadratures/distributions/cauchy.py:Cauchy", "equadratures/distributions/truncated_gaussian.py:TruncatedGaussian", "equadratures/distributions/rayleigh.py:Rayleigh", "equadratures/distributions/exponential.py:Exponential", "equadratures/parameter.py:Parameter"]}
{"id": "C108", "title": "The law is the one asked for", "statement": "The density of a parameter is that of the named distribution with the shape parameters and the bounds given, as documented.", "quantifier": "every distribution and all admissible shape parameters and bounds", "why_tests_cant": "equality of functions over continuous families", "anchors": ["equadratures/parameter.py:Parameter", "equadratures/distributions/beta.py:Beta", "equadratures/distributions/chebyshev.py:Chebyshev"]}
{"id": "C109", "title": "Kurtosis means the same thing for every distribution", "statement": "The kurtosis a parameter reports is, for every distribution, the fourth central moment divided by the squared variance.", "quantifier": "every distribution and all admissible shape parameters", "why_tests_cant": "integrals over continuous families of densities", "anchors": ["equadratures/distributions/gaussian.py:Gaussian", "equadratures/distributions/beta.py:Beta", "equadratures/distributions/rayleigh.py:Rayleigh", "equadratures/distributions/uniform.py:Uniform"]}
{"id": "C110", "title": "Inadmissible shape parameters are refused", "statement": "A parameter can be constructed if and only if the shape parameters and bounds its distribution needs are given and admissible.", "quantifier": "every distribution and all arguments, given or omitted", "why_tests_cant": "all real arguments", "anchors": ["equadratures/parameter.py:Parameter", "equadratures/parameter.py:Parameter._set_distribution", "equadratures/parameter.py:Parameter._set_moments"]}
{"id": "C111", "title": "End points are refused exactly for unbounded laws", "statement": "Asking for a quadrature rule containing an end point of the support is refused, with ValueError, exactly if the law is unbounded on that side (for both end points: on either side).", "quantifier": "every distribution, shape parameters and end point option", "why_tests_cant": "all real arguments", "anchors": ["equadratures/parameter.py:Parameter", "equadratures/parameter.py:Parameter._set_bounds"]}
{"id": "C112", "title": "Computed recurrence coefficients fit the law", "statement": "The recurrence coefficients that are computed on a grid belong to the law of the parameter: the first is its mean up to discretisation, and they scale with the parameter.", "quantifier": "every distribution without closed-form coefficients and all shape parameters", "why_tests_cant": "continuous families", "anchors": ["equadratures/distributions/recurrence_utils.py:custom_recurrence_coefficients", "equadratures/distributions/exponential.py:Exponential.get_recurrence_coefficients", "equadratures/distributions/weibull.py:Weibull.get_recurrence_coefficients"]}
{"id": "C113", "title": "Affine change of variables", "statement": "If two parameters differ by a shift and scaling, their recurrence coefficients differ by the corresponding affine map and their orthonormal polynomials agree at corresponding points.", "quantifier": "all orders, grids, weights and affine maps", "why_tests_cant": "induction over all orders, all real data", "anchors": ["equadratures/distributions/recurrence_utils.py:custom_recurrence_coefficients", "equadratures/parameter.py:Parameter._get_orthogonal_polynomial"]}
{"id": "C114", "title": "Symmetric laws have symmetric polynomials", "statement": "For a Gaussian parameter all diagonal recurrence coefficients equal the mean, and its orthonormal polynomials are even or odd about the mean according to their degree.", "quantifier": "all means, variances, orders and points", "why_tests_cant": "induction over all orders", "anchors": ["equadratures/distributions/recurrence_utils.py:custom_recurrence_coefficients", "equadratures/distributions/gaussian.py:Gaussian.get_recurrence_coefficients"]}
{"id": "C115", "title": "omorf keeps honest books", "statement": "With the method omorf: the function is called at most once at every point; the stored points and values are exactly these calls; the reported number is their number; the point returned is one of them and its value is the best; maximising is minimising the negative.", "quantifier": "every objective, setting, number of directions, outcome of the outside searches and starting point", "why_tests_cant": "unbounded runs over arbitrary functions", "anchors": ["equadratures/optimisation.py:Optimisation.optimise", "equadratures/optimisation.py:Optimisation._omorf", "equadratures/optimisation.py:Optimisation._blackbox_evaluation", "equadratures/optimisation.py:Optimisation._set_iterate"]}
{"id": "C116", "title": "omorf stays inside the bounds", "statement": "With the method omorf and bounds, every point at which the function is called, and the point returned, is inside the bounds.", "quantifier": "every objective, setting, scaling, number of directions and starting point inside the bounds", "why_tests_cant": "unbounded runs over arbitrary functions", "anchors": ["equadratures/optimisation.py:Optimisation._omorf", "equadratures/optimisation.py:Optimisation._update_bounds", "equadratures/optimisation.py:Optimisation._apply_scaling"]}
{"id": "C117", "title": "omorf keeps complete sample sets", "statement": "In every pass of omorf the linear set has n+1 points and the quadratic set (d+1)(d+2)/2 points, all evaluated, each with its own value, and the incumbent value never grows.", "quantifier": "every objective, setting, and number of passes", "why_tests_cant": "unbounded runs over arbitrary functions", "anchors": ["equadratures/optimisation.py:Optimisation._omorf", "equadratures/optimisation.py:Optimisation._sample_set", "equadratures/optimisation.py:Optimisation._update_geometry_omorf"]}
{"id": "C118", "title": "omorf keeps its radii in order", "statement": "During every run of omorf the resolution stays between rho_min and the initial radius and never grows, and the trust region radius is at least alpha_2 times the resolution.", "quantifier": "every objective and all settings with 1/250 <= alpha_1 < 1, 0 <= alpha_2 <= 1 <= gam_inc and positive rho_min", "why_tests_cant": "unbounded runs over arbitrary functions", "anchors": ["equadratures/optimisation.py:Optimisation._omorf", "equadratures/optimisation.py:Optimisation._update_geometry_omorf"]}
{"id": "C119", "title": "omorf respects the budget", "statement": "With the method omorf the function is called at most max_evals times.", "quantifier": "every objective, setting and budget", "why_tests_cant": "unbounded runs over arbitrary functions", "anchors": ["equadratures/optimisation.py:Optimisation._omorf", "equadratures/optimisation.py:Optimisation._sample_set"]}
{"id": "C120", "title": "Sample sets use the best point available", "statement": "Whenever a point is added to a sample set, its pivot value is at least that of every stored point at hand; a new evaluation is only spent on a point that beats all of them; a point tried as substitute is the best of those generated that are not in the set yet.", "quantifier": "all sample sets, basis functions, stored points and outcomes of the searches", "why_tests_cant": "all real data", "anchors": ["equadratures/optimisation.py:Optimisation._LU_pivoting", "equadratures/optimisation.py:Optimisation._find_new_point_alternative"]}
{"id": "C121", "title": "Directions of omorf", "statement": "With active-subspaces the d directions of omorf are different eigenvectors of the linear fit, orthonormal if these are; the first is the leading one; every further one has the largest squared correlation with the values among those not taken.", "quantifier": "all samples, values, numbers of directions and outcomes of the fits", "why_tests_cant": "all real data, every d", "anchors": ["equadratures/optimisation.py:Optimisation._calculate_subspace"]}
{"id": "C122", "title": "omorf refuses bad arguments", "statement": "omorf runs if and only if 1 <= d <= n and subspace_method is one of the two documented names; otherwise it raises.", "quantifier": "all numbers of directions and variables, names, objectives, histories of the object", "why_tests_cant": "all histories and functions", "anchors": ["equadratures/optimisation.py:Optimisation._omorf", "equadratures/optimisation.py:Optimisation._calculate_subspace", "equadratures/optimisation.py:Optimisation._start"]}
{"id": "C123", "title": "The linear set of omorf determines a linear model", "statement": "If all pivots of the linear sample set pass the threshold there is exactly one linear model through the values at its points.", "quantifier": "all dimensions, incumbents, stored points and methods of building the set", "why_tests_cant": "all real data", "anchors": ["equadratures/optimisation.py:Optimisation._LU_pivoting", "equadratures/optimisation.py:Optimisation._get_phi_function_and_derivative"]}
{"id": "C124", "title": "Documented keywords of optimise are honoured", "statement": "The keyword arguments documented for optimise act as documented: del_k is the initial radius; the radius stays between delmin and delmax.", "quantifier": "all keyword values, objectives and starting points", "why_tests_cant": "all real values and runs", "anchors": ["equadratures/optimisation.py:Optimisation.optimise", "equadratures/optimisation.py:Optimisation._start"]}
{"id": "C125", "title": "Sparse-grid fits reproduce sparse polynomials", "statement": "For a sparse-grid basis and numerical integration: if the model is an expansion in basis functions of the sparse index set, set_model finds exactly its coefficients, leaves each multi-index once with the constant first, and get_polyfit returns the model at every point.", "quantifier": "any number of parameters, every level, both growth rules, all coefficients and points", "why_tests_cant": "every dimension and level, continuous families", "anchors": ["equadratures/poly.py:Poly._set_coefficients", "equadratures/poly.py:Poly.set_model", "equadratures/sampling_methods/sparsegrid.py:Sparsegrid._set_sparsegrid_quadrature_rule", "equadratures/basis.py:Basis.get_basis"]}
{"id": "C126", "title": "Uncertainty bands", "statement": "get_polyfit(stack, uq=True) returns at every point the standard deviation of the fitted value caused by the variance of the data: it exists for every design, is never negative, shrinks as samples are added, and vanishes if the polynomial goes through the data.", "quantifier": "all basis functions, samples, weights, variances and points", "why_tests_cant": "all real data, all numbers of samples", "anchors": ["equadratures/poly.py:Poly.get_polyfit", "equadratures/poly.py:Poly._get_polystd", "equadratures/poly.py:Poly._inv"]}
{"id": "C127", "title": "Uncertainty bands are available for every fitted polynomial", "statement": "After set_model, get_polyfit(stack, uq=True) returns the fitted values and one band per point, for every way of giving samples and variances.", "quantifier": "all ways of giving samples, outputs and variances, missing values, all solvers", "why_tests_cant": "all combinations of optional data and sizes", "anchors": ["equadratures/poly.py:Poly.get_polyfit", "equadratures/poly.py:Poly._get_polystd", "equadratures/poly.py:Poly._set_coefficients"]}
{"id": "C128", "title": "Training score is that of the data fitted", "statement": "get_polyscore compares the polynomial with the values it was last fitted to, and with the test values given.", "quantifier": "all histories of set_model calls, solvers, metrics and test data", "why_tests_cant": "unbounded histories", "anchors": ["equadratures/poly.py:Poly.get_polyscore", "equadratures/poly.py:Poly.set_model"]}
{"id": "C129", "title": "Distribution function of the induced law", "statement": "The distribution function that the induced sampler inverts is exactly that of the law with density P^2 times the density of the parameter, P the orthonormal polynomial of the order asked for, at every point of [-1, 1] and for every order up to the largest order of the basis.", "quantifier": "all orders, all points, all results of the eigenvalue solver that are right", "why_tests_cant": "a computation of unbounded length with integrals of arbitrary degree", "anchors": ["equadratures/sampling_methods/induced.py:Induced.induced_jacobi_evaluation", "equadratures/sampling_methods/induced.py:Induced._quadratic_modification", "equadratures/sampling_methods/induced.py:Induced._christoffel_normalised_polynomials"]}
{"id": "C130", "title": "Induced samples are quantiles", "statement": "For a uniform parameter on [-1, 1], every list of numbers of [0, 1] is turned into as many points of [-1, 1], each within the tolerance of the root solver of the quantile of the induced law; no exception is raised for any order up to the largest of the basis.", "quantifier": "all orders, all numbers in [0, 1], all root solvers meeting their documentation", "why_tests_cant": "all real values; rare brackets are not hit by tests", "anchors": ["equadratures/sampling_methods/induced.py:Induced.inverse_induced_jacobi", "equadratures/sampling_methods/induced.py:Induced._univariate_sampling"]}
{"id": "C131", "title": "Induced meshes for every list of parameters", "statement": "With mesh='induced' every coordinate of every point is a quantile of the law induced on the support of its own parameter, for every list of parameters accepted.", "quantifier": "all lists of parameters, index sets and random numbers", "why_tests_cant": "all bounds and real values", "anchors": ["equadratures/sampling_methods/induced.py:Induced._set_points", "equadratures/sampling_methods/induced.py:Induced._additive_mixture_sampling", "equadratures/sampling_methods/induced.py:Induced._scale_support", "equadratures/sampling_methods/induced.py:Induced._univariate_sampling"]}
{"id": "C132", "title": "Induced meshes integrate without bias", "statement": "For uniform parameters on [-1, 1], the weighted sum of a continuous function over the induced mesh, averaged over the random numbers drawn, is the expectation of the function, up to the tolerance of the root solver times the variation of the function divided by the kernel of the basis.", "quantifier": "all numbers of parameters, index sets, continuous functions and root solvers meeting their documentation", "why_tests_cant": "a statement about an average over all random draws", "anchors": ["equadratures/sampling_methods/induced.py:Induced._set_points", "equadratures/sampling_methods/induced.py:Induced.__set_weights", "equadratures/sampling_methods/induced.py:Induced._additive_mixture_sampling"]}
{"id": "C133", "title": "Newton subsampling: the relaxed selection is feasible and never worse than the uniform one", "statement": "Whatever relaxed selection the determinant maximisation computes for k of m rows has all weights strictly between 0 and 1, adds up to k, and its value (log-determinant of the weighted information matrix with the barrier of the method) is at least that of equal weights.", "quantifier": "all matrices with independent columns, all numbers of rows", "why_tests_cant": "an iteration with a line search over real matrices", "anchors": ["equadratures/subsampling.py:get_newton_determinant_maximization"]}
{"id": "C134", "title": "Newton subsampling ends and returns rows for every admissible number", "statement": "For every matrix with independent columns and every number k of rows, the determinant maximisation ends and returns distinct rows without raising.", "quantifier": "all matrices with independent columns, all numbers of rows", "why_tests_cant": "non-termination of a line search cannot be observed by a test", "anchors": ["equadratures/subsampling.py:get_newton_determinant_maximization", "equadratures/poly.py:Poly._set_points_and_weights"]}
{"id": "C135", "title": "A vanishing Newton step certifies near-optimal rows", "statement": "If the Newton step of the determinant maximisation vanishes at a relaxed selection of k rows, no relaxed selection of k rows has a larger value, and no choice of k rows has an information matrix whose determinant exceeds 1.005^(2n) times that of the relaxed selection, n the number of columns.", "quantifier": "all matrices with independent columns, all relaxed selections and all subsets of rows", "why_tests_cant": "combinatorially many subsets", "anchors": ["equadratures/subsampling.py:get_newton_determinant_maximization"]}
{"id": "C136", "title": "Variable projection: the Jacobian is the exact derivative of the residuals", "statement": "The array that jacobian_vp returns is the derivative of the residuals of the polynomial ridge fit with respect to the directions: along every differentiable path of directions each residual changes at the rate the array gives, although the routine leaves out the derivative of the scaling to [-1, 1].", "quantifier": "all samples, outputs, degrees, directions and differentiable paths of directions, as long as the projected samples determine the fit", "why_tests_cant": "a derivative over a continuum of directions", "anchors": ["equadratures/subspaces.py:jacobian_vp", "equadratures/subspaces.py:Subspaces._get_variable_projection"]}
{"id": "C137", "title": "Variable projection measures the distance to the best polynomial ridge function of the subspace", "statement": "The residual that variable projection minimises is the smallest distance between the outputs and the values of any polynomial of the given total degree in the projected samples; it does not depend on the scaling of the projections or on the basis of the subspace.", "quantifier": "all samples, outputs, degrees and directions none of which is constant over the samples", "why_tests_cant": "a minimum over a space of polynomials and all bases", "anchors": ["equadratures/subspaces.py:Subspaces._get_variable_projection", "equadratures/subspaces.py:vandermonde"]}
{"id": "C138", "title": "The line search of variable projection follows descent directions and accepts short steps", "statement": "From every subspace that is not stationary the curve of the line search leads to smaller residuals, its slope is the one the routine computes, and all sufficiently short steps pass the test of the line search, whatever the units of the outputs.", "quantifier": "all samples, outputs, degrees and directions", "why_tests_cant": "limits of steps going to zero and all units", "anchors": ["equadratures/subspaces.py:Subspaces._get_variable_projection"]}
{"id": "C139", "title": "The step of variable projection is that of Gauss and Newton", "statement": "The step of variable projection minimises the residual to first order among all changes of the directions, it is the shortest change that does, and it leads downhill unless the subspace is stationary.", "quantifier": "all samples, outputs, degrees and directions", "why_tests_cant": "a minimum over all changes of the directions", "anchors": ["equadratures/subspaces.py:Subspaces._get_variable_projection"]}
{"id": "C140", "title": "A Monte Carlo mesh holds the samples of the parameters", "statement": "With the Monte Carlo mesh a polynomial has as many sample points as the sampling ratio times the number of dimensions times the number of basis terms, rounded down, and the points are made of the samples of the parameters, or of the samples of the correlation object if there is one.", "quantifier": "all lists of parameters of all distributions, all bases, sampling ratios and random numbers", "why_tests_cant": "random numbers and all sizes", "anchors": ["equadratures/sampling_methods/montecarlo.py:Montecarlo", "equadratures/parameter.py:Parameter.get_samples"]}
{"id": "C141", "title": "Weighted sums over a Monte Carlo mesh converge to the mean", "statement": "As the sampling ratio grows, the sum of the weights times the values of a function at the points of a Monte Carlo mesh converges to the mean of the function under the distribution of the parameters.", "quantifier": "all parameters, bases, integrable functions and almost all sequences of samples", "why_tests_cant": "a limit that holds almost surely", "anchors": ["equadratures/sampling_methods/montecarlo.py:Montecarlo", "equadratures/sampling_methods/sampling_template.py:Sampling.get_weights"]}
{"id": "C142", "title": "Active subspaces recover polynomial ridge functions", "statement": "If the outputs are the values of a polynomial that depends only on n linear combinations of the inputs, then all but the first n eigenvalues vanish and the polynomial over the first n active directions reproduces the outputs at every input, sampled or not.", "quantifier": "all polynomials of the fitted degree, all sample sets that determine such polynomials, all dimensions", "why_tests_cant": "all polynomials, samples and dimensions", "anchors": ["equadratures/subspaces.py:Subspaces.get_subspace_polynomial", "equadratures/subspaces.py:Subspaces._get_active_subspace", "equadratures/subspaces.py:Subspaces.__init__"]}
{"id": "C143", "title": "Bootstrap ranges contain the eigenvalues", "statement": "Bootstrapping an active subspace leaves the subspace and the eigenvalues as without it. The lower bounds are at most the upper bounds, both descend and are non-negative, and the eigenvalues lie between them.", "quantifier": "all polynomials, points and random draws", "why_tests_cant": "random draws", "anchors": ["equadratures/subspaces.py:Subspaces._get_active_subspace"]}
{"id": "C144", "title": "Numerical integration with prescribed end points", "statement": "With parameters that ask for quadrature rules containing one or both ends of the support, numerical integration on the tensor grid still recovers the coefficients of every polynomial within the orders.", "quantifier": "all numbers of parameters, Beta-type laws, choices of end points, orders, index sets and coefficients", "why_tests_cant": "all laws, orders and polynomials", "anchors": ["equadratures/sampling_methods/tensorgrid.py:Tensorgrid._set_points", "equadratures/parameter.py:Parameter._get_local_quadrature", "equadratures/poly.py:Poly.set_model"]}
{"id": "C145", "title": "Fitting a tree completes", "statement": "PolyTree.fit completes for every data set and every setting the constructor accepts.", "quantifier": "all data sets, dimensions, criteria, searches, depths, leaf sizes and polynomial fits", "why_tests_cant": "all data sets and settings", "anchors": ["equadratures/polytree.py:PolyTree.fit"]}
{"id": "C146", "title": "Derivatives handed to the optimisers", "statement": "In the trust-region methods the gradient passed to the bounded minimiser is the gradient of the function passed with it: for the pivot functions that choose new sample points and for the fitted quadratic models, in the full space and in the coordinates of a subspace.", "quantifier": "all dimensions, subspaces, sample sets, values, incumbents, radii and points", "why_tests_cant": "the statement is about every point of a continuum and every fitted model", "anchors": ["equadratures/optimisation.py:Optimisation._get_phi_function_and_derivative", "equadratures/optimisation.py:Optimisation._find_new_point", "equadratures/optimisation.py:Optimisation._compute_step"]}
{"id": "C147", "title": "New sample points and steps", "statement": "New sample points and trust-region steps lie between the local bounds, the pivot of a new point is at least that of the incumbent (and the largest between the local bounds if the minimiser finds the smallest value; for the full space of omorf always), and whole runs never leave the bounds of the user, assuming of scipy only that minimize and linprog respect the bounds they are given.", "quantifier": "all dimensions, functions, settings, sample sets, histories and outcomes of the minimiser within its contract", "why_tests_cant": "all runs and all outcomes of the local minimiser", "anchors": ["equadratures/optimisation.py:Optimisation._find_new_point", "equadratures/optimisation.py:Optimisation._compute_step", "equadratures/optimisation.py:Optimisation._trust_region", "equadratures/optimisation.py:Optimisation._omorf"]}
{"id": "C148", "title": "Quadratic models of the trust-region methods", "statement": "The model fitted to a sample set that determines a quadratic is the objective itself if the objective is quadratic (in the subspace coordinates for omorf); with exactly (n+1)(n+2)/2 points it takes whatever values were found and is the only quadratic that does; on quadratic objectives the predicted decrease of a step is the decrease found.", "quantifier": "all dimensions, trust regions, determining sample sets, values and quadratic objectives", "why_tests_cant": "all sample sets and objectives", "anchors": ["equadratures/optimisation.py:Optimisation._build_model", "equadratures/optimisation.py:Optimisation._compute_step", "equadratures/poly.py:Poly.set_model"]}
{"id": "C149", "title": "Random sample sets", "statement": "With random-initial the directions of a sample set stay within the bounds without truncation, for every draw; n + 1 points determine a linear model wherever the incumbent lies, also at bounds; the first 2 n + 1 points are distinct; every further direction is non-zero, no longer than the radius, and does not lead out of a bound the incumbent is at.", "quantifier": "all dimensions, draws, incumbents (inside or at any combination of bounds), radii and bounds of positive width", "why_tests_cant": "all random draws and all positions of the incumbent relative to the bounds", "anchors": ["equadratures/optimisation.py:Optimisation._random_directions", "equadratures/optimisation.py:Optimisation._get_scale", "equadratures/optimisation.py:Optimisation._generate_set"]}
{"id": "C150", "title": "The density of correlated samples", "statement": "Correlations.get_pdf is the probability density of the points that get_correlated_samples returns: it integrates to one, and the probability that a sample falls in any measurable region is the integral of get_pdf over the region, whatever the requested correlations.", "quantifier": "all numbers of parameters, marginal laws with densities, requested correlation matrices, outcomes of the root finding with a Cholesky factor, and measurable regions", "why_tests_cant": "continuous joint laws; every region of the parameter space", "anchors": ["equadratures/correlations.py:Correlations.get_pdf", "equadratures/correlations.py:Correlations.get_correlated_samples"]}
{"id": "C151", "title": "Gauss rules are unique", "statement": "The points and weights of a parameter do not depend on which eigenvectors, signs or ordering of ties the eigenvalue solver returns: any list of as many sorted points with weights that integrates polynomials up to degree 2 n + 1 is the rule returned. For symmetric laws the rule is symmetric: reflecting the points about the middle of the interval reverses the rule.", "quantifier": "all orders, intervals and beta-type laws (uniform, Chebyshev, beta), and all eigenvalue solvers within their contract", "why_tests_cant": "all orders and all solver outcomes", "anchors": ["equadratures/parameter.py:Parameter._get_local_quadrature", "equadratures/parameter.py:Parameter.get_jacobi_matrix"]}
{"id": "C152", "title": "Correlated samples have the requested correlation", "statement": "The correlation coefficient of two columns of get_correlated_samples equals the requested one up to two explicit errors: the residual of the equation at the root found, and the error of a 32 by 32 point Gauss rule on [-8, 8] x [-8, 8] for the integral of the product of the standardised marginals against the bivariate normal density. Where the requested correlation is zero the correlation is exactly zero.", "quantifier": "all numbers of parameters, marginal laws with densities, requested correlation matrices, outcomes of the root finding with a Cholesky factor, and eigenvalue solvers within their contract", "why_tests_cant": "continuous joint laws of every dimension", "anchors": ["equadratures/correlations.py:Correlations.__init__", "equadratures/correlations.py:Correlations.get_correlated_samples"]}
{"id": "C153", "title": "Rules of laws given by samples of a density", "statement": "For parameters whose recurrence coefficients come from samples of their density (all but uniform and beta): the rule of order n has n + 1 increasing points strictly inside every interval that holds the samples, positive weights, and integrates polynomials up to degree 2 n + 1 exactly under the sampled law; it does not depend on the eigenvalue solver, and is symmetric if the samples are.", "quantifier": "all sample points, non-negative samples with more than n + 1 distinct points, orders and eigenvalue solvers within their contract", "why_tests_cant": "all densities, orders and solver outcomes", "anchors": ["equadratures/distributions/template.py:Distribution.get_recurrence_coefficients", "equadratures/distributions/recurrence_utils.py:custom_recurrence_coefficients", "equadratures/parameter.py:Parameter._get_local_quadrature"]}
{"id": "C154", "title": "Fits over laws given by samples of a density", "statement": "For polynomials in parameters whose recurrence coefficients come from samples of their density: numerical integration on the tensor grid recovers every expansion in the basis, get_polyfit reproduces it everywhere, and get_mean and get_variance are the mean and the variance under the product of the sampled laws.", "quantifier": "all numbers of parameters, densities sampled at more than order + 1 distinct points, index sets inside the orders, coefficients and eigenvalue solvers within their contract", "why_tests_cant": "all densities, dimensions, index sets and coefficients", "anchors": ["equadratures/poly.py:Poly.set_model", "equadratures/poly.py:Poly.get_polyfit", "equadratures/stats.py:Statistics.get_mean", "equadratures/stats.py:Statistics.get_variance"]}
{"id": "C155", "title": "Polynomials of correlated parameters", "statement": "Correlations with the Nataf transform: after set_model the transformed polynomial at a standard point is the model at the correlated point the standard point is mapped to, its mean and variance are those of the model at correlated points (for linear models of Gaussian parameters: the mean of the model and the variance given by the covariances), and at the points of get_points it returns the model values.", "quantifier": "all numbers of parameters, correlation matrices with a Cholesky factor, marginal laws, models in the span of the basis as functions of the standard variables, and eigenvalue solvers within their contract", "why_tests_cant": "all models, dimensions and correlations", "anchors": ["equadratures/correlations.py:Correlations.__init__", "equadratures/correlations.py:Correlations.set_model", "equadratures/correlations.py:Correlations.get_transformed_poly", "equadratures/poly.py:Poly._set_parameters"]}
{"id": "C156", "title": "Samples of a density given by the user", "statement": "A distribution given by the values of a density at points: its cumulative distribution function is monotone, 0 below the points and 1 from the last one on; get_icdf is its generalised inverse; and the law of get_icdf at uniform numbers (hence of get_samples) is the law on the points with weights proportional to the values.", "quantifier": "all points in increasing order, non-negative values with a positive sum, levels in (0,1) and functions on the points", "why_tests_cant": "all densities, levels and functions", "anchors": ["equadratures/distributions/analytical.py:Analytical.__init__", "equadratures/distributions/analytical.py:Analytical.get_icdf", "equadratures/distributions/analytical.py:Analytical.get_samples"]}
{"id": "C157", "title": "Values of a model and its gradient at points", "statement": "evaluate_model returns a column with the value of the model at every point in order, and evaluate_model_gradients the gradients in the format asked for (a stacked column or a matrix with a row per input); a model or gradient function is accepted whenever it accepts points, also through Correlations.set_model.", "quantifier": "all models, numbers of points and inputs, and shapes of return values", "why_tests_cant": "all functions and point sets", "anchors": ["equadratures/poly.py:evaluate_model", "equadratures/poly.py:evaluate_model_gradients", "equadratures/correlations.py:Correlations.set_model"]}
{"id": "C158", "title": "Synthetic data sets are what they are said to be", "statement": "gen_linear returns data whose outputs are a linear function of the relevant inputs plus the bias plus noise of the deviation given; gen_friedman returns the Friedman function plus noise of the deviation given; the outputs form a column; the inputs, and with normalise=True the outputs, fill the interval [-1, 1].", "quantifier": "all numbers of observations, inputs and relevant inputs, draws, biases and noise levels", "why_tests_cant": "all random draws and sizes", "anchors": ["equadratures/datasets.py:gen_linear", "equadratures/datasets.py:gen_friedman"]}
{"id": "C159", "title": "Jacobi matrices and eigenvectors of a parameter", "statement": "get_recurrence_coefficients, get_jacobi_matrix and get_jacobi_eigenvectors return the recurrence table, the symmetric tridiagonal matrix and an orthonormal set of its eigenvectors in decreasing order of the eigenvalues, for the order given or by default the order of the parameter.", "quantifier": "all parameters, orders (given or not) and eigenvalue solvers within their contract", "why_tests_cant": "all distributions, orders and solver outcomes", "anchors": ["equadratures/parameter.py:Parameter.get_recurrence_coefficients", "equadratures/parameter.py:Parameter.get_jacobi_matrix", "equadratures/parameter.py:Parameter.get_jacobi_eigenvectors"]}
{"id": "C160", "title": "Sampling arguments are honoured or refused", "statement": "Poly(sampling_args=...): every entry takes effect or the constructor raises. In particular the number of points is the sampling ratio times the number of basis terms, variances of outputs are kept, and misspelt keys are refused.", "quantifier": "all dictionaries of arguments, ratios, mesh sizes and numbers of basis terms", "why_tests_cant": "all combinations of keys and values", "anchors": ["equadratures/poly.py:Poly.__init__", "equadratures/poly.py:Poly._set_points_and_weights"]}
{"id": "C161", "title": "Written summary of a polynomial", "statement": "get_summary states the statistics of the present coefficients whenever a model is set; the parameter named as most important is one with the largest share of the variance; with tosay=True no minus sign is left.", "quantifier": "all sequences of fits and queries, index sets, coefficients, outcomes of argsort and texts", "why_tests_cant": "all histories and polynomials", "anchors": ["equadratures/poly.py:Poly.get_summary", "equadratures/stats.py:Statistics.get_sobol_total"]}
{"id": "C162", "title": "Sensitivity indices are variances of conditional means", "statement": "For a polynomial with independent inputs, the Sobol' indices are what sensitivity analysis defines them to be: the first-order index of an input is Var(E[f|x_i])/Var f; the indices of all subsets of a set of inputs add up to Var(E[f|these inputs])/Var f; the total index of an input is the mean conditional variance given all others, 1 - Var(E[f|others])/Var f.", "quantifier": "all index sets, coefficients with positive variance, laws of the inputs and sets of inputs", "why_tests_cant": "all polynomials and subsets of inputs", "anchors": ["equadratures/stats.py:Statistics.get_sobol", "equadratures/stats.py:Statistics.get_sobol_total", "equadratures/poly.py:Poly.get_sobol_indices", "equadratures/poly.py:Poly.get_total_sobol_indices"]}
{"id": "C163", "title": "Laguerre recurrence coefficients", "statement": "laguerre_recurrence_coefficients(a, order) returns order + 1 rows whose polynomials are orthogonal for the weight x^a exp(-x) on the positive half line, all with the square norm of the constant, and whose first second entry is the total mass Gamma(a + 1); shapes up to -1 are refused.", "quantifier": "all shapes and orders", "why_tests_cant": "all real shapes and all orders", "anchors": ["equadratures/distributions/recurrence_utils.py:laguerre_recurrence_coefficients"]}
{"id": "C164", "title": "Hermite recurrence coefficients", "statement": "hermite_recurrence_coefficients(A, B, order) returns order + 1 rows whose polynomials are orthogonal for the weight |x|^(2 B) exp(-x^2) on the real line, all with the square norm of the constant, and whose first second entry is the total mass of that weight.", "quantifier": "all parameters with B > -1/2 and orders", "why_tests_cant": "all real parameters and all orders", "anchors": ["equadratures/distributions/recurrence_utils.py:hermite_recurrence_coefficients"]}
{"id": "C165", "title": "The drawing of a tree", "statement": "get_graphviz draws the tree as it is after fitting and any pruning: one picture node for each node of the tree, under different names and with that node's own split and number of samples, and one arrow from each node to each of its children, so one less than the nodes. It raises IndexError exactly when a split uses a feature without a name.", "quantifier": "all data, configurations, prunings and lists of feature names", "why_tests_cant": "all trees of any size", "anchors": ["equadratures/polytree.py:PolyTree.get_graphviz", "equadratures/polytree.py:PolyTree.fit", "equadratures/polytree.py:PolyTree.prune"]}
{"id": "C166", "title": "Numerical integration as projection on the grid", "statement": "Numerical integration on the tensor grid, for any model: the polynomial returned has the smallest weighted squared error on the grid among all polynomials of the index set, and it is the only one; with the tensor-grid index set it takes the values of the model at every point of the grid; the mean reported is the weighted mean of the values and the variance reported is their weighted variance less that error.", "quantifier": "all models (lists of outputs), orders, parameters and index sets within the orders", "why_tests_cant": "all outputs, not only polynomials", "anchors": ["equadratures/poly.py:Poly._set_coefficients", "equadratures/poly.py:Poly.set_model", "equadratures/stats.py:Statistics.__init__"]}
{"id": "C167", "title": "Index sets are nested and symmetric", "statement": "Raising orders never removes a multi-index, for every kind of index set; with equal orders the hyperbolic set is contained in the total-order set, this in the Euclidean-degree set, this in the tensor grid; sparse-grid sets grow with the level; rearranging the orders rearranges the entries of the multi-indices in the same way.", "quantifier": "all orders, exponents, levels, dimensions and rearrangements", "why_tests_cant": "all orders and all pairs of bases", "anchors": ["equadratures/basis.py:Basis.set_orders", "equadratures/basis.py:total_order_basis", "equadratures/basis.py:hyperbolic_basis", "equadratures/basis.py:euclidean_degree_basis", "equadratures/basis.py:tensor_grid_basis", "equadratures/basis.py:sparse_grid_basis"]}
{"id": "C168", "title": "Polynomials of the basis are recovered on the default mesh", "statement": "Fitting by numerical integration on the tensor grid or by least squares with its default mesh (the tensor grid of the orders) recovers every polynomial spanned by the chosen basis, whatever its kind and the orders.", "quantifier": "all kinds of bases other than sparse grids, orders, parameters and coefficients", "why_tests_cant": "all orders, including different ones per direction", "anchors": ["equadratures/poly.py:Poly.__init__", "equadratures/poly.py:Poly.set_model", "equadratures/sampling_methods/tensorgrid.py:Tensorgrid._set_points", "equadratures/basis.py:Basis.set_orders"]}
{"id": "C169", "title": "Fits are linear in the outputs", "statement": "The least-squares fit to alpha y1 + beta y2 + gamma equals alpha f1 + beta f2 + gamma at the sample points, f1 and f2 being the fits to y1 and y2; if the sample determines the polynomials of the basis, the coefficients combine in this way and the polynomials agree everywhere.", "quantifier": "all samples, weights, outputs and numbers alpha, beta, gamma", "why_tests_cant": "all pairs of output vectors", "anchors": ["equadratures/poly.py:Poly.set_model", "equadratures/poly.py:Poly._set_coefficients", "equadratures/solver.py:least_squares"]}
{"id": "C170", "title": "Fits do not depend on the order of the samples", "statement": "The least-squares problem has the same solutions after the samples (points with their weights and outputs) are rearranged and all weights multiplied by a positive number.", "quantifier": "all samples, rearrangements and factors", "why_tests_cant": "all rearrangements", "anchors": ["equadratures/poly.py:Poly.set_model", "equadratures/solver.py:least_squares"]}
{"id": "C171", "title": "A larger basis never fits worse", "statement": "The weighted sum of squared errors of the least-squares fit with a basis is at most that with any basis contained in it.", "quantifier": "all samples and pairs of bases", "why_tests_cant": "all pairs of bases", "anchors": ["equadratures/poly.py:Poly.set_model", "equadratures/solver.py:least_squares"]}
{"id": "C172", "title": "Statistics follow the units of the output", "statement": "If the outputs y are replaced by a y + b with a not zero, the fitted polynomial has mean a m + b, variance a^2 v, the same Sobol' indices of every order, the same kurtosis and the skewness with the sign of a.", "quantifier": "all samples that determine the polynomial, outputs and changes of units", "why_tests_cant": "all output vectors and factors", "anchors": ["equadratures/stats.py:Statistics.__init__", "equadratures/stats.py:Statistics.get_mean", "equadratures/stats.py:Statistics.get_variance", "equadratures/stats.py:Statistics.get_sobol", "equadratures/stats.py:Statistics.get_skewness", "equadratures/stats.py:Statistics.get_kurtosis", "equadratures/poly.py:Poly.set_model"]}
{"id": "C173", "title": "An input has total Sobol' index zero exactly if the fit ignores it", "statement": "After a fit with positive variance, get_total_sobol_indices reports zero for an input if and only if get_polyfit does not change when that input alone is changed.", "quantifier": "all fits in two or more dimensions with positive variance, and all inputs", "why_tests_cant": "all coefficients and all points", "anchors": ["equadratures/stats.py:Statistics.get_sobol_total", "equadratures/stats.py:Statistics.get_sobol", "equadratures/poly.py:Poly.get_polyfit"]}
{"id": "C174", "title": "Relabelling the inputs relabels the fit and its statistics", "statement": "If the parameters, the entries of the multi-indices and the coordinates of the samples are permuted together, the least-squares fit takes the same values at the permuted points; mean and variance do not change, and the Sobol' and total indices are those of the inputs with their new labels.", "quantifier": "all permutations of the inputs, index sets in any row order, samples, weights and outputs", "why_tests_cant": "all permutations and all data", "anchors": ["equadratures/poly.py:Poly.set_model", "equadratures/stats.py:Statistics.get_sobol", "equadratures/stats.py:Statistics.get_sobol_total", "equadratures/stats.py:Statistics.get_mean", "equadratures/stats.py:Statistics.get_variance"]}
{"id": "C175", "title": "Induced distributions of Jacobi weights", "statement": "The induced distribution function for a Jacobi weight (1-x)^alpha (1+x)^beta and any order is the normalised integral of p_n^2 times the weight.", "quantifier": "all alpha, beta > -1, orders and points of the interval", "why_tests_cant": "all real shapes and points", "anchors": ["equadratures/sampling_methods/induced.py:Induced.induced_jacobi_evaluation", "equadratures/sampling_methods/induced.py:Induced._linear_modification", "equadratures/sampling_methods/induced.py:Induced._polynomial_ratios"]}
{"id": "C176", "title": "The name of the subsampling algorithm", "statement": "Without a subsampling algorithm the mesh is kept whole; with qr, svd, lu or newton (in any letter case) the requested number of different points of the mesh is kept with weights in proportion; any other name is refused with ValueError before work is done.", "quantifier": "all names, meshes, weights and numbers of points", "why_tests_cant": "all strings and meshes", "anchors": ["equadratures/subsampling.py:Subsampling.__init__", "equadratures/poly.py:Poly._set_subsampling_algorithm", "equadratures/poly.py:Poly._set_points_and_weights"]}
{"id": "C177", "title": "Callables of a fit follow the object", "statement": "The callables of get_polyfit_function, get_polyfit_grad_function and get_polyfit_hess_function evaluate, whenever they are called, the polynomial of the latest fit and its exact derivatives, whatever calls of set_model happened since they were made.", "quantifier": "all fitted objects, all histories of set_model (with NaN outputs or not) and all points", "why_tests_cant": "unbounded histories", "anchors": ["equadratures/poly.py:Poly.get_polyfit_function", "equadratures/poly.py:Poly.get_polyfit_grad_function", "equadratures/poly.py:Poly.get_polyfit_hess_function", "equadratures/poly.py:Poly.set_model", "equadratures/poly.py:Poly._set_coefficients"]}
{"id": "C178", "title": "Fits converge to every continuous model", "statement": "For inputs with Beta-type (bounded) distributions and any continuous model on the box of the inputs, the polynomial computed by numerical integration or least squares on the tensor grid converges to the model in mean square as the order grows, and its mean and variance converge to those of the model.", "quantifier": "all dimensions, Beta-type inputs, continuous models, and tensor-grid, tensor, Euclidean-degree, total-order and hyperbolic bases with equal orders", "why_tests_cant": "a limit over all orders and all continuous functions", "anchors": ["equadratures/poly.py:Poly.set_model", "equadratures/poly.py:Poly.get_mean_and_variance", "equadratures/sampling_methods/tensorgrid.py:Tensorgrid", "equadratures/basis.py:Basis.set_orders"]}
{"id": "C179", "title": "Sobol' indices converge to those of the model", "statement": "As the order grows, the Sobol' indices of every set of inputs (first-order, closed and total) computed from the fit converge to the shares of variance of the conditional means of the model itself.", "quantifier": "all continuous models of two or more Beta-type inputs with positive variance, all sets of inputs, five kinds of basis", "why_tests_cant": "a limit over all orders and all continuous functions", "anchors": ["equadratures/poly.py:Poly.get_sobol_indices", "equadratures/poly.py:Poly.get_total_sobol_indices", "equadratures/stats.py:Statistics.get_sobol", "equadratures/stats.py:Statistics.get_sobol_total"]}
{"id": "C180", "title": "Sensitivity indices of a polynomial account for all interactions", "statement": "Over all orders the Sobol' indices reported by a polynomial sum to one, and the total index of an input is the share of variance of all the terms of the fit that contain it.", "quantifier": "all orders of parameters and basis, kinds of basis, coefficients with positive variance", "why_tests_cant": "all dimensions, orders and coefficients", "anchors": ["equadratures/poly.py:Poly._set_statistics", "equadratures/poly.py:Poly.__init__", "equadratures/poly.py:Poly.get_total_sobol_indices", "equadratures/stats.py:Statistics.get_sobol"]}
{"id": "C181", "title": "The units of the inputs do not matter", "statement": "Measuring the inputs in other units (an increasing affine change of each input, with the law and the bounds changed accordingly) moves the quadrature points with the units, keeps the weights, and leaves the values of the basis at corresponding points, and so the coefficients, statistics and sensitivity indices of a fit, unchanged.", "quantifier": "all numbers of inputs, laws with corresponding recurrences (uniform, Beta, Chebyshev on corresponding ranges), increasing affine changes, orders", "why_tests_cant": "all laws, ranges and changes of units", "anchors": ["equadratures/parameter.py:Parameter.get_local_quadrature", "equadratures/poly.py:Poly.get_poly", "equadratures/poly.py:Poly.set_model", "equadratures/distributions/recurrence_utils.py:jacobi_recurrence_coefficients", "equadratures/sampling_methods/tensorgrid.py:Tensorgrid"]}
{"id": "C182", "title": "Sobol' indices reveal the order of the interactions", "statement": "The Sobol' indices of the orders 1 to k sum to one exactly when the fitted polynomial is a sum of functions of at most k inputs each; in particular the first-order indices sum to one exactly when the fit is additive.", "quantifier": "all fits with positive variance in two or more dimensions, all k up to the dimension, all ways to write the fit as a sum", "why_tests_cant": "quantifies over all decompositions of a function", "anchors": ["equadratures/stats.py:Statistics.get_sobol", "equadratures/poly.py:Poly.get_sobol_indices"]}
{"id": "C183", "title": "Noise in the outputs is not amplified", "statement": "If the outputs lie between two values, so does the mean reported by numerical integration, and the variance is at most a quarter of the squared width. If two sets of outputs differ by at most e at every point, so do the means, the standard deviations, and the polynomials in mean square. Two least-squares fits at the same points are in weighted mean square at most as far apart as the outputs.", "quantifier": "all laws, orders, index sets inside the orders, outputs and perturbations", "why_tests_cant": "all outputs and perturbations", "anchors": ["equadratures/poly.py:Poly.set_model", "equadratures/poly.py:Poly.get_mean_and_variance", "equadratures/solver.py:least_squares", "equadratures/sampling_methods/tensorgrid.py:Tensorgrid"]}
{"id": "C184", "title": "Weights count samples", "statement": "Least squares depends on the weights only through their ratios; two samples at one point count as one with the sum of the weights and the weighted mean of the outputs; a further sample that lies on the fit does not change the fit.", "quantifier": "all samples with positive weights, index sets, and minimisers of the least-squares problem", "why_tests_cant": "all samples and weights", "anchors": ["equadratures/poly.py:Poly.set_model", "equadratures/solver.py:least_squares"]}
{"id": "C185", "title": "Density, distribution function, quantiles and samples of a parameter belong together", "statement": "For every named distribution with admissible arguments get_pdf evaluates a probability density; get_cdf evaluates its mass: continuous, increasing, between 0 and 1 with these limits; get_icdf inverts it on (0, 1); uniform numbers put through get_icdf (as for Weibull samples) follow the law; get_samples returns as many samples as asked for. Without points, get_pdf and get_cdf evaluate on the range of the parameter.", "quantifier": "all seventeen named distributions, all admissible arguments, all points and probabilities", "why_tests_cant": "all arguments, points and probabilities; integrals over the real line", "anchors": ["equadratures/parameter.py:Parameter.get_pdf", "equadratures/parameter.py:Parameter.get_cdf", "equadratures/parameter.py:Parameter.get_icdf", "equadratures/parameter.py:Parameter.get_samples", "equadratures/distributions/template.py:Distribution.get_samples"]}
{"id": "C186", "title": "A tree follows the units of the outputs", "statement": "Outputs given in other units (y -> a*y + b with a not 0) give the same tree: fitting and any number of prunings succeed or fail alike, split at the same variables and thresholds, and the predictions at all points are those of the first tree in the new units.", "quantifier": "all data, settings, factors and constants, prunings, points", "why_tests_cant": "all data sets, settings and changes of units", "anchors": ["equadratures/polytree.py:PolyTree.fit", "equadratures/polytree.py:PolyTree.prune", "equadratures/polytree.py:PolyTree.predict", "equadratures/polytree.py:PolyTree.get_splits"]}
{"id": "C187", "title": "A constant added to the objective does not change what the optimiser does", "statement": "Optimisation with the method trust-region of f and of f + e, whether minimising or maximising: the same points are evaluated in the same order, the same point is returned after the same number of evaluations, and the value returned has e added.", "quantifier": "all objectives, constants, settings, bounds, starting points and numbers of iterations", "why_tests_cant": "all objectives, constants and executions of the loop", "anchors": ["equadratures/optimisation.py:Optimisation.optimise", "equadratures/optimisation.py:Optimisation._trust_region", "equadratures/optimisation.py:Optimisation._build_model", "equadratures/optimisation.py:Optimisation._compute_step"]}
{"id": "C188", "title": "A fit on a tensor grid keeps the structure of the model", "statement": "For every model fitted by projection on a tensor grid: if the model ignores an input, so does the fit; if the model is a sum of functions of at most k inputs each, so is the fit, and all its Sobol' indices of more than k inputs are 0; with the index set of the grid, if the model is a product of functions of single inputs, the fit is the product of the fits of the factors.", "quantifier": "all models (any functions), parameters, orders, index sets within the grid, inputs, numbers k, points", "why_tests_cant": "all models, sets of parameters and orders", "anchors": ["equadratures/poly.py:Poly.set_model", "equadratures/poly.py:Poly.get_polyfit", "equadratures/sampling_methods/tensorgrid.py:Tensorgrid", "equadratures/stats.py:Statistics.get_sobol"]}
{"id": "C189", "title": "Quadrature points of consecutive orders interlace", "statement": "For every parameter and order o >= 1: exactly one quadrature point of order o lies strictly between every two neighbouring points of order o + 1, and all of them do; so the points of order o are never points of order o + 1, and the extreme points move outwards as the order grows.", "quantifier": "all parameters with positive recurrence coefficients, all orders >= 1, all points", "why_tests_cant": "all distributions and orders", "anchors": ["equadratures/parameter.py:Parameter._get_local_quadrature", "equadratures/parameter.py:Parameter.get_jacobi_eigenvectors"]}
{"id": "C190", "title": "Active subspaces do not depend on the units", "statement": "Active subspaces of samples (degree p >= 1, samples that determine polynomials of degree p): if the inputs are given in other units (x_j -> s_j x_j + t_j with s_j > 0) and the outputs in other units (y -> a y + b with a != 0), the scaled points are the same, the eigenvalues are multiplied by a squared, and every active subspace that is separated from the rest by a gap of the eigenvalues is the same.", "quantifier": "all samples that determine the polynomials of the degree, all changes of units, all dimensions of the subspace with a gap", "why_tests_cant": "all samples, degrees and units", "anchors": ["equadratures/subspaces.py:Subspaces.__init__", "equadratures/subspaces.py:Subspaces._get_active_subspace", "equadratures/subspaces.py:Subspaces.get_eigenvalues", "equadratures/subspaces.py:Subspaces.get_subspace", "equadratures/datasets.py:standardise"]}
{"id": "C191", "title": "A polynomial tree does not depend on the units of the inputs", "statement": "For every training set, validation sets and settings: if the inputs are given in other units (x_j -> s_j x_j + t_j with s_j > 0), fitting and pruning raise in the same cases, the splits are the same in the new units, and the predictions at corresponding points are the same.", "quantifier": "all training sets, validation sets, settings, changes of units of the inputs, points", "why_tests_cant": "all data, settings and units", "anchors": ["equadratures/polytree.py:PolyTree.fit", "equadratures/polytree.py:PolyTree.prune", "equadratures/polytree.py:PolyTree.predict", "equadratures/polytree.py:PolyTree.get_splits"]}
{"id": "C192", "title": "A polynomial tree does not depend on the order of the samples", "statement": "For every training set and every sequence of validation sets: if the samples of each of them are presented in another order (points together with their outputs), fitting and pruning raise in the same cases, the splits are the same, and so is the prediction at every point.", "quantifier": "all training sets, validation sets, permutations of each, settings, points", "why_tests_cant": "all data and all orders", "anchors": ["equadratures/polytree.py:PolyTree.fit", "equadratures/polytree.py:PolyTree.prune", "equadratures/polytree.py:PolyTree.predict", "equadratures/polytree.py:PolyTree.get_splits"]}
{"id": "C193", "title": "Derivatives follow the units of the inputs", "statement": "If every input is measured in other units (x_j -> s_j x_j + t_j with s_j > 0) and its parameter follows, then for the same coefficients the gradient and the Hessian of the polynomial at corresponding points follow by the chain rule: the derivative in the new units of input j times s_j is the old one, and the second derivative in the inputs i and j times s_i s_j is the old one.", "quantifier": "all parameters, changes of units, index sets, coefficients, points", "why_tests_cant": "all units, bases and points", "anchors": ["equadratures/poly.py:Poly.get_polyfit_grad", "equadratures/poly.py:Poly.get_polyfit_hess", "equadratures/parameter.py:Parameter._get_orthogonal_polynomial"]}
{"id": "C194", "title": "Training a network does not depend on the order of the samples", "statement": "For every network (any layers, ridges, polynomials), every training set, every strategy of optimisation, momentum, learning rate and number of iterations, with or without messages: the trained weights and coefficients, the learning rate and the loss are the same if the training samples are given in another order.", "quantifier": "all networks, training sets, permutations of the samples, strategies, rates, numbers of iterations", "why_tests_cant": "all networks, orders and numbers of iterations", "anchors": ["equadratures/polynet.py:Polynet.fit", "equadratures/polynet.py:Polynet.evaluate_fit", "equadratures/polynet.py:Polynet.loss", "equadratures/polynet.py:Polynet.update_delta"]}
{"id": "C195", "title": "A small enough step of training lowers the loss", "statement": "For every network and training set whose loss is not stationary (some partial derivative with respect to a weight or a coefficient does not vanish), there is a learning rate below which the first iteration of steepest descent lowers the loss.", "quantifier": "all networks, training sets, small enough learning rates", "why_tests_cant": "all networks and data; all small rates", "anchors": ["equadratures/polynet.py:Polynet.fit", "equadratures/polynet.py:Polynet.evaluate_fit", "equadratures/polynet.py:Polynet.gradient_Wk", "equadratures/polynet.py:Polynet.gradient_alphak", "equadratures/polynet.py:Polynet.loss"]}
{"id": "C196", "title": "The error of a fit is at most twice that of the best polynomial", "statement": "Numerical integration on the tensor grid, Beta-type inputs, any model that is continuous on the box of the inputs: if some polynomial of the basis is within e of the model everywhere on the box, then the polynomial returned is within 2e of the model in mean square, the mean reported is within 2e of the mean of the model and the standard deviation reported within 2e of that of the model. For the mean, any polynomial of degree at most 2 o_i + 1 in every input i will do, o_i being the orders.", "quantifier": "all Beta-type inputs, orders of at least 1, index sets inside the orders, continuous models, polynomials and bounds", "why_tests_cant": "all continuous models, orders and index sets", "anchors": ["equadratures/poly.py:Poly.set_model", "equadratures/poly.py:Poly.get_mean_and_variance", "equadratures/poly.py:Poly.get_polyfit", "equadratures/stats.py:Statistics", "equadratures/sampling_methods/tensorgrid.py:Tensorgrid"]}
{"id": "C197", "title": "Scores follow the units and do not depend on the order of the observations", "statement": "If outputs and predictions are both given in other units (multiplied by a nonzero number, shifted by any number), mae and rmse are multiplied by the absolute value of the factor and normalised_mae, r2 and adjusted_r2 stay the same. Reordering the observations, outputs and predictions alike, changes none of the scores.", "quantifier": "all numbers of observations, outputs, predictions, factors, shifts, reorderings and metrics", "why_tests_cant": "all outputs, predictions and reorderings", "anchors": ["equadratures/datasets.py:score"]}
{"id": "C198", "title": "The training r2 of a least-squares fit is the fraction of the variance that it explains", "statement": "Least squares with equal weights, a basis that contains the constant, outputs that are not all equal: the training score with metric r2 is one minus the sum of squared residuals over the sum of squared deviations of the outputs from their mean. Hence a larger basis never lowers the training r2.", "quantifier": "all regular bases with the constant, samples with equal weights, outputs that are not constant, and every least-squares solution", "why_tests_cant": "all samples, bases and minimisers", "anchors": ["equadratures/poly.py:Poly.get_polyscore", "equadratures/poly.py:Poly.set_model", "equadratures/datasets.py:score", "equadratures/solver.py:least_squares"]}
{"id": "C199", "title": "The units of the objective do not matter to the optimiser", "statement": "Optimising g f + e with g > 0 instead of f (another unit of measurement), with the trust-region method or omorf, minimising or maximising, for every starting point and setting: the function is called at the same points in the same order, the same point is returned, and the value returned is the former one in the new units.", "quantifier": "all objectives, positive factors, shifts, starting points, settings, both methods and both directions", "why_tests_cant": "all objectives, factors and runs of any length", "anchors": ["equadratures/optimisation.py:Optimisation.optimise", "equadratures/optimisation.py:Optimisation._trust_region", "equadratures/optimisation.py:Optimisation._omorf", "equadratures/optimisation.py:Optimisation._set_ratio"]}
{"id": "C200", "title": "A constant added to the objective does not change a run of omorf", "statement": "For every objective, starting point, number of directions, way to find the subspace, setting and constant, minimising or maximising: omorf applied to f + e raises exactly if it raises for f; otherwise it calls the function at the same points in the same order, returns the same point, the same number of evaluations and the value plus e.", "quantifier": "all objectives, constants, starting points, subspace dimensions and methods, settings, directions", "why_tests_cant": "all objectives and runs of any length", "anchors": ["equadratures/optimisation.py:Optimisation._omorf", "equadratures/optimisation.py:Optimisation._calculate_subspace", "equadratures/optimisation.py:Optimisation._sample_set", "equadratures/optimisation.py:Optimisation._update_geometry_omorf"]}
{"id": "C201", "title": "Error bounds for models that do not jump", "statement": "Numerical integration on the tensor grid with the tensor-grid basis, Beta-type inputs on [l_i, u_i], orders o_i >= 1, and a model that changes by at most the sum of L_i |x_i - y_i| between any two points of the box: the root mean squared error of the polynomial returned and the error of the standard deviation reported are at most the sum of L_i (u_i - l_i) / sqrt(o_i), the error of the mean reported at most the sum of L_i (u_i - l_i) / sqrt(2 o_i + 1).", "quantifier": "all dimensions, Beta-type inputs, orders of at least one, Lipschitz models and constants", "why_tests_cant": "all models of the class and all orders", "anchors": ["equadratures/poly.py:Poly.set_model", "equadratures/poly.py:Poly.get_mean_and_variance", "equadratures/poly.py:Poly.get_polyfit", "equadratures/basis.py:Basis.set_orders", "equadratures/sampling_methods/tensorgrid.py:Tensorgrid"]}
{"id": "C202", "title": "Error bounds for smooth models of one input", "statement": "Numerical integration with one Beta-type input on [l, u] and order o >= 1. If the derivative of order o + 1 of the model is at most C in absolute value, the root mean squared error of the polynomial and the error of the standard deviation reported are at most 2 C (u - l)^(o+1) / o!. If that of order 2 o + 2 is at most C, the error of the mean reported is at most 2 C (u - l)^(2o+2) / (2o+1)!.", "quantifier": "all Beta-type inputs, orders of at least one, smooth models and bounds of their derivatives", "why_tests_cant": "all smooth models and all orders", "anchors": ["equadratures/poly.py:Poly.set_model", "equadratures/poly.py:Poly.get_mean_and_variance", "equadratures/poly.py:Poly.get_polyfit", "equadratures/basis.py:Basis.set_orders"]}
{"id": "C203", "title": "Uncertainty bands: units of the outputs and order of the samples", "statement": "Poly.get_polyfit with uq=True after a least squares fit with positive weights and samples that determine the coefficients. With outputs a y + b instead of y and variances a^2 v instead of v (also when no variances were given), the values returned are a times the former ones plus b and the bands |a| times the former ones, for every a and b and every stack of points. With the samples in another order nothing changes. A call that raised raises the same exception.", "quantifier": "all fits, stacks of points, factors, constants and permutations of the samples, variances absent, one number or one per sample", "why_tests_cant": "all data, scales and permutations", "anchors": ["equadratures/poly.py:Poly.get_polyfit", "equadratures/poly.py:Poly._get_polystd", "equadratures/poly.py:Poly.set_model"]}
{"id": "C204", "title": "What the elastic net selects, and how it reacts to its arguments", "statement": "Solver method elastic-net with the cvxpy back end, param1 = lambda > 0 and 0 <= param2 = alpha < 1 (defaults 1 and 1/2). A coefficient that is not zero balances the correlation of its column with the residual: it equals lambda (1 - alpha) x_j + lambda alpha sign(x_j); for a coefficient that is zero the correlation is at most lambda alpha in absolute value. All coefficients vanish exactly if no column correlates with the right-hand side by more than lambda alpha. A larger lambda never enlarges the penalty and never lowers the sum of squared residuals. For two right-hand sides, the squared distance of the fits plus 2 lambda (1 - alpha) times that of the coefficients is at most that of the right-hand sides.", "quantifier": "all matrices, right-hand sides and admissible parameters", "why_tests_cant": "all data and all values of two continuous parameters", "anchors": ["equadratures/solver.py:elastic_net", "equadratures/solver.py:Solver.__init__"]}
{"id": "C205", "title": "Robust fits do not depend on how far outliers lie", "statement": "Solver method huber (cvxpy back end, threshold M >= 0, default 1): if outputs are changed only at samples whose residual is at least M with the same sign before and after the change, the coefficients returned before still minimise the Huber loss, so what is returned after the change has the same loss, and is the same if the minimiser is unique. Method least-absolute-residual with the default optimiser: the same if every output stays above, on or below the fit as it was.", "quantifier": "all matrices, right-hand sides, thresholds and changes of outliers of any size", "why_tests_cant": "outliers of any size", "anchors": ["equadratures/solver.py:huber", "equadratures/solver.py:least_absolute_residual"]}
{"id": "C206", "title": "Sparse-grid fits combine tensor-grid fits, and their error is bounded by that of the best polynomial", "statement": "Poly(..., Basis('sparse-grid'), method='numerical-integration').set_model(f), any number of parameters, level and growth rule. For every model f the fitted polynomial is the sum, over the tensor grids of the sparse grid, of the factor of the grid times the polynomial fitted on that grid alone. For parameters with Beta-type laws (uniform and Chebyshev included), a level of at least one, and a continuous f: let K be the sum of the absolute factors. If any polynomial of the sparse index set - in particular any polynomial of total degree at most the level - is within eps of f on the whole range of the inputs, then the root mean squared error of the fit, the error of the reported mean and that of the reported standard deviation are at most (1 + K) eps.", "quantifier": "all models, numbers of parameters, levels, both growth rules, all competing polynomials", "why_tests_cant": "continuous models and all dimensions and levels", "anchors": ["equadratures/poly.py:Poly.set_model", "equadratures/poly.py:Poly._set_coefficients", "equadratures/sampling_methods/sparsegrid.py:Sparsegrid._set_sparsegrid_quadrature_rule", "equadratures/basis.py:sparse_grid_basis"]}
{"id": "C207", "title": "The index set decides which models can be fitted; the declared laws do not", "statement": "For a downward closed index set (all that Basis offers, C05) the functions that get_polyfit can return for some coefficients are exactly the polynomials in the monomials of the index set, whatever distributions the parameters have. Consequently least squares with the same samples, weights and index set predicts the same values at the samples for any two lists of parameters, and the same values everywhere if the samples determine a polynomial of the index set: a wrongly declared distribution changes the statistics but not the predictions.", "quantifier": "all index sets, parameters, samples and weights", "why_tests_cant": "all pairs of parameter lists and all data", "anchors": ["equadratures/poly.py:Poly.get_polyfit", "equadratures/poly.py:Poly._set_coefficients", "equadratures/solver.py:least_squares", "equadratures/basis.py:Basis"]}
{"id": "C208", "title": "Noise in the outputs on a sparse grid is amplified by a known constant", "statement": "If two models differ by at most eps at the points of the sparse mesh, the two fits with numerical integration have the same index set, and the root mean squared distance of the polynomials, the difference of the reported means and that of the standard deviations are at most K eps, where K is the sum of the absolute factors of the sparse grid. For d parameters K is the sum over k < d of C(d-1, k) C(level + d - 1 + k, d - 1): one in one dimension, 2 level + 3 in two.", "quantifier": "all pairs of models, parameters, levels of at least one, growth rules", "why_tests_cant": "all disturbances, dimensions and levels", "anchors": ["equadratures/poly.py:Poly.set_model", "equadratures/poly.py:Poly._set_coefficients", "equadratures/basis.py:sparse_grid_basis"]}
{"id": "C209", "title": "Sparse-grid fits of analytic models converge", "statement": "For parameters with Beta-type laws and a model that is on the range of the inputs a sum of polynomials p_0 + p_1 + ... of total degrees at most 0, 1, ... with |p_k| <= C rho^k, rho < 1 (as for a convergent power series): with the K of C208 the error of the fit of level l, in the root mean square, of its mean and of its standard deviation are at most (1 + K) C rho^(l+1) / (1 - rho), and they stay below any given accuracy from some level on, in any number of dimensions and for both growth rules.", "quantifier": "all such models, dimensions, levels and accuracies", "why_tests_cant": "a limit over levels", "anchors": ["equadratures/poly.py:Poly.set_model", "equadratures/poly.py:Poly.get_mean_and_variance", "equadratures/basis.py:sparse_grid_basis"]}
{"id": "C210", "title": "The points kept by subsampling still determine the polynomial", "statement": "If the mesh determines the polynomials of the index set (only the zero polynomial vanishes at all its points) and at least as many points are kept as there are basis terms, then with the subsampling algorithms qr, svd and lu the points kept determine them as well, and least squares with the points and weights kept recovers every polynomial of the index set from its values.", "quantifier": "all index sets, meshes with positive weights, numbers of points kept not below the number of basis terms, the three algorithms", "why_tests_cant": "all meshes and factorisations", "anchors": ["equadratures/poly.py:Poly._set_points_and_weights", "equadratures/subsampling.py:get_qr_column_pivoting", "equadratures/subsampling.py:get_svd_subset_selection", "equadratures/subsampling.py:get_lu_row_pivoting"]}
{"id": "C211", "title": "The points kept by QR pivoting are nearly as good as any", "statement": "With the subsampling algorithm qr, n basis terms and n points kept: no n points of the mesh have a weighted determinant of more than n! times that of the points kept; a polynomial of the index set that is at most eps at the points kept is at most (2^n - 1) eps at every point of the mesh; the fit passes through the model at the points kept, and if some polynomial of the index set is within eps of the model on the mesh, the fit is within 2^n eps of the model at every point of the mesh. (Equal weights; for others the factor 2^n - 1 is multiplied by the root of the largest quotient of two weights.)", "quantifier": "all index sets, meshes with positive weights, models, polynomials, accuracies", "why_tests_cant": "all meshes, all other choices of points, all models", "anchors": ["equadratures/poly.py:Poly._set_points_and_weights", "equadratures/subsampling.py:get_qr_column_pivoting", "equadratures/poly.py:Poly._set_coefficients"]}
{"id": "C212", "title": "Least squares is unbiased and the best linear unbiased fit", "statement": "With least squares at points that determine the polynomial, if the outputs are values of a polynomial of the index set plus uncorrelated random disturbances of mean zero whose variances are inversely proportional to the weights (equal variances for equal weights): the mean of every coefficient and of the prediction at every point is the true one; for every linear quantity of the polynomial (a coefficient, the mean, a value) no linear unbiased combination of the outputs has a smaller mean square error than the quantity of the fit; the weighted variances of the fitted values add up to sigma^2 times the number n of basis terms; the mean weighted misfit is sigma^2 (m - n). With equal weights the mean square residual, which get_polyfit with uq takes as the variance of the outputs, is on average s^2 (1 - n/m), so the variance used for the band is too small unless n is small against m.", "quantifier": "all index sets, samples that determine the polynomial, true polynomials, probability spaces and laws of the disturbances with the stated moments, linear estimators", "why_tests_cant": "all laws of noise and all competing estimators; averages over infinitely many repetitions", "anchors": ["equadratures/poly.py:Poly.set_model", "equadratures/poly.py:Poly._set_coefficients", "equadratures/poly.py:Poly._get_polystd", "equadratures/solver.py:least_squares"]}
{"id": "C213", "title": "The sign and size of the error of the mean of a smooth model", "statement": "With numerical integration on a tensor grid and Beta-type (uniform, Beta, Chebyshev) inputs: if the model has 2 o_i + 2 continuous derivatives in each input, the last of them between lo_i and hi_i, then the mean of the model minus the mean reported lies between the sum of lo_i h_i / (2 o_i + 2)! and the sum of hi_i h_i / (2 o_i + 2)!, where h_i is the mean of the product of (x - x_j)^2 over the quadrature points of the input and at most 4 ((u_i - l_i)/4)^(2 o_i + 2). So the mean reported is never too large if these derivatives are not negative (for example exp), and never too small if they are not positive.", "quantifier": "all numbers of inputs, shapes, intervals, orders, index sets inside the orders and all models with these derivatives", "why_tests_cant": "all smooth models and all orders", "anchors": ["equadratures/poly.py:Poly.get_mean_and_variance", "equadratures/poly.py:Poly._set_coefficients", "equadratures/parameter.py:Parameter._get_local_quadrature", "equadratures/sampling_methods/tensorgrid.py:Tensorgrid._set_points"]}
{"id": "C214", "title": "The error of the Sobol' indices is bounded by the error of the fit", "statement": "Several Beta-type (uniform, Beta, Chebyshev) inputs and a continuous model of standard deviation sigma. However the coefficients were obtained: if the root mean square distance between the fitted polynomial and the model under the declared laws is at most eta < sigma, then every first-order and total Sobol' index reported, and the sum of the indices reported for the subsets of any set of inputs, is within 4 eta / sigma of that of the model. With numerical integration on a tensor grid: if some combination of the basis polynomials is within eps of the model on the ranges of the inputs, 2 eps < sigma, they are within 8 eps / sigma.", "quantifier": "all numbers of inputs, shapes, intervals, orders, index sets with the constant term, coefficients, continuous models and error bounds", "why_tests_cant": "all models, polynomials and sets of inputs", "anchors": ["equadratures/stats.py:Statistics.get_sobol", "equadratures/stats.py:Statistics.get_sobol_total", "equadratures/poly.py:Poly.get_sobol_indices", "equadratures/poly.py:Poly.get_total_sobol_indices"]}
{"id": "C215", "title": "The relevance vector machine and the order, sign and units of the data", "statement": "The coefficients returned by the relevance vector machine do not depend on the order of the samples (nor on a rotation of the rows of the system), change their sign with the outputs, and are multiplied by c if all outputs are multiplied by c.", "quantifier": "all systems, one-dimensional right-hand sides, permutations, rotations, factors and iteration limits", "why_tests_cant": "all systems and data", "anchors": ["equadratures/solver.py:rvm"]}
{"id": "C216", "title": "The adaptive learning rate changes once per pass", "statement": "With opt='adapt' a pass of Polynet.fit after the first one halves learning_rate if the pass before raised the loss and raises it by a tenth otherwise, and moves all weights and coefficients with the new rate; the other strategies keep the rate.", "quantifier": "all networks, training sets, rates and numbers of passes", "why_tests_cant": "all networks, data and training lengths", "anchors": ["equadratures/polynet.py:Polynet.fit"]}
{"id": "C217", "title": "The trust region follows the quality of the prediction", "statement": "In every pass of the trust-region method that tries a step, the radius grows if the function has decreased by at least eta_2 times the predicted decrease, and never grows beyond the resolution or the step if it has not, by the factors and bounds the user has passed (gam_inc, gam_inc_overline, gam_dec, alpha_2).", "quantifier": "all objectives, models, configurations and reachable states of the run", "why_tests_cant": "all objectives and runs", "anchors": ["equadratures/optimisation.py:Optimisation._trust_region"]}
{"id": "C218", "title": "A short step costs no evaluations", "statement": "In the methods trust-region and omorf, a pass whose step is shorter than omega_s times the resolution lowers the radius by the factor gam_dec (not below the resolution), and calls the function only if some sample point is further from the incumbent than max(2 radius, 10 resolution).", "quantifier": "all objectives, models, keyword arguments and states of a run", "why_tests_cant": "all runs and settings", "anchors": ["equadratures/optimisation.py:Optimisation._trust_region", "equadratures/optimisation.py:Optimisation._omorf", "equadratures/optimisation.py:Optimisation._update_geometry_trust_region", "equadratures/optimisation.py:Optimisation._update_geometry_omorf"]}
{"id": "C219", "title": "The description of a parameter identifies it", "statement": "The text returned by get_description tells the law and the numbers it was given: two parameters with the same description have the same law, moments and bounds, and the numbers in the text are those of the law.", "quantifier": "all distributions, arguments and number formats without blanks", "why_tests_cant": "all pairs of parameters", "anchors": ["equadratures/parameter.py:Parameter.get_description", "equadratures/distributions/beta.py:Beta.get_description", "equadratures/distributions/truncated_gaussian.py:TruncatedGaussian.get_description", "equadratures/distributions/chebyshev.py:Chebyshev.get_description"]}
{"id": "C220", "title": "Basis pursuit approaches the smallest sum of absolute values", "statement": "Compressed sensing (basis pursuit de-noising) minimises the sum of absolute coefficients subject to the noise level: every Newton step is that of the barrier function, goes downhill and is accepted once it is short enough, no pass raises the barrier function, and the vector returned exceeds the smallest attainable sum by at most 0.001, up to the slope at which the last pass stopped.", "quantifier": "all matrices, right-hand sides, noise levels, iterates and competing vectors", "why_tests_cant": "all systems and competing vectors", "anchors": ["equadratures/solver.py:_bp_denoise", "equadratures/solver.py:_l1qc_newton"]}
{"id": "C221", "title": "Newton subsampling takes the steps of Newton", "statement": "Subsampling by Newton's method takes, from every relaxed selection of rows, the one step that keeps the number of rows and after which every rate of change of the logarithm of the determinant with its barrier that keeps the number of rows would vanish if these rates were linear.", "quantifier": "all meshes with independent columns, relaxed selections and directions", "why_tests_cant": "all meshes, selections and directions", "anchors": ["equadratures/subsampling.py:get_newton_determinant_maximization"]}
{"id": "C222", "title": "Cross-validation of compressed sensing compares mean deviations on unseen rows", "statement": "Without a noise level compressed sensing compares the powers of ten from 1e-8 to 0.1. The error it attaches to a level in one of five folds is the mean absolute deviation, on the rows held out, of the coefficients found from the other rows; folds without rows and folds whose fit is singular do not count.", "quantifier": "all matrices, data, solvers and noise levels", "why_tests_cant": "all sizes, data and solvers", "anchors": ["equadratures/solver.py:basis_pursuit_denoising"]}
{"id": "C223", "title": "A deeper tree refines a shallower one", "statement": "If fitting a tree succeeds with one max_depth it succeeds with every smaller one, and the smaller tree is the larger one cut off at its depth: every point meets the same polynomials down to that depth, every split of the smaller tree is a split of the larger one, and the trees are the same if the larger one does not use the additional depth. With the model-aware criterion the training error does not grow with max_depth.", "quantifier": "all data sets, settings, fits and pairs of depths", "why_tests_cant": "all data, settings and depths", "anchors": ["equadratures/polytree.py:PolyTree.fit"]}
{"id": "C224", "title": "Pruning twice is pruning once", "statement": "After prune(X, y) has succeeded, calling prune(X, y) again succeeds and changes neither the tree nor any prediction.", "quantifier": "all trees and validation sets", "why_tests_cant": "all trees and validation sets", "anchors": ["equadratures/polytree.py:PolyTree.prune", "equadratures/polytree.py:PolyTree.predict"]}
{"id": "C225", "title": "How much smoothing changes a prediction of a tree", "statement": "For a fitted PolyTree, predict returns a mean of the values of the polynomials on the way from the root to the leaf of the point. The leaf's polynomial keeps at least the weight (2/(2+k))^depth, whatever the data and min_samples_leaf are; the polynomial of the root has the weight k*m/(k*m+N) with m = min_samples_leaf and N samples. As k grows, the prediction at every point tends to that of the polynomial fitted to all samples.", "quantifier": "all data sets, settings, smoothing constants k >= 0, outcomes of the fits and points", "why_tests_cant": "all data sets, settings and points", "anchors": ["equadratures/polytree.py:PolyTree.predict", "equadratures/polytree.py:PolyTree.fit"]}
{"id": "C226", "title": "Training a network in turned coordinates", "statement": "If the inputs of the samples and the rows of the initial weights of the first layer are multiplied by the same orthogonal matrix, Polynet.fit gives a first layer turned by that matrix and otherwise the same weights, coefficients, learning rate and loss; evaluate_fit at a turned input returns what the original network returns at the original input.", "quantifier": "all networks, orthogonal matrices, data sets, optimisation strategies, rates and numbers of iterations", "why_tests_cant": "all networks, orthogonal matrices, data sets and numbers of iterations", "anchors": ["equadratures/polynet.py:Polynet.fit", "equadratures/polynet.py:Polynet.evaluate_fit", "equadratures/polynet.py:Polynet.update_delta"]}
{"id": "C227", "title": "The numbering of the ridges of a network does not matter", "statement": "Renumbering the ridges of a layer of a Polynet, with all weights and coefficients that belong to them, changes neither its predictions nor, up to the same renumbering, what fit makes of it; in particular ridges that start equal stay equal.", "quantifier": "all networks, renumberings, data sets, optimisation strategies and numbers of iterations", "why_tests_cant": "all networks, renumberings, data sets and numbers of iterations", "anchors": ["equadratures/polynet.py:Polynet.fit", "equadratures/polynet.py:Polynet.evaluate_fit"]}
{"id": "C228", "title": "The influence of one output on a least-squares fit", "statement": "If one output of a least-squares fit is changed, the fitted value at that sample moves in the same direction and by at most as much. The fitted value at a sample lies between the output there and the value of a fit made without that sample, so a fit never deviates more from an output than a fit that has not seen it: the training error is at most the leave-one-out error.", "quantifier": "all bases, samples, positive weights and outputs", "why_tests_cant": "all bases, samples and outputs", "anchors": ["equadratures/solver.py:least_squares", "equadratures/poly.py:Poly.set_model", "equadratures/poly.py:Poly.get_polyfit"]}
{"id": "C229", "title": "A higher order keeps the polynomials of lower degree", "statement": "Asking a parameter for a higher order only adds rows: the recurrence coefficients, the values of the orthogonal polynomials and their first and second derivatives up to the lower order stay exactly what they were. A polynomial with known coefficients can therefore be evaluated with parameters of any sufficient order.", "quantifier": "all distributions, pairs of orders and points", "why_tests_cant": "all pairs of orders and points", "anchors": ["equadratures/distributions/recurrence_utils.py:jacobi_recurrence_coefficients", "equadratures/distributions/recurrence_utils.py:custom_recurrence_coefficients", "equadratures/parameter.py:Parameter._get_orthogonal_polynomial", "equadratures/parameter.py:Parameter.get_recurrence_coefficients"]}
{"id": "C230", "title": "The size of the uncertainty bands at the samples", "statement": "If the variances of the data are at most V, then at every sample the squared uncertainty band times the weight of the sample is at most 1.96^2 V, and these products sum to at most 1.96^2 V times the number of basis functions. In particular, with equal weights and estimated variances the mean squared band at the samples is at most 1.96^2 times the number of basis functions times the mean squared residual. This holds for every design, also a rank-deficient one.", "quantifier": "all bases, samples, non-negative weights, variances and outputs", "why_tests_cant": "all bases, samples and variances", "anchors": ["equadratures/poly.py:Poly._get_polystd", "equadratures/poly.py:Poly.get_polyfit", "equadratures/poly.py:_inv"]}
{"id": "C231", "title": "Trees refuse bad arguments, and a refused fit changes nothing", "statement": "The constructor of PolyTree refuses exactly a depth, an order or a number of samples that is not positive and a negative smoothing constant, and otherwise holds what was passed. fit refuses every name of a criterion or of a search that is not documented, and never replaces it silently. A call of fit that raises leaves the object as it was, so that after correcting the argument a fit yields the same tree and the same predictions as a fit at once.", "quantifier": "all arguments, data sets and polynomial fits", "why_tests_cant": "all arguments and data sets", "anchors": ["equadratures/polytree.py:PolyTree.__init__", "equadratures/polytree.py:PolyTree.fit"]}
{"id": "C232", "title": "More weight, repeated samples and further samples", "statement": "If the weight of a sample is raised, or the sample is given twice, a least-squares fit comes no further from its output, and it fits the other samples no better. If a sample is added, the weighted sum of the squared errors never falls, and rises by at most the weighted squared error that the old fit makes at the new sample.", "quantifier": "all bases, samples, positive weights and outputs", "why_tests_cant": "all bases, samples, weights and outputs", "anchors": ["equadratures/solver.py:least_squares", "equadratures/poly.py:Poly.set_model", "equadratures/poly.py:Poly.get_polyfit"]}
{"id": "C233", "title": "A tree reproduces a polynomial of its degree", "statement": "If the training outputs are the values of one polynomial of at most the degree of the tree's polynomials and the samples that a node may hold determine it, the tree predicts the values of that polynomial everywhere, also outside the range of the samples, whatever the splits, the depth, the search, the smoothing and the validation sets used for pruning. With the model-aware criterion such data are not split at all.", "quantifier": "all polynomials of the degree, samples that determine them, settings of the tree, validation sets and points of prediction", "why_tests_cant": "all polynomials, samples, settings of the tree, validation sets and points", "anchors": ["equadratures/polytree.py:PolyTree.fit", "equadratures/polytree.py:PolyTree.prune", "equadratures/polytree.py:PolyTree.predict"]}
{"id": "C234", "title": "Subspaces computes what its method names and refuses other names", "statement": "Subspaces(method=...) accepts the documented names written with small or capital letters; 'active-subspace' yields the subspace and the eigenvalues of the polynomial passed, or else of the polynomial of the given degree fitted to the samples, 'variable-projection' yields the subspace found from the standardised samples, and get_subspace and get_eigenvalues return them. Every other name is refused by the constructor.", "quantifier": "all names, polynomials, samples and outputs", "why_tests_cant": "all names, polynomials and samples", "anchors": ["equadratures/subspaces.py:Subspaces.__init__", "equadratures/subspaces.py:Subspaces.get_subspace", "equadratures/subspaces.py:Subspaces.get_eigenvalues"]}
{"id": "C235", "title": "Scaling of data follows units, rows and columns", "statement": "For data of floating-point type with non-constant columns standardise returns the same values if a column is given in other units, with the sign changed for a negative factor. Reordering or repeating rows and choosing, reordering or repeating columns does the same to the result. Distances within a column keep their proportions. unstandardise takes values in [-1,1] to values between the smallest and the largest of the column, the ends to these, and values that reach both ends are recovered by standardising.", "quantifier": "all data with non-constant columns, factors, shifts, rearrangements of rows and columns, and values in [-1,1]", "why_tests_cant": "all data, units and rearrangements", "anchors": ["equadratures/datasets.py:standardise", "equadratures/datasets.py:unstandardise"]}
{"id": "C236", "title": "Robust and penalised fits follow units and order", "statement": "Huber regression, least absolute residuals (default optimiser) and elastic-net regression do not depend on the order of the samples, and reordering the basis reorders the coefficients. If the outputs are multiplied by a nonzero number, and the threshold of Huber or the weight of the absolute values of the elastic net by its absolute value, the coefficients are multiplied by that number; if for the first two a polynomial of the basis is added to the outputs, its coefficients are added. The minimal losses are multiplied accordingly.", "quantifier": "all matrices, outputs, orders of samples and of the basis, factors, added polynomials and arguments of the solvers", "why_tests_cant": "all data, orders, factors and arguments", "anchors": ["equadratures/solver.py:huber", "equadratures/solver.py:least_absolute_residual", "equadratures/solver.py:elastic_net"]}
{"id": "C237", "title": "Fits to values and gradients superpose, recover and ignore order", "statement": "If the values and gradients together determine the coefficients (and the values are independent when there are fewer of them than coefficients), the solver of least-squares-with-gradients is linear in the data: a combination of two sets of values and gradients gives the same combination of coefficients. Values and gradients of a polynomial of the basis give back its coefficients, and adding them to any data adds its coefficients. The order of the values and of the gradient components does not matter and a reordered basis gets the reordered coefficients. With fewer values than coefficients, invertible combinations of the value equations (weights, for instance) change nothing.", "quantifier": "all matrices of values and gradients, all data, factors, orders and invertible combinations, all numbers of values, gradients and coefficients", "why_tests_cant": "all sizes, data, orders and weights", "anchors": ["equadratures/solver.py:constrained_least_squares", "equadratures/solver.py:null_space_method"]}
{"id": "C238", "title": "Splitting again with the same seed", "statement": "For the same seed (that is, the same drawn permutation) and also without shuffling: splitting inputs and outputs that were transformed row by row gives the transformed parts; splitting the same inputs with another output gives the same inputs in the same parts, and the outputs of both calls belong to the same samples; and a larger training fraction keeps every training sample of the smaller one at its place and takes the additional ones from the front of its test set.", "quantifier": "all data sets, row transformations, outputs, permutations and fractions", "why_tests_cant": "all data, transformations, permutations and fractions", "anchors": ["equadratures/datasets.py:train_test_split"]}
{"id": "C239", "title": "Robust fits with few or no outliers", "statement": "Huber regression: if no residual of a least-squares fit exceeds the threshold, that fit minimises the Huber loss and the loss found is half its sum of squares; if all its residuals are below the threshold, the returned fit has the same values at the samples, and the same coefficients if the samples determine them; conversely a returned fit with no residual above the threshold is a least-squares fit. Least absolute residuals (default optimiser): if the outputs are those of a polynomial of the basis except at some samples, and every nonzero polynomial of the basis has more than half of its sum of absolute values at the other samples, exactly that polynomial is returned, however wrong the outputs at the exceptional samples are.", "quantifier": "all matrices, outputs, thresholds, sets of wrong samples and wrong outputs", "why_tests_cant": "all data, thresholds and sets of wrong outputs", "anchors": ["equadratures/solver.py:huber", "equadratures/solver.py:least_absolute_residual"]}
{"id": "C240", "title": "How the scores relate to each other, to other predictions and to parts of the data", "statement": "For all outputs and predictions: mae is at most rmse and rmse at most the square root of the number of observations times mae; the square of rmse is the square of the mean error plus the variance of the errors. The mae (rmse) of two predictions of the same outputs differ by at most the mae (rmse) between the two predictions, hence by at most epsilon if these differ by at most epsilon everywhere. Over two sets of observations together mae and the square of rmse are the averages over the parts weighted by their sizes. All scores but normalised_mae stay the same if outputs and predictions are exchanged.", "quantifier": "all numbers of observations, outputs, predictions, parts and metrics", "why_tests_cant": "inequalities and identities over all real vectors", "anchors": ["equadratures/datasets.py:score"]}
{"id": "C241", "title": "Vector-valued active subspaces follow the outputs and samples", "statement": "vector_AS with samples and weights R returns the same eigenvalues and directions if the outputs are replaced by combinations G of them and the weights by R' with G^T R' G = R (rotated outputs with unit weights, for instance), and if the samples are taken in any order, each equally often. In particular renumbering the outputs with their weights, other units of the outputs with weights divided accordingly, and leaving out outputs without weight change nothing.", "quantifier": "all numbers of outputs, samples and inputs, gradients, weights with a symmetric square root, combinations, orders and repetitions", "why_tests_cant": "all gradients, weights, combinations and orders", "anchors": ["equadratures/subspaces.py:vector_AS", "equadratures/subspaces.py:jacobian_vec"]}
{"id": "C242", "title": "The elastic net treats similar columns alike", "statement": "Solver method elastic-net with the cvxpy back end, lambda > 0 and 0 <= alpha < 1: the coefficients of two basis columns differ by at most the correlation of the residual with the difference of the columns divided by lambda (1 - alpha), hence by at most the distance of the columns times the norm of the outputs divided by the same; the same with the sum in place of the difference for a column and the negative of another. So equal columns get equal coefficients, opposite columns opposite ones, and a column of zeros the coefficient zero.", "quantifier": "all matrices, pairs of columns, outputs and admissible parameters", "why_tests_cant": "all data and all values of two continuous parameters", "anchors": ["equadratures/solver.py:elastic_net"]}
{"id": "C243", "title": "The columns used by the minimum-norm method do not depend on the outputs", "statement": "For a matrix with linearly independent rows, method minimum-norm uses a set of as many columns as there are rows, the same for all outputs: it returns the only solution that vanishes on all other columns. So a polynomial that uses only these columns is recovered, and a combination of outputs gives the same combination of coefficients.", "quantifier": "all matrices with independent rows, all outputs and factors", "why_tests_cant": "all matrices and outputs", "anchors": ["equadratures/solver.py:minimum_norm"]}

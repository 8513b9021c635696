# Design: a Lean 4 model of Effective-Quadratures

Subject: the Python package in `/repo/equadratures` at the pinned commit. Nothing is run;
every definition in `lean/Verif/**` cites the file and lines it was read from.

## 1. Trusted base

* The Lean 4.33.0 kernel. Every property theorem depends at most on `propext`,
  `Classical.choice` and `Quot.sound`; section 5 lists the axioms per theorem. No axioms of
  our own, no `sorry`, no `native_decide`, no `bv_decide`, no `implemented_by`, no `unsafe`.
* Mathlib 4.33.0 as installed (definitions used in statements: `List`, `Finset`, `Matrix`,
  `Polynomial`, `HasDerivAt`, integrals and measures, `Real.sqrt`, `Real.rpow`, `Real.Gamma`).
* The faithfulness of the reading: the model is tied to the code only by the citation on
  each definition. The seeded-bug log (`seeded/LOG.jsonl`) shows that the theorems are
  sensitive to the modelled branches, constants and argument orders.

### What is abstracted everywhere

* **Floating point is exact arithmetic.** `float64` values are elements of `ℝ` (or of an
  arbitrary (ordered) field, `ℚ` in examples). Rounding, overflow, `inf` arithmetic are not
  modelled, except where NaN or infinity steers control flow (NaN outputs, infinite bounds):
  there `Option`/`WithTop`-style values are used.
* **numpy arrays** are `List`s (of lists) or functions from `Fin n`; row order is kept
  because coefficients, points and weights are matched by position. Where numpy's shapes or
  integer dtypes matter (C69, C87) they are modelled.
* **Exceptions are values** (`Except Err`/`Option`), one constructor per kind of failure.
* **External numerical routines** (`eigh`, `qr`, `lu`, `svd`, `cholesky`, `lstsq`, `linprog`,
  `scipy.optimize`, `cvxpy`, `scipy.stats`, random generators) are parameters of the model.
  Theorems either hold for every value of the parameter or assume only the documented contract
  of the routine as an explicit hypothesis (for example `V` orthogonal and `J V = V diag D`,
  `D` ascending, for `eigh`); an example next to the theorem shows the contract satisfiable.

### What is modelled

| directory | code |
|-----------|------|
| `Verif/Basis` | `basis.py`: all index sets, `sort`, `prune`, `get_basis`, sparse-grid combination |
| `Verif/Param` | `parameter.py`: recurrence, Jacobi matrix, orthogonal polynomials, Gauss/Radau/Lobatto rules; `distributions/recurrence_utils.py` (Jacobi, custom); uniform, beta, Chebyshev coefficients |
| `Verif/Dist` | `distributions/*.py` constructors, moments, bounds, grids; `Parameter.__init__` |
| `Verif/Sampling` | `sampling_methods/*.py`, `subsampling.py` |
| `Verif/Poly` | `poly.py`: evaluation, gradients, Hessians, `set_model`, caches, gradient stacking, method/mesh dispatch |
| `Verif/Stats` | `stats.py`: mean, variance, Sobol' indices, skewness, kurtosis, conditional indices |
| `Verif/Solver` | `solver.py`: all solvers, cross-validation, relevance vector machine |
| `Verif/Tree` | `polytree.py`: fit, split search, prune, predict |
| `Verif/Opt` | `optimisation.py`: trust-region and `omorf` methods, sample sets, keyword arguments, radius, constraints, `optimise` dispatch |
| `Verif/Sub` | `subspaces.py`: active subspaces, variable projection, zonotopes, hit-and-run, distances |
| `Verif/Data` | `datasets.py` |
| `Verif/Weight` | `weight.py` |
| `Verif/Corr` | `correlations.py` |
| `Verif/Net` | `polynet.py` |

### What is not modelled

Plotting, text descriptions, file output (`get_summary`), `ray` parallelism as such,
scipy's distribution internals beyond their documented densities, wall-clock behaviour, memory, and numerical
convergence speed of iterative solvers.

## 2. Method

`Verif/<Area>/Model.lean` holds definitions (the code, branch by branch), `Spec.lean` the
independent specification where it is not a standard Mathlib notion, `*Lemmas.lean` helpers
and `*Props.lean` the property theorems, each followed by an `example` showing that a
concrete non-trivial input meets its hypotheses. Where the pinned code violates a property,
the negation is proved on a concrete witness (`..._violated`), the strongest true part
is kept as `..._partial`, and section 4 records the disagreement.

## 3. Plan per property

| id | what is modelled | how it is proved |
|----|------------------|------------------|
| C01 | `total_order_basis`, `getTotalOrderBasisRecursion` as list recursion | induction on dimension/order: membership iff, `Nodup`, length = binomial, sortedness by degree |
| C02 | `tensor_grid_basis` (kron construction as flatMap) | induction on the orders list |
| C03 | `euclidean_degree_basis` as filter of C02 | membership iff from C02; inequality of sums of squares |
| C04 | `hyperbolic_basis` over real `q` with `Real.rpow` | membership iff; q=1; monotone in q by power-mean (`rpow_sum_le`) |
| C05 | same models | membership characterisations |
| C06 | `Basis.sort` with an arbitrary sorting permutation | permutation + key minimality of the zero row |
| C07 | `Basis` record with `elements`, `cardinality`; `prune` | one-call theorem; repeated calls violate: witness + exact law of n calls |
| C08 | `sparse_grid_basis` index filter and coefficients | counting lattice points on a simplex layer, alternating binomial identity |
| C09 | `set_orders`/`get_basis` dispatch on strings | exact-name theorem, witness for alias/case variants |
| C10–C12 | `_get_orthogonal_polynomial`, `get_jacobi_matrix` over ℝ | strong induction; Polynomial degree; `HasDerivAt` |
| C13, C14 | `get_local_quadrature` with `eigh` as parameter under contract | index algebra of the double reversal; eigenvector components = p_k(λ)·v_0; discrete orthonormality from orthogonality of V; exactness to degree 2n−1 by dividing by p_n |
| C15 | order-1 branch | theorem for the mean branch, witness for an asymmetric distribution |
| C16 | radau/lobatto loops, the rules built from them, the dispatch on `endpoints` | loop invariant: p1 = monic polynomial at the endpoint; characteristic vector |
| C17, C18 | `jacobi_recurrence_coefficients` | positivity by cases; Legendre orthogonality by integration |
| C19 | `custom_recurrence_coefficients` loop | Stieltjes procedure invariant by strong induction |
| C20 | constructors of Uniform/Beta/Chebyshev | algebra; witness off [0,1] |
| C21, C22 | `Tensorgrid._set_points` kron loops, `get_poly` | induction on dimensions; product of sums |
| C23 | `Sparsegrid._set_points` | witness in dimension 2; true part: combination weights before deduplication |
| C24 | `_set_weights` | positivity, normalisation |
| C25, C26 | subsampling index selection with the permutation as parameter | list lemmas; witness for a 3-cycle |
| C27 | induced loop with `ray_imported` flag and random stream | branch theorem |
| C28, C29 | `get_poly`, `get_poly_grad`, `get_poly_hess`, `get_polyfit*` | products; derivative of products |
| C30 | numerical-integration solve `A^T b` | discrete orthonormality |
| C31 | `least_squares` with `lstsq` contract (normal equations) | Pythagoras |
| C32 | `get_mean`, `private_get_variance` | orthonormality; error branch |
| C33 | `Poly` state machine with cached statistics | invariant over operation sequences; witness |
| C34 | NaN branch with `Option` outputs | list induction |
| C35 | `cell2matrix`, gradient stacking | index algebra |
| C36 | `vector_to_2D_grid` | fold of updates |
| C37–C39 | `private_get_all_sobol_indices`, `get_sobol`, `get_sobol_total` | partition of basis rows by support |
| C40 | skewness/kurtosis sums | algebra |
| C41, C42 | conditional skewness/kurtosis triple/quadruple loops with delta filters | multinomial expansion + vanishing of filtered integrals |
| C43, C44 | `null_space_method`, `minimum_norm` with QR contract | orthogonal decomposition; witness |
| C45, C46 | fold index arithmetic, error accumulator | list arithmetic; witness |
| C47 | `_CG_solve` loop | loop invariants, A-conjugacy induction |
| C48 | LP formulation incl. default bounds | witness; partial: optimal among non-negative |
| C49 | rvm index bookkeeping | invariant |
| C50 | dispatch tables | string case analysis |
| C51–C56 | PolyTree as an inductive tree, split search as parameter | structural induction |
| C57–C64 | Optimisation as a state machine / pure helpers | invariants, algebra, witnesses |
| C65–C67 | zonotope in 1-D, inequalities, hit-and-run | extremality, invariants |
| C68, C69 | datasets | list lemmas, algebra |
| C70 | Weight loop with fuel | measure bound |
| C71, C72 | Correlations linear algebra with QR/Cholesky contracts | matrix algebra |
| C73 | Polynet forward/backward pass | chain rule (one layer); witness for two layers |
| C74, C75 | `Basis.sort`, `prune` | order relation on keys; downward closure kept by removing maximal keys |
| C76, C77 | Beta and Chebyshev constructors, Jacobi coefficients | Pearson equation and integration by parts; Beta integrals |
| C78 | quadrature nodes | zeros of orthogonal polynomials under a positive functional lie inside |
| C79, C80 | `set_model` argument handling, `Poly.__init__` dispatch | case analysis; witnesses |
| C81 | `Basis` and `get_poly` | first row of every index set |
| C82 | statistics quadrature orders | exactness degree against the degree of powers; witness for every law |
| C83, C84 | `huber`, `elastic_net` (osqp back end) with the minimiser as parameter under contract | optimality transferred to the documented objective; strict convexity for uniqueness |
| C85, C86 | `_bp_denoise`, `_l1qc_newton`, the selection loop of `basis_pursuit_denoising` | loop invariants over all iteration counts; minimality of the selected candidate |
| C87 | `rvm` with numpy shapes | shape inference; witness |
| C88, C89 | `PolyTree.fit` | extremality over candidate splits, induction on trees |
| C90 | `_LU_pivoting`, `_generate_set` | elimination for three points; general-dimension unisolvence of the coordinate set; witness on a conic |
| C91, C92 | `optimise`, `_start`, `_finish`, `_sample_set` | invariant over histories and runs |
| C93, C94 | constraints and result records | case analysis; exact feasible sets |
| C95 | `get_zonotope_vertices`, `get_unique_rows` | extremality; counting of sign patterns of a hyperplane arrangement |
| C96, C97 | `_get_active_subspace`, `vector_AS` | Ky Fan inequality |
| C98 | `subspace_dist` | operator norm of the difference of projections |
| C99 | `_get_variable_projection` | invariant of the line search |
| C100, C101 | `score`, `train_test_split` | Cauchy-Schwarz with equality case; error branches |
| C102 | `Weight` | quadrature functional; error branches |
| C103, C104 | `Correlations` | measure pushforward; product densities |
| C105, C106 | `Polynet.fit` | induction over iterations |
| C107–C109 | distribution constructors | moments by Gamma/Beta/Gaussian integrals; witnesses |
| C110, C111 | `Parameter.__init__` | case analysis over all distributions and arguments |
| C112–C114 | `get_recurrence_coefficients` on a grid | Stieltjes procedure under affine maps and reflection |
| C115-C119 | `_omorf`, `_update_geometry_omorf`, `_sample_set` for both sets, `optimise` | runs as sequences of elementary steps that keep the invariants of the trust-region model; witness for the budget |
| C120 | `_LU_pivoting`, `_find_new_point_alternative` | one step at a time; sorting contract |
| C121, C122 | `_calculate_subspace`, `_omorf` arguments | induction over the greedy loop; totality |
| C123 | `_LU_pivoting` on the linear set | elimination for three points; flat witness in three variables |
| C124 | keyword arguments of `optimise` | case analysis; run with two evaluations |
| C125 | sparse-grid branch of `_set_coefficients`, mesh, combination | combination identity by power series; discrete orthonormality of every tensor grid |
| C126, C127 | `get_polyfit(uq=True)`, `_get_polystd`, `_inv` | ridge regression: the band as a multiple of the variance of a linear estimator; Cholesky contract |
| C128 | `get_polyscore`, `set_model` | histories of `set_model` calls |
| C129 | `induced_jacobi_evaluation`, `_quadratic_modification`, `_christoffel_normalised_polynomials` | quadratic modification as a change of measure (Christoffel), induction over the roots, substitution in the integral |
| C130, C131 | `inverse_induced_jacobi`, `_univariate_sampling`, mesh | inequalities of Chebyshev, Markov and Stieltjes for the brackets; contract of `brentq` |
| C132 | points and weights of the induced mesh | law of a quantile transform, product measures, sum over the rows of the index set |
| C133, C134 | `get_newton_determinant_maximization` (whole loop) | Schur product theorem for the Hessian, derivative of the log-determinant, invariant of the loop, the line search ends because the slope is negative |
| C135 | its Newton step | tangent bound on the log-determinant, concavity of the logarithm, Karush–Kuhn–Tucker conditions |
| C136, C137 | `jacobian_vp`, the fits inside `_get_variable_projection`, `vandermonde` | total-order polynomials are closed under affine changes, so the projection does not depend on the scaling; derivative of a projection (Golub and Pereyra) from the product rule |
| C138 | the curve and the line search of `_get_variable_projection` | chain rule along the curve, invariance under changes of basis, sign of the derivative of the test at zero |
| C139 | the Gauss–Newton step of `_get_variable_projection` | changes within the subspace are in the kernel of the Jacobian; dimension count for the dropped singular values; normal equations |
| C140, C141 | `Montecarlo`, `get_samples` of the distributions (shapes), `get_weights` | unfolding of the column assignment; strong law of large numbers for numerator and denominator, strict Jensen inequality for the bias |
| C142, C143 | `Subspaces.__init__`, `_get_active_subspace` with and without bootstrap, `get_subspace_polynomial`; numpy's `lstsq`, `eigh` and `argsort` as parameters with their contracts | exactness of the fit, vanishing eigenvalues by a dimension count, polynomials constant along directions of zero derivative; bounds as least and greatest elements |
| C144 | the rules of C14 and C16 as returned, `Tensorgrid._set_points` on them, the fit by numerical integration | orthonormality of the univariate polynomials under each rule from its exactness, product structure of the grid; for both ends, discrete orthonormality under the modified table, whose last coefficient exceeds the original one by the signs of the monic polynomials at the ends |
| C145 | `PolyTree.fit` with the exception handlers around the polynomial fits | a fit is made of an empty point set only if a side of a candidate is empty; with a positive leaf size such candidates are skipped before the fit, by induction over the recursion |
| C146, C147, C148 | `_build_model`, `_compute_step`, `_find_new_point` and `_get_phi_function_and_derivative` down to the calls of `lstsq`, `minimize` and `linprog`, plugged into the runs of C59 and C116 | Fréchet derivatives of products of powers of linear forms and of polynomial combinations; comparison of both minimisations; the extremes of an affine function; quadratic functions as polynomials of degree two, least squares as recovery, surjectivity of the evaluation map by counting |
| C149 | `_random_directions` column by column for arbitrary draws | the scale is positive for directions that do not leave an active bound; orthogonal columns on the inactive coordinates and coordinate vectors on the active ones separate all linear forms; second-round directions are multiples by a factor other than 0 and 1 |
| C150 | `get_pdf` and `get_correlated_samples` | change of variables: density of a linear image of a standard normal vector, then of its componentwise transforms, each of which carries the normal law to the marginal law |
| C151 | `_get_local_quadrature` without prescribed end points | the nodal polynomial of a rule exact to degree 2 n + 1 is orthogonal to all lower degrees, hence determined; Lagrange polynomials determine the weights; reflection maps rules to rules |
| C152 | the mesh, the standardised marginals and the equation in `Correlations.__init__` | the reversed coefficients are the same sum by the symmetry of C151; two entries of the normal vector have the bivariate density; the correlation is the integral the equation discretises |
| C153 | `_get_local_quadrature` on the coefficients of `custom_recurrence_coefficients` | the monic polynomials of the sampled law are orthogonal (Stieltjes procedure), then Gauss quadrature and uniqueness as in C14 and C151 |
| C154 | `set_model` with numerical integration, `get_polyfit`, `get_mean` and `get_variance` for such parameters | beyond the order the table does not matter: replace it by one with positive coefficients and use C30; products of the sampled laws make the basis orthonormal, by induction on the number of parameters |
| C155 | the Nataf branch of `Correlations.__init__` and `set_model` | C154 for standard Gaussian parameters; the transform of Gaussian parameters is affine, moments of affine functions by induction; a counterexample with one parameter |
| C156 | `Analytical`: the discrete law of points and values, its cdf and percent-point function | sums of weights below a level are monotone; induction over the points; the integral over the levels splits at the cumulative weights |
| C157 | `evaluate_model`, `evaluate_model_gradients`, the calls of `Poly.set_model` and `Correlations.set_model` | induction over the rows written by the loops; a call with one argument missing raises |
| C158 | `gen_linear`, `gen_friedman` with the draws as arguments | rewriting to the linear form and the Friedman function; counterexamples with explicit draws |
| C159 | `get_recurrence_coefficients`, `get_jacobi_matrix`, `get_jacobi_eigenvectors` | contract of `eigh` and `argsort`; orthonormality by the transpose of a square matrix; evaluation of the default branch |
| C160 | the reading of `sampling_args` in `Poly.__init__` and the number of points | membership of keys by look-up in the dictionary; rounding |
| C161 | `get_summary`: the cache of statistics, the parameter named, the replacements for speech | reverse induction over the history (as in C33); C38 with the contract of `argsort`; induction over the text |
| C162 | `get_sobol`, `get_sobol_total` on the expansion of a polynomial | the conditional mean of an expansion keeps the terms of the chosen inputs (orthonormality); variances by Parseval; a total index is one minus a closed index |
| C163 | `laguerre_recurrence_coefficients` | moments by the gamma integral; structure relation x p' = n p + n (n + a) q by two-step induction; the integral of each polynomial vanishes, hence orthogonality |
| C164 | `hermite_recurrence_coefficients` | as C163 with the weight of the generalised Hermite polynomials; odd moments vanish by symmetry |
| C165 | `fit`, `prune`, `get_graphviz` with the node numbers kept | induction over the tree: numbers are distinct, the drawing lists nodes and parent/child pairs; erasing the numbers gives the tree of C51–C56 |
| C166 | `set_model` with numerical integration, `mean`, `variance` | the grid is an orthonormality relation for all rows within the orders; Pythagoras for the weighted error; a square orthonormal system is complete |
| C167 | the basis constructors of C01–C04, C08 | membership characterisations; the maximum of the orders is monotone and symmetric; sparse rows are raised by one |
| C168 | `set_orders`, `Tensorgrid`, numerical integration, least squares | rows within the orders are orthonormal on the grid; otherwise the next orthogonal polynomial is constant on the points of its direction |
| C169 | `set_model` with least squares | residuals are orthogonal to the index set; the difference of the two fits is orthogonal to itself |
| C170 | `set_model` with least squares | the misfit is a sum over the samples |
| C171 | `set_model` with least squares | an expansion of the smaller index set is one of the larger |
| C172 | `set_model`, `mean`, `variance`, `allSobol`, `skewness`, `kurtosis` | C169 for the coefficients; the Sobol' passes, the weighted evaluations and the power sums scale |
| C173 | `allSobol`, `getSobolTotal`, `polyfit` | C162 and C38; a fit without the input has its conditional mean equal to itself |
| C174 | `set_model`, `allSobol`, `getSobolTotal` | the two expansions are equal term by term; the residual argument of C169 |
| C175 | `polynomialRatios`, `linearMod`, `linearLoop`, `jacobiCdf` | reduction to C129 for the uniform weight; the first linear modification always raises |
| C176 | `chooseAlgorithm`, `meshKept` | case analysis; C25 for the rows kept |
| C177 | `Session`, `Step`, `Run`, `callFit`, `callGrad`, `callHess` | induction on the history with the shape invariant; C34 for calls with NaN |
| C178 | `Request.setOrders`, `localRule`, `tensorGrid`, `integrate`, `polyfit`, `mean`, `variance` | Weierstrass approximation on the box, exactness of the rule, projection on the grid (C166), positivity of the weights |
| C179 | the same and `allSobol`, `getSobolTotal` | C162 for the fit, C178, Jensen for conditional means |
| C180 | `statOrder`, `basisRequest`, `polySobol` | C37 and the sum over keys of bounded length; a single coefficient on a row with too many inputs |
| C181 | `localRule`, `onePointRule`, `tensorGrid`, `getPoly` | recurrences in corresponding units give the same polynomials at corresponding points (induction on the degree), so the Gauss rules correspond (uniqueness) |
| C182 | `allSobol`, `getSobol`, `polyfit` | differences in the inputs of a row annihilate functions that ignore one of them; orthogonality to the row |
| C183 | `integrate`, `mean`, `variance`, `LsqFit` | Bessel's inequality on the grid; orthogonality of the residual |
| C184 | `LsqFit` | the weighted squared errors differ by a factor and a constant |
| C185 | `getPdf`, `getCdf`, `getIcdf`, `getSamples`, constructors | every law is normalised (Gamma, Beta and Gaussian integrals, substitutions); continuity and limits of the mass; intermediate values |
| C186 | `fit` (splits, losses), `prune`, `predict` | simulation of the two fits by induction on the depth; then on the prunings; uniqueness of the minimiser; the weighted fits of `_fit_poly` are such minimisers |
| C187 | whole trust-region loop | simulation: states that differ by the constant stay so under every operation; induction on pivots, points and iterations; uniqueness of interpolating quadratics |
| C188 | `Poly` fit by numerical integration on a tensor grid, Sobol' indices | the sum over the grid is the iterated sum over the rules; orthonormality of the discrete rules input by input (induction on the dimension) |
| C189 | local rules of consecutive orders | discrete orthogonality to the product of the other nodes gives a change of sign; intermediate value theorem; increasing self-maps are the identity |
| C190 | active subspaces from samples (scaling, fit, gradients, eigenvectors) | the scaled points are the same; the unique weighted least-squares polynomial is transformed like the outputs; eigenvalues and separated eigenspaces are determined by the matrix |
| C191 | `_fit_poly` (bounds, basis, weighted least squares, error) under the model of trees | the design matrices are identical in both units, so are the coefficients; induction over the tree, the scan of splits and pruning; counterexample by solving the normal equations |
| C192 | `fit` (thresholds, losses, splits), `_fit_poly`, `prune`, `predict` | splits tried and losses are invariant under permutations; the weights of the points are a function of the point and the bounds; uniqueness of the minimiser; induction over the tree |
| C193 | `get_polyfit_grad`, `get_polyfit_hess` | C29 (exact derivatives) and C181 (equal values) with the chain rule and uniqueness of derivatives |
| C194 | `Polynet.fit`, all strategies | simulation between the states of both runs; sums over the samples are permuted |
| C195 | the first iteration of `Polynet.fit` | the slope of the loss along the step is minus twice the sum of the squared gradients; for two layers the step is computed exactly in a counterexample |
| C196 | numerical integration on the tensor grid, mean and variance | polynomials of the basis are reproduced; stability of the fit (C183) for the difference; for the mean, exactness of the product Gauss rule for power products |
| C197 | score | means are invariant under permutations and follow affine maps; the squared correlation does not see affine maps |
| C198 | get_polyscore on a least-squares fit | the residual is orthogonal to the constant and to the fit, so the covariance of outputs and fit is the variance of the fit; C171 for larger bases |
| C199 | `optimise`, both methods | simulation between the states of both runs through every function of the loop; the condition on the predicted decreases ranges over the states a run goes through (`Passes`, `OPasses`); the counterexample follows the first pass of a run |
| C200 | `optimise` with `omorf` | the case g = 1 of the simulation of C199, where the condition is void |
| C201 | `set_model` and the statistics on a tensor grid | C196 with the Bernstein polynomial of the model on the box, whose distance follows from the variance of the binomial law; polynomials of bounded degrees are expansions in the basis |
| C202 | the same with one input | C196 with the Taylor polynomial of the model |
| C203 | `get_polyfit(uq=True)`, `_get_polystd` | uniqueness of the least squares solution, then the closed form of the band of C126; existence of solver and factorisation shown in the example |
| C204 | `elastic_net` | variational inequality of the minimiser, applied to one coordinate, to zero and to two right-hand sides |
| C205 | `huber`, `least_absolute_residual` | the slope of the loss at the fit does not change, convexity |
| C206 | `set_model` on sparse grids, `Sparsegrid`, `sparse_grid_basis` | coefficients of the blocks summed up for any model; linearity, Bessel on every tensor grid, Minkowski; recovery (C125) |
| C207 | `get_polyfit`, least squares | products of orthogonal polynomials and monomials span the same space over a downward closed set; both residuals are orthogonal to it |
| C208 | `set_model` on sparse grids, `sparse_grid_basis` | linearity, Bessel on every tensor grid and Minkowski (as C206); counting of the rows of given total |
| C209 | `set_model`, `get_mean_and_variance` on sparse grids | partial sums compete in C206; powers of the level against a geometric sequence |
| C210 | `_set_points_and_weights` with `qr`, `svd`, `lu` | a zero on the diagonal of the pivoted R would make a whole row zero, against the rank; forward substitution; the violations are explicit factorisations of a 4 by 3 matrix |
| C211 | `_set_points_and_weights` with `qr`, `set_model` | entries of R are bounded by the pivot of their row: Leibniz formula for the determinant, and strong induction (doubling) for the size |
| C212 | `set_model` with least squares, noisy outputs; the empirical variance in `_get_polystd` | the fit is a matrix applied to the outputs (normal equations, determined points); Gauss-Markov by orthogonality of the competing row; traces of the hat matrix; integrals on a probability space |
| C213 | `set_model` with numerical integration on a tensor grid, `get_mean_and_variance` | Hermite interpolation at the quadrature points, error by repeated use of Rolle's theorem; minimality of the nodal polynomial against Chebyshev's; induction over the inputs |
| C214 | `allSobol`, `getSobol`, `getSobolTotal` on fitted coefficients | conditional means are contractions in root mean square; standard deviations of near functions are near; shares of variances; C162 and C196 |
| C215 | `rvm` (the loop, the stopping test, the scatter) | the passes as a function of columns, gamma and mu; each change of the data commutes with a pass; an explicit run with rational weights and bounds of logarithms for the violation |
| C216 | `Polynet.fit`, the learning rate | induction over the passes; the spec is a product of one factor for each pass |
| C217 | `_trust_region` and `_omorf`, the end of a pass | case analysis of a pass, with the invariant of the run to identify the values; gain and prediction are compared without dividing |
| C218 | `_trust_region`, `_omorf`, the safety step and `_update_geometry_*` with the settings read from the keyword arguments | unfolding of a pass; the constants 2 and 10 are part of the statement |
| C219 | `get_description` of `Parameter` and of all distributions but `Analytical`, as lists of literals and attributes; Python's `str` is a parameter, injective and without blanks on the numbers in use | no text begins with the first words of another; a blank in every literal between two numbers separates them |
| C220 | `_bp_denoise`, `_l1qc_newton` (without conjugate gradients) | gradient and Hessian of the barrier function as derivatives along a step; elimination of the second block of the Newton system; convexity of the constraints gives the gap (2n+1)/tau; the number of barrier passes makes tau at least 1000(2n+1) |
| C221 | `get_newton_determinant_maximization` 93-117 | derivative of a matrix inverse along a line gives the derivative of the leverages, hence that `H` is the derivative of `g`; positive definiteness of `H` gives uniqueness |
| C222 | `basis_pursuit_denoising` 122-161; the de-noising solver is a parameter (for the default levels the solver of the package) | the fold of a row is its index divided by the fold size; sums over positions become sums over the rows held out; induction over the folds |
| C223 | `PolyTree.fit` with two values of `max_depth` | induction over the depth left in the smaller tree; the split of a node depends on its samples only; below the cut the training error is bounded by C88 |
| C224 | `PolyTree.prune` | induction over the tree: a pruned node is a fixed point with the same test loss |
| C225 | `PolyTree.predict` after `fit` | induction over the tree: an inner node has at least twice `min_samples_leaf` samples, which bounds the factor by which one level of smoothing lowers the weight of the leaf; the limit from the exact weight of the root |
| C226 | `Polynet.fit`, `evaluate_fit`, the gradients | simulation: one iteration keeps the relation "same network, first layer turned", since scalar products of turned vectors are unchanged and the gradient of the first layer turns with the inputs |
| C227 | `Polynet.fit`, `evaluate_fit` for one layer, `evaluate_fit` for two layers | simulation between training runs with permuted ridges; equal ridges by the exchange of the two; a network of two layers as a counterexample |
| C228 | `least_squares` and `get_polyfit` as in C31 | the difference of the two fits is tested against both residuals (orthogonality); the fit without a sample is the fit with its own value as output there (C184) |
| C229 | the four functions of `recurrence_utils.py` and `_get_orthogonal_polynomial` | a row of the discretised procedure is final once written; the three loops read rows up to the degree only |
| C230 | `_get_polystd` and `_inv` as in C126 | the regularised projection H is symmetric with H*H = H minus a positive semidefinite matrix; its trace is at most the number of columns |
| C231 | `PolyTree.__init__`, and `fit` with the names as strings and with the object after an exception | case analysis of the constructor and of the two dispatches; the corrected fit compared with the direct one |
| C232 | `least_squares` and `get_polyfit` as in C31 | each fit is tested against the optimality of the other; a repeated sample counts as one with twice the weight (C184) |
| C233 | `grow`, `fitPoly`, `prune` and `predictNode` as in C186 | each node's fit is the polynomial itself with error zero, so smoothing averages equal values; no split improves on the error zero |
| C234 | `Subspaces.__init__` with the method as a string (`Obj.new`), `get_subspace`, `get_eigenvalues`; the computation itself as in C96, C142; variable projection (C99) is a parameter | case analysis of the dispatch; names compared letter by letter |
| C235 | `standardise`, `unstandardise` as in C69 | the smallest and the largest value of a column under the change of units and the rearrangement |
| C236 | `huber`, `least_absolute_residual`, `elastic_net` as in C48, C83, C84 | the change of data multiplies the loss by a constant and is invertible on the coefficients, so minimisers correspond |
| C237 | `constrained_least_squares` and `null_space_method` as in C43 | the minimum (C43) gives linear orthogonality equations, whose solution is unique when values and gradients determine the coefficients; the transformed coefficients solve the transformed equations |
| C238 | `train_test_split` as in C68 | the parts are images of a prefix and the rest of one list of row numbers, so maps commute with the split and prefixes are nested |
| C239 | `huber`, `least_absolute_residual` as in C48, C83 | the tangents of the Huber loss at the least-squares residuals add up to a constant by orthogonality and are strict elsewhere; triangle inequality on the wrong samples |
| C240 | `score` as in C100 | Cauchy-Schwarz and the triangle inequality for root mean squares, additivity of the sums |
| C241 | `vector_AS`, `jacobian_vec` as in C97 | the matrix handed to `eigh` is the mean of J^T R J, equal for both data sets |
| C242 | `elastic_net` as in C84, C204 | the optimality conditions of C204 and monotonicity of the slopes of the absolute value; Cauchy-Schwarz |
| C243 | `minimum_norm` as in C44 | the result lives on the first pivots; every right-hand side is reached from there (C44), so the square block is one-to-one |


## 4. Disagreements between code and property

Each is proved on the model (theorem names in `MANIFEST.json`); the true part is proved as `..._partial`.

* **C07** — `prune` keeps using the cardinality stored at construction: the second call removes a different number of rows than asked.
* **C09** — `get_basis` knows only the five exact names; aliases ("tensor", "univariate") and other letter cases that the constructor accepts fail.
* **C15** — A one-point rule of a Beta parameter uses the midpoint (or the mean of the law on [0,1]) instead of the mean.
* **C16** — Order zero ignores the requested end point (Gauss-Radau) or divides by zero (Gauss-Lobatto); a uniform parameter with default bounds raises a TypeError because the rule reads the unset `lower` and `upper` of the parameter.
* **C20** — Mean and variance of Beta and Chebyshev parameters are those of the law on [0,1] whatever the bounds.
* **C23** — Points shared by the tensor grids of a sparse grid keep only the first of their weights, so the weights do not sum to one.
* **C24** — Induced sampling does not normalise its weights.
* **C25** — On ties at the threshold Newton subsampling returns fewer rows than asked, possibly none.
* **C26** — LU subsampling applies the permutation instead of its inverse.
* **C27** — Without the optional package `ray`, induced sampling returns the vector of means for every point.
* **C28** — In one dimension a custom index set is ignored.
* **C32** — With one coefficient the variance raises `UnboundLocalError`.
* **C33** — Cached statistics survive user-defined coefficients and changed parameters.
* **C34** — Gradient data with NaN outputs raise `TypeError`; few remaining outputs raise as well.
* **C35** — Gradient stacking in one dimension raises `ValueError`.
* **C39** — Sobol' queries in one dimension raise `TypeError`; with one coefficient no statistics object can be built.
* **C41, C42** — After pruning, conditional indices raise `IndexError` (stale cardinality).
* **C44** — "minimum-norm" returns the basic solution of the pivoted QR, not the one of minimum norm; rank-deficient systems raise `ValueError`.
* **C46** — The list of cross-validation errors is not reset between noise levels.
* **C47** — Conjugate gradients return the last iterate, not the best one.
* **C48** — The linear program uses the default bounds x ≥ 0: only non-negative coefficients are considered.
* **C50** — `Poly` accepts "integration", for which no solver exists, and is letter-case sensitive where the solver is not.
* **C52** — `get_splits` lists equal splits of different branches once.
* **C54** — The smoothing constant is multiplied by `min_samples_leaf` at every fit.
* **C55** — The model-agnostic search minimises the reduction of the standard deviation.
* **C56** — Pruning weights children by training counts, so the validation error can grow; subtrees without validation rows lose their polynomial; unsplit trees raise `TypeError`.
* **C60** — The radius can fall below rho.
* **C61** — `max_evals = 1` makes two evaluations; the proved bound is max(max_evals, 2) + 2(q-1) with q = (n+1)(n+2)/2.
* **C63** — One infinite entry removes the limits of all rows of that side (SLSQP, COBYLA).
* **C64** — With the incumbent at a bound, the up and down steps coincide.
* **C66** — For one active direction the second right-hand side has the wrong sign.
* **C67** — Hit-and-run can leave the box (a two-step run is given), and raises `OverflowError` for a subspace containing a coordinate axis.
* **C69** — Integer arrays are standardised in place and truncated.
* **C70** — The first quadrature value is compared with 10; `nan` stops the loop.
* **C71** — With one parameter the Gram-Schmidt correction is never applied.
* **C73** — From the second iteration on derivatives are taken at stale values; the coefficients of the first of several layers do not influence the output; narrowing layers raise `AttributeError`.
* **C74** — `sort` orders by the sum of squares, not by total degree: (0,3) comes after (2,2).
* **C79** — `set_model()` never uses sample gradients.
* **C80** — Numerical integration with basis types that are not mesh names raises `ValueError`.
* **C82** — Skewness and kurtosis use `degree + 1` quadrature orders: kurtosis is wrong from degree 2 on.
* **C83** — `huber` with verbosity and no threshold raises `TypeError`.
* **C87** — The relevance vector machine raises `ValueError` for the column that `set_model` forms, in every run of two or more passes.
* **C89** — `logging=True` with the model-agnostic criterion raises `UnboundLocalError`.
* **C90** — From the fourth point on, the pivots of `_LU_pivoting` are built with the raw basis functions instead of the reduced ones: a set on a conic passes all thresholds.
* **C91** — Stored values survive a change of objective; the points of a scaled run are unscaled once more in the next run.
* **C93** — The assertion on methods is always true; polynomial equality constraints raise `AttributeError`.
* **C94** — `nfev` is 0 for the methods of scipy.
* **C95** — Rows with a zero entry can be returned twice.
* **C97** — Without samples `vector_AS` raises `AttributeError` (`getSamples` does not exist).
* **C99** — `max_iter = 0` raises `UnboundLocalError`; a step below 1e-10 is accepted unchecked.
* **C100** — `r2` is the squared correlation: affine functions of the outputs get a perfect score.
* **C101** — The training fraction is never refused.
* **C102** — Bad supports raise `TypeError` (a tuple is raised), a zero integral `ZeroDivisionError`.
* **C105** — The early stop exists only with `verbose=True`.
* **C106** — The momentum term starts with the weights themselves.
* **C107** — The mean and variance of a Cauchy parameter are those of a random sample; the truncated Gaussian reports skewness 0.
* **C108** — Beta and arcsine densities are those on [0,1] whatever the bounds.
* **C109** — Kurtosis is sometimes the excess; the exponent in the Rayleigh formula is 1.5 instead of 2; the uniform law has none.
* **C110** — Negative or missing Gaussian variance, negative gamma scale, reversed or single uniform bounds are accepted; beta shapes in (0,1) are refused with `AttributeError`.
* **C111** — Refusals raise `TypeError` (a tuple is raised); both end points are accepted for half-infinite laws; the bounded truncated Gaussian is refused.
* **C112** — The grids for exponential, Weibull and Cauchy parameters do not scale with the parameter.
* **C119** — The first quadratic set of omorf is evaluated without a look at the budget: `max_evals = 3` can make 4 calls.
* **C122** — An unknown `subspace_method` is accepted by an object that already ran, with the directions of the earlier run.
* **C123** — Three points in a plane with the incumbent pass all pivot thresholds of the linear set in three variables.
* **C124** — `delmin` and `delmax` are documented but never read.
* **C126** — Uncertainty bands are 1.96 standard deviations, and the weights of the samples are left out: the bands do not shrink as samples are added.
* **C127** — `uq=True` raises `AttributeError` for polynomials fitted on a mesh, and `ValueError` if a sample with its own variance is dropped for a NaN output.
* **C128** — `get_polyscore` compares with the outputs given at construction, not with the values fitted last; without such outputs it raises `AttributeError`.
* **C131** — Induced meshes: the recurrence coefficients are those of the first parameter on its own bounds while the sampler works on `[-1, 1]`; for a first parameter on `[0, 1]` the root solver raises `ValueError` for every draw in `(0.01, 0.5]` of order zero. For other distributions a message is printed and nothing is sampled.
* **C134** — `get_newton_determinant_maximization`: if all rows have the same leverage the Newton step is zero and `np.vstack` of an empty selection raises `ValueError` (exact arithmetic); for as many rows as the matrix has, `1/(1 - z)` is infinite and `cholesky` raises `ValueError`; for more rows than that every comparison of the line search is with `nan` and the loop never ends. The number of rows is `round(sampling_ratio * cardinality)` and is not compared with the size of the mesh.
* **C138** — `_get_variable_projection`: the test of the line search is `norm(res_new) <= norm(res) + alpha*beta*t`, but `alpha` is the slope of half the squared norm. If the residual exceeds `1/beta = 10^4` all short steps fail it although they reduce the residual; multiplying the outputs by a large enough constant makes all steps fail, and the step `1e-11` is taken. The subspace found depends on the units of the outputs.
* **C139** — `_get_variable_projection`: the last `n^2` of the `min(M, m n)` singular values are dropped. They vanish only if there are at least `m n` samples; with at most `n^2` samples the step is zero.
* **C140** — `Montecarlo.__init__`: `self.points[:, i] = univariate_samples[:]` raises `ValueError` for Weibull and analytical parameters, whose `get_samples` returns a column of shape (N, 1).
* **C141** — `Montecarlo`: the points are samples of the input distribution but the weights are proportional to 1/K (K the sum of squares of the basis functions) as for induced samples. Weighted sums converge to E[f/K]/E[1/K] instead of E[f]; for f = K the limit is strictly smaller than the mean unless K is constant.
* **C142** — `Subspaces` with `full_space_poly`: gradients are taken in the coordinates of the parameters but the samples are projected in standardised coordinates. On ranges other than [-1, 1] a linear function of one combination of the inputs is not a function of the active variable.
* **C143** — `_get_active_subspace` with `bootstrap=True`: the range over 50 resamples need not contain the eigenvalue computed from all the points.
* **C144** — Parameters with `endpoints="both"`: the Gauss-Lobatto rule with order + 1 points is not exact for the square of the polynomial of top degree, so that numerical integration returns too large a coefficient for it (and order zero raises `ZeroDivisionError`).
* **C145** — `PolyTree.fit`: the exception handler of a failing polynomial fit leaves the error variable unset. With `min_samples_leaf=0` and the model-aware criterion a candidate with an empty side is fitted and `fit` ends in `UnboundLocalError`; so does the empty data set.
* **C155** — `get_transformed_poly()` is a polynomial in the standard variables although `get_points` returns correlated points: `get_polyfit` at these points does not return the model.
* **C157** — `Correlations.set_model(model, model_grads)` calls `evaluate_model_gradients` without `format`: `TypeError` for every gradient function.
* **C158** — `gen_linear`: the constant term of the outputs is not `bias`; with no relevant input or one observation standardising gives `nan`; the deviation of the noise is `noise` times the deviation of the outputs; without `normalise` the outputs are a vector, not a column.
* **C159** — `get_recurrence_coefficients()`, `get_jacobi_matrix()` and `get_jacobi_eigenvectors()` raise `TypeError` or `UnboundLocalError` for the default `order=None`; `get_jacobi_eigenvectors(1)` raises `ValueError`.
* **C160** — Misspelt sampling arguments are ignored beside a correct one; `sample-output-variances` is ignored without `sample-outputs`; `sampling-ratio` has no effect without a subsampling algorithm.
* **C161** — `get_summary` states no statistics unless one was queried since `set_model`; `tosay=True` replaces only the signs of exponents.
* **C164** — `hermite_recurrence_coefficients` returns `order` rows where `order + 1` are documented, raises `IndexError` for order 0, and takes the total mass from `param_A` but all other rows from `param_B`.
* **C168** — With different orders per direction, total-order and hyperbolic bases reach up to the largest order in every direction, while the default tensor grid has only order + 1 points per direction: the fit is not determined and least squares cannot recover the polynomials of the basis.
* **C175** — `induced_jacobi_evaluation` raises for every weight with |alpha| >= 1 at interior points: the tests of `_polynomial_ratios` on `N` are inverted, so that every number of ratios is refused.
* **C176** — Unknown names of subsampling algorithms raise `AttributeError`; `random` is accepted and raises `TypeError` once the mesh has been built.
* **C177** — The callable of `get_polyfit_function` keeps the number of coefficients: after a `set_model` with NaN outputs that prunes the basis it raises `ValueError`, while `get_polyfit` works.
* **C180** — The bound on the order of interactions is taken from the orders of the parameters, also if the basis has its own larger orders: with parameters of order 1 and a total-order basis of order 2 the fit `x y` has all Sobol and total indices zero. With nine or more inputs interactions of more than eight inputs are dropped without notice.
* **C181** — The single quadrature point of an input of order zero is the middle of the bounds, or (if a bound is zero or missing) the mean attribute of the distribution, for Beta that of the law on [0, 1]: for unequal shapes it does not follow a change of units of the input.
* **C191** — `_fit_poly` moves the bounds of a node apart by 0.01 if the squared spread is below 0.01: the tolerance is absolute, so the tree depends on the units of the inputs.
* **C195** — `Polynet.evaluate_fit` (line 111) feeds layer k with the polynomials of layer k instead of those of layer k-1, but back-propagation uses those of layer k-1: with two layers the step is not a descent direction, so the loss may rise however small the learning rate.
* **C199** — `_trust_region` (line 892) and `_omorf` set the ratio to 1 if the predicted decrease is below 100 eps in absolute value: for an objective in small units every step counts as a full success and the radius grows, although the objective may have risen.
* **C210** — `get_svd_subset_selection` factorises `V[:, 0:k].T` where `V` already is the transposed factor returned by `svd`: the pivots number singular vectors, not points, and the points kept may lie on a line although the mesh determines the polynomial.
* **C215** — The stopping test of `rvm` divides the last change of the likelihood by its distance from the first value, which belongs to the fixed weights `alpha = 1`, `alpha_0 = 1`: the number of passes, and with it the coefficients, depends on the units of the outputs.
* **C216** — `Polynet.fit` changes the adaptive learning rate inside the loop over the layers (lines 173-190): with L layers it is halved or raised L times in each pass.
* **C217** — `_trust_region` (line 892) sets the ratio to 1 if the predicted change is below 100 eps in absolute value: the radius then grows even if the function has risen, and for functions of that order of magnitude after every step.
* **C218** — `_omorf` (line 944) halves the radius after a short step with the literal 0.5; the argument `gam_dec` (default 0.98) is ignored there, unlike in `_trust_region`.
* **C219** — The description of a truncated Gaussian gives as mean and variance those of the truncated law, not the arguments. The descriptions of Beta and Chebyshev laws name the given bounds as support although the law lives on [0, 1].
* **C222** — The error of a fold is `np.mean(...)/len(y_ver)`: the mean deviation divided by the number of rows once more. With seven rows the last fold counts twice as much as the others.
* **C227** — `evaluate_fit` passes ridge `i` of layer `k-1` through the polynomial `poly_array[k,i]`. Exchanging two hidden ridges with their weights and coefficients therefore changes the predictions of a network with two layers.
* **C231** — `PolyTree.fit` multiplies `self.k` by `min_samples_leaf` before it builds the tree. If building raises (for example for a misspelt `search`), the constant stays multiplied, and a fit after correcting the name smooths more than a fit at once.
* **C234** — `Subspaces.__init__` has no final `else`: a misspelt method gives an object without a subspace, and only `get_subspace` raises (`AttributeError`), while `get_eigenvalues` prints a message and returns `None`. The name of active subspaces is compared in lower case, that of variable projection is not.

## 5. Axioms per property theorem

### none

`EQ.Basis.c01_total_order_empty`, `EQ.Basis.c02_tensor_grid_empty`, `EQ.Poly.c161_fresh_violated`

### `propext`

`EQ.Poly.c33_stale_violated`, `EQ.Poly.c79_sample_gradients_violated`, `EQ.Solver.c87_vector_shapes_partial`

### `Quot.sound`

`EQ.Poly.c79_gradient_source_partial`

### `Quot.sound`, `propext`

`EQ.Basis.c07_prune_partial`, `EQ.Basis.c07_prune_too_many`, `EQ.Basis.c07_repeated_prune_law`, `EQ.Basis.c07_repeated_prune_violated`, `EQ.Poly.c33_statistics_current_partial`, `EQ.Basis.c74_sort_by_total_degree_violated`, `EQ.Solver.c87_column_violated`, `EQ.Poly.c161_spoken_partial`

### `Classical.choice`, `Quot.sound`, `propext`

`EQ.Basis.c01_total_order`, `EQ.Basis.c02_tensor_grid`, `EQ.Basis.c03_euclidean`, `EQ.Basis.c03_contains_total_order`, `EQ.Basis.c04_hyperbolic`, `EQ.Basis.c04_hyperbolic_is_total_order`, `EQ.Basis.c04_hyperbolic_mono`, `EQ.Basis.c04_pure_powers`, `EQ.Basis.c05_total_order_downclosed`, `EQ.Basis.c05_tensor_grid_downclosed`, `EQ.Basis.c05_euclidean_downclosed`, `EQ.Basis.c05_hyperbolic_downclosed`, `EQ.Basis.c06_sort`, `EQ.Basis.c08_sparse_coefficients`, `EQ.Basis.c08_sparse_grid_basis`, `EQ.Basis.c08_unknown_growth`, `EQ.Basis.c09_get_basis_partial`, `EQ.Basis.c09_get_basis_violated`, `EQ.Param.c10_polynomials`, `EQ.Param.c11_derivatives`, `EQ.Param.c12_jacobi_matrix`, `EQ.Param.c13_gauss_weights`, `EQ.Param.c13_eigh_reachable`, `EQ.Param.c14_gauss_exact`, `EQ.Param.c14_gauss_exact_beta`, `EQ.Param.c14_rule_beta`, `EQ.Param.c15_single_point_uniform_partial`, `EQ.Param.c15_single_point_missing_bound_partial`, `EQ.Param.c15_single_point_violated`, `EQ.Param.c16_radau`, `EQ.Param.c16_radau_beta`, `EQ.Param.c16_lobatto_beta`, `EQ.Param.c16_rules_partial`, `EQ.Param.c16_zero_violated`, `EQ.Param.c16_bounds_violated`, `EQ.Param.c17_jacobi_positive`, `EQ.Param.c18_uniform_orthonormal`, `EQ.Param.c18_uniform_support`, `EQ.Param.c19_custom_orthonormal`, `EQ.Param.c20_uniform_moments_partial`, `EQ.Param.c20_unit_moments_partial`, `EQ.Param.c20_moments_violated`, `EQ.Sampling.c21_tensor_mesh`, `EQ.Sampling.c21_no_dimensions`, `EQ.Sampling.c21_factorises`, `EQ.Sampling.c21_weights_sum_one`, `EQ.Sampling.c21_parameters`, `EQ.Sampling.c22_discrete_orthonormal`, `EQ.Sampling.c22_discrete_orthonormal_one`, `EQ.Sampling.c23_sparse_mesh_partial`, `EQ.Sampling.c23_sparse_mesh_violated`, `EQ.Sampling.c24_sample_weights`, `EQ.Sampling.c24_sample_weights_one`, `EQ.Sampling.c24_induced_violated`, `EQ.Sampling.c25_pivots_distinct`, `EQ.Sampling.c25_lu_distinct`, `EQ.Sampling.c25_renormalised`, `EQ.Sampling.c25_newton_partial`, `EQ.Sampling.c25_newton_violated`, `EQ.Sampling.c26_lu_partial`, `EQ.Sampling.c26_lu_violated`, `EQ.Sampling.c26_witness_reachable`, `EQ.Sampling.c27_induced_partial`, `EQ.Sampling.c27_induced_violated`, `EQ.Poly.c28_get_poly`, `EQ.Poly.c28_one_dimension_partial`, `EQ.Poly.c28_one_dimension_violated`, `EQ.Poly.c29_derivatives`, `EQ.Poly.c29_dim_index`, `EQ.Poly.c30_exact_recovery`, `EQ.Poly.c31_least_squares`, `EQ.Stats.c32_mean_variance_partial`, `EQ.Stats.c32_constant_violated`, `EQ.Poly.c34_nan_partial`, `EQ.Poly.c34_no_nan`, `EQ.Poly.c34_few_values_violated`, `EQ.Poly.c34_gradients_violated`, `EQ.Poly.c35_gradient_rows`, `EQ.Poly.c35_one_dimension_violated`, `EQ.Poly.c36_grid`, `EQ.Poly.c36_rejects`, `EQ.Stats.c37_sobol`, `EQ.Stats.c37_sobol_meaning`, `EQ.Stats.c38_total`, `EQ.Stats.c39_queries_partial`, `EQ.Stats.c39_violated`, `EQ.Stats.c40_central_moments`, `EQ.Stats.c40_first_row`, `EQ.Stats.c40_invariant`, `EQ.Stats.c40_grid`, `EQ.Stats.c41_conditional_skewness_partial`, `EQ.Stats.c41_pruned_violated`, `EQ.Stats.c42_conditional_kurtosis_partial`, `EQ.Stats.c41_pruned_violated`, `EQ.Solver.c43_null_space`, `EQ.Solver.c43_constrained`, `EQ.Solver.c44_minimum_norm_partial`, `EQ.Solver.c44_minimum_norm_violated`, `EQ.Solver.c45_folds`, `EQ.Solver.c46_level_errors_partial`, `EQ.Solver.c46_level_errors_violated`, `EQ.Solver.c47_conjugate_gradient_partial`, `EQ.Solver.c47_best_violated`, `EQ.Solver.c48_least_absolute_partial`, `EQ.Solver.c48_default_partial`, `EQ.Solver.c48_without_cvxpy_partial`, `EQ.Solver.c48_least_absolute_violated`, `EQ.Solver.c49_rvm_partition`, `EQ.Solver.c49_rvm`, `EQ.Poly.c50_solver_partial`, `EQ.Poly.c50_unknown_rejected`, `EQ.Poly.c50_dispatch_violated`, `EQ.Tree.c51_split`, `EQ.Tree.c51_leaves_partition`, `EQ.Tree.c52_shape_partial`, `EQ.Tree.c52_splits_violated`, `EQ.Tree.c53_predict`, `EQ.Tree.c54_refit_partial`, `EQ.Tree.c54_refit_violated`, `EQ.Tree.c55_agnostic_partial`, `EQ.Tree.c55_agnostic_violated`, `EQ.Tree.c88_exhaustive`, `EQ.Tree.c88_grid`, `EQ.Tree.c56_prune_partial`, `EQ.Tree.c56_error_violated`, `EQ.Tree.c56_unreached_violated`, `EQ.Tree.c56_unsplit_violated`, `EQ.Opt.c57_evaluations`, `EQ.Opt.c58_result`, `EQ.Opt.c58_monotone`, `EQ.Opt.c59_bounds`, `EQ.Opt.c59_scaling`, `EQ.Opt.c59_get_scale`, `EQ.Opt.c60_reductions_finite`, `EQ.Opt.c60_radii_partial`, `EQ.Opt.c60_run_partial`, `EQ.Opt.c60_radius_violated`, `EQ.Opt.c61_budget_partial`, `EQ.Opt.c61_budget_violated`, `EQ.Opt.c62_maximise`, `EQ.Opt.Cons.c62_scipy`, `EQ.Opt.Cons.c62_gradient`, `EQ.Opt.Cons.c63_bounds`, `EQ.Opt.Cons.c63_linear_partial`, `EQ.Opt.Cons.c63_mixed_violated`, `EQ.Opt.Cons.c63_mixed_violated_point`, `EQ.Opt.Cons.c63_nonlinear`, `EQ.Opt.Cons.c63_jacobians`, `EQ.Opt.c64_pairs`, `EQ.Opt.c64_points_partial`, `EQ.Opt.c64_bound_violated`, `EQ.Sub.c65_zonotope_ends`, `EQ.Sub.c66_one_partial`, `EQ.Sub.c66_one_violated`, `EQ.Sub.c66_many`, `EQ.Sub.c67_active_partial`, `EQ.Sub.c67_start_partial`, `EQ.Sub.c67_box_partial`, `EQ.Sub.c67_box_violated`, `EQ.Sub.c67_axis_violated`, `EQ.Data.c68_split`, `EQ.Data.c69_standardise_partial`, `EQ.Data.c69_integer_violated`, `EQ.Weight.c70_loop_partial`, `EQ.Weight.c70_first_violated`, `EQ.Weight.c70_nan_violated`, `EQ.Corr.c71_orthonormal_partial`, `EQ.Corr.c71_univariate_violated`, `EQ.Corr.c72_fictive`, `EQ.Corr.c72_samples`, `EQ.Corr.c72_law`, `EQ.Polynet.c73_last_layer_partial`, `EQ.Polynet.c73_unchanged_partial`, `EQ.Polynet.c73_coefficients_partial`, `EQ.Polynet.c73_first_layer_violated`, `EQ.Polynet.c73_narrowing_violated`, `EQ.Polynet.c73_stale_violated`, `EQ.Basis.c74_sort_respects_componentwise_partial`, `EQ.Basis.c75_prune_downclosed`, `EQ.Param.c76_beta_orthonormal`, `EQ.Param.c76_beta_rejected`, `EQ.Param.c77_chebyshev_orthonormal`, `EQ.Param.c78_points_inside`, `EQ.Poly.c80_setup_partial`, `EQ.Poly.c80_integration_violated`, `EQ.Basis.c81_constant_first`, `EQ.Stats.c82_law_moments_partial`, `EQ.Stats.c82_kurtosis_violated`, `EQ.Solver.c83_huber_partial`, `EQ.Solver.c83_huber_verbose_violated`, `EQ.Solver.c84_elastic_net`, `EQ.Solver.c85_noise_level`, `EQ.Solver.c86_selection`, `EQ.Solver.c86_compressed_sensing`, `EQ.Tree.c88_aware_split`, `EQ.Tree.c88_training_error`, `EQ.Tree.c88_exhaustive`, `EQ.Tree.c88_grid`, `EQ.Tree.c89_logging_partial`, `EQ.Tree.c89_logging_violated`, `EQ.Opt.c90_line_partial`, `EQ.Opt.c90_initial_partial`, `EQ.Opt.c90_poised_violated`, `EQ.Opt.c91_repeat_partial`, `EQ.Opt.c91_objective_violated`, `EQ.Opt.c91_scaled_violated`, `EQ.Opt.c92_sample_set`, `EQ.Opt.Cons.c93_equality_partial`, `EQ.Opt.Cons.c93_methods_violated`, `EQ.Opt.Cons.c93_poly_violated`, `EQ.Opt.c57_evaluations`, `EQ.Opt.Cons.c94_nfev_violated`, `EQ.Sub.c95_vertices`, `EQ.Sub.c95_complete`, `EQ.Sub.c95_distinct_violated`, `EQ.Sub.c96_active`, `EQ.Sub.c97_vector_partial`, `EQ.Sub.c97_scalar_partial`, `EQ.Sub.c97_samples_violated`, `EQ.Sub.c98_dist`, `EQ.Sub.c99_orthogonal_partial`, `EQ.Sub.c99_residual_partial`, `EQ.Sub.c99_step_violated`, `EQ.Sub.c99_maxiter_violated`, `EQ.Data.c100_errors_partial`, `EQ.Data.c100_r2_partial`, `EQ.Data.c100_r2_violated`, `EQ.Data.c101_rows_partial`, `EQ.Data.c101_ratio_violated`, `EQ.Weight.c102_density_partial`, `EQ.Weight.c102_errors_violated`, `EQ.Weight.c102_nan_violated`, `EQ.Corr.c103_marginals`, `EQ.Corr.c104_independent`, `EQ.Polynet.c105_verbose_partial`, `EQ.Polynet.c105_verbose_violated`, `EQ.Polynet.c106_fixed_partial`, `EQ.Polynet.c106_momentum_violated`, `EQ.Dist.c107_own_partial`, `EQ.Dist.c107_exponential`, `EQ.Dist.c107_scipy`, `EQ.Dist.c107_scipy_partial`, `EQ.Dist.c107_truncated_partial`, `EQ.Dist.c107_cauchy_violated`, `EQ.Dist.c107_truncated_violated`, `EQ.Dist.c108_law_partial`, `EQ.Dist.c108_unit_partial`, `EQ.Dist.c108_support_violated`, `EQ.Dist.c109_kurtosis_partial`, `EQ.Dist.c109_convention_violated`, `EQ.Dist.c110_tested_partial`, `EQ.Dist.c110_accepted_violated`, `EQ.Dist.c111_one_end_partial`, `EQ.Dist.c111_endpoints_violated`, `EQ.Dist.c112_mean_inside_partial`, `EQ.Dist.c112_grid_violated`, `EQ.Dist.c113_affine`, `EQ.Dist.c113_gaussian`, `EQ.Dist.c113_scale`, `EQ.Dist.c114_gaussian_symmetric`, `EQ.Opt.c115_omorf`, `EQ.Opt.c115_maximise`, `EQ.Opt.c116_bounds`, `EQ.Opt.c117_sample_sets`, `EQ.Opt.c118_radii`, `EQ.Opt.c118_passes`, `EQ.Opt.c119_budget_partial`, `EQ.Opt.c119_budget_violated`, `EQ.Opt.c120_choice`, `EQ.Opt.c120_alternative`, `EQ.Opt.c121_directions`, `EQ.Opt.c122_arguments_partial`, `EQ.Opt.c122_name_violated`, `EQ.Opt.c123_line_partial`, `EQ.Opt.c123_plane_partial`, `EQ.Opt.c123_linear_violated`, `EQ.Opt.c124_keywords_partial`, `EQ.Opt.c124_given`, `EQ.Opt.c124_limits_violated`, `EQ.Poly.c125_sparse_recovery`, `EQ.Poly.c126_band_partial`, `EQ.Poly.c126_interpolation_partial`, `EQ.Poly.c126_band_violated`, `EQ.Poly.c127_available_partial`, `EQ.Poly.c127_mesh_violated`, `EQ.Poly.c127_nan_violated`, `EQ.Poly.c128_score_partial`, `EQ.Poly.c128_score_violated`, `EQ.Poly.c128_stale_violated`, `EQ.Sampling.c129_cdf_exact`, `EQ.Sampling.c130_quantile`, `EQ.Sampling.c130_sample`, `EQ.Sampling.c131_mesh_partial`, `EQ.Sampling.c131_uniform01_violated`, `EQ.Sampling.c131_sample01_violated`, `EQ.Sampling.c131_unsupported_violated`, `EQ.Sampling.c132_unbiased`, `EQ.Sampling.Newton.c133_progress`, `EQ.Sampling.Newton.c134_ends_partial`, `EQ.Sampling.Newton.c134_balanced_violated`, `EQ.Sampling.Newton.c134_all_rows_violated`, `EQ.Sampling.Newton.c134_too_many_violated`, `EQ.Sampling.Newton.c135_optimal`, `EQ.Sampling.Newton.c135_gap`, `EQ.Sub.c136_jacobian`, `EQ.Sub.c137_fit`, `EQ.Sub.c137_subspace`, `EQ.Sub.c138_slope`, `EQ.Sub.c138_descent`, `EQ.Sub.c138_test_partial`, `EQ.Sub.c138_test_violated`, `EQ.Sub.c138_units_violated`, `EQ.Sub.c139_gauss_newton`, `EQ.Sub.c139_few_samples_violated`, `EQ.Sampling.c140_points_partial`, `EQ.Sampling.c140_column_violated`, `EQ.Sampling.c141_limit_partial`, `EQ.Sampling.c141_bias_violated`, `EQ.Sub.c142_samples`, `EQ.Sub.c142_poly_partial`, `EQ.Sub.c142_range_violated`, `EQ.Sub.c143_range_partial`, `EQ.Sub.c143_range_violated`, `EQ.Poly.c144_recovery_partial`, `EQ.Poly.c144_both_violated`, `EQ.Tree.c145_fit_partial`, `EQ.Tree.c145_zero_leaf_violated`, `EQ.Tree.c145_empty_violated`, `EQ.Opt.c146_pivot`, `EQ.Opt.c146_pivot_omorf`, `EQ.Opt.c146_model`, `EQ.Opt.c146_model_omorf`, `EQ.Opt.c147_new`, `EQ.Opt.c147_new_omorf`, `EQ.Opt.c147_full`, `EQ.Opt.c147_link`, `EQ.Opt.c147_link_omorf`, `EQ.Opt.c147_run`, `EQ.Opt.c147_run_omorf`, `EQ.Opt.c148_exact`, `EQ.Opt.c148_interpolates`, `EQ.Opt.c148_first`, `EQ.Opt.c148_step`, `EQ.Opt.c148_omorf`, `EQ.Opt.c149_within`, `EQ.Opt.c149_independent`, `EQ.Opt.c149_points`, `EQ.Opt.c149_linear`, `EQ.Opt.c149_distinct`, `EQ.Opt.c149_further`, `EQ.Corr.c150_density`, `EQ.Corr.c150_region`, `EQ.Param.c151_unique`, `EQ.Param.c151_solver`, `EQ.Param.c151_symmetric`, `EQ.Corr.c152_equation`, `EQ.Corr.c152_correlation`, `EQ.Corr.c152_zero`, `EQ.Param.c153_rule`, `EQ.Param.c153_unique`, `EQ.Poly.c154_recovery`, `EQ.Poly.c154_moments`, `EQ.Corr.c155_recovery_partial`, `EQ.Corr.c155_linear`, `EQ.Corr.c155_points_violated`, `EQ.Dist.c156_cdf`, `EQ.Dist.c156_icdf`, `EQ.Dist.c156_samples`, `EQ.Poly.c157_model`, `EQ.Poly.c157_gradients`, `EQ.Poly.c157_short`, `EQ.Poly.c157_callable_partial`, `EQ.Poly.c157_correlated_violated`, `EQ.Data.c158_linear_partial`, `EQ.Data.c158_bias_violated`, `EQ.Data.c158_nan_violated`, `EQ.Data.c158_friedman_partial`, `EQ.Data.c158_shape_violated`, `EQ.Data.c158_noise_violated`, `EQ.Param.c159_eigenvectors_partial`, `EQ.Param.c159_default_violated`, `EQ.Param.c159_one_violated`, `EQ.Poly.c160_arguments_partial`, `EQ.Poly.c160_ratio_partial`, `EQ.Poly.c160_typo_violated`, `EQ.Poly.c160_variances_violated`, `EQ.Poly.c160_ratio_violated`, `EQ.Poly.c161_important`, `EQ.Poly.c161_statistics_partial`, `EQ.Poly.c161_text`, `EQ.Poly.c161_sign_violated`, `EQ.Stats.c162_closed`, `EQ.Stats.c162_first`, `EQ.Stats.c162_total`, `EQ.Param.c163_laguerre`, `EQ.Param.c164_hermite_partial`, `EQ.Param.c164_rows_violated`, `EQ.Param.c164_mass_violated`, `EQ.Tree.c165_graph`, `EQ.Tree.c165_tree`, `EQ.Stats.c166_projection`, `EQ.Stats.c166_interpolation`, `EQ.Stats.c166_moments`, `EQ.Basis.c167_orders`, `EQ.Basis.c167_kinds`, `EQ.Basis.c167_symmetric`, `EQ.Basis.c167_levels`, `EQ.Poly.c168_recovery_partial`, `EQ.Poly.c168_unequal_violated`, `EQ.Poly.c169_linear`, `EQ.Poly.c170_rearranged`, `EQ.Poly.c171_enlarged`, `EQ.Stats.c172_statistics`, `EQ.Stats.c173_inert`, `EQ.Stats.c174_fit`, `EQ.Stats.c174_statistics`, `EQ.Sampling.c175_jacobi_partial`, `EQ.Sampling.c175_jacobi_violated`, `EQ.Sampling.c176_choice_partial`, `EQ.Sampling.c176_unknown_violated`, `EQ.Poly.c177_callables_partial`, `EQ.Poly.c177_resized_violated`, `EQ.Poly.c177_one_nan_violated`, `EQ.Stats.c178_convergence`, `EQ.Stats.c179_sobol_convergence`, `EQ.Stats.c180_complete_partial`, `EQ.Stats.c180_orders_violated`, `EQ.Stats.c180_many_violated`, `EQ.Poly.c181_values`, `EQ.Poly.c181_mesh_partial`, `EQ.Poly.c181_beta`, `EQ.Poly.c181_constant_violated`, `EQ.Stats.c182_structure`, `EQ.Stats.c183_integration`, `EQ.Stats.c183_least_squares`, `EQ.Poly.c184_scale`, `EQ.Poly.c184_repeated`, `EQ.Poly.c184_on_fit`, `EQ.Dist.c185_density`, `EQ.Dist.c185_quantiles`, `EQ.Tree.c186_tree`, `EQ.Tree.c186_least_squares`, `EQ.Tree.c186_poly_tree`, `EQ.Opt.c187_constant`, `EQ.Opt.c187_model`, `EQ.Stats.c188_structure`, `EQ.Stats.c188_product`, `EQ.Sampling.c189_interlace`, `EQ.Sub.c190_units`, `EQ.Tree.c191_tree_partial`, `EQ.Tree.c191_units_violated`, `EQ.Tree.c192_tree`, `EQ.Tree.c192_poly_tree`, `EQ.Poly.c193_derivatives`, `EQ.Polynet.c194_order`, `EQ.Polynet.c195_descent_partial`, `EQ.Polynet.c195_two_layers_violated`, `EQ.Stats.c196_fit`, `EQ.Stats.c196_mean`, `EQ.Data.c197_units`, `EQ.Data.c197_order`, `EQ.Poly.c198_r2`, `EQ.Poly.c198_enlarged`, `EQ.Opt.c199_units_partial`, `EQ.Opt.c199_omorf_partial`, `EQ.Opt.c199_model`, `EQ.Opt.c199_units_violated`, `EQ.Opt.c200_constant`, `EQ.Stats.c201_rate`, `EQ.Stats.c202_smooth`, `EQ.Poly.c203_units`, `EQ.Poly.c203_order`, `EQ.Solver.c204_selection`, `EQ.Solver.c204_zero`, `EQ.Solver.c204_path`, `EQ.Solver.c204_stable`, `EQ.Solver.c205_huber`, `EQ.Solver.c205_absolute`, `EQ.Stats.c206_combination`, `EQ.Stats.c206_error`, `EQ.Stats.c206_degree`, `EQ.Stats.c207_models`, `EQ.Stats.c207_laws`, `EQ.Stats.c208_noise`, `EQ.Stats.c208_constant`, `EQ.Stats.c209_bound`, `EQ.Stats.c209_convergence`, `EQ.Poly.c210_determined_partial`, `EQ.Poly.c210_lu_violated`, `EQ.Poly.c210_svd_violated`, `EQ.Poly.c211_volume`, `EQ.Poly.c211_growth`, `EQ.Poly.c211_fit`, `EQ.Poly.c212_unbiased`, `EQ.Poly.c212_best`, `EQ.Poly.c212_total`, `EQ.Poly.c212_estimate`, `EQ.Stats.c213_error`, `EQ.Stats.c213_inputs`, `EQ.Stats.c214_any`, `EQ.Stats.c214_grid`, `EQ.Solver.c215_rotation`, `EQ.Solver.c215_order`, `EQ.Solver.c215_sign`, `EQ.Solver.c215_units_partial`, `EQ.Solver.c215_passes`, `EQ.Solver.c215_units_violated`, `EQ.Polynet.c216_rate_partial`, `EQ.Polynet.c216_layers`, `EQ.Polynet.c216_fixed`, `EQ.Polynet.c216_layers_violated`, `EQ.Opt.c217_radius_partial`, `EQ.Opt.c217_omorf_partial`, `EQ.Opt.c217_tiny_violated`, `EQ.Opt.c217_rise_violated`, `EQ.Opt.c218_trust`, `EQ.Opt.c218_omorf_partial`, `EQ.Opt.c218_factor_violated`, `EQ.Dist.c219_description_partial`, `EQ.Dist.c219_truncated_violated`, `EQ.Dist.c219_support_violated`, `EQ.Solver.L1.c220_slope`, `EQ.Solver.L1.c220_newton`, `EQ.Solver.L1.c220_search`, `EQ.Solver.L1.c220_reach`, `EQ.Solver.L1.c220_descent`, `EQ.Solver.L1.c220_gap`, `EQ.Solver.c220_result`, `EQ.Sampling.Newton.c221_newton`, `EQ.Solver.c222_fold_partial`, `EQ.Solver.c222_default`, `EQ.Solver.c222_fold_violated`, `EQ.Tree.c223_depth`, `EQ.Tree.c223_error`, `EQ.Tree.c224_again`, `EQ.Tree.c225_weights`, `EQ.Tree.c225_limit`, `EQ.Polynet.c226_turn`, `EQ.Polynet.c227_numbering_partial`, `EQ.Polynet.c227_equal_ridges`, `EQ.Polynet.c227_numbering_violated`, `EQ.Poly.c228_influence`, `EQ.Poly.c228_left_out`, `EQ.Param.c229_jacobi`, `EQ.Param.c229_sampled`, `EQ.Param.c229_classical`, `EQ.Poly.c230_size`, `EQ.Poly.c230_estimated`, `EQ.Tree.c231_constructor`, `EQ.Tree.c231_names`, `EQ.Tree.c231_selected`, `EQ.Tree.c231_failed_fit_partial`, `EQ.Tree.c231_failed_fit_violated`, `EQ.Poly.c232_weight`, `EQ.Poly.c232_repeated`, `EQ.Poly.c232_added`, `EQ.Tree.c233_tree`, `EQ.Tree.c233_aware`, `EQ.Sub.c234_active_partial`, `EQ.Sub.c234_projection_partial`, `EQ.Sub.c234_names_violated`, `EQ.Data.c235_units`, `EQ.Data.c235_rows`, `EQ.Data.c235_spacing`, `EQ.Data.c235_back`, `EQ.Solver.c236_huber`, `EQ.Solver.c236_absolute`, `EQ.Solver.c236_elastic`, `EQ.Solver.c237_superposition`, `EQ.Solver.c237_recovery`, `EQ.Solver.c237_order`, `EQ.Solver.c237_weights`, `EQ.Data.c238_rows`, `EQ.Data.c238_outputs`, `EQ.Data.c238_fraction`, `EQ.Solver.c239_huber`, `EQ.Solver.c239_absolute`, `EQ.Data.c240_errors`, `EQ.Data.c240_stable`, `EQ.Data.c240_parts`, `EQ.Data.c240_exchanged`, `EQ.Sub.c241_combined`, `EQ.Sub.c241_units`, `EQ.Sub.c241_unweighted`, `EQ.Solver.c242_similar`, `EQ.Solver.c242_equal`, `EQ.Solver.c243_columns`, `EQ.Solver.c243_superposition`


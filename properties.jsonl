{"id": "C01", "title": "vec index maps are mutually inverse bijections", "statement": "For a matrix with m>0 rows and n columns, vec_inds_forwards sends every in-range (row, column) pair to a distinct in-range position of the column-major vectorisation, vec_inds_reverse recovers the pair, and every position 0..mn-1 is hit; the position is the one at which vec() actually stores that entry.", "quantifier": "all m>0, n, all in-range (r,s) and all positions", "why_tests_cant": "infinitely many shapes; a test samples a few", "anchors": ["pystatsm/utilities/indexing_utils.py: vec_inds_forwards, vec_inds_reverse", "pystatsm/utilities/linalg_operations.py: vec, invec"]}
{"id": "C02", "title": "vech index maps are mutually inverse and agree with vech", "statement": "For every m, vech_inds_forwards is a bijection from {(r,s) : s<=r<m} onto 0..m(m+1)/2-1, vech_inds_reverse is its inverse, and position vech_inds_forwards(r,s,m) of vech(A) is A[r,s].", "quantifier": "all m, all lower-triangular pairs, all positions", "why_tests_cant": "the closed form involves integer square roots and triangular numbers; off-by-one errors can appear only at particular large sizes", "anchors": ["pystatsm/utilities/indexing_utils.py: vech_inds_forwards, vech_inds_reverse, largest_triangular", "pystatsm/utilities/linalg_operations.py: vech, _vech"]}
{"id": "C03", "title": "vecl index maps are mutually inverse and agree with vecl", "statement": "For every m, vecl_inds_forwards is a bijection from {(r,s) : s<r<m} onto 0..m(m-1)/2-1, vecl_inds_reverse is its inverse, and the position is the one at which vecl stores the strictly lower triangular entry.", "quantifier": "all m, all strictly lower pairs, all positions", "why_tests_cant": "as C02", "anchors": ["pystatsm/utilities/indexing_utils.py: vecl_inds_forwards, vecl_inds_reverse, largest_triangular, vecl_inds", "pystatsm/utilities/linalg_operations.py: vecl, _vecl"]}
{"id": "C04", "title": "Kronecker index arithmetic addresses the Kronecker product", "statement": "kronecker_indices_forward maps a cell (i,j) of kron(A,B) to the cells of A and B whose product it is, and kronecker_indices_reverse is its inverse.", "quantifier": "all shapes with B non-empty, all cells", "why_tests_cant": "unbounded family of shapes", "anchors": ["pystatsm/utilities/indexing_utils.py: kronecker_indices_forward, kronecker_indices_reverse"]}
{"id": "C05", "title": "commutation matrix transposes", "statement": "For every m, n and every m-by-n matrix A, kmat(m,n) applied to vec(A) is vec(A^T); each row and column has exactly one 1, so kmat(m,n) is a permutation matrix with inverse kmat(n,m) = its transpose.", "quantifier": "all m,n, all matrices over any commutative ring", "why_tests_cant": "all sizes and all matrix contents", "anchors": ["pystatsm/utilities/special_mats.py: _kmat, kmat, apply_kmat1, CommutationMatrix", "pystatsm/utilities/indexing_utils.py: commutation_matrix_indices"]}
{"id": "C06", "title": "duplication matrix rebuilds symmetric matrices", "statement": "For every n and every symmetric S of order n, dmat(n) applied to vech(S) is vec(S); each row of dmat(n) has exactly one 1.", "quantifier": "all n, all symmetric matrices", "why_tests_cant": "all sizes and contents", "anchors": ["pystatsm/utilities/special_mats.py: _dmat, dmat", "pystatsm/utilities/indexing_utils.py: duplication_matrix_indices"]}
{"id": "C07", "title": "elimination matrix selects vech; Moore-Penrose style left inverses", "statement": "For every n and A, lmat(n) vec(A) = vech(A), lmat(n) dmat(n) = I, and dpmat(n) dmat(n) = I.", "quantifier": "all n, all matrices", "why_tests_cant": "all sizes", "anchors": ["pystatsm/utilities/special_mats.py: _lmat, lmat, dpmat, EliminationMatrix", "pystatsm/utilities/indexing_utils.py: elimination_matrix_indices"]}
{"id": "C08", "title": "ranking of non-decreasing index tuples is a bijection", "statement": "ascending_indices_forward ranks every non-decreasing tuple of length d into 0..C(n+d-1,d)-1 with no collisions and no gaps, the rank does not depend on the order in which the indices are given, and ascending_indices_reversed recovers the sorted tuple from the rank.", "quantifier": "all tuple lengths d, all n, all tuples, all ranks", "why_tests_cant": "combinatorial explosion; correctness depends on a binomial-coefficient search loop", "anchors": ["pystatsm/utilities/indexing_utils.py: ascending_indices_forward, ascending_indices_reversed, comb_numba"]}
{"id": "C09", "title": "lexicographic and colexicographic ravel are inverse to unravel", "statement": "For every shape with positive sides, lex_index_forward/lex_index_reverse and colex_index_forward/colex_index_reverse are mutually inverse bijections between in-range multi-indices and 0..prod(shape)-1, and increasing rank is increasing (co)lexicographic order.", "quantifier": "all shapes of any rank, all multi-indices", "why_tests_cant": "unbounded rank and shape", "anchors": ["pystatsm/utilities/indexing_utils.py: lex_index_forward, lex_index_reverse, colex_index_forward, colex_index_reverse"]}
{"id": "C10", "title": "unique keeps first-occurrence order and reconstructs", "statement": "unique(arr) returns the distinct values in order of first appearance, with no duplicates; indexing the uniques with the returned inverse gives back arr; the returned locations are the first positions of each value.", "quantifier": "all finite arrays", "why_tests_cant": "all lengths and repetition patterns", "anchors": ["pystatsm/utilities/indexing_utils.py: unique"]}
{"id": "C11", "title": "half-vectorisation round trips", "statement": "invech(vech(S)) = S for every symmetric S and vech(invech(x)) = x for every vector of triangular length; invecl/vecl do the same for symmetric unit-diagonal matrices; invec/vec for all matrices. The size recovered from the vector length is the original order.", "quantifier": "all orders n, all matrices / vectors", "why_tests_cant": "all sizes; size recovery uses an integer square root", "anchors": ["pystatsm/utilities/linalg_operations.py: vec, invec, vech, invech, vecl, invecl, _vech, _invech, _vecl, _invecl, lhv_size_to_mat_size, hv_size_to_mat_size"]}
{"id": "C12", "title": "triplet to CSC conversion preserves the matrix", "statement": "coo_to_csc turns any list of (row, column, value) triplets into compressed-column form denoting exactly the same matrix (duplicate triplets add), with a monotone column pointer ending at the number of triplets and with the input order preserved inside each column.", "quantifier": "all triplet lists with in-range coordinates", "why_tests_cant": "all lengths, orders and duplicates", "anchors": ["pystatsm/utilities/src/coo_to_csc.c", "pystatsm/utilities/cython_wrappers.pyx"]}
{"id": "C13", "title": "sparse addition is matrix addition", "statement": "cs_add_inplace(A, B, C, alpha, beta) leaves C's preallocated pattern alone and, whenever that pattern contains every position where alpha*A + beta*B is non-zero, C afterwards denotes exactly alpha*A + beta*B, whatever values it held before.", "quantifier": "all CSC triples of equal shape, all scalars, all covering patterns (also with repeated rows)", "why_tests_cant": "a dense workspace is shared by all columns: stale values could corrupt only particular patterns", "anchors": ["pystatsm/utilities/src/cs_add.c", "pystatsm/utilities/src/cs_add_inplace.c"]}
{"id": "C14", "title": "sparse Kronecker products are Kronecker products", "statement": "The sparse-sparse, dense-sparse and sparse-dense kernels return CSC matrices denoting kron(A,B), with a valid column pointer; the value-only in-place variants recompute exactly the same values for the same pattern.", "quantifier": "all CSC / dense operands of any shape", "why_tests_cant": "all patterns", "anchors": ["pystatsm/utilities/src/cs_kron_ss.c", "pystatsm/utilities/src/cs_kron_ds.c", "pystatsm/utilities/src/cs_kron_sd.c", "pystatsm/utilities/python_wrappers.py: sparse_kron, ds_kron, sparse_dense_kron"]}
{"id": "C15", "title": "identity (x) sparse Kronecker product", "statement": "id_sp_kron(n, B) returns kron(I_n, B) for every sparse B.", "quantifier": "all n, all B of any shape", "why_tests_cant": "only non-square B exposes the wrong row stride", "anchors": ["pystatsm/utilities/src/cs_kron_id_sp.c", "pystatsm/utilities/python_wrappers.py: id_sp_kron"]}
{"id": "C16", "title": "sparse matrix product", "statement": "cs_matmul_inplace(A, B, C) overwrites C's three arrays with a valid CSC form of the matrix product A\u00b7B: valid column pointer, no row stored twice in a column, and exactly the positions where a stored A[r,m] meets a stored B[m,c].", "quantifier": "all CSC operands", "why_tests_cant": "all patterns", "anchors": ["pystatsm/utilities/src/cs_matmul_inplace.c"]}
{"id": "C17", "title": "sparse inner products", "statement": "sparse_dot(a, b, c) of two sorted sparse vectors is c plus their dense inner product, and sparse_pattern_trace(B, C, out) is out + trace(B'B C).", "quantifier": "all sorted sparse vectors/matrices", "why_tests_cant": "two-pointer merge: every interleaving of patterns", "anchors": ["pystatsm/utilities/src/cs_dot.c", "pystatsm/utilities/src/cs_pattern_trace.c"]}
{"id": "C18", "title": "rounding that preserves the total", "statement": "sum_preserving_round(x) of a vector with integer total returns integers with the same total, each equal to the floor or the floor plus one of its input.", "quantifier": "all finite real vectors with integer total", "why_tests_cant": "fails only on vectors that happen to have zero total fractional part", "anchors": ["pystatsm/utilities/func_utils.py: sum_preserving_round"]}
{"id": "C19", "title": "proportional allocation allocates exactly n", "statement": "allocate_from_proportions(n, props) with proportions summing to one returns non-negative integers adding to n.", "quantifier": "all n and all proportion vectors", "why_tests_cant": "fails only when every n*p is already an integer", "anchors": ["pystatsm/utilities/func_utils.py: allocate_from_proportions, sum_preserving_round"]}
{"id": "C20", "title": "partition enumeration is complete and irredundant", "statement": "partition_set enumerates each set partition of its input exactly once, every emitted value is a partition into non-empty blocks, so the count is the Bell number.", "quantifier": "sets of any finite size", "why_tests_cant": "Bell numbers grow super-exponentially", "anchors": ["pystatsm/utilities/func_utils.py: get_part, partition_set"]}
{"id": "C21", "title": "soft thresholding is the lasso proximal operator", "statement": "soft_threshold(x, t) with t>=0 is the unique minimiser over z of (z-x)^2/2 + t*|z|.", "quantifier": "all real x, all t>=0", "why_tests_cant": "optimality over a continuum", "anchors": ["pystatsm/utilities/func_utils.py: soft_threshold", "pystatsm/pyglmnet/"]}
{"id": "C22", "title": "exact harmonic numbers", "statement": "The binary-splitting routine behind harmonic_fraction returns a numerator/denominator pair whose quotient is exactly the sum of reciprocals of the requested range.", "quantifier": "all ranges a<b of positive integers", "why_tests_cant": "recursive splitting over unbounded ranges", "anchors": ["pystatsm/utilities/func_utils.py: _harmonic, harmonic_fraction"]}
{"id": "C23", "title": "memoised objective is transparent", "statement": "For any sequence of calls to the value, gradient and Hessian entry points of the memoising wrappers, in any order and with any points, each returned value is what the wrapped function returns for the point of that very call.", "quantifier": "all call histories", "why_tests_cant": "stale-cache bugs depend on call order", "anchors": ["pystatsm/utilities/optimizer_utils.py: MemoizeJac, MemoizeGradHess"]}
{"id": "C24", "title": "optimizer options: user settings win, defaults fill the rest, no leakage", "statement": "process_optimizer_kwargs never overrides an option the user gave, supplies every missing default, and a caller's later changes to the returned options do not affect what later calls receive.", "quantifier": "all option dictionaries, all call histories", "why_tests_cant": "aliasing shows up only across calls", "anchors": ["pystatsm/utilities/optimizer_utils.py: process_optimizer_kwargs"]}
{"id": "C25", "title": "streaming moments equal batch moments", "statement": "The Welford updates, applied to any stream of observations in order, give the exact sample mean and the exact sum of squared deviations (and cross-products) of the stream.", "quantifier": "all finite streams over a field of characteristic zero", "why_tests_cant": "induction over arbitrary length streams", "anchors": ["pystatsm/utilities/data_utils.py: _welford_update, welford_variance, welford_cov"]}
{"id": "C26", "title": "design-based variance estimate is the stratified between-PSU formula", "statement": "SampleDesign.meat equals the sum over strata of the finite-population factor times n_h/(n_h-1) times the scatter of PSU totals about their stratum mean; it is symmetric and positive semi-definite.", "quantifier": "all designs, all score matrices", "why_tests_cant": "index-pointer bookkeeping over arbitrary strata/PSU sizes", "anchors": ["pystatsm/utilities/complexdesign/sample_design.py: SampleDesign, _grouped_cov, _sizes_to_ptr, _build_layout"]}
{"id": "C27", "title": "collapsing singleton strata loses nothing", "statement": "Aggregating strata that contain a single PSU changes only the stratum label of those strata: PSU membership, weights and row count are unchanged, and distinct PSUs are never merged; if two or more singleton strata exist no singleton stratum remains.", "quantifier": "all designs", "why_tests_cant": "all strata/PSU configurations", "anchors": ["pystatsm/utilities/complexdesign/sample_design.py: _aggregate_singletons, _has_singletons"]}
{"id": "C28", "title": "model formulas: each written term becomes exactly one parameter row", "statement": "Parsing a lavaan-style model string yields, for every equation and every term on its right-hand side, exactly one parameter-table entry with the stated left variable, relation, right variable, label/fixed modifiers, and nothing else.", "quantifier": "all well-formed formula strings", "why_tests_cant": "string grammar: unbounded inputs", "anchors": ["pystatsm/pysem2/formula.py: FormulaParser"]}
{"id": "C29", "title": "variable ordering is a permutation of the model's variables", "statement": "The order assigned to model variables is a bijection between the variables and 0..p-1, so every parameter lands inside the model matrices.", "quantifier": "all sets of variables and roles", "why_tests_cant": "depends on role combinations", "anchors": ["pystatsm/pysem2/variable_ordering.py: VariableOrder"]}
{"id": "C30", "title": "equality constraints: parameters with one label get one value; free parameters stay distinct", "statement": "Expanding the reduced vector theta to the table's free parameters gives equal values to rows with equal labels, and every coordinate of theta reaches exactly the rows carrying its label; the Jacobian used to reduce gradients is the Jacobian of this map.", "quantifier": "all label patterns, groups and theta", "why_tests_cant": "depends on the pattern of repeated labels and groups", "anchors": ["pystatsm/pysem2/model_base.py: ParameterMapping, ModelBase.reduce_parameters", "pystatsm/pysem2/indexers.py: equality_constraint_mat", "pystatsm/utilities/indexing_utils.py: unique"]}
{"id": "C31", "title": "parameter table indexing", "statement": "After indexing the parameter table, fixed parameters have no free index, and the free parameters are numbered 0..k-1 without gaps with equal numbers exactly for equal labels.", "quantifier": "all parameter tables", "why_tests_cant": "all label/fixed patterns", "anchors": ["pystatsm/pysem2/param_table.py: ParameterTable._index_params"]}
{"id": "C32", "title": "implied covariance is a covariance", "statement": "The model-implied covariance matrix is symmetric, and positive semi-definite whenever Phi and Psi are.", "quantifier": "all parameter values with I-B invertible", "why_tests_cant": "continuum of parameter values", "anchors": ["pystatsm/pysem2/sem.py: implied_cov"]}
{"id": "C33", "title": "SEM derivatives are derivatives", "statement": "The analytic derivative of the implied mean and covariance with respect to each parameter (loadings, structural coefficients, factor and residual covariances, intercepts) is the derivative of the implied moments.", "quantifier": "all models and parameter values", "why_tests_cant": "continuum", "anchors": ["pystatsm/pysem2/derivatives.py: _dsigma_mu, _d2sigma_mu, _dloglike_mu"]}
{"id": "C34", "title": "link functions and inverses are mutually inverse", "statement": "For each GLM link, inv_link(link(mu)) = mu on the link's domain and link(inv_link(eta)) = eta on its range.", "quantifier": "all mu in the domain, all eta in the range", "why_tests_cant": "continuum", "anchors": ["pystatsm/pyglm2/links.py: Link subclasses"]}
{"id": "C35", "title": "link derivatives are derivatives", "statement": "For each GLM link, dlink..d4link are the first to fourth derivatives of link, and dinv_link, d2inv_link those of inv_link.", "quantifier": "all interior points", "why_tests_cant": "continuum; a wrong sign in a fourth derivative passes most tests", "anchors": ["pystatsm/pyglm2/links.py: Link subclasses"]}
{"id": "C36", "title": "family variance derivatives and observed weights", "statement": "For each family the reported variance-function derivatives are derivatives of the variance function; the per-observation gradient and Hessian weights are the first and second derivative in the linear predictor of the negative log-likelihood; expected weights equal observed weights at y=mu.", "quantifier": "all y, mu, weights, scale", "why_tests_cant": "continuum", "anchors": ["pystatsm/pyglm2/families.py: ExponentialFamily.gw, hw, get_ghw, get_ehw, var_derivs, Gaussian, Poisson, Binomial, Gamma, InverseGaussian, NegativeBinomial"]}
{"id": "C37", "title": "deviance is a divergence", "statement": "For each family unit deviance is non-negative and zero exactly when the fitted mean equals the observation.", "quantifier": "all y in the sample space, all mu in the mean space, positive weights", "why_tests_cant": "continuum, inequality", "anchors": ["pystatsm/pyglm2/families.py: deviance"]}
{"id": "C38", "title": "robust loss, score and weight functions are consistent", "statement": "For Huber and bisquare estimators psi is the derivative of rho (up to the stated normalising constant), phi is the derivative of psi off the kinks, weights(x)*x = psi(x), weights lie in [0,1], and rho is even, non-negative and non-decreasing in |x|.", "quantifier": "all real x, all tuning constants c>0", "why_tests_cant": "continuum with kinks", "anchors": ["pystatsm/pyrobust/m_estimators.py: Huber, Bisquare"]}
{"id": "C39", "title": "Cayley parametrisation yields rotations and inverts", "statement": "vec_to_rot(theta, m) is an orthogonal matrix with determinant one for every theta, and rot_to_vec recovers theta.", "quantifier": "all m, all theta", "why_tests_cant": "continuum, all sizes", "anchors": ["pystatsm/pyfa2/cayley.py: vec_to_skew, skew_to_vec, cayley, vec_to_rot, rot_to_vec"]}
{"id": "C40", "title": "factor-model parameter packing round trips", "statement": "ParamLayout.unpack(pack(L,Phi,Psi)) returns the same loadings, factor correlations (symmetric, unit diagonal) and uniquenesses, and pack(unpack(theta)) = theta; the three index ranges partition the parameter vector.", "quantifier": "all p, m and parameter values", "why_tests_cant": "all sizes", "anchors": ["pystatsm/pyfa2/layout.py: ParamLayout"]}
{"id": "C41", "title": "unconstrained correlation-Cholesky transform is a bijection onto valid rows", "statement": "The recursive stick-breaking transform and its inverse are mutually inverse between vectors with entries in (-1,1) and strictly-lower Cholesky factors with row norms < 1, and the rebuilt matrix is a correlation matrix (unit diagonal, positive semi-definite).", "quantifier": "all sizes, all admissible vectors", "why_tests_cant": "continuum, all sizes", "anchors": ["pystatsm/utilities/unconstrained_chol.py: fwd, rvs", "pystatsm/utilities/param_transforms.py: CorrCholesky, UnconstrainedCholeskyCorr"]}
{"id": "C42", "title": "row-normalising transform is a bijection with the stated Jacobian", "statement": "The x/sqrt(1+|x|^2) row transform and y/sqrt(1-|y|^2) are mutually inverse between all vectors and vectors with row norm < 1, the two reported Jacobians are derivatives and each other's inverses.", "quantifier": "all row lengths, all vectors", "why_tests_cant": "continuum", "anchors": ["pystatsm/utilities/cov_transform.py: UnconstrainedCholeskyCorr", "pystatsm/utilities/linalg_operations.py: LHV"]}
{"id": "C43", "title": "covariance/correlation and log-scale transforms", "statement": "CovCorr and LogScale forward and reverse maps are mutually inverse on half-vectorised matrices with positive diagonal, and their reported Jacobians and Hessians are derivatives.", "quantifier": "all orders, all positive-diagonal matrices", "why_tests_cant": "continuum", "anchors": ["pystatsm/utilities/param_transforms.py: CovCorr, LogScale"]}
{"id": "C44", "title": "composition and concatenation of transforms", "statement": "Composing transforms composes forward maps, reverses reverse maps in the opposite order, and multiplies Jacobians by the chain rule; Hessians follow the second-order chain rule. Concatenated transforms act on their own slices only.", "quantifier": "all finite lists of transforms", "why_tests_cant": "all list lengths", "anchors": ["pystatsm/utilities/param_transforms.py: ComposedTransform, CombinedTransform, _hess_chain_rule"]}
{"id": "C45", "title": "derivative of the Cholesky factor", "statement": "dchol returns a lower triangular L with L L^T = M and, for each direction, the exact derivative of the Cholesky factor.", "quantifier": "all positive definite M, all symmetric directions", "why_tests_cant": "continuum, all sizes", "anchors": ["pystatsm/utilities/dchol.py: dchol, unit_matrices"]}
{"id": "C46", "title": "Cholesky row append", "statement": "add_chol_row extends a Cholesky factor of a leading block to one of the bordered matrix.", "quantifier": "all sizes", "why_tests_cant": "continuum", "anchors": ["pystatsm/utilities/linalg_operations.py: add_chol_row, chol_downdate"]}
{"id": "C47", "title": "flattened block indexing addresses disjoint slices", "statement": "Flattening a list of (possibly symmetric) model matrices stores each block in its own contiguous slice, and every stored cell is reached by exactly one flat index.", "quantifier": "all lists of block shapes", "why_tests_cant": "all shapes", "anchors": ["pystatsm/pysem2/indexers.py: FlattenedArray, BlockFlattenedArrays"]}
{"id": "C48", "title": "every parameter is assigned to exactly one model matrix cell", "statement": "get_matrix_assignments gives each parameter row exactly one target matrix consistent with its relation and variable roles, and symmetric relations address the lower triangle.", "quantifier": "all parameter tables and roles", "why_tests_cant": "all role combinations", "anchors": ["pystatsm/pysem2/model_matrices.py: get_matrix_assignments, _assign_matrices"]}
{"id": "C49", "title": "row-difference, pattern and Vandermonde helpers", "statement": "Solving with _solve_vander / _inv_vander inverts the Vandermonde matrix of distinct nodes.", "quantifier": "all sizes, all distinct nodes", "why_tests_cant": "continuum", "anchors": ["pystatsm/utilities/linalg_operations.py: _solve_vander, _inv_vander"]}
{"id": "C50", "title": "AR(1) and Toeplitz Cholesky factors", "statement": "ar1_chol(rho, n) is a lower triangular factor whose product with its transpose is the AR(1) correlation matrix rho^|i-j|.", "quantifier": "all n, all |rho|<1", "why_tests_cant": "continuum, all sizes", "anchors": ["pystatsm/utilities/linalg_operations.py: ar1_chol, toeplitz_cholesky_lower_nb"]}
{"id": "C51", "title": "per-level cross products of a block of rows", "statement": "block_diag_self_dot(L, ng, nv) returns the symmetric nv x nv matrix whose (a,b) element is the sum over levels j of the inner product of rows j*nv+a and j*nv+b of L, whatever the output array held.", "quantifier": "all CSR matrices with sorted indices, all numbers of levels and variables", "why_tests_cant": "only one triangle is computed by merging; the diagonal is computed by another formula", "anchors": ["pystatsm/utilities/src/cs_block_diag_self_dot.c", "pystatsm/utilities/python_wrappers.py: block_diag_self_dot"]}
{"id": "C52", "title": "tiling, repeating and dense product kernels", "statement": "tile_1d(arr, reps)[k] is arr[k mod n], repeat_1d(arr, reps)[k] is arr[k div reps], both writing exactly the first n*reps cells; the two tiling implementations agree; naive_matmul_inplace is the matrix product.", "quantifier": "all lengths, repetition counts and contents", "why_tests_cant": "all sizes including zero", "anchors": ["pystatsm/utilities/src/tile_1d.c", "pystatsm/utilities/src/repeat_1d.c", "pystatsm/utilities/src/naive_matmul_inplace.c"]}
{"id": "C53", "title": "raising small entries keeps the total", "statement": "sum_preserving_min(arr, m) returns an array of the same length and the same total with every entry at least m whenever the total allows it.", "quantifier": "all real vectors, all thresholds, all tie-breaking orders of argsort", "why_tests_cant": "several small entries sharing few donors", "anchors": ["pystatsm/utilities/func_utils.py: sum_preserving_min"]}
{"id": "C54", "title": "sizes become contiguous slices", "statement": "sizes_to_slice_vals(sizes) gives one (start, stop) pair per size; they are contiguous, start at zero, have the given lengths, end at the total, and every position below the total lies in exactly one slice.", "quantifier": "all lists of sizes", "why_tests_cant": "all lengths, zero sizes included", "anchors": ["pystatsm/utilities/func_utils.py: sizes_to_inds, sizes_to_slice_vals"]}
{"id": "C55", "title": "keyword defaults never override the caller", "statement": "handle_default_kws(kws, defaults) maps each key to the caller's value if the caller gave one, otherwise to the default, and has no other keys.", "quantifier": "all dictionaries", "why_tests_cant": "all key overlaps", "anchors": ["pystatsm/utilities/func_utils.py: handle_default_kws"]}
{"id": "C56", "title": "zero constraint and its Jacobian agree", "statement": "ZeroConstraint.func is the linear map given by the constant matrix grad returns, and its value is zero exactly when all selected parameters are zero.", "quantifier": "all index lists and parameter vectors", "why_tests_cant": "all selections", "anchors": ["pystatsm/utilities/optimizer_utils.py: ZeroConstraint"]}
{"id": "C57", "title": "dummy coding is an exact indicator", "statement": "dummy(x) has exactly one 1 per row, in the column of that row's category; fullrank=False drops only the last column; dummy_encode builds the same matrix in sparse form and fails when a value is missing from the given categories.", "quantifier": "all category vectors", "why_tests_cant": "all vectors and category lists", "anchors": ["pystatsm/utilities/data_utils.py: _dummy, _dummy_encode, dummy_encode"]}
{"id": "C58", "title": "position of the k-th sign change", "statement": "sign_change(arr, k) returns the last position before the k-th change of sign between neighbouring elements.", "quantifier": "all sequences with at least k changes", "why_tests_cant": "sign patterns with runs longer than one after a change", "anchors": ["pystatsm/utilities/data_utils.py: _sign_change_1d, _kth_sign_change_1d"]}
{"id": "C59", "title": "expanding a contingency table and tabulating it back", "statement": "cross_tabulate(expand_crosstab(table)) is the table, for tables of any dimension.", "quantifier": "all non-negative integer tables of any shape", "why_tests_cant": "tables with empty margins", "anchors": ["pystatsm/utilities/data_utils.py: cross_tabulate, expand_crosstab"]}
{"id": "C60", "title": "centring, standardising, covariance, correlation helpers are consistent", "statement": "Centred columns have mean zero, standardised ones also mean square one; all routes to the correlation matrix (corr, corr_nb, norm_diag of cov) agree and have unit diagonal; normalize_xtrx gives diag(X'RX)=1; flip_signs makes the largest entry of each column positive and is idempotent.", "quantifier": "all real arrays with non-constant columns", "why_tests_cant": "continuum", "anchors": ["pystatsm/utilities/data_utils.py: center, standardize, csd, _csd, cov, corr, cov_nb, corr_nb, norm_diag, normalize_xtrx, flip_signs"]}
{"id": "C61", "title": "streaming variance along any axis", "statement": "welford_variance(arr, axis) puts at each output position the moments of the entries along the given axis at that position.", "quantifier": "arrays of every dimension, every axis", "why_tests_cant": "only axes beyond the second of arrays with equal leading dimensions show it", "anchors": ["pystatsm/utilities/data_utils.py: welford_variance, welford_cov"]}
{"id": "C62", "title": "positions of the n extreme entries", "statement": "extremal_indices(arr, n) returns n distinct positions whose values are at least (at most) all others.", "quantifier": "all vectors, all n", "why_tests_cant": "boundary n=0; unspecified order within argpartition", "anchors": ["pystatsm/utilities/data_utils.py: extremal_indices"]}
{"id": "C63", "title": "WLS scores vanish in total and the design sandwich is a covariance", "statement": "For the weighted least squares adapter, whenever X'WX is invertible the returned per-observation scores sum to zero over the sample and the bread is symmetric; for any symmetric bread and any symmetric positive semidefinite meat, design_sandwich is symmetric positive semidefinite.", "quantifier": "all design matrices, weights, responses, breads and meats over the reals", "why_tests_cant": "tests check a handful of simulated designs numerically; the identity must hold for all data and all weights, including negative or zero weights", "anchors": ["pystatsm/utilities/complexdesign/replication.py:WLSAdapter.fit", "pystatsm/utilities/complexdesign/sample_design.py:design_sandwich"]}
{"id": "C64", "title": "SEM fit function is the likelihood discrepancy", "statement": "fit_func is finite, non-negative, and zero exactly when the implied moments equal the sample moments; loglike gives each observation's minus normal log-density, and summed over the sample differs from fit_func by a constant independent of the parameters.", "quantifier": "all parameter values with positive definite implied covariance, all data frames containing the model's variables", "why_tests_cant": "tests use data frames holding only the model's variables; the constant is computed before the columns are subset", "anchors": ["pystatsm/pysem2/sem.py: SEM.fit_func, SEM.loglike", "pystatsm/pysem2/model_data.py: ModelData._initialize, subset_and_order"]}
{"id": "C65", "title": "GLM gradient and Hessian differentiate the objective", "statement": "For fixed and Newton-Raphson scale estimation, GLM.gradient is the derivative of GLM.loglike in every direction of the coefficients and in the log scale, GLM.hessian is the derivative of the gradient (including the cross block), and casewise gradients sum to the gradient.", "quantifier": "all data, weights, families, links, parameters", "why_tests_cant": "continuum; unit weights hide a missing weight", "anchors": ["pystatsm/pyglm2/glm.py: GLM._loglike, _gradient, _gradient_i, _hessian, _unpack_params_data"]}
{"id": "C66", "title": "residuals decompose the fit statistics", "statement": "Pearson chi-square is the sum of squared Pearson residuals; squared deviance residuals are the deviance contributions and carry the sign of y - mu; signed residuals likewise.", "quantifier": "all data, weights, families", "why_tests_cant": "continuum; only weights other than one expose it", "anchors": ["pystatsm/pyglm2/families.py: pearson_resid, pearson_chi2, deviance_resid, signed_resid"]}
{"id": "C67", "title": "scale derivatives", "statement": "dtau and d2tau are the first two derivatives of _loglike in the log scale (log dispersion for the negative binomial), and dllscale, d2llscale those of llscale.", "quantifier": "all y, mu, weights, scales", "why_tests_cant": "continuum", "anchors": ["pystatsm/pyglm2/families.py: dtau, d2tau, llscale, dllscale, d2llscale"]}
{"id": "C68", "title": "full log-likelihood is minus a log density", "statement": "exp(-_full_loglike) is the probability density (mass) of the named distribution with mean mu, for each family.", "quantifier": "all y, mu, weights, scales", "why_tests_cant": "continuum; normalisation", "anchors": ["pystatsm/pyglm2/families.py: _full_loglike", "pystatsm/utilities/func_utils.py: logbinom"]}
{"id": "C69", "title": "weight derivatives", "statement": "da_dmu, d2a_dmu2 are derivatives of get_a in mu; dw_deta, d2w_deta2 are derivatives of get_w in the linear predictor.", "quantifier": "all families, links, y, mu", "why_tests_cant": "continuum; third and fourth order chain rules", "anchors": ["pystatsm/pyglm2/families.py: da_dmu, d2a_dmu2, dw_deta, d2w_deta2, get_w"]}
{"id": "C70", "title": "closed-form normal expectations of the Huber functions", "statement": "Huber.E_rho, E_psi, E_psi2 and E_phi equal the expectations of rho, psi, psi^2 and phi under the standard normal distribution; the base-class versions integrate the function they name.", "quantifier": "all tuning constants c>0", "why_tests_cant": "integrals over the line", "anchors": ["pystatsm/pyrobust/m_estimators.py: Huber.E_rho, E_psi, E_psi2, E_phi, MEstimator.E_psi", "pystatsm/utilities/func_utils.py: norm_pdf"]}
{"id": "C71", "title": "M-estimate of scale", "statement": "The fixed points of the scale iteration are the solutions of mean(rho(r/s)) = bd; the estimate is scale equivariant; a loop that stops early satisfies the equation to the tolerance.", "quantifier": "all residual vectors, starting scales, iteration counts", "why_tests_cant": "continuum, any number of iterations", "anchors": ["pystatsm/pyrobust/m_estimators.py: MEstimator.m_estimate_scale, irls_step"]}
{"id": "C72", "title": "reweighted least squares decreases the robust objective", "statement": "With the scale held fixed, any residuals with a smaller weighted sum of squares (weights at the current residuals) have a robust objective that is no larger.", "quantifier": "all residual vectors, tuning constants, scales", "why_tests_cant": "continuum; majorisation inequality", "anchors": ["pystatsm/pyrobust/m_estimators.py: Huber.weights, Bisquare.weights, MEstimator.irls_step"]}
{"id": "C73", "title": "Schur algorithm for Toeplitz matrices", "statement": "toeplitz_cholesky_lower_nb(n, A) returns the Cholesky factor (lower triangular, positive diagonal, product with its transpose equal to A) of any positive definite symmetric Toeplitz matrix A.", "quantifier": "all n, all positive definite symmetric Toeplitz matrices", "why_tests_cant": "continuum, all sizes; the generator recursion is only tested on one AR(1) matrix of order 100", "anchors": ["pystatsm/utilities/linalg_operations.py: toeplitz_cholesky_lower_nb"]}
{"id": "C74", "title": "active-set Cholesky factor of LARS", "statement": "Adding a variable with chol_update and dropping one with lars_drop_var keep in the leading block of L the Cholesky factor of the Gram matrix of the active variables.", "quantifier": "all Gram matrices, all active sets smaller than the number of variables", "why_tests_cant": "depends on the interaction of a padded array with the rotation loop; needs a run in which a variable is dropped", "anchors": ["pystatsm/pyglmnet/lars.py: chol_update, lars_drop_var, _lars", "pystatsm/utilities/linalg_operations.py: chol_downdate"]}
{"id": "C75", "title": "derivatives of the stick-breaking correlation transform", "statement": "jac_rvs, jac_fwd, hess_rvs and hess_fwd of unconstrained_chol are the first and second derivatives of rvs and fwd, and the two Jacobians at corresponding points are each other's inverses.", "quantifier": "all sizes, all admissible vectors, all directions", "why_tests_cant": "continuum, all sizes; the loops carry derivative accumulators by hand", "anchors": ["pystatsm/utilities/unconstrained_chol.py: jac_rvs, hess_rvs, jac_fwd, hess_fwd"]}
{"id": "C76", "title": "CholeskyCov parameters are unconstrained", "statement": "The composed covariance transform of cov_transform.py maps covariance parameters to unconstrained ones: its reverse map is defined on every real vector and returns a covariance matrix.", "quantifier": "all real vectors", "why_tests_cant": "continuum; tests only start from images of covariance matrices", "anchors": ["pystatsm/utilities/cov_transform.py: CholeskyCov._fwd, CholeskyCov._rvs, UnconstrainedCholeskyCorr"]}
{"id": "C77", "title": "CholeskyCov (param_transforms) is a bijection between covariance matrices and real vectors", "statement": "The composed transform of param_transforms.CholeskyCov (scale to correlations, Cholesky factor, stick-breaking, arctanh, log scale) is defined on every positive definite half-vectorised matrix, its reverse map is defined on every real vector and returns a positive definite matrix, and both round trips are the identity; OffDiagMask applies an inner transform to exactly the off-diagonal entries, with matching inverse, Jacobian and Hessian.", "quantifier": "all sizes, all positive definite matrices, all real vectors", "why_tests_cant": "continuum of matrices; composition of five transforms each with its own domain", "anchors": ["pystatsm/utilities/param_transforms.py: CholeskyCov, OffDiagMask, TanhTransform, UnconstrainedCholeskyCorr, CorrCholesky, LogScale"]}
{"id": "C78", "title": "ordered, log, tanh and identity transforms", "statement": "OrderedTransform maps strictly increasing sequences bijectively to real vectors, LogTransform positive vectors and TanhTransform the open cube; the reported Jacobians and Hessians in both directions (including the scattered, repeated-value Jacobian of OrderedTransform) are the derivatives of the maps.", "quantifier": "all lengths, all admissible vectors, all directions", "why_tests_cant": "continuum, all lengths; index/repeat bookkeeping", "anchors": ["pystatsm/utilities/param_transforms.py: OrderedTransform, LogTransform, TanhTransform, IdentityTransform"]}
{"id": "C79", "title": "the public transform methods return the private methods' values", "statement": "fwd, rvs, jac_* and hess_* applied to an array of any numeric dtype and leading shape return, for each row, the value of the corresponding private method.", "quantifier": "all arrays of integers or floats", "why_tests_cant": "all inputs; tests use float inputs only", "anchors": ["pystatsm/utilities/param_transforms.py: ParameterTransformBase._apply_method"]}
{"id": "C80", "title": "derivatives of the correlation-Cholesky transform", "statement": "CorrCholesky._jac_fwd and _hess_fwd (dchol over the unit matrices, eliminated and restricted to the strict triangle) are the first and second derivatives of _fwd at every packed positive definite correlation matrix; _jac_rvs and _hess_rvs, obtained by inverting the forward Jacobian at the image and by the einsum of -H with three copies of the inverse, exist and are the derivatives of _rvs at every factor with row norms below one.", "quantifier": "all sizes n>=1, all positive definite correlation matrices / admissible factors, all directions", "why_tests_cant": "continuum and all sizes; openness of the domain and differentiability of the inverse are not testable", "anchors": ["pystatsm/utilities/param_transforms.py: CorrCholesky._jac_fwd, _jac_rvs, _hess_fwd, _hess_rvs", "pystatsm/utilities/linalg_operations.py: dchol, unit_matrices"]}
{"id": "C81", "title": "derivatives of the composed covariance parameterisation", "statement": "The Jacobians and Hessians that CholeskyCov reports (five stages composed by ComposedTransform, three of them masked to the off-diagonal cells) are the first and second derivatives of its maps: forward at every positive definite covariance matrix, reverse at every real vector.", "quantifier": "all sizes n>=1, the whole positive definite cone and the whole real space", "why_tests_cant": "continuum; five-stage chain rule with index arithmetic at every size", "anchors": ["pystatsm/utilities/param_transforms.py: CholeskyCov, OffDiagMask, ComposedTransform"]}
{"id": "C82", "title": "derivatives of the rotation criteria", "statement": "For every choice of the four constants, GCFCriterion.dQ is the gradient of Q and d2Q_apply (with its three branches on zero constants) is multiplication by the symmetric second derivative; the same for TargetCriterion; d2Q holds the second derivatives.", "quantifier": "all sizes p, m, all loading matrices and directions, all constants", "why_tests_cant": "continuum of loadings and constants; zero-constant branches", "anchors": ["pystatsm/pyfa2/criterion.py: GCFCriterion, TargetCriterion"]}
{"id": "C83", "title": "named members of the criterion family", "statement": "The constants of each named method give the Crawford-Ferguson criterion with the weight of that method (varimax 1/p, quartimax 0, equamax m/2p, parsimax (m-1)/(p+m-2)); over orthogonal rotations varimax decreases exactly as the column variances of the squared loadings increase.", "quantifier": "all p>=1, m, all loadings and rotations", "why_tests_cant": "identity of polynomials at all sizes; needs the definition from the literature, not the code", "anchors": ["pystatsm/pyfa2/criterion.py: _gcf_constants"]}
{"id": "C84", "title": "rotation primitives", "statement": "grad is the gradient of the criterion in the rotation matrix; constraint_project is the orthogonal projection on the tangent space; constraint_retract lands on the manifold (and, for orthogonal rotation, is the closest rotation of determinant one); rotation leaves L Phi L' unchanged; a projected oblique step never has a zero column.", "quantifier": "all sizes, all loadings, all rotations, every criterion with correct derivatives", "why_tests_cant": "continuum; best approximation over all rotations", "anchors": ["pystatsm/pyfa2/rotation.py: OrthoRotation, ObliqueRotation"]}
{"id": "C85", "title": "gradient in Cayley coordinates", "statement": "d_rotation maps a gradient in T to the gradient in the skew coordinates, so CayleySolver._fg returns the criterion and its gradient.", "quantifier": "all sizes, all coordinate vectors and directions", "why_tests_cant": "continuum of coordinates", "anchors": ["pystatsm/pyfa2/rotation.py: OrthoRotation.d_rotation", "pystatsm/pyfa2/solvers.py: CayleySolver._fg", "pystatsm/pyfa2/cayley.py: constraint_factor"]}
{"id": "C86", "title": "Jacobians of the identification constraints", "statement": "Each row of d_constraint (orthogonal, oblique and canonical identification, in the packed parameter layout) is the derivative of the corresponding constraint in the whole parameter vector.", "quantifier": "all sizes, all parameters (nonsingular Phi, nonzero uniquenesses), all directions, every criterion with correct derivatives", "why_tests_cant": "continuum; index bookkeeping of flattened slabs at every size", "anchors": ["pystatsm/pyfa2/rotation.py: constraint, d_constraint", "pystatsm/pyfa2/identification.py: RotationIdentification, CanonicalIdentification"]}
{"id": "C87", "title": "gradient projection algorithm", "statement": "GPA.solve returns a point of the manifold with its value, never worse than the start, with a strictly decreasing trace; a reported norm below the tolerance is the projected gradient norm at the returned point; at a non-stationary point the step-halving loop accepts a step once allowed enough halvings.", "quantifier": "all data, starts on the manifold, step sizes, tolerances, iteration limits", "why_tests_cant": "unbounded iteration; acceptance is a limit statement", "anchors": ["pystatsm/pyfa2/solvers.py: GPA"]}
{"id": "C88", "title": "derivatives of the maximum likelihood discrepancy", "statement": "In the packed parameter layout, dsigma holds the partial derivatives of Sigma, grad is the gradient of F, hessian is the Jacobian of grad and is symmetric, score_jacobian is the Jacobian of grad in vech(S), and the Gaussian branch of meat equals B V_S B' for the normal-theory covariance of vech(S).", "quantifier": "all sizes p, m, all symmetric S, all parameters with nonsingular Sigma, all directions", "why_tests_cant": "continuum of parameters; index bookkeeping at every size; agreement with the mathematical derivative", "anchors": ["pystatsm/pyfa2/likelihood.py: MLEstimator._grad_inner, _dsigma_inner, _hessian_inner, _score_jacobian_inner, _meat_inner"]}
{"id": "C89", "title": "constrained inference", "statement": "bread annihilates the constraint Jacobian, inverts the Hessian on the tangent space of the constraints, is symmetric for a symmetric Hessian and exists exactly when the bordered matrix is regular (in particular whenever the constraints are independent and the Hessian is nondegenerate on their kernel); the sandwich equals the model-based covariance under the information equality, which holds at a perfect fit; empirical_cov_vech_S is positive semidefinite and shift invariant.", "quantifier": "all sizes, masks, Hessians, constraint Jacobians, meats", "why_tests_cant": "every free mask and every size; algebra of bordered matrices", "anchors": ["pystatsm/pyfa2/inference.py: augmented_hessian, bread, param_cov, sandwich_cov, empirical_cov_vech_S"]}
{"id": "C90", "title": "alignment and canonical rotation", "statement": "align/apply/apply_phi leave L Phi L' and the unit diagonal unchanged, give every column a nonnegative inner product with its target, minimise the Frobenius distance to the target over all signed permutations and undo any signed permutation; the canonical rotation is orthogonal, diagonalises A' Psi^-1 A in decreasing order and satisfies the canonical constraint.", "quantifier": "all sizes, loadings, targets, signed permutations", "why_tests_cant": "optimality over all signed permutations; all eigen-solvers meeting the contract", "anchors": ["pystatsm/pyfa2/alignment.py: align, apply, apply_phi, apply_se", "pystatsm/pyfa2/identification.py: CanonicalIdentification.fit"]}
{"id": "C91", "title": "concentrated likelihood", "statement": "At loadings_from_psi the full discrepancy equals loglike_psi + log|S| + p, its gradient in the loadings vanishes and its gradient in the uniquenesses is grad_psi; grad_psi is the gradient of loglike_psi, hess_psi the Jacobian of grad_psi, and grad_exp/hess_exp apply the chain rule for psi = exp(rho).", "quantifier": "all sizes, positive definite S, positive uniquenesses with the m largest eigenvalues at least one, all eigen-decompositions", "why_tests_cant": "profile likelihood identity; perturbation of eigenvectors", "anchors": ["pystatsm/pyfa2/likelihood.py: loglike_psi, grad_psi, hess_psi, loadings_from_psi, grad_exp, hess_exp"]}
{"id": "C92", "title": "information criteria", "statement": "get_information returns AIC = 2l + 2k, the small-sample AICc = AIC + 2k(k+1)/(n-k-1), BIC = 2l + k log n and CAIC = BIC + k; AICc exceeds AIC, BIC exceeds AIC exactly from eight observations on, and a model wins on AIC exactly when the likelihood ratio exceeds twice the added parameters.", "quantifier": "all likelihood values, all parameter and observation counts", "why_tests_cant": "all integer counts including the degenerate denominators; identities between criteria", "anchors": ["pystatsm/pyglm2/likelihood_model.py: _get_information"]}
{"id": "C93", "title": "pseudo R-squared and likelihood ratio", "statement": "Every pseudo R-squared is the textbook function of the two likelihoods, lies in [0,1], vanishes for the null model and grows strictly with the fit; adjusted versions penalise extra parameters; the likelihood ratio statistic is nonnegative for a model that fits at least as well as the null.", "quantifier": "all likelihood pairs, all counts", "why_tests_cant": "continuum of likelihoods; sign conventions", "anchors": ["pystatsm/pyglm2/likelihood_model.py: _get_pseudo_rsquared, _lr_test"]}
{"id": "C94", "title": "profile likelihood", "statement": "The fixed parameters take the requested values, the restricted function, gradient and Hessian are those of the restriction of the likelihood and do not depend on earlier calls through the shared buffer; profiling returns the constrained minimum; the interval endpoints solve profile = level, enclose the estimate and, for a convex profile, describe the level set exactly; an unbracketed side raises.", "quantifier": "all index sets, sizes, likelihoods with the stated derivatives, all call histories", "why_tests_cant": "shared mutable buffer and late-binding closures; continuum of functions", "anchors": ["pystatsm/pyglm2/likelihood_model.py: _make_constraints, _profile_loglike_constrained, _profile_loglike_restricted, _solve_interval"]}
{"id": "C95", "title": "Wald and score statistics", "statement": "Both statistics are nonnegative; Wald vanishes exactly when the estimate satisfies the constraint; neither changes when the constraints are replaced by an equivalent set or the parameters are changed linearly; under the information equality they reduce to the classical forms and for a quadratic likelihood Wald, score and likelihood ratio coincide; for zero constraints Wald uses exactly the selected block; dependent constraints raise.", "quantifier": "all sizes, parameters, constraint matrices, Hessians and gradient arrays", "why_tests_cant": "invariance over all matrices; exact equality of three different computations", "anchors": ["pystatsm/pyglm2/likelihood_model.py: _wald_test, _score_test", "pystatsm/pyglm2/regression_model.py: ll_tests", "pystatsm/utilities/optimizer_utils.py: ZeroConstraint"]}
{"id": "C96", "title": "leverage and heteroskedasticity-consistent weights", "statement": "The Cholesky and QR routines both return the diagonal of the hat matrix, in [0,1], summing to the number of columns, at least 1/n with an intercept, and unchanged by a change of basis of the columns; rank deficiency is reported; HC0 is the sum of outer products of gradients, HC0 <= HC1, HC2, HC4 and HC2 <= HC3 as quadratic forms, the kinds agree in balanced designs, unknown kinds raise.", "quantifier": "all sizes, designs, weights, leverages", "why_tests_cant": "every size and rank; order of quadratic forms", "anchors": ["pystatsm/pyglm2/regression_model.py: sandwich_cov, _compute_leverage_cholesky, _compute_leverage_qr"]}
{"id": "C97", "title": "influence diagnostics", "statement": "The one-step deletion values are the exact leave-one-out estimates for least squares; Cook's distance is the scaled squared change of the fit on deletion, the squared likelihood residual is the exact drop of the scaled deviance, and the HC3 sandwich is the jackknife covariance.", "quantifier": "all sizes, full-rank designs, responses, rows of leverage below one", "why_tests_cant": "agreement with n refits; algebra of rank-one updates", "anchors": ["pystatsm/pyglm2/glm.py: _one_step_approx, _jacknife, fit"]}
{"id": "C98", "title": "weighted least squares", "statement": "wls_chol, wls_qr and nwls return a solution of the weighted normal equations, nwls for weights of any sign whenever the solution is unique; for nonnegative weights the solution minimises the weighted sum of squares and the three routines agree.", "quantifier": "all sizes, designs, responses, weights", "why_tests_cant": "weights of any sign; all factorisations meeting the contracts", "anchors": ["pystatsm/utilities/linalg_operations.py: wls_chol, wls_qr, nwls"]}
{"id": "C99", "title": "cumulative link likelihood and derivatives", "statement": "The two linear predictors of a row are its thresholds minus x'beta, so the likelihood is minus the weighted log-probability of the observed categories; gradient and Hessian, constrained and unconstrained, are its first and second derivatives, and the per-observation gradients add up to the gradient.", "quantifier": "all numbers of categories and predictors, designs, weights, links of the package, parameters with positive probabilities", "why_tests_cant": "derivatives along every path; artificial thresholds far from the data only visible for extreme predictors", "anchors": ["pystatsm/pyglm2/clm.py: CLM._loglike, _gradient, _gradient_i, _hessian, *_unconstrained", "pystatsm/pyglm2/regression_model.py: OrdinalModelData.compute_ordinal_matrices"]}
{"id": "C100", "title": "cumulative link predictions", "statement": "Predicted probabilities are those of the likelihood, nonnegative and summing to one; the standard errors are those of the linear predictors; the confidence limits enclose the values they belong to; fit passes its options to the optimiser.", "quantifier": "all sizes, designs, ordered thresholds, covariance matrices, monotone links", "why_tests_cant": "all thresholds and links; impossibility of entrywise limits summing to one", "anchors": ["pystatsm/pyglm2/clm.py: CLM.predict, fit, _fit"]}
{"id": "C101", "title": "zero-inflated Poisson likelihood and derivatives", "statement": "The likelihood of a count is its zero-inflated Poisson probability and these sum to one; loglike is the sum of loglike_i; gradient, gradient_i and Hessian are derivatives of the likelihood; weights act as replications.", "quantifier": "all sizes, designs, positive weights, links, parameters", "why_tests_cant": "an infinite sum of probabilities and derivatives along every path", "anchors": ["pystatsm/pyglm2/zinf.py: ZeroInflatedPoisson._loglike, _loglike_i, _gradient, _gradient_i, _hessian"]}
{"id": "C102", "title": "zero-inflated negative binomial likelihood and derivatives", "statement": "The likelihood of a count is its zero-inflated negative binomial probability and these sum to one; loglike is the sum of loglike_i; gradient, gradient_i and Hessian (also in the log-dispersion) are derivatives of the likelihood; weights act as replications; prediction limits are quantiles of the fitted distribution.", "quantifier": "all sizes, designs, positive weights, links, parameters", "why_tests_cant": "derivatives with gamma, digamma and trigamma functions along every path; wrong formulas agree at unit weights", "anchors": ["pystatsm/pyglm2/zinf.py: ZeroInflatedNBinom._loglike, _loglike_i, _gradient, _gradient_i, _hessian, _predict"]}
{"id": "C103", "title": "elastic net coordinate descent", "statement": "Each coordinate update is the exact minimiser of the objective in that coordinate; the stored residuals stay those of the coefficients; sweeps never increase the objective; fixed points are global minimisers; the recorded values are the objective; elnet_grad is its gradient.", "quantifier": "all designs, responses, penalties, starting values, numbers of iterations", "why_tests_cant": "optimality over a continuum, for whole runs of the loop", "anchors": ["pystatsm/pyglmnet/gaussian_eln.py: sft, elnet_penalty, elnet_loglike, eln_cd, elnet, elnet_grad"]}
{"id": "C104", "title": "intercept, penalty path and screening of the elastic net", "statement": "Centring the response is optimal for the intercept; zero is the solution exactly for penalties of at least lambda_max, and is found there; the penalties are a decreasing geometric sequence; the screening rule discards no variable of a solution; fit stores what the fitting function returns.", "quantifier": "all centred designs, responses, mixing parameters", "why_tests_cant": "equivalence with optimality over all coefficient vectors", "anchors": ["pystatsm/pyglmnet/gaussian_eln.py: elnet, cv_glmnet", "pystatsm/pyglmnet/glmen.py: GLMEN.fit, predict"]}
{"id": "C105", "title": "cross-validation folds", "statement": "For at least two folds, plain or stratified, randomised or not: fitting and validation indices of a fold partition the observations, every observation is validated exactly once, class frequencies of the folds differ by at most one.", "quantifier": "all sample sizes, numbers of folds, labels, permutations", "why_tests_cant": "all sizes and permutations", "anchors": ["pystatsm/pyglmnet/eln_utils.py: kfold_indices"]}
{"id": "C106", "title": "proximal gradient for the lasso", "statement": "A step never increases the objective; fixed points are the minimisers; after k steps the excess over any point is at most max_eig |z-b|^2/k; the loop returns an iterate and its history; the accelerated variant improves on a starting value that is not optimal.", "quantifier": "all designs, responses, penalties, starting values, numbers of steps", "why_tests_cant": "a rate of convergence for all problems", "anchors": ["pystatsm/pyglmnet/lasso.py: lasso_obj, lasso_prox_grad, lasso_accelerated_grad"]}
{"id": "C107", "title": "inner cycle of the binomial elastic net", "statement": "Every coordinate and intercept update minimises the penalised weighted least squares objective in its variable; the residuals stay those of the coefficients; a cycle never increases the objective; the convergence values of every coordinate are those of this cycle.", "quantifier": "all designs, weights, working responses, penalties", "why_tests_cant": "loop invariant and exact minimisation for all inputs", "anchors": ["pystatsm/pyglmnet/binomial_eln.py: binom_glm_cd"]}
{"id": "C108", "title": "outer loop and path of the binomial elastic net", "statement": "Where the loop stands still the coefficients minimise the penalised likelihood globally; the deviance does not rise; the returned coefficients and intercept belong together; re-entry is governed by nr_ent; binom_eval is the objective and cross-validation uses it; lambda_max is the smallest penalty with zero solution; screening drops variables.", "quantifier": "all designs, binary responses, penalties, iteration numbers", "why_tests_cant": "optimality over all coefficient vectors", "anchors": ["pystatsm/pyglmnet/binomial_eln.py: _binom_glmnet, binom_eval, cv_binom_glmnet"]}
{"id": "C109", "title": "deviance of the mixed model", "statement": "Whenever _loglike returns, its value is minus twice the (restricted) log likelihood of y ~ N(Xb, ZGZ' + s2 I) profiled over b, without the constant; it returns for every positive definite G and full rank [X y]; the fill-reducing ordering does not matter.", "quantifier": "all designs, numbers of terms, levels, parameters, orderings", "why_tests_cant": "the mixed model equations never form the covariance", "anchors": ["pystatsm/pylmm/re_mod.py: _loglike, update_chol_diag, lndet_gmat"]}
{"id": "C110", "title": "gradient of the mixed model deviance", "statement": "_gradient and gradient_reparam are the derivatives of the deviance in all covariance parameters, for both REML and ML, with and without a level covariance; _gradient_v2 agrees with _gradient.", "quantifier": "all designs, parameters, directions", "why_tests_cant": "exact derivative of a determinant and a projected quadratic form", "anchors": ["pystatsm/pylmm/re_mod.py: _gradient, _gradient_v2, accumulate_gradient"]}
{"id": "C111", "title": "effects and their variances in the mixed model", "statement": "compute_effects returns the generalised least squares estimate, its covariance and the best linear unbiased predictor, which solve Henderson's equations and minimise the penalised sum of squares; vinv_apply, p_apply and vinvcrossprod multiply by the inverse covariance and the projection; random_effects_se is the prediction error variance; _dC_dtheta is the derivative of the covariance of the fixed effects.", "quantifier": "all designs, positive definite parameters, competitors", "why_tests_cant": "optimality over all coefficient vectors, exact identities", "anchors": ["pystatsm/pylmm/re_mod.py: compute_effects, vinv_apply, p_apply, vinvcrossprod, random_effects_se, _dC_dtheta"]}
{"id": "C112", "title": "storage of the mixed model matrices", "statement": "The stored Z has the design of each observation in the columns of its level; the stored G is I (x) G0 after every update, for a level covariance A (x) G0 and its inverse; the coefficient matrix is Z'R^-1 Z + G^-1 at all parameters; the cached index map picks the diagonal blocks of Z'R^-1 Z.", "quantifier": "all numbers of levels, variables, observations, parameters", "why_tests_cant": "index arithmetic over compressed storage for all sizes and sparsity patterns", "anchors": ["pystatsm/pylmm/re_mod.py: make_zinds, KronIG, KronAG, MMEBlocked, precompute_grad_caches"]}
{"id": "C113", "title": "inference in the mixed model", "statement": "The F statistic is the Wald statistic; the degrees of freedom are those of Satterthwaite; p-values are two-sided and agree with the confidence intervals; llf is the maximised log density; the criteria have their usual form; the likelihood ratio test counts all parameters; the variance components add up to the marginal variance and the coefficients of determination lie in [0,1).", "quantifier": "all designs, hypotheses, parameters, sample sizes", "why_tests_cant": "equality with the defining formulas for all inputs", "anchors": ["pystatsm/pylmm/re_mod.py: approx_degfree, _post_fit, confint, lrt, variance_decomposition, r_squared"]}
{"id": "C114", "title": "variance and correlation parameters of the profile likelihood", "statement": "fwd and rvs of _VarCorrReparam are inverse to each other; every parameter vector gives a covariance matrix; jacobian is the derivative of rvs.", "quantifier": "all numbers of terms and variables, all parameters", "why_tests_cant": "bijection and derivative on an infinite domain", "anchors": ["pystatsm/pylmm/re_mod.py: _VarCorrReparam"]}
{"id": "C115", "title": "finite difference weights of any order", "statement": "On any m distinct points the weights of fd_coefs and of fd_coefficients give the exact derivative of every polynomial of degree below m; fd_coefficients raises exactly when the points repeat or the order is too large; finite_diff and fd_derivative are exact on such polynomials for every centre and step, and the two sets of weights agree.", "quantifier": "all numbers of points, point sets, orders, polynomials, centres and steps", "why_tests_cant": "exactness on infinitely many polynomials and point sets", "anchors": ["pystatsm/utilities/numerical_derivs.py: _fd_coefs, fd_coefs, finite_diff, fd_coefficients, fd_derivative"]}
{"id": "C116", "title": "difference quotients for gradients and Hessians", "statement": "The forward, central and complex-step gradients and Hessians are symmetric where they should be, have the stated error terms on polynomials and converge to the derivatives of every function that has them.", "quantifier": "all functions, points, coordinates, steps", "why_tests_cant": "limits and error terms over all smooth functions", "anchors": ["pystatsm/utilities/numerical_derivs.py: fo_fc_fd, so_fc_fd, so_gc_fd, fo_fc_cd, so_fc_cd, so_gc_cd, fo_fc_cs, hess_cs"]}
{"id": "C117", "title": "Richardson extrapolation", "statement": "nr passes of extrapolation with ratio v are exact on polynomials of degree 2 nr, for the gradient and for the Hessian computed in place; jac_approx and hess_approx are the derivatives for any extra arguments and any numeric array.", "quantifier": "all functions, points, numbers of passes, ratios, extra arguments", "why_tests_cant": "exactness for every number of passes; type dependence", "anchors": ["pystatsm/utilities/numerical_derivs.py: grad_approx, jac_approx, hess_approx, _hess_approx, hess_approx2"]}
{"id": "C118", "title": "cubic regression spline basis and penalty", "statement": "On any increasing knots (three or more) crspline_penalty succeeds; the columns of crspline_basis interpolate the coordinate vectors at the knots, every combination is twice continuously differentiable, the penalty is the integral of the squared second derivative, the combination is the interpolant of least bending energy, the null space of the penalty is exactly the lines, and the spline is natural (continues as a line outside the knots).", "quantifier": "all knot sequences, coefficient vectors, evaluation points and competing C2 functions", "why_tests_cant": "variational characterisation over an infinite function space", "anchors": ["pystatsm/utilities/splines.py: _cr_mats, crspline_penalty, crspline_basis"]}
{"id": "C119", "title": "cyclic cubic spline basis and penalty", "statement": "On any increasing knots ccspline_basis interpolates the coefficients, joins smoothly at the end (values and two derivatives), the penalty is the integral of the squared second derivative and is least among periodic C2 interpolants, its null space is the constants, and the basis is periodic.", "quantifier": "all knot sequences (three or more), coefficient vectors, points and competing periodic functions", "why_tests_cant": "variational characterisation over an infinite function space", "anchors": ["pystatsm/utilities/splines.py: _cc_mats, ccspline_penalty, ccspline_basis"]}
{"id": "C120", "title": "data driven knots", "statement": "crspline_knots and ccspline_knots are strictly increasing exactly when the data have two or more distinct values, begin and end at the extremes of the data, agree with one another, and so satisfy the preconditions of the spline constructions.", "quantifier": "all data vectors and numbers of knots", "why_tests_cant": "holds for every data vector, including ties", "anchors": ["pystatsm/utilities/splines.py: crspline_knots, ccspline_knots, _get_crsplines, _get_ccsplines"]}
{"id": "C121", "title": "B-spline basis, knots and difference penalty", "statement": "On increasing knots the columns of bspline_basis have local support, are nonnegative between their knots, sum to one, differentiate by the standard recurrence and reproduce lines; equispaced_knots and bspline_knots enclose the data; difference_mat is the forward difference of its order with the polynomials below that order as null space; and the bs smooth can be constructed.", "quantifier": "all knot sequences, degrees, points, orders", "why_tests_cant": "partition of unity and derivatives for all degrees and points", "anchors": ["pystatsm/utilities/splines.py: difference_mat, equispaced_knots, _bspline, _bspline_des, bspline_knots, bspline_basis, bspline_penalty, _get_bsplines"]}
{"id": "C122", "title": "generalised cross validation scores", "statement": "For an identifiable penalised regression with positive semidefinite penalty, gcv and double_gcv are defined, grad_gcv and grad_double_gcv are their derivatives in the smoothing parameter, double_gcv with gamma 1 is gcv, and with more smoothing the effective degrees of freedom fall and the residual sum of squares rises; the fitted values minimise the penalised sum of squares.", "quantifier": "all designs, responses, penalties, weights gamma and smoothing parameters", "why_tests_cant": "derivatives and monotonicity over a continuum", "anchors": ["pystatsm/utilities/splines.py: gcv, double_gcv, grad_gcv, grad_double_gcv"]}
{"id": "C123", "title": "centring constraint and scale of a smooth", "statement": "The columns left by absorb_constraints sum to zero over the data and span exactly the centred functions of the original basis, with the penalty of the same coefficient vectors; with an intercept no fit is lost; the penalty scale is positive and normalises the penalty; a cubic smooth keeps one unpenalised direction and a cyclic one none; a by variable restricts a smooth to its category and the stored values of x are those of the category.", "quantifier": "all bases, penalties, complete orthogonal factors and data", "why_tests_cant": "quantifies over all orthogonal completions and function spaces", "anchors": ["pystatsm/utilities/splines.py: absorb_constraints, get_penalty_scale", "pystatsm/pygam/smooth_setup.py: get_smooth"]}
{"id": "C124", "title": "formula and layout of an additive model", "statement": "The parametric formula is the formula without its smooth terms and has the same parametric terms; every s(...) gives one smooth; columns and penalties are laid out in disjoint blocks so that the total penalty is the sum of the penalties of the blocks; the number of parameters, the column names and the design agree.", "quantifier": "all formulas over the grammar, lists of smooths and coefficient vectors", "why_tests_cant": "holds for every formula and number of terms", "anchors": ["pystatsm/pygam/smooth_setup.py: parse_smooths, get_parametric_formula, get_smooth_terms, get_smooth_matrices"]}
{"id": "C125", "title": "diagonalised smooths and their prior", "statement": "diagonalize_smooth gives mutually inverse transformations under which the penalty is the sum of squares of the penalised coefficients; exactly the unpenalised coefficients are declared free; every coefficient is in exactly one index list; and the prior of the Stan program is the Gaussian whose precision is the smoothing parameter.", "quantifier": "all penalties with their spectral decompositions, and numbers of smooths", "why_tests_cant": "holds for every penalty matrix", "anchors": ["pystatsm/pygam/transforms.py: diagonalize_smooth", "pystatsm/pygam/gam_mcmc.py: stan_code"]}
{"id": "C126", "title": "Gaussian additive model", "statement": "The penalised coefficients minimise the penalised sum of squares; gradient and hessian are the first and second derivatives of reml in the logarithms of the smoothing parameters and of the scale, and grad_beta_rho is the derivative of the coefficients; all are defined when the penalties and the data identify the model; pirls returns the penalised coefficients; Vf is the sampling covariance of the coefficients and edf the trace of the hat matrix.", "quantifier": "all designs, responses, families of penalties, smoothing parameters, scales and directions", "why_tests_cant": "derivatives in every direction over a continuum of parameters", "anchors": ["pystatsm/pygam/gaussian_additive_model.py: reml, gradient, hessian, grad_beta_rho, logdetS, get_penalty_mat, pirls, solve_pls, optimize_penalty"]}
{"id": "C127", "title": "Generalised additive model", "statement": "For any family whose functions are the derivatives they are named as, the coefficients that make the penalised score vanish have grad_beta_rho, hess_beta_rho and dhess_beta_rho as first, second and third derivatives in the log smoothing parameters; gradient and hessian are the first and second derivatives of reml in the log smoothing parameters and the log scale; a step of solve_pls is the Newton step for the penalised deviance; pirls never increases the penalised deviance; Vs is the sampling covariance and F the influence matrix; the p-values are two-sided and the tests have positive degrees of freedom.", "quantifier": "all families, designs, responses, penalties, smoothing parameters, scales and directions", "why_tests_cant": "derivatives up to the third order in every direction over a continuum of parameters", "anchors": ["pystatsm/pygam/gam.py: reml, gradient, hessian, grad_beta_rho, hess_beta_rho, dhess_beta_rho, grad_dev_beta, hess_dev_beta, logdetS, get_penalty_mat, get_wz, solve_pls, pirls, optimize_penalty, fit"]}
{"id": "C128", "title": "Exponential families of the additive model", "statement": "dlink to d4link, dvar_dmu to d3var_dmu3, da_dmu, d2a_dmu2, dw_deta and d2w_deta2 are the derivatives they are named as, the deviance has the derivative -2(y-mu)/V(mu), and dllscale and d2llscale are the derivatives of llscale, so every family can be used by GAM.", "quantifier": "all means, responses, scales, links and variance functions", "why_tests_cant": "identities of derivatives up to the fourth order over a continuum", "anchors": ["pystatsm/pyglm/families.py: get_a, get_w, da_dmu, d2a_dmu2, dw_deta, d2w_deta2, deviance, var_func, dvar_dmu, d2var_dmu2, d3var_dmu3, llscale, dllscale, d2llscale; pystatsm/pyglm/links.py: IdentityLink, LogitLink, LogLink, ReciprocalLink, PowerLink, NegativeBinomialLink"]}
{"id": "C129", "title": "Structured correlation matrices", "statement": "Each get_*_corr and get_factor_cov returns a symmetric positive semidefinite matrix (with unit diagonal for correlations) whose entries are those of the named structure, for admissible parameters, and the spatial structures give the same matrix from a distance matrix and from its condensed form.", "quantifier": "all numbers of variables and all admissible parameters", "why_tests_cant": "positive semidefiniteness of a matrix of any size over a continuum of parameters", "anchors": ["pystatsm/utilities/cov_utils.py: get_ar1_corr, get_exchangeable_corr, get_mdependent_corr, get_antedependence1_corr, get_factor_cov, get_spatialpower_corr, get_spatialexp_corr, get_spatialgaussian_corr, get_toeplitz_corr"]}
{"id": "C130", "title": "Nearest positive semidefinite matrices and exact covariances", "statement": "project_psd is the nearest symmetric matrix with eigenvalues above the tolerance; near_psd returns a positive semidefinite matrix with the diagonal asked for and leaves correlation matrices alone; _exact_cov gives data with exactly the mean and covariance asked for; get_canvar_corr gives a positive semidefinite matrix with the canonical correlations asked for.", "quantifier": "all symmetric matrices, tolerances, data, directions and canonical correlations", "why_tests_cant": "a nearest point among all matrices and semidefiniteness over a continuum", "anchors": ["pystatsm/utilities/cov_utils.py: project_psd, near_psd, _whiten, _svd_cov_transform, _exact_cov, _get_joint_corr_eig, _get_joint_corr_r, get_canvar_corr; pystatsm/utilities/data_utils.py: cov, normalize_xtrx"]}
{"id": "C131", "title": "Asymptotic covariances of sample covariances and correlations", "statement": "cov_sample_cov has the entries C_ik C_jl + C_il C_jk + C_ij C_kl - S_ij S_kl of heterogeneous kurtosis theory in the order of vech; corr_acov_neudecker is the delta method with the exact Jacobian of the correlations and has the Pearson-Filon entries in the order of vec; corr_acov_browne is the same times the relative kurtosis.", "quantifier": "all symmetric matrices with positive diagonal, all sizes, kurtoses and pairs of positions", "why_tests_cant": "an identity of matrices of any size built from Kronecker products and sparse pattern matrices, and a derivative", "anchors": ["pystatsm/utilities/cov_utils.py: cov_sample_cov, corr_acov_neudecker, corr_acov_browne; pystatsm/utilities/special_mats.py: nmat, pattern_mat_d, pattern_mat_s, pattern_mat_k, dpmat"]}
{"id": "C132", "title": "Beta regression", "statement": "gradient and hessian of BetaReg are the first and second derivatives of loglike, which is minus the log of the beta density with mean mu and precision phi, for any pair of links obeying the derivative contract (logit and log do); the fit statistics are those of the likelihoods of the model and the null model.", "quantifier": "all design matrices, responses in the open unit interval, parameters, directions and sizes", "why_tests_cant": "derivatives of a sum of log gamma functions at every point and in every direction", "anchors": ["pystatsm/pyglm/betareg.py: loglike, gradient, hessian, fit; pystatsm/pyglm/links.py: LogitLink, LogLink"]}
{"id": "C133", "title": "Negative binomial regression", "statement": "gradient and hessian of NegativeBinomial are the derivatives of loglike; exp of its terms are probabilities with mean exp(X b) and variance mu + kappa mu^2, so Pearson's statistic has expectation one per observation; deviance is twice the gap to the saturated model and never negative; the fit indices lie in the unit interval; bootstrap leaves the model as it was.", "quantifier": "all design matrices, counts, parameters, directions and sizes", "why_tests_cant": "infinite sums over the counts and derivatives of log gamma functions", "anchors": ["pystatsm/pyglm/nb2.py: loglike, gradient, hessian, deviance, fit, bootstrap"]}
{"id": "C134", "title": "Zero inflated Poisson regression", "statement": "gradient and hessian of ZIP are the derivatives of loglike; predict returns the mean and variance of the zero inflated Poisson distribution; exp of the terms of loglike are its probabilities; the fit statistics are the usual ones and the table is labelled in the order of the parameters.", "quantifier": "all design matrices, counts, parameters, directions and sizes", "why_tests_cant": "infinite sums over the counts and derivatives at every point", "anchors": ["pystatsm/pyglm/zimodels.py: loglike, gradient, hessian, predict, fit"]}
{"id": "C135", "title": "Robust regression with scale", "statement": "grad and hessian of RobustLM are the derivatives of rho, Huber's proposal for regression and scale; the objective is equivariant under rescaling of the response; the three covariance estimates agree with least squares in the quadratic zone and are equivariant; fixed points of irwls solve the estimating equations.", "quantifier": "all design matrices, responses, parameters, criteria with psi = rho', and all weighted least squares solvers", "why_tests_cant": "derivatives along every line, and fixed points of an iteration", "anchors": ["pystatsm/pyrobust/rls.py: rho, grad, hessian, irwls, fit; pystatsm/pyrobust/m_estimators.py: Huber"]}
{"id": "C136", "title": "Estimators of dispersion", "statement": "The n log n implementation of Sn (a binary search in two padded sorted sequences per point) returns what the quadratic sn_naive returns; Sn and the median absolute deviation are invariant under shifts and equivariant under scaling; the three versions of Gini's mean difference agree, as do the two versions of sn_estimator; qn_estimator and qn_estimator2 are the k-th smallest distance of two observations.", "quantifier": "all non-empty samples over an ordered field, with ties, of every size", "why_tests_cant": "correctness of a search with padding for every sample size and configuration of ties", "anchors": ["pystatsm/pyrobust/dispersion_estimators.py: sn, _sn_a, _sn_b, sn_naive, gmd, gmd2, gmd3, sn_estimator, sn_estimator2, qn_estimator, qn_estimator2, mad"]}
{"id": "C137", "title": "Threshold search of sparse canonical correlation", "statement": "The l1 norm of the normalised soft-thresholded vector falls as the threshold rises, floor of the norm included; when the constraint is not already met the search ends within half the tolerance (or the halved starting interval) of a threshold at which the l1 norm equals the bound, and otherwise returns zero and leaves the vector alone; with the default settings the iteration limit is never what stops it for vectors of moderate size.", "quantifier": "all real vectors of positive length, bounds, decrements and iteration limits", "why_tests_cant": "monotonicity of a ratio of sums of truncations and a bisection invariant; no sample settles either", "anchors": ["pystatsm/pyscca/scca.py: l2_penalty, l1_constraint, sft, threshold_search"]}
{"id": "C138", "title": "Alternating steps of sparse canonical correlation", "statement": "Each half step returns the unit vector with the greatest inner product with the data direction among all vectors in the unit ball whose l1 norm is no larger than its own; a half step does not lower the bilinear criterion; the weights never leave the unit ball and the iteration stops early only when the change is below the tolerance.", "quantifier": "all cross product matrices, starting weights and bounds above the floor", "why_tests_cant": "optimality over a ball intersected with an l1 ball", "anchors": ["pystatsm/pyscca/scca.py: _scca_vec, sft, l2_penalty"]}
{"id": "C139", "title": "Deflation and orthogonalised components", "statement": "Every component is the single-component solution for the data deflated by the scores of the earlier ones; the scores computed from deflated data are mutually orthogonal; orthogonalize_components returns weights that reproduce these scores from the undeflated data, so that the scores X B are orthogonal.", "quantifier": "all data matrices and numbers of components, non-zero scores, invertible cross product", "why_tests_cant": "an invariant of a loop that replaces the data matrix at each pass", "anchors": ["pystatsm/pyscca/scca.py: _scca, SCCA._fit_symdef_d, SCCA.orthogonalize_components"]}
{"id": "C140", "title": "Choice of the penalty and permutation starts", "statement": "SCCA.fit picks the penalty by the mean out-of-fold correlation of the components, i.e. by the diagonal of the score correlation matrix, for every number of components including the default; permutation_test starts from weights of unit length on both sides.", "quantifier": "all numbers of components and all starting vectors", "why_tests_cant": "index arithmetic in the half vectorisation for every dimension", "anchors": ["pystatsm/pyscca/scca.py: SCCA.fit, SCCA.crossval, SCCA.permutation_test"]}
{"id": "C141", "title": "Canonical correlation analysis", "statement": "The canonical variates have mean zero, unit variance, are uncorrelated within each set and cross-correlated only pairwise with the reported correlations; loadings are the correlations of variables with variates; the first correlation is the largest attainable by any pair of linear combinations; the fit is defined for every number of variables on either side.", "quantifier": "all data matrices of any shape, every decomposition numpy may return", "why_tests_cant": "optimality over all linear combinations and every admissible decomposition", "anchors": ["pystatsm/pyscca/base_cca.py: CCA._eig_isq, CCA._cca_svd, CCA._handle_full_data, CCA._fit, CCA.predict; pystatsm/utilities/data_utils.py: _csd"]}
{"id": "C142", "title": "Independent component analysis", "statement": "symmetric_decorr returns the orthogonal factor of the polar decomposition; whitening gives unit covariance; after any number of iterations of either algorithm the unmixing matrix is orthogonal and the components are uncorrelated with unit variance; mixing undoes unmixing; a separating matrix is a fixed point of the update and the convergence check compares directions of components.", "quantifier": "all data matrices, starting matrices, iteration counts and decompositions", "why_tests_cant": "fixed points and invariants of an iteration with transcendental updates", "anchors": ["pystatsm/pyica/ica.py: symmetric_decorr, gfunc, cov, convergence_check, _fast_ica, _fast_ica2, ICA.__init__, ICA.fit"]}
{"id": "C143", "title": "Variance-correlation parameters in prf.py", "statement": "transform and inverse_transform of VarCorrReparam are inverse to each other; jacobian holds the derivatives of inverse_transform, rows belonging to the new parameters, so that J.dot(g) is the gradient in the new parameters; terms do not interfere.", "quantifier": "all lists of terms, all numbers of variables per term, all positive variances and correlations below one", "why_tests_cant": "index orders of two triangle enumerations for every dimension", "anchors": ["pystatsm/pylmm/prf.py: VarCorrReparam, vcrepara_grad; pystatsm/pylmm/model_matrices.py: VarCorrReparam, vcrepara_grad"]}
{"id": "C144", "title": "Likelihood of class LMM from a bordered factorisation", "statement": "loglike of lmm.py, read off the factor of the bordered mixed model equations, is minus twice the (restricted) log likelihood up to the constant, whatever ordering the sparse factorisation uses.", "quantifier": "all random effect structures, parameters, designs and orderings", "why_tests_cant": "the ordering is chosen by the factorisation and differs with the sparsity pattern", "anchors": ["pystatsm/pylmm/lmm.py: LMM.loglike, LMM.update_mme, LMM.lndet_gmat"]}
{"id": "C145", "title": "Gradient and Hessian of class LMM", "statement": "gradient is the derivative of loglike for reml and ml and in all sparsity branches; hessian is the derivative of gradient for the same value of reml and symmetric; both are defined for positive definite covariances and designs of full rank.", "quantifier": "all random effect structures, parameters and designs", "why_tests_cant": "derivatives of determinants and inverses in every direction", "anchors": ["pystatsm/pylmm/lmm.py: LMM.gradient, LMM._gradient_old, LMM._gradient_dense, LMM.hessian"]}
{"id": "C146", "title": "Effects and penalised least squares of class LMM", "statement": "vinvcrossprod is A'V^-1B; _compute_effects gives the generalised least squares estimate, its covariance and the best linear unbiased predictor; pls gives the same estimate and predictor and its deviance is the restricted deviance.", "quantifier": "all random effect structures, parameters, designs and orderings", "why_tests_cant": "equality of two algorithms for all inputs", "anchors": ["pystatsm/pylmm/lmm.py: LMM.vinvcrossprod, LMM._compute_effects, LMM.pls, LMM.update_lmat"]}
{"id": "C147", "title": "Cholesky parameters of class LMM", "statement": "transform_theta and inverse_transform_theta are inverse to each other where the factors have positive diagonals; dg_dchol and get_d2_chol hold the first and second derivatives of vech(LL'); gradient_chol is the derivative of loglike_c and hessian_chol that of gradient_chol.", "quantifier": "all lists of terms, all numbers of variables, all parameters", "why_tests_cant": "index orders of Kronecker and elimination matrices for every dimension; chain rule of second order", "anchors": ["pystatsm/pylmm/lmm.py: LMM.transform_theta, LMM.inverse_transform_theta, LMM.dg_dchol, LMM.gradient_chol, LMM.hessian_chol; pystatsm/pylmm/ranef_terms.py: get_d2_chol"]}
{"id": "C148", "title": "Inference of class LMM", "statement": "approx_degfree returns the Wald statistic with Satterthwaite's degrees of freedom; J holds the derivatives of the covariance of the fixed effects; the table holds t statistics and two-sided p-values; llf is the log likelihood; standard errors of covariance parameters come from the Hessian of the fitted criterion; re_corrs are correlation matrices.", "quantifier": "all hypotheses of full rank, all designs and parameters", "why_tests_cant": "statistical meaning of reported numbers", "anchors": ["pystatsm/pylmm/lmm.py: LMM.approx_degfree, LMM._post_fit, LMM.fit"]}
{"id": "C149", "title": "Likelihood of MVOLS", "statement": "The parameter packer is a bijection onto coefficient matrices and Cholesky factors with positive diagonal; loglike is minus the weighted log likelihood of the multivariate normal; gradient, gradient_i and hessian are its derivatives.", "quantifier": "all numbers of responses and terms, all data, weights and parameters", "why_tests_cant": "derivatives of matrix functions; index bookkeeping over triangles for every dimension", "anchors": ["pystatsm/pyglm2/mvols.py: MMRParameterPacker, MVOLS._loglike, MVOLS._gradient, MVOLS._gradient_i, MVOLS._hessian"]}
{"id": "C150", "title": "Closed form of MVOLS", "statement": "The closed form is the only minimiser of loglike; sigma_mle is the mean of the weighted squared residuals and precision its inverse; the gradient vanishes and the Hessian is positive definite there; beta_cov is the Kronecker product of sigma_mle with the inverse of X'WX.", "quantifier": "all data with nonnegative weights for which it succeeds", "why_tests_cant": "global optimality over a continuum of parameters", "anchors": ["pystatsm/pyglm2/mvols.py: MVOLS._closed_form_theta, MVOLS._store_estimates, _precision_chol_from_sigma"]}
{"id": "C151", "title": "Multivariate tests of MVOLS", "statement": "The hypothesis matrix is what the restriction LBM = 0 adds to the residual cross products; the four statistics are det E/det(E+H), tr(H(E+H)^-1), tr(HE^-1) and the largest root of HE^-1; with one response or one restriction all four tests are the exact F test; a table is returned whenever the matrices are regular.", "quantifier": "all data, hypotheses, response transforms and degrees of freedom", "why_tests_cant": "constrained least squares over a continuum; special cases of approximations at particular degrees of freedom", "anchors": ["pystatsm/pyglm2/mvols.py: MVOLS._hypothesis_sscp, MVOLS.test_hypothesis, _canonical_eigenvalues, _manova_stats, _wilks_ftest, _pillai_ftest, _hotelling_ftest, _roy_ftest"]}
{"id": "C152", "title": "Measures of association of MVOLS", "statement": "With a constant column hypothesis and error cross products add up to the total; the generalised R2 is 1 - det E/det T; R2 is a share of the total and its adjustment compares mean squares; the four effect sizes are ordered Pillai, Wilks, Hotelling, Roy within the unit interval; canonical correlations decrease within (0,1).", "quantifier": "all data, all numbers of responses and restrictions", "why_tests_cant": "inequalities between means; Loewner order", "anchors": ["pystatsm/pyglm2/mvols.py: MVOLS._measures_of_association, MVOLS._response_rsquared, MVOLS._store_sscp, MVOLS._store_association"]}
{"id": "C153", "title": "Ordinary least squares of pyglm2", "statement": "Gradient and Hessian are the derivatives of the (restricted) likelihood; both fits return its only minimiser; the covariance is s2(X'X)^-1 and 2/n; sums of squares add up with a constant; restricted coefficients minimise under the restrictions; the permutation test uses the error variance of the permuted response; bootstrap rows are on the scale of the parameters; weights enter the fit.", "quantifier": "all designs of full rank, responses, restrictions, permutations and resamples", "why_tests_cant": "a minimum over a continuum; exact derivatives; identities for every design", "anchors": ["pystatsm/pyglm2/ols.py: OLS._loglike, OLS._gradient, OLS._hessian, OLS._fit1, OLS._fit2, OLS._fit, OLS.fit, OLS._get_coef_constrained, OLS._bootstrap, OLS._permutation_test"]}
{"id": "C154", "title": "Parameter tables and BCa intervals", "statement": "Two-sided p-values and confidence intervals agree for every value of the parameter; the interval is centred and scales with the unit; BCa levels are ordered, equivariant under reflection and invariant under change of unit, and use the share of resamples below the estimate.", "quantifier": "all estimates, standard errors, levels, resamples and symmetric continuous distributions", "why_tests_cant": "equivalence of test and interval at every level; equivariance", "anchors": ["pystatsm/utilities/output.py: get_param_table, compute_bias_corrected_bootstrap_intervals"]}
{"id": "C155", "title": "Least squares and diagnostics of pyglm/ols.py", "statement": "The stored matrices are the pseudo-inverse and leverages; the condition table holds variance inflation factors and variance proportions; the fit is least squares with unbiased error variance; robust errors are the sandwich; jackknife coefficients and dfbeta are exact deletions; studentised residuals and Cook's distance are those of the fit; the likelihood without a scale is the maximum over it; stored permutations give the same p-values as running ones.", "quantifier": "all designs of full rank and responses", "why_tests_cant": "equality with refits for every deleted observation; a maximum over a continuum", "anchors": ["pystatsm/pyglm/ols.py: OLS.__init__, OLS._fit_mats, OLS._fit_y, OLS.robust_rcov, OLS.get_influence, OLS.loglike, OLS._compute_jackknife_coefs, OLS.permutation_test"]}
{"id": "C156", "title": "Links and predictor derivatives of the Gaussian location-scale model", "statement": "The links invert and their derivatives to order four are those of the link; the fourteen columns of ll_eta_derivs are all the partial derivatives to order four of the Gaussian log likelihood in the two predictors; the scale stays above the offset b of its link.", "quantifier": "all twice-differentiable pairs of links, observations and predictors", "why_tests_cant": "fourteen families of partial derivatives over a continuum", "anchors": ["pystatsm/pygam/gauls.py: LogbLink, GauLS.ll_eta_derivs"]}
{"id": "C157", "title": "Coefficients of the Gaussian location-scale model", "statement": "Gradient and Hessian are those of the penalised likelihood; a step of outer_step is a descent direction and is the Newton step for a curved enough objective; the loop never returns a worse objective; the derivatives of coefficients and Hessian in the log penalties are those of the stationary branch, to second order.", "quantifier": "all designs, penalties, weights, admissible links; every continuous branch of stationary points", "why_tests_cant": "an implicit function and its first two derivatives", "anchors": ["pystatsm/pygam/gauls.py: GauLS.grad_pll_beta, GauLS.hess_pll_beta, GauLS.outer_step, GauLS.grad_beta_rho, GauLS.dhess, GauLS.hess_beta_rho"]}
{"id": "C158", "title": "Restricted likelihood and report of the Gaussian location-scale model", "statement": "gradient and hessian are the first two derivatives of reml along the stationary branch; effective degrees of freedom lie between zero and the number of coefficients; the smooth statistic is the Wald statistic; p-values are two-sided; aic counts the parameters; rsquared compares with the mean; predictions use the intercept of their own predictor; weights are checked and normalised to mean one.", "quantifier": "all designs, penalties, weights and admissible links", "why_tests_cant": "second derivatives of a log determinant through an implicit function", "anchors": ["pystatsm/pygam/gauls.py: GauLS.reml, GauLS.gradient, GauLS.hessian, GauLS.optimize_penalty, GauLS.fit, GauLS.predict_component, GauLS.__init__"]}
{"id": "C159", "title": "Bivariate normal density, distribution function and derivatives", "statement": "binorm_pdf is the bivariate normal density; binorm_cdf with an exact rule is its distribution function and an inexact rule or normal function is not amplified; the 63 point table is a rule of degree 125; dbinorm_cdf_du, d2binorm_cdf_du2, d2binorm_cdf_duv, d2binorm_cdf_dur and dbinorm_pdf are the partial derivatives they are named after; the four corner sums are integrals over rectangles; the rational approximation of the normal function keeps symmetry and range.", "quantifier": "all points and all correlations in (-1, 1); all polynomials of degree 125", "why_tests_cant": "Plackett's identity is a derivative under a double improper integral", "anchors": ["pystatsm/utilities/func_utils.py: binorm_pdf_jit, binorm_dl_jit, binorm_l2_jit, binorm_cdf_jit, binorm_cdf_region, dbinorm_pdf, dbinorm_cdf_du, d2binorm_cdf_du2, d2binorm_cdf_duv, d2binorm_cdf_dur, _norm_cdf"]}
{"id": "C160", "title": "Ordered index tuples and the conversion between index orders", "statement": "generate_indices returns every tuple of the shape that satisfies the ordering requested, once, and nothing else; with first_indices_change_fastest the first index changes fastest; ascending_indices and descending_indices are the two defaults; the pairs used by Polychor run in the order of vecl and of inv_tril_indices; convert_acm turns a matrix in descending co-lexicographic order into one in ascending lexicographic order.", "quantifier": "all shapes, all four flags; all p for the pairs; p below 7 for the conversion", "why_tests_cant": "order of enumeration over all shapes", "anchors": ["pystatsm/utilities/ordered_indices.pyx", "pystatsm/pylvcorr/polychoric2.py: convert_acm", "pystatsm/utilities/indexing_utils.py: generate_indices"]}
{"id": "C161", "title": "Polychoric likelihood of a pair of variables", "statement": "The cell probabilities are non-negative and add up to the rectangle; gradient and hessian of Polychor are the first and second derivatives of loglike in all thresholds and the correlation, the quasi-likelihood versions those in the correlation; the transformed parameters are unrestricted, map to increasing thresholds and a correlation in (-1, 1), and the transformed gradient and Hessian follow the chain rule.", "quantifier": "all tables, thresholds and correlations, along all curves of parameters", "why_tests_cant": "derivatives over a continuum with Plackett's identity in each cell", "anchors": ["pystatsm/pylvcorr/polychoric2.py: loglike, qloglike, dprob_dparams, gradient, hessian, qgradient, qhessian, *_transformed, _PairWorkspace", "pystatsm/pylvcorr/polychoric.py: the same methods"]}
{"id": "C162", "title": "Two-step fit of the polychoric correlation", "statement": "The counts of process_data cover every observation and are the margins of the table; the sample thresholds increase strictly and the normal function takes them to the cumulated proportions; the Newton iteration of _fit_qml_newton stays in (-1, 1), takes descent directions, never raises the negative likelihood, and its report describes the point it returns.", "quantifier": "all columns of integers; all likelihoods, scores and second derivatives", "why_tests_cant": "invariants of a loop with backtracking over arbitrary functions", "anchors": ["pystatsm/pylvcorr/polychoric2.py: process_data, _xtabs, _fit_qml_newton"]}
{"id": "C163", "title": "Asymptotic covariance of polychoric correlations", "statement": "The matrix G of a pair is the influence of the cells on the two-step correlation, the derivative of the correlation along every curve of tables when thresholds follow the margins and the correlation the score; the systems for the thresholds can be solved; W vanishes at the two-step estimate; get_acov is the covariance matrix of the influences divided by n and get_acov_loop is the same matrix.", "quantifier": "all tables, thresholds, correlations and curves of tables", "why_tests_cant": "implicit differentiation of an estimator over all perturbations", "anchors": ["pystatsm/pylvcorr/polychoric2.py: _build_g_W, get_acov, get_acov_loop, _get_acm_comp", "pystatsm/pylvcorr/polychoric.py: get_acov"]}
{"id": "C164", "title": "Earlier polychoric classes", "statement": "_Polychor, Polychoric and PolychoricCorr of lvcorr.py evaluate the same likelihood: the flattened tables pair each count with the thresholds of its row and column, gradient and hessian are the derivatives of loglike, also after the tanh transform, the thresholds computed from the table and from the columns agree, and missing values are treated alike; the five-point rule of binorm_l has degree nine.", "quantifier": "all columns, tables, thresholds and correlations", "why_tests_cant": "equality of index arithmetic and derivatives over all tables", "anchors": ["pystatsm/pylvcorr/lvcorr.py: _Polychor, Polychoric, PolychoricCorr", "pystatsm/pylvcorr/statfuncs.py: polychor_thresh, polychor_loglike, polychor_ll, polychor_partial_ll, binorm_l, norm_qtf"]}
{"id": "C165", "title": "Polyserial correlation", "statement": "Polyserial reads for each observation the thresholds around its category; the probabilities of the categories given the continuous variable are the conditional normal probabilities, positive and of sum one; gradient is the derivative of loglike on (-1, 1); the estimate does not depend on the unit of the continuous variable.", "quantifier": "all continuous variables and integer columns", "why_tests_cant": "derivative of a sum with infinite thresholds; invariance of an argmin", "anchors": ["pystatsm/pylvcorr/lvcorr.py: dcrep, Polyserial", "pystatsm/pylvcorr/statfuncs.py: polyex, polyserial_ll, norm_qtf"]}
{"id": "C166", "title": "Simulated ordinal variables", "statement": "random_thresholds gives thresholds whose categories have the drawn weights as probabilities, digitising yields exactly the requested number of categories, all of them attainable, and bounds on the number of categories are both attained.", "quantifier": "all weights and numbers of categories", "why_tests_cant": "off-by-one counts over all sizes", "anchors": ["pystatsm/pylvcorr/sim_lvcorr.py: random_thresholds, PolycoricSim, LVCorrSim", "pystatsm/pylvcorr/polychoric2.py: random_thresholds, PolycoricSim"]}
{"id": "C167", "title": "LKJ samples are correlation matrices", "statement": "clockwise_spiral_fill_triangular puts every entry into the triangle exactly once, the placeholder ones of r_lkj_cholesky fall into discarded rows, and r_lkj_cholesky and r_lkj return, for every dimension, the Cholesky factor of a correlation matrix and that matrix.", "quantifier": "all sizes and all draws", "why_tests_cant": "index arithmetic over all sizes; every draw of the generator", "anchors": ["pystatsm/utilities/tf_utils.py: clockwise_spiral_fill_triangular, spherical_uniform", "pystatsm/utilities/random.py: r_lkj_cholesky, r_lkj"]}
{"id": "C168", "title": "Vine and onion samples are correlation matrices", "statement": "vine_corr and onion_corr return symmetric positive semidefinite matrices of the size asked for with unit diagonal, for every draw; the min_eig repair gives a correlation matrix.", "quantifier": "all sizes and all draws", "why_tests_cant": "positive semidefiniteness for every draw of the generator", "anchors": ["pystatsm/utilities/random.py: vine_corr, onion_corr"]}
{"id": "C169", "title": "Exact normal samples and Wishart matrices", "statement": "exact_rmvnorm returns a sample whose mean and covariance are exactly mu and S; wishart returns a positive definite matrix with Bartlett's factor and mean df times V; r_invwishart inverts a Wishart matrix of the inverse scale.", "quantifier": "all draws, scales and sizes", "why_tests_cant": "identities for every draw and an expectation", "anchors": ["pystatsm/utilities/random.py: exact_rmvnorm, wishart, invwishart, r_invwishart"]}
{"id": "C170", "title": "Truncated normal samples", "statement": "scalar_truncnorm returns a value between the bounds, each rejection step has the truncated normal density up to a constant with an acceptance probability at most one, the exponential rate is the best one, and without bounds the values are normal with the given mean and deviation.", "quantifier": "all bounds, parameters and draws", "why_tests_cant": "a sampler is right only in distribution; the branches depend on magnitudes", "anchors": ["pystatsm/utilities/random.py: scalar_truncnorm, trnorm"]}
{"id": "C171", "title": "Multivariate t samples and random rotations", "statement": "multivariate_t is centred at the mean; _special_ortho returns an orthogonal matrix with determinant one.", "quantifier": "all dimensions and draws", "why_tests_cant": "sign of a determinant for every dimension and draw", "anchors": ["pystatsm/utilities/random.py: multivariate_t, _special_ortho"]}
{"id": "C172", "title": "Intraclass correlations", "statement": "The three versions of the intraclass correlations agree, equal the ratios of variance components they are defined as, satisfy the Spearman-Brown formula and ICC1 <= ICC2 <= ICC3, and come with a consistent analysis of variance.", "quantifier": "all variance components and numbers of subjects and raters", "why_tests_cant": "identities over all parameters and a mislabelled row", "anchors": ["pystatsm/misc/icc.py: icc_from_summary_stats, ICC, icc"]}
{"id": "C173", "title": "Cross-correlation", "statement": "All versions return the cross-correlation of x and y at the lags 1-n..n-1, the coefficients lie between -1 and 1, and every documented or unknown normalisation is handled.", "quantifier": "all arrays", "why_tests_cant": "agreement of four implementations at every lag", "anchors": ["pystatsm/utilities/xcorr.py: xcorr_brute, xcorr_fft, xcorr_fftc, xcorr_mat"]}
{"id": "C174", "title": "Derivatives of the sinh-arcsinh log density up to order four", "statement": "Each of the four functions _logpdf1 to _logpdf4 returns the sinh-arcsinh log density and, in every entry of its arrays, the partial derivative of the entry of the order before, for all 4 + 10 + 20 + 35 entries.", "quantifier": "all observations, all parameters with positive scale and tail", "why_tests_cant": "hundreds of generated assignments; a test compares numbers at points", "anchors": ["pystatsm/misc/shash_lpdf1.py: _logpdf1", "pystatsm/misc/shash_lpdf2.py: _logpdf2", "pystatsm/misc/shash_lpdf3.py: _logpdf3", "pystatsm/misc/shash_lpdf4.py: _logpdf4", "pystatsm/misc/shash1.py: logpdf"]}
{"id": "C175", "title": "Derivatives of the sinh-arcsinh log density in logarithmic parameters", "statement": "The functions of shashr_lpdf1.py to shashr_lpdf4.py return the log density with scale exp(s) and tail exp(t) and its partial derivatives up to order four in m, s, t, v.", "quantifier": "all observations and all parameters", "why_tests_cant": "hundreds of generated assignments; a test compares numbers at points", "anchors": ["pystatsm/misc/shashr_lpdf1.py: _logpdf1", "pystatsm/misc/shashr_lpdf2.py: _logpdf2", "pystatsm/misc/shashr_lpdf3.py: _logpdf3", "pystatsm/misc/shashr_lpdf4.py: _logpdf4"]}
{"id": "C176", "title": "Derivatives of the log density of class SASH", "statement": "loglike is the sinh-arcsinh log density, and d1loglike to d4loglike return its partial derivatives in m, s, v, t up to order four.", "quantifier": "all observations, all parameters with positive scale and tail", "why_tests_cant": "hundreds of generated assignments; a test compares numbers at points", "anchors": ["pystatsm/misc/sash.py: _logpdf, _d1logpdf, _d2logpdf, _d3logpdf, _d4logpdf"]}
{"id": "C177", "title": "Derivatives of the skew normal log density", "statement": "_logpdf is the log of the skew normal density, and _d1logpdf to _d4logpdf return its partial derivatives in m, s, v up to order four; the methods of class SkewNorm give the same values.", "quantifier": "all observations, all parameters with positive scale", "why_tests_cant": "derivatives through the error function; a test compares numbers at points", "anchors": ["pystatsm/misc/skewnorm_dist.py: _logpdf, _d1logpdf, _d2logpdf, _d3logpdf, _d4logpdf, SkewNorm"]}
{"id": "C178", "title": "Gradient and Hessian of the sinh-arcsinh log likelihood in sinharcsinh_dist.py", "statement": "The eight building blocks _dL_* and _d2L_* are the partial derivatives of the sinh-arcsinh log density, _hess_elementwise is symmetric with each entry in its place, and _grad and _hess of a sample are the gradient and Hessian of the log likelihood.", "quantifier": "all samples, all parameters with positive scale and tail", "why_tests_cant": "hand-written derivatives; a test compares numbers at points", "anchors": ["pystatsm/misc/sinharcsinh_dist.py: _grad_elementwise, _hess_elementwise, _grad, _hess"]}
{"id": "C179", "title": "The sinh-arcsinh distribution functions belong together", "statement": "pdf is the derivative of cdf, cdf increases from zero to one, the density integrates to one, inverse_cdf inverts cdf, median is the one half quantile, and a draw of rvs has distribution function cdf.", "quantifier": "all parameters with positive scale and tail, all observations", "why_tests_cant": "a statement about integrals and laws; a test samples points or compares with a simulation", "anchors": ["pystatsm/misc/shash1.py: pdf, cdf, inverse_cdf, median, rvs", "pystatsm/misc/shashr.py: pdf, cdf, inverse_cdf, median", "pystatsm/misc/sinharcsinh_dist.py: _logpdf, _pdf, _cdf, _qtf, _rvs"]}
{"id": "C180", "title": "Moments of the sinh-arcsinh distribution", "statement": "mean, variance, moments, skewness, skew, excess_kurtosis and kurt return the mean, the variance, the raw moments, the skewness and the (excess) kurtosis of the distribution with density pdf.", "quantifier": "all parameters with positive scale and tail", "why_tests_cant": "Bessel function formulas for improper integrals; a test can only compare with quadrature at points", "anchors": ["pystatsm/misc/shash1.py: P, mean, variance, skewness, excess_kurtosis, moments, skew, kurt", "pystatsm/misc/shashr.py: mean, variance, moments, skew, kurt", "pystatsm/misc/sinharcsinh_dist.py: _pq, _mean, _variance"]}
{"id": "C181", "title": "Moments and random draws of the skew normal distribution", "statement": "The skew normal density integrates to one, _mean, _variance and _skewness are its mean, variance and skewness for every shape, and _rvs turns two independent standard normal numbers into a draw with that density.", "quantifier": "all locations, positive scales and shapes", "why_tests_cant": "a statement about integrals and laws; a simulation has sampling error", "anchors": ["pystatsm/misc/skewnorm_dist.py: _mean, _variance, _skewness, _rvs"]}
{"id": "C182", "title": "Gradients of the rotation criteria in pyfa/rotation.py", "statement": "dQ, and the second result of vgQ, vgq_cf and vgq_ob, is the gradient of the value returned with it for the Crawford-Ferguson, oblimin and target criteria; d_rotate is the derivative of rotate in T, and df is the gradient of f.", "quantifier": "all loadings, constants, targets, weights, and all differentiable curves of rotations", "why_tests_cant": "matrix calculus identities over all matrices; a test checks differences at points", "anchors": ["pystatsm/pyfa/rotation.py: GeneralizedCrawfordFerguson.Q/dQ", "pystatsm/pyfa/rotation.py: TargetRotation", "pystatsm/pyfa/rotation.py: vgq_cf", "pystatsm/pyfa/rotation.py: vgq_ob", "pystatsm/pyfa/rotation.py: RotationMethod.rotate/d_rotate/f/df"]}
{"id": "C183", "title": "The names of rotation criteria mean the same in every place", "statement": "A criterion name stands for the same criterion in GeneralizedCrawfordFerguson, in get_gamma_cf with vgq_cf, and, for orthogonal rotations up to a constant, in get_gamma_ob with vgq_ob.", "quantifier": "all names, sizes and loadings", "why_tests_cant": "equality of functions of all rotations up to a constant; a test compares single fits", "anchors": ["pystatsm/pyfa/rotation.py: get_gcf_constants", "pystatsm/pyfa/rotation.py: get_gamma_cf", "pystatsm/pyfa/rotation.py: get_gamma_ob", "pystatsm/pyfa/rotation.py: vgq_cf", "pystatsm/pyfa/rotation.py: vgq_ob"]}
{"id": "C184", "title": "Derivatives of the rotation constraints in pyfa/rotation.py", "statement": "dC_dL_Ortho, dC_dL_Obl, dC_dP_Obl, oblique_constraint_derivs and unrotated_constraints hold the derivatives of the constraints that identify the rotation, and dL_dA_Ortho is the derivative of the rotated loadings in the unrotated ones.", "quantifier": "all loadings, correlations and differentiable curves", "why_tests_cant": "the constraints are used through their Jacobian in standard errors; wrong entries change numbers without any error", "anchors": ["pystatsm/pyfa/rotation.py: dC_dL_Ortho", "pystatsm/pyfa/rotation.py: dL_dA_Ortho", "pystatsm/pyfa/rotation.py: dC_dL_Obl", "pystatsm/pyfa/rotation.py: dC_dP_Obl", "pystatsm/pyfa/rotation.py: oblique_constraint_derivs", "pystatsm/pyfa/rotation.py: unrotated_constraints"]}
{"id": "C185", "title": "Gradient projection in pyfa/rotation.py", "statement": "Both loops stay on their manifold (orthogonal matrices, columns of length one), keep the value and gradients at the current matrix, stop early only when the projected gradient is below tol, never increase the criterion, and rotate returns loadings that reproduce the common covariance.", "quantifier": "all loadings, starts, step sizes, iteration counts and valid decompositions", "why_tests_cant": "an invariant of every iteration; a test sees final numbers for a few inputs", "anchors": ["pystatsm/pyfa/rotation.py: _rotate_ortho", "pystatsm/pyfa/rotation.py: _rotate_obli", "pystatsm/pyfa/rotation.py: rotate_ortho", "pystatsm/pyfa/rotation.py: rotate_obli", "pystatsm/pyfa/rotation.py: rotate"]}
{"id": "C186", "title": "Derivatives of the full likelihoods in pyfa/efa.py and pyfa/factor_analysis.py", "statement": "dsigma_params and d2sigma_params are the first two derivatives of vech(Sigma), gradient_params and hessian_params those of loglike_params; dsigma, gradient, hessian and hessian_augmented of FactorAnalysis are the corresponding derivatives in loadings and unique variances, on every call.", "quantifier": "all parameters, symmetric S, differentiable curves, and all numbers of previous calls", "why_tests_cant": "matrix calculus over all curves, and a property of the state left between calls; a test that calls twice compares the second call only", "anchors": ["pystatsm/pyfa/efa.py: dsigma_params/d2sigma_params", "pystatsm/pyfa/efa.py: gradient_params/hessian_params", "pystatsm/pyfa/factor_analysis.py: dsigma/gradient/hessian", "pystatsm/pyfa/factor_analysis.py: hessian_augmented"]}
{"id": "C187", "title": "The concentrated likelihood of pyfa/efa.py and pyfa/factor_analysis.py", "statement": "loglike is the full discrepancy at the loadings of loadings_from_psi up to a constant; gradient and hessian, gradient_exp and hessian_exp, and their canonical versions in FactorAnalysis are its derivatives, whatever valid eigenvectors are returned.", "quantifier": "all symmetric S, positive unique variances, differentiable paths and valid decompositions", "why_tests_cant": "perturbation of eigenvectors along all paths; eigenvectors are chosen by the library", "anchors": ["pystatsm/pyfa/efa.py: loglike/gradient/hessian", "pystatsm/pyfa/efa.py: loglike_exp/gradient_exp/hessian_exp", "pystatsm/pyfa/factor_analysis.py: gradient_canonical/hessian_canonical"]}
{"id": "C188", "title": "Constraints and standard errors in pyfa/efa.py and pyfa/factor_analysis.py", "statement": "constraint_derivs is the Jacobian of the constraints that identify the solution, for no, orthogonal and oblique rotation; the leading block of the inverse of the bordered Hessian is the constrained covariance; FactorAnalysis borders the Hessian with the Jacobian in the same parameters.", "quantifier": "all loadings, correlations, unique variances, rotation constants and differentiable curves", "why_tests_cant": "standard errors from a wrong border are numbers like any others", "anchors": ["pystatsm/pyfa/efa.py: constraint_derivs", "pystatsm/pyfa/efa.py: _fit", "pystatsm/pyfa/factor_analysis.py: _unrotated_constraint_derivs", "pystatsm/pyfa/factor_analysis.py: constraint_jac"]}
{"id": "C189", "title": "Factor scores in pyfa/efa.py and pyfa/factor_analysis.py", "statement": "thurstone gives the regression coefficients with least mean squared error, bartlett the unbiased ones with least error variance, mcdonald and tenBerge coefficients whose scores have the correlations of the factors; compute_factors gives the same for the matrix that was analysed.", "quantifier": "all S, loadings, correlations, unique variances, data and valid decompositions", "why_tests_cant": "optimality over all competing coefficients", "anchors": ["pystatsm/pyfa/efa.py: estimate_factors", "pystatsm/pyfa/factor_analysis.py: compute_factors", "pystatsm/utilities/linalg_operations.py: inv_sqrt/mat_sqrt"]}
{"id": "C190", "title": "Fit measures of the older factor analysis modules", "statement": "The degrees of freedom are those of the factor model whatever the rotation, the discrepancy is nonnegative and zero only for a perfect fit, and the indices (NFI, TLI, IFI, RNI, CFI, RMSEA, SRMR, GFI, AGFI, sampling adequacy, p-value) are the usual ones, in their ranges.", "quantifier": "all numbers of variables and factors, positive definite matrices, statistics and sample sizes", "why_tests_cant": "ranges and equalities for all inputs; a wrong count of parameters shifts numbers plausibly", "anchors": ["pystatsm/pyfa/efa.py: fit_indices", "pystatsm/pyfa/efa.py: _make_param_indices", "pystatsm/pyfa/factor_analysis.py: _fit_indices", "pystatsm/pyfa/fit_measures.py: measure_of_sample_adequacy", "pystatsm/pyfa/fit_measures.py: srmr", "pystatsm/pyfa/fit_measures.py: lr_test", "pystatsm/pyfa/fit_measures.py: gfi/agfi"]}
{"id": "C191", "title": "Setup and presentation in pyfa/efa.py", "statement": "Every documented combination of inputs is accepted, the automatic number of factors is the least that reaches the share (or the number of eigenvalues above the bound), the starting variances are positive, ordering and signs keep the common covariance and make column sums positive, and each label names the parameter beside it.", "quantifier": "all inputs, spectra, loadings, rotations, permutations and numbers of factors", "why_tests_cant": "labels agree up to three factors and differ from four on; the signs are right for loadings already in order", "anchors": ["pystatsm/pyfa/efa.py: _process_data", "pystatsm/pyfa/efa.py: _get_n_factors", "pystatsm/pyfa/efa.py: _init_psi", "pystatsm/pyfa/efa.py: order_loadings", "pystatsm/pyfa/efa.py: fit", "pystatsm/pyfa/factor_analysis.py: _reorder_factors"]}
{"id": "C192", "title": "Distance correlation and its permutation test", "statement": "dcorr, biased and unbiased, is a correlation of doubly centred distances: rows and columns of the centred matrices sum to zero, the value is at most one in size, one for a sample with itself, symmetric, invariant under shifts, rotations and changes of scale, defined for every pair of non-constant samples (unbiased: from four observations on), the biased one is nonnegative and the unbiased one has mean zero over all permutations; the p-value of the permutation test is the share of permutations with a larger value.", "quantifier": "all samples, dimensions, orthogonal matrices, scales and lists of permutations", "why_tests_cant": "nonnegativity is the negative type of Euclidean distance, the mean runs over all permutations", "anchors": ["pystatsm/misc/independence_tests.py: _u_center_biased/_u_center_unbiased", "pystatsm/misc/independence_tests.py: euclidean_distance", "pystatsm/misc/independence_tests.py: dcorr/_dcorr", "pystatsm/misc/independence_tests.py: dcorr_permutation_test"]}
{"id": "C193", "title": "The kernel independence test dHSIC", "statement": "The Gaussian kernel matrix is positive semidefinite, and positive definite for distinct rows; the statistic is the mean product of the doubly centred kernels, nonnegative, symmetric, zero for a constant sample and positive for a non-constant sample against distinct rows; the median bandwidth is that of the median squared distance of pairs, invariant under shift, rotation and scale, and defined for non-constant data; the other bandwidths are as named; the p-value is the share of permutations with a larger value.", "quantifier": "all samples, dimensions, bandwidths and lists of permutations", "why_tests_cant": "positive definiteness for all finite sets of points; the bandwidth rule gives numbers for either count", "anchors": ["pystatsm/misc/independence_tests.py: _gauss_kernel", "pystatsm/misc/independence_tests.py: _median_bandwith", "pystatsm/misc/independence_tests.py: _dhsic", "pystatsm/misc/independence_tests.py: dhsic", "pystatsm/misc/independence_tests.py: dhsic_permutation_test/dhsic_test"]}
{"id": "C194", "title": "The Gibbs draws of the mixed model sampler", "statement": "sample_location turns independent normal draws into a draw of fixed and random effects: it is an affine map with the mean of the mixed model equations and with the inverse of their coefficient matrix as covariance, which is the conditional density of the effects, and it is defined whenever the coefficient matrix is positive definite; sample_gcov draws from the inverse Wishart posterior of each covariance matrix; sample_rcov draws from the inverse gamma posterior of the residual variance; the default prior is flat.", "quantifier": "all designs, terms, covariance parameters, responses, priors and factorisations", "why_tests_cant": "the covariance of a draw is a statement about all outcomes of the generator", "anchors": ["pystatsm/pylmm/glmm_mcmc.py: MixedMCMC.sample_location", "pystatsm/pylmm/glmm_mcmc.py: MixedMCMC.sample_gcov", "pystatsm/pylmm/glmm_mcmc.py: MixedMCMC.sample_rcov", "pystatsm/pylmm/glmm_mcmc.py: MixedMCMC.__init__ (priors)"]}
{"id": "C195", "title": "The latent variable and threshold updates of the sampler", "statement": "mh_lvar_binomial and mh_lvar_poisson accept with the Metropolis probability of the binomial (Poisson) likelihood times the normal density, so detailed balance holds; the slice sampler draws from the set where the likelihood exceeds the slice level, and keeps the old value inside; ordinal latent variables lie between the thresholds of their category; threshold proposals stay increasing with the first one fixed; thresholds are accepted by the ratio of the likelihoods of the categories, for every number of categories; the proposal scale grows exactly when the damped acceptance rate is above the target.", "quantifier": "all responses, predictions, variances, thresholds, scales and draws", "why_tests_cant": "detailed balance is an identity of densities; the sampler converges to a wrong law without raising anything", "anchors": ["pystatsm/pylmm/glmm_mcmc.py: MixedMCMC.mh_lvar_binomial/mh_lvar_poisson", "pystatsm/pylmm/glmm_mcmc.py: MixedMCMC.slice_sample_lvar", "pystatsm/pylmm/glmm_mcmc.py: MixedMCMC.mh_lvar_ordinal_probit", "pystatsm/pylmm/glmm_mcmc.py: MixedMCMC.sample_tau", "pystatsm/pylmm/glmm_mcmc.py: MixedMCMC.sample_binomial/sample_ordinal_probit"]}
{"id": "C196", "title": "The reported results of the sampler", "statement": "For binary responses effects are divided by the factor that makes the logistic model with unit residual variance marginal, sqrt(1 + c^2), and variances by its square; the p-value is two sided; each row of the table is labelled by the parameter whose samples it summarises; aggregate_samples works whether or not random effects were saved.", "quantifier": "all samples, counts of effects, terms, thresholds and flags", "why_tests_cant": "the factor comes from an integral over the residual, the labels from loops over terms", "anchors": ["pystatsm/pylmm/glmm_mcmc.py: MixedMCMC.sample (590-607)", "pystatsm/pylmm/glmm_mcmc.py: MixedMCMC.__init__ (232-251)", "pystatsm/pylmm/glmm_mcmc.py: MixedMCMC.aggregate_samples"]}
{"id": "C197", "title": "Conditional modes and the Laplace objective of the generalised mixed model", "statement": "pirls takes Newton steps on the penalised log likelihood of the random effects; a value it keeps is the unique conditional mode; the loop returns a value whose step is below the tolerance or the hundredth iterate; for normal responses the first step is the mode; the objective of GLMM_LAP is minus the log of the marginal likelihood of the quadratic expansion at the mode, exact for normal responses; this holds for every family offered with its default link.", "quantifier": "all designs, responses, coefficients, covariance matrices and start values", "why_tests_cant": "uniqueness needs concavity of the penalised likelihood; the objective is an integral", "anchors": ["pystatsm/pylmm/glmm.py: GLMM_AGQ.pirls/GLMM_LAP.pirls", "pystatsm/pylmm/glmm.py: GLMM_LAP.loglike", "pystatsm/pyglm/families.py: Gaussian/Poisson/Binomial/Gamma"]}
{"id": "C198", "title": "The adaptive quadrature of the generalised mixed model", "statement": "GLMM_AGQ.loglike approximates minus the log marginal likelihood by the rule of Gauss and Hermite after the change of variables to mode and curvature: the sum is a rule for the integral of the integrand, exact for polynomials of degree below twice the number of nodes times the quadratic expansion, up to a constant factor; it works for several random effects per group.", "quantifier": "all families, designs, rules, integrands and numbers of effects per group", "why_tests_cant": "exactness is a statement about integrals of all polynomials", "anchors": ["pystatsm/pylmm/glmm.py: gh_rules", "pystatsm/pylmm/glmm.py: GLMM_AGQ._dloglike", "pystatsm/pylmm/glmm.py: GLMM_AGQ.loglike"]}
{"id": "C199", "title": "The numerical Hessian and standard errors of the generalised mixed model", "statement": "approx_hess returns the Hessian of the objective, exactly for quadratic objectives and on the diagonal for polynomials of degree five along the axes, and the standard errors are the roots of the diagonal of its inverse; fit gives standard errors for every family.", "quantifier": "all objectives, points, step lengths and families", "why_tests_cant": "a dropped cross term changes every standard error without an error being raised", "anchors": ["pystatsm/pylmm/glmm.py: approx_hess", "pystatsm/pylmm/glmm.py: GLMM_AGQ.fit/GLMM_LAP.fit", "pystatsm/pylmm/model_matrices.py: make_theta"]}
{"id": "C200", "title": "Likelihood, gradient and effects of the multivariate mixed model", "statement": "loglike of MLMM is minus twice the restricted or profiled log likelihood of the marginal model in which every response has its own residual variance; gradient is its derivative with respect to every covariance parameter; fit minimises the likelihood it was asked for with the gradient of it; _compute_effects gives the generalised least squares estimate, its covariance and the best linear unbiased predictor.", "quantifier": "all designs, responses, numbers of responses, positive definite covariances and positive residual variances", "why_tests_cant": "equality of a determinant formula with a likelihood for every design and a derivative along every path", "anchors": ["pystatsm/pylmm/mlmm.py: MLMM.loglike", "pystatsm/pylmm/mlmm.py: MLMM.loglike_c", "pystatsm/pylmm/mlmm.py: MLMM.gradient", "pystatsm/pylmm/mlmm.py: MLMM._compute_effects", "pystatsm/pylmm/mlmm.py: MLMM.update_mme/update_rmat"]}
{"id": "C201", "title": "Layout and labels of the multivariate mixed model", "statement": "The stacked design and response give every row the linear predictor of its own response; every residual variance belongs to the rows of its response; every printed estimate has the name of the response and variable it belongs to; the information criteria use the constant and the counts of the likelihood that was maximised; theta holds the parameters before and after a fit; p values are two sided.", "quantifier": "all numbers of observations, responses, columns and variables", "why_tests_cant": "an interchange of response and variable is invisible when one of the two numbers is one", "anchors": ["pystatsm/pylmm/mlmm.py: MLMM.__init__", "pystatsm/pylmm/mlmm.py: MLMM.fit", "pystatsm/pylmm/mlmm.py: MLMM._post_fit", "pystatsm/pylmm/mlmm.py: transform_theta"]}
{"id": "C202", "title": "Design and covariance of the random effects of the mixed models", "statement": "The design of the random effects gives every row the effects of its own level (and response), stored as consecutive blocks; the covariance assembled from triples and the one updated in place are block diagonal with the covariance of the variables for every level; the dictionary of dimensions has an entry for every term, so that the covariance has as many rows as the design has columns.", "quantifier": "all formulas, grouping factors, levels, numbers of variables and responses", "why_tests_cant": "index arithmetic for all sizes; two terms sharing a grouping factor are a rare input", "anchors": ["pystatsm/pylmm/model_matrices.py: construct_random_effects", "pystatsm/pylmm/model_matrices.py: make_gcov", "pystatsm/pylmm/mlmm.py: construct_random_effects", "pystatsm/pylmm/mlmm.py: make_gcov", "pystatsm/pylmm/mlmm.py: MLMM.update_gmat", "pystatsm/pylmm/lmm.py: LMM.update_gmat"]}
{"id": "C203", "title": "Default parameters of a structural equation model", "statement": "add_default_params keeps the rows of the formula and completes them: every variable gets exactly one variance and one mean unless the formula has one, exactly the pairs of variables of one class get a covariance, the first loading of every latent variable is fixed at one unless the formula fixes one, every observed variable in the structural part gets a loading of one on itself; every option does what it documents; every fixed row has a number when the parameter templates are made.", "quantifier": "all formulas, options and orders in which sets are enumerated", "why_tests_cant": "a table with one row too many or too few fits a different model without complaint; options combine with every kind of variable", "anchors": ["pystatsm/pysem2/model_builder.py: ModelBuilder.add_default_params", "pystatsm/pysem2/model_builder.py: ModelBuilder.check_missing_variances", "pystatsm/pysem2/model_builder.py: ModelBuilder.check_missing_covs", "pystatsm/pysem2/model_builder.py: ModelBuilder.check_missing_means", "pystatsm/pysem2/model_builder.py: ModelBuilder.check_latent_dummies", "pystatsm/pysem2/model_builder.py: ModelBuilder.fix_first", "pystatsm/pysem2/model_base.py: FixedValueManager"]}
{"id": "C204", "title": "Every parameter reaches its cell", "statement": "The vector of free parameters is in the order of the free rows of the sorted table; the model matrices built from it hold every free parameter at the row and column of its own row of the table, every fixed value at the cell of its row and the default everywhere else; covariance matrices are symmetric whichever triangle the table names; a vector of the wrong length raises.", "quantifier": "all tables of all sizes in any order, all values of the parameters", "why_tests_cant": "an exchange of two positions in the flat vector fits the model with two parameters swapped; only an argument for all tables excludes it", "anchors": ["pystatsm/pysem2/model_base.py: ParameterMapping._make_indexer", "pystatsm/pysem2/model_base.py: ParameterMapping._make_parameter_templates", "pystatsm/pysem2/variable_ordering.py: VariableOrder._sort_table", "pystatsm/pysem2/model_specification.py: group_free_to_par", "pystatsm/pysem2/model_specification.py: par_to_model_mats"]}
{"id": "C205", "title": "Derivatives of the older structural equation model", "statement": "For loadings, regressions and the two covariances filled from the free parameters, dsigma is the derivative of the half vectorisation of the implied covariance, gradient is the derivative of loglike and hessian the derivative of gradient, also with cross terms between regressions and the other matrices; the work array used by the Hessian is the same after a call as before it; the covariance of the estimates is the inverse of half the number of observations times the Hessian.", "quantifier": "all sizes, all patterns of free parameters, all parameter values where the two matrices are invertible", "why_tests_cant": "eight blocks of second derivatives with commutation and duplication matrices; a transposed factor shows only for particular sizes", "anchors": ["pystatsm/pysem/sem.py: SEM.model_matrices", "pystatsm/pysem/sem.py: SEM.implied_cov", "pystatsm/pysem/sem.py: SEM._dsigma", "pystatsm/pysem/sem.py: SEM.dsigma", "pystatsm/pysem/sem.py: SEM._gradient", "pystatsm/pysem/sem.py: SEM.gradient", "pystatsm/pysem/sem.py: SEM._hessian", "pystatsm/pysem/sem.py: SEM.hessian", "pystatsm/pysem/sem.py: SEM.loglike"]}
{"id": "C206", "title": "Setup of the older structural equation model", "statement": "The vector of free parameters starts at the given values and goes back to the cells it was read from; the label at every position names the parameter at that position; by default the first variable that loads on a latent variable with a variance is fixed, with indicator_vars the marked ones; every matrix is matched to the variables by name; data or a covariance suffices.", "quantifier": "all sizes, matrices, orders of the variables and indicators", "why_tests_cant": "a label at the wrong position reports one estimate under the name of another; no numerical check of the fit notices", "anchors": ["pystatsm/pysem/sem.py: SEM.__init__", "pystatsm/pysem/sem.py: SEM.model_matrices"]}
{"id": "C207", "title": "Fit measures of the older structural equation model", "statement": "The reported log likelihood is that of the normal distribution and the information criteria are taken from it; the test statistic is nonnegative and zero only for a perfect fit, its p-value belongs to the degrees of freedom of the model; the critical sample sizes are those at which the statistic reaches the quantile of the named level; GFI, AGFI, RMSEA, RMR, SRMR, NFI, CFI and the relative indices are the usual ones.", "quantifier": "all covariance matrices, sample sizes and degrees of freedom", "why_tests_cant": "the measures are compared with conventional bounds; a wrong scale or level is not seen in one example", "anchors": ["pystatsm/pysem/sem.py: SEM._goodness_of_fit", "pystatsm/pysem/sem.py: SEM.fit"]}
{"id": "C208", "title": "Canonical functions of the older families", "statement": "For every family the mean function undoes the canonical parameter, the derivative of the canonical parameter is one over the variance function and d2canonical its second derivative, the derivative of the cumulant at the canonical parameter is the mean and that of the mean function the variance.", "quantifier": "all means in the mean space and all dispersions", "why_tests_cant": "the functions are only used together; a wrong sign or factor in one changes weights and not the estimates that a test looks at", "anchors": ["pystatsm/pyglm/families.py: Gaussian.canonical_parameter", "pystatsm/pyglm/families.py: InverseGaussian.canonical_parameter", "pystatsm/pyglm/families.py: Gamma.canonical_parameter", "pystatsm/pyglm/families.py: NegativeBinomial.canonical_parameter", "pystatsm/pyglm/families.py: Poisson.canonical_parameter", "pystatsm/pyglm/families.py: Binomial.canonical_parameter", "pystatsm/pyglm/families.py: Gaussian.d2canonical", "pystatsm/pyglm/families.py: InverseGaussian.d2canonical", "pystatsm/pyglm/families.py: Gamma.d2canonical", "pystatsm/pyglm/families.py: NegativeBinomial.d2canonical", "pystatsm/pyglm/families.py: Poisson.d2canonical", "pystatsm/pyglm/families.py: Binomial.d2canonical", "pystatsm/pylmm/families.py: Gaussian.canonical_parameter", "pystatsm/pylmm/families.py: InverseGaussian.canonical_parameter", "pystatsm/pylmm/families.py: Gamma.canonical_parameter", "pystatsm/pylmm/families.py: NegativeBinomial.canonical_parameter", "pystatsm/pylmm/families.py: Poisson.canonical_parameter", "pystatsm/pylmm/families.py: Binomial.canonical_parameter", "pystatsm/pylmm/families.py: Gaussian.d2canonical", "pystatsm/pylmm/families.py: InverseGaussian.d2canonical", "pystatsm/pylmm/families.py: Gamma.d2canonical", "pystatsm/pylmm/families.py: NegativeBinomial.d2canonical", "pystatsm/pylmm/families.py: Poisson.d2canonical", "pystatsm/pylmm/families.py: Binomial.d2canonical", "pystatsm/pylmm/families.py: Gaussian.cumulant", "pystatsm/pylmm/families.py: InverseGaussian.cumulant", "pystatsm/pylmm/families.py: Gamma.cumulant", "pystatsm/pylmm/families.py: NegativeBinomial.cumulant", "pystatsm/pylmm/families.py: Poisson.cumulant", "pystatsm/pylmm/families.py: Binomial.cumulant", "pystatsm/pylmm/families.py: Gaussian.mean_func", "pystatsm/pylmm/families.py: InverseGaussian.mean_func", "pystatsm/pylmm/families.py: Gamma.mean_func", "pystatsm/pylmm/families.py: NegativeBinomial.mean_func", "pystatsm/pylmm/families.py: Poisson.mean_func", "pystatsm/pylmm/families.py: Binomial.mean_func"]}
{"id": "C209", "title": "Likelihoods, weights and residuals of the families of the mixed models", "statement": "_loglike is minus the log-likelihood up to terms without parameters and _full_loglike minus the log density; gw is the derivative of _loglike in the linear predictor and hw that of gw; dtau and d2tau are the derivatives in the log scale; Pearson residuals are divided by the standard deviation at the mean; dlink and d2link are the derivatives of the link.", "quantifier": "all families, all links whose inverse has the stated derivatives, all responses, means, weights and scales", "why_tests_cant": "weights that are half or twice the derivative still lead an optimiser downhill; only the standard errors are wrong", "anchors": ["pystatsm/pylmm/families.py: Gaussian._loglike", "pystatsm/pylmm/families.py: InverseGaussian._loglike", "pystatsm/pylmm/families.py: Gamma._loglike", "pystatsm/pylmm/families.py: NegativeBinomial._loglike", "pystatsm/pylmm/families.py: Poisson._loglike", "pystatsm/pylmm/families.py: Binomial._loglike", "pystatsm/pylmm/families.py: Gaussian._full_loglike", "pystatsm/pylmm/families.py: InverseGaussian._full_loglike", "pystatsm/pylmm/families.py: Gamma._full_loglike", "pystatsm/pylmm/families.py: NegativeBinomial._full_loglike", "pystatsm/pylmm/families.py: Poisson._full_loglike", "pystatsm/pylmm/families.py: Binomial._full_loglike", "pystatsm/pylmm/families.py: Gaussian.deviance", "pystatsm/pylmm/families.py: InverseGaussian.deviance", "pystatsm/pylmm/families.py: Gamma.deviance", "pystatsm/pylmm/families.py: NegativeBinomial.deviance", "pystatsm/pylmm/families.py: Poisson.deviance", "pystatsm/pylmm/families.py: Binomial.deviance", "pystatsm/pylmm/families.py: Gaussian.dtau", "pystatsm/pylmm/families.py: InverseGaussian.dtau", "pystatsm/pylmm/families.py: Gamma.dtau", "pystatsm/pylmm/families.py: NegativeBinomial.dtau", "pystatsm/pylmm/families.py: Gaussian.d2tau", "pystatsm/pylmm/families.py: Gamma.d2tau", "pystatsm/pylmm/families.py: NegativeBinomial.d2tau", "pystatsm/pylmm/families.py: ExponentialFamily.gw", "pystatsm/pylmm/families.py: ExponentialFamily.hw", "pystatsm/pylmm/families.py: ExponentialFamily.pearson_resid", "pystatsm/pylmm/families.py: ExponentialFamily.signed_resid", "pystatsm/pylmm/families.py: ExponentialFamily.dlink", "pystatsm/pylmm/families.py: ExponentialFamily.d2link"]}
{"id": "C210", "title": "Links of the older generalised linear and mixed models", "statement": "In both modules link and inverse link undo each other, dinv_link and d2inv_link are the derivatives of the inverse in the linear predictor, and dlink to d4link those of the link in the mean.", "quantifier": "all links, all means and linear predictors in their domains, all exponents", "why_tests_cant": "dlink goes through the inverse in these modules; derivatives in a wrong variable agree with no finite difference but are never compared", "anchors": ["pystatsm/pyglm/links.py: IdentityLink.dinv_link", "pystatsm/pyglm/links.py: ProbitLink.dlink", "pystatsm/pyglm/links.py: ProbitLink.d4link", "pystatsm/pyglm/links.py: LogLink.dlink", "pystatsm/pyglm/links.py: ReciprocalLink.dlink", "pystatsm/pyglm/links.py: CloglogLink.dlink", "pystatsm/pylmm/links.py: PowerLink.dinv_link", "pystatsm/pylmm/links.py: PowerLink.d2inv_link", "pystatsm/pylmm/links.py: PowerLink.dlink", "pystatsm/pylmm/links.py: LogitLink.d2inv_link", "pystatsm/pylmm/links.py: NegativeBinomialLink.d2inv_link"]}
{"id": "C211", "title": "Random numbers and quantiles of the families", "statement": "rvs and ppf of every family name the distribution whose density is the exponential of the full log-likelihood at the same mean, scale and dispersion.", "quantifier": "all families, means, scales and dispersions", "why_tests_cant": "scipy and numpy name shape, scale and rate differently; a wrong parameterisation keeps the mean and is seen only in the spread", "anchors": ["pystatsm/pyglm2/families.py: Gaussian.rvs", "pystatsm/pyglm2/families.py: InverseGaussian.rvs", "pystatsm/pyglm2/families.py: Gamma.rvs", "pystatsm/pyglm2/families.py: NegativeBinomial.rvs", "pystatsm/pyglm2/families.py: Poisson.rvs", "pystatsm/pyglm2/families.py: Binomial.rvs", "pystatsm/pyglm2/families.py: Gaussian.ppf", "pystatsm/pyglm2/families.py: InverseGaussian.ppf", "pystatsm/pyglm2/families.py: Gamma.ppf", "pystatsm/pyglm2/families.py: NegativeBinomial.ppf", "pystatsm/pyglm2/families.py: Poisson.ppf", "pystatsm/pyglm2/families.py: Binomial.ppf", "pystatsm/pyglm/families.py: Gaussian.rvs", "pystatsm/pyglm/families.py: InverseGaussian.rvs", "pystatsm/pyglm/families.py: Gamma.rvs", "pystatsm/pyglm/families.py: NegativeBinomial.rvs", "pystatsm/pyglm/families.py: Poisson.rvs", "pystatsm/pyglm/families.py: Binomial.rvs", "pystatsm/pyglm/families.py: Gaussian.ppf", "pystatsm/pyglm/families.py: InverseGaussian.ppf", "pystatsm/pyglm/families.py: Gamma.ppf", "pystatsm/pyglm/families.py: NegativeBinomial.ppf", "pystatsm/pyglm/families.py: Poisson.ppf", "pystatsm/pyglm/families.py: Binomial.ppf"]}
{"id": "C212", "title": "Confidence and prediction intervals of predict", "statement": "The variance of the linear predictor is the quadratic form of the coefficient covariance, the interval on its scale has the asked coverage under the normal approximation, the interval of the mean contains the mean in order, and the prediction interval uses quantiles of the fitted distribution.", "quantifier": "all designs, covariances, levels, links and families", "why_tests_cant": "coverage is a statement about a distribution and not about one output", "anchors": ["pystatsm/pyglm2/glm.py: GLM._predict", "pystatsm/pyglm/linear_model.py: GLM._predict", "pystatsm/utilities/func_utils.py: symmetric_conf_int", "pystatsm/utilities/linalg_operations.py: wdiag_outer_prod"]}
{"id": "C213", "title": "Robust covariance, bootstrap and null model of GLM", "statement": "The rows squared in the robust covariance sum to the gradient at the estimate and the result is positive semidefinite; a bootstrap sample that draws every row once gives the estimate; the null log-likelihood is the best among models with a constant mean.", "quantifier": "all families, links, weights and draws", "why_tests_cant": "weights enter through two objects; tests with unit weights cannot tell them apart", "anchors": ["pystatsm/pyglm2/glm.py: GLM.get_robust_res", "pystatsm/pyglm2/glm.py: GLM._bootstrap", "pystatsm/pyglm2/glm.py: GLM.fit", "pystatsm/pyglm/linear_model.py: GLM.get_robust_res", "pystatsm/pyglm/linear_model.py: GLM._bootstrap", "pystatsm/pyglm/linear_model.py: GLM.fit"]}
{"id": "C214", "title": "The other two gradients of the SEM likelihood", "statement": "The gradient that reuses one work array per matrix and the gradient from three precomputed matrices both equal the gradient of the fit function in every free entry, for any order of the parameters; the group weights belong to the groups they multiply.", "quantifier": "all parameter matrices with symmetric covariances, all parameter lists, all group vectors", "why_tests_cant": "a work array left dirty by one parameter spoils the next; a gradient at one point says nothing of other orders", "anchors": ["pystatsm/pysem2/derivatives.py: _dloglike_mu_alt", "pystatsm/pysem/derivatives.py: _dloglike_mu_alt", "pystatsm/pysem/multigroup.py: SEM.gradient2", "pystatsm/pysem/multigroup.py: SEM.__init__"]}
{"id": "C215", "title": "Covariance-structure likelihood: gradient, Hessian and the list of pairs", "statement": "The gradient and Hessian of the covariance-structure discrepancy are its first and second derivatives; the loop over pairs of parameters visits the lower triangle in the order in which the stored kinds of pairs are read; the constructor accepts any number of free parameters.", "quantifier": "all symmetric sample covariances, all smooth structures with invertible covariance, all numbers of parameters", "why_tests_cant": "a running counter and a stored table must agree for every size; Hessian symmetry depends on block order", "anchors": ["pystatsm/pysem/fitfunctions.py: LikelihoodObjective._function", "pystatsm/pysem/fitfunctions.py: LikelihoodObjective._gradient", "pystatsm/pysem/fitfunctions.py: LikelihoodObjective._hessian", "pystatsm/pysem/fitfunctions.py: LikelihoodObjective._gradient_direct", "pystatsm/pysem/cov_derivatives.py: _dsigma", "pystatsm/pysem/cov_derivatives.py: _d2sigma", "pystatsm/pysem/cov_derivatives.py: _dloglike", "pystatsm/pysem/cov_derivatives.py: _d2loglike", "pystatsm/pysem/cov_model.py: CovarianceStructure.make_free_params"]}
{"id": "C216", "title": "Convolutive factorisation: reconstruction, scaling and shifts", "statement": "reconstruct is the convolution of factors and time courses cut at the ends of the series; moving the row norms leaves it unchanged; the shift functions move entries by the given number of places and fill with the constant; the 'same' part of a convolution is the centred one.", "quantifier": "all sizes, lags, factors and time courses", "why_tests_cant": "a roll of the flattened array mixes rows unless the padding is long enough for every lag", "anchors": ["pystatsm/pynmf/hfuncs.py: reconstruct", "pystatsm/pynmf/hfuncs.py: shift1d", "pystatsm/pynmf/hfuncs.py: shift", "pystatsm/pynmf/hfuncs.py: conv2", "pystatsm/pynmf/hfuncs.py: seqnmf_objfunc", "pystatsm/pynmf/hfuncs.py: NMFSeq._fit"]}
{"id": "C217", "title": "Convolutive factorisation: multiplicative updates", "statement": "Numerator and denominator of the updates are the positive and negative parts of the gradient of the squared error plus penalty; the updates keep the factors non-negative; the recorded trace starts with the error at the start and the recorded penalty is the penalised sum.", "quantifier": "all sizes, data, factors, time courses and penalties", "why_tests_cant": "wrapping at the ends of the series is invisible for series with empty margins", "anchors": ["pystatsm/pynmf/hfuncs.py: NMFSeq._fit", "pystatsm/pynmf/hfuncs.py: NMFSeq._get_penaltyH", "pystatsm/pynmf/hfuncs.py: NMFSeq._get_penaltyW", "pystatsm/pynmf/hfuncs.py: seqnmf_objfunc", "pystatsm/pynmf/hfuncs.py: center_factors", "pystatsm/pynmf/hfuncs.py: _initparams"]}
{"id": "C218", "title": "Alignment of factor loadings to a target", "statement": "Aligning a fitted factor model with a target only permutes factors and changes signs: the covariance it implies is unchanged, a signed permutation of the target is undone, and standard errors stay with their entries.", "quantifier": "all loadings, targets and factor covariances", "why_tests_cant": "a permutation found column by column may repeat a column, which happens only for particular loadings", "anchors": ["pystatsm/pyfa/align_loadings.py: get_loadings_permutation", "pystatsm/pyfa/align_loadings.py: align_model_matrices"]}
{"id": "C219", "title": "Simulated factor models", "statement": "Simulated loadings have simple structure with every factor measured; factor correlations are positive definite for every admissible correlation; the model covariance is positive definite and exact samples reproduce it.", "quantifier": "all numbers of variables and factors, all correlations, limits and unique variances", "why_tests_cant": "positive definiteness for every size and correlation cannot be sampled", "anchors": ["pystatsm/pyfa2/simulation.py: FactorModel", "pystatsm/pyfa2/simulation.py: generate_loadings", "pystatsm/pyfa2/simulation.py: generate_factor_corr", "pystatsm/pyfa/simulate_factor_model.py: FactorModelSim._generate_loadings", "pystatsm/pyfa/simulate_factor_model.py: FactorModelSim._generate_factor_corr", "pystatsm/pyfa/simulate_factor_model.py: FactorModelSim.simulate_cov", "pystatsm/pyfa/simulate_factor_model.py: FactorModelSim.simulate_data", "pystatsm/pyfa2/sim_factor_model.py: run"]}
{"id": "C220", "title": "Populations for survey simulations", "statement": "Sampling units are nested in strata and have the asked size; the coefficients a population reports as true are those of the marginal mean; the GLM adapter with a Gaussian family gives the sandwich covariance of the least squares adapter.", "quantifier": "all population sizes, coefficients, cluster variances and designs", "why_tests_cant": "the marginal mean is an integral over the cluster effects; agreement of two covariance estimators must hold for every scale", "anchors": ["pystatsm/utilities/complexdesign/population.py: _ClusteredPopulation", "pystatsm/utilities/complexdesign/population.py: LinearPopulation.draw", "pystatsm/utilities/complexdesign/population.py: BinomialPopulation.draw", "pystatsm/utilities/complexdesign/replication.py: GLMAdapter.fit"]}
{"id": "C221", "title": "Simulators of linear models", "statement": "The residual scale gives the asked R squared; rescaled coefficients give the asked variance of the linear predictor; coefficients of a factor sum to zero; exactly the asked number of coefficients is non-zero, with alternating signs; the correlation, generator and levels asked for are used; binomial responses follow the stated coefficients.", "quantifier": "all designs, coefficients, variances and sizes", "why_tests_cant": "the identities hold for all real inputs; silent disregard of an argument is not an error", "anchors": ["pystatsm/pyglm2/model_sim.py: LinearModelSim._get_var", "pystatsm/pyglm2/model_sim.py: LinearModelSim._make_coef_cat", "pystatsm/pyglm2/model_sim.py: LinearModelSim.make_coefs", "pystatsm/pyglm2/model_sim.py: LinearModelSim.rescale_coefs", "pystatsm/pyglm2/model_sim.py: LinearModelSim.__init__", "pystatsm/pyglm/glm_sim.py: LinearModelSim._get_var", "pystatsm/pyglm/glm_sim.py: LinearModelSim.rescale_coefs", "pystatsm/pyglm/glm_sim.py: LinearModelSim.__init__", "pystatsm/pyglmnet/sparse_model_sim.py: SparseRegressionModel", "pystatsm/pyglmnet/sparse_model_sim.py: SparseRegressionModel.simulate_dependent", "pystatsm/pyrobust/robust_model_sim.py: RobustRegressionModel.__init__", "pystatsm/pyglm2/sim_mvols.py: _scale_to_target_r2", "pystatsm/pyglm2/sim_mvols.py: _toeplitz_corr"]}
{"id": "C222", "title": "Simulated canonical correlation models", "statement": "The joint correlation matrix built from within-set correlations and canonical correlations has exactly these canonical correlations and is positive semidefinite; the coefficients stored whiten each set; the same holds when coefficients are given.", "quantifier": "all sizes with at least as many y as x variables, all positive definite within-set matrices, all correlations in [-1,1]", "why_tests_cant": "positive semidefiniteness for all matrices and correlations cannot be sampled", "anchors": ["pystatsm/pyscca/cca_sim.py: normalize_wrt_corr", "pystatsm/pyscca/cca_sim.py: SimCCA._set_corrmats_from_rho", "pystatsm/pyscca/cca_sim.py: SimCCA._set_corrmats_from_coefs"]}
{"id": "C223", "title": "Second binomial elastic net: coordinate descent and step halving", "statement": "The inner loop keeps the working residuals exact and never increases the working objective; it visits variables until none violates its subgradient condition; the objective is the penalised weighted likelihood and convex, halving divides any increase by two, so that recorded values do not rise; fixed points are global minima, with weights too.", "quantifier": "all designs, responses, weights, penalties and numbers of iterations", "why_tests_cant": "optimality for all data is a statement about every competitor; dropping a variable shows only for correlated columns", "anchors": ["pystatsm/pyglmnet/binom_eln2.py: _welnet_cd", "pystatsm/pyglmnet/binom_eln2.py: _binom_elnet_cd", "pystatsm/pyglmnet/binom_eln2.py: objective_function", "pystatsm/pyglmnet/binom_eln2.py: binomial_deviance", "pystatsm/pyglmnet/binom_eln2.py: penalty_func", "pystatsm/pyglmnet/binom_eln2.py: get_eta_mu"]}
{"id": "C224", "title": "Second binomial elastic net: path, grid and cross-validation", "statement": "Row i of the path is the solution for the i-th penalty; the largest penalty of the grid excludes every variable; the observation weights given are used; validation uses the predictor of the fitted model.", "quantifier": "all fits, grids, designs and responses", "why_tests_cant": "whether an argument is a view or a copy does not show in the shape of the result", "anchors": ["pystatsm/pyglmnet/binom_eln2.py: binom_elnet_path", "pystatsm/pyglmnet/binom_eln2.py: get_lambdas", "pystatsm/pyglmnet/binom_eln2.py: get_intercept", "pystatsm/pyglmnet/binom_eln2.py: cv_dev", "pystatsm/pyglmnet/binom_eln2.py: binom_glmnet_cv"]}
{"id": "C225", "title": "Elastic net GLM: coordinate descent and screening", "statement": "A coordinate step minimises the working objective in its coordinate and a cycle never increases it; variables are dropped only when their coefficient in the solution is zero; the screening rule leaves out only variables that the penalty excludes.", "quantifier": "all designs, weights, penalties and mixing parameters", "why_tests_cant": "a screening rule is wrong only for some mixing parameters and penalties", "anchors": ["pystatsm/pyglmnet/glmen2.py: _coordinate_descent_cycle", "pystatsm/pyglmnet/glmen2.py: weighted_elnet", "pystatsm/pyglmnet/glmen2.py: ElasticNetGLM._glm_elnet"]}
{"id": "C226", "title": "Elastic net GLM: derivatives, starts and path", "statement": "obj_grad and obj_hess are the first and second derivatives of obj_func, and dev_grad and dev_hess those of the deviance; the path starts at the mean of its data; each row of the path belongs to its penalty and starts from the row before; folds are fitted with the same penalty.", "quantifier": "all canonical families, designs, weights, coefficients and penalties", "why_tests_cant": "derivative identities hold at every point; a lagging warm start changes only the number of iterations", "anchors": ["pystatsm/pyglmnet/glmen2.py: ElasticNetGLM.obj_func", "pystatsm/pyglmnet/glmen2.py: ElasticNetGLM.obj_grad", "pystatsm/pyglmnet/glmen2.py: ElasticNetGLM.dev_grad", "pystatsm/pyglmnet/glmen2.py: ElasticNetGLM.dev_hess", "pystatsm/pyglmnet/glmen2.py: ElasticNetGLM.obj_hess", "pystatsm/pyglmnet/glmen2.py: ElasticNetGLM.get_intercept", "pystatsm/pyglmnet/glmen2.py: ElasticNetGLM._glm_elnet_path", "pystatsm/pyglmnet/glmen2.py: ElasticNetGLM._glm_elnet_cv", "pystatsm/pyglmnet/glmen2.py: overflow_adjust"]}
{"id": "C227", "title": "Older cumulative link model: likelihood and thresholds", "statement": "The gradient and Hessian are the derivatives of minus the log-likelihood of the cumulative link model; the constraints passed to the optimiser are the order of the thresholds; starting thresholds are in order; a constant predictor is redundant.", "quantifier": "all responses, designs, parameters and links with correct derivatives", "why_tests_cant": "the order of the thresholds must be enforced for every number of categories, and derivatives hold at every point", "anchors": ["pystatsm/pyglm/clm.py: CLM.__init__", "pystatsm/pyglm/clm.py: CLM.loglike", "pystatsm/pyglm/clm.py: CLM.gradient", "pystatsm/pyglm/clm.py: CLM.hessian"]}
{"id": "C228", "title": "Older cumulative link model: summary and predictions", "statement": "The likelihood ratio statistic, its degrees of freedom and the pseudo R-squared are the usual functions of the two log-likelihoods, and a prediction is a category of the model at its linear predictor.", "quantifier": "all pairs of log-likelihoods, numbers of predictors, ordered thresholds and predictors", "why_tests_cant": "tests compare printed numbers and not the formula; the predicted category is a statement about all thresholds", "anchors": ["pystatsm/pyglm/clm.py: CLM._summarystats", "pystatsm/pyglm/clm.py: CLM.predict"]}
{"id": "C229", "title": "Older GLM: fitting and derivatives", "statement": "The manual fit never increases the objective and leaves the model's starting values alone; the other loops stop at points of small gradient or step; the Hessian is the derivative of the gradient for the data passed; the starting scale is the estimate.", "quantifier": "all objectives, steps, data and iteration limits", "why_tests_cant": "descent over every objective and aliasing of the starting values are not visible in one fit", "anchors": ["pystatsm/pyglm/glm.py: GLM.__init__", "pystatsm/pyglm/glm.py: GLM._handle_scale", "pystatsm/pyglm/glm.py: GLM.gradient", "pystatsm/pyglm/glm.py: GLM.hessian", "pystatsm/pyglm/glm.py: GLM._fit_manual", "pystatsm/pyglm/glm.py: GLM._fit_estimating_equations", "pystatsm/pyglm/glm.py: GLM._bootfit"]}
{"id": "C230", "title": "Older GLM: fit statistics", "statement": "Information criteria, likelihood ratio and pseudo R-squared are the usual functions of the log-likelihoods, and the squared Pearson residuals add up to the Pearson statistic.", "quantifier": "all log-likelihoods, numbers of parameters and observations, weights", "why_tests_cant": "a criterion off by the number of parameters changes only some comparisons of models", "anchors": ["pystatsm/pyglm/glm.py: GLM.fit", "pystatsm/pyglm/glm.py: GLM._est_scale"]}
{"id": "C231", "title": "Simulated mixed models: shares of the variance", "statement": "After rescaling, the fixed part, the random part and the residuals have the shares of the variance asked for; the parameters reported are those simulated from; each random effect multiplies its own column.", "quantifier": "all designs, covariance matrices, fixed parts and ratios", "why_tests_cant": "a simulation shows the shares only up to sampling error, and the order of a set differs between runs", "anchors": ["pystatsm/pylmm/sim_lmm.py: get_var_comps", "pystatsm/pylmm/sim_lmm.py: MixedModelSim.__init__", "pystatsm/pylmm/sim_lmm.py: MixedModelSim.simulate_ranefs", "pystatsm/pylmm/sim_lmm.py: MixedModelSim.simulate_response", "pystatsm/pylmm/sim_lmm.py: MixedModelSim.update_model", "pystatsm/pylmm/sim_lmm2.py: variance_components", "pystatsm/pylmm/sim_lmm2.py: rescale_to_var_ratios", "pystatsm/pylmm/sim_lmm2.py: draw_ranefs"]}
{"id": "C232", "title": "Simulated mixed models: groupings", "statement": "A grouping has the levels asked for in equal numbers; a repeated and a tiled one are crossed; a nested factor lies within its parent with the same number of levels and observations in each; otherwise an error is raised.", "quantifier": "all numbers of observations and levels and all parent memberships", "why_tests_cant": "divisibility conditions over all sizes", "anchors": ["pystatsm/pylmm/sim_lmm2.py: build_groupings", "pystatsm/pylmm/sim_lmm.py: MixedModelSim.__init__"]}
{"id": "C233", "title": "Order of the variables of a structural equation model", "statement": "Variables are put in a natural order (letters, then number), which is the same in every run.", "quantifier": "all sets of names and all orders in which a set is run through", "why_tests_cant": "the order of a set of strings is random between runs, so one run cannot show it", "anchors": ["pystatsm/pysem2/sort_key.py: _default_sort_key", "pystatsm/pysem/formula.py: _default_sort_key", "pystatsm/pysem/param_table.py: _default_sort_key", "pystatsm/pysem2/variable_ordering.py: set_obs_order"]}
{"id": "C234", "title": "Simulated structural equation models", "statement": "Data are drawn from the implied moments of the fitted class, with valid parameters in the stated intervals, group sizes in the stated range, and reproducibly for a seeded generator.", "quantifier": "all model matrices, parameter tables, ranges and generator states", "why_tests_cant": "agreement of moments is an identity over all parameters; reproducibility is over all states of a hidden generator", "anchors": ["pystatsm/pysem2/model_simulator.py: SimulatedSEM.simulate_group_sizes", "pystatsm/pysem2/model_simulator.py: SimulatedSEM.set_parameter", "pystatsm/pysem2/model_simulator.py: SimulatedSEM.set_reasonable_params", "pystatsm/pysem2/model_simulator.py: SimulatedSEM.generate_data_from_modelspec"]}
{"id": "C235", "title": "Formulas with random effects are taken apart correctly", "statement": "What to_lme4_formula writes, parse_random_effects reads back: the response, the fixed part and the random effects in their order; the variables listed are the variables used; formulas the language allows are handled.", "quantifier": "all responses, fixed parts and lists of random-effect terms", "why_tests_cant": "the claim is about all strings; tests try a few formulas", "anchors": ["pystatsm/utilities/formula.py: parse_random_effects", "pystatsm/pylmm/sim_lmm2.py: to_lme4_formula"]}
{"id": "C236", "title": "The older flattened blocks index what they say", "statement": "Storage, free entries and distinct parameters of the blocks lie one after another without gaps; the flattened array gives the array back; setting two parameters equal replaces one by the other everywhere and keeps all indices consistent; dA[k] is the derivative of its block in the k-th free parameter; every pair of blocks has its own type.", "quantifier": "all lists of blocks, symmetric or not, and all parameters", "why_tests_cant": "indices of all block patterns; tests use one model", "anchors": ["pystatsm/pysem/model_mats.py: FlattenedIndicatorIndices, BlockFlattenedIndicatorIndices"]}
{"id": "C237", "title": "Data of structural models are grouped and summarised correctly", "statement": "Every row is in exactly one group and groups are numbered in the order of labels; counts and means add up; the covariance of the variables in the model is positive semidefinite, has the divisor asked for and does not depend on variables which are not in the model; data, means and covariances have the same columns; sample statistics are accepted.", "quantifier": "all tables, labels and patterns of missing values", "why_tests_cant": "positive semidefiniteness and independence are about all tables", "anchors": ["pystatsm/pysem/model_data.py: ModelData._group_handling, from_dataframe, from_samplestats, subset_and_order, _initialize", "pystatsm/pysem2/model_data.py: ModelData.from_dataframe, from_samplestats, subset_and_order"]}
{"id": "C238", "title": "Fitting a structural model does what was asked", "statement": "fit runs with its default arguments; the method, options and starting value used are those of the user, in the second attempt too; the user's dictionary is not changed; values of theta within the bounds give every free parameter within its own; standard errors are real numbers, robust ones agreeing with the others when the information equality holds.", "quantifier": "all optimisers, starting values, dictionaries of options, tables of parameters and Hessians", "why_tests_cant": "about all optimisers and option dictionaries; the tests pass options and never reach the second attempt", "anchors": ["pystatsm/pysem2/sem.py: SEM._fit, fit, get_standard_errors", "pystatsm/pysem/sem2.py: SEM._fit, fit, get_standard_errors", "pystatsm/pysem2/param_table.py: ParameterTable._add_bounds", "pystatsm/pysem2/model_specification.py: get_constants"]}
{"id": "C239", "title": "The jax vectorisations are the numpy ones", "statement": "jax_vec, jax_vech, jax_invec and jax_invech compute what vec, vech, invec and invech do.", "quantifier": "all matrices and vectors of all sizes", "why_tests_cant": "about all sizes and about tracing", "anchors": ["pystatsm/utilities/jax_linalg.py: jax_vec, jax_invec, jax_vech, jax_invech"]}
{"id": "C240", "title": "Random-effect terms are laid out correctly", "statement": "Every observation gets the level and the covariates of its own row; Z u is the sum over the terms of covariates times the effects of the level; G is the covariance of independent levels with one covariance for each term, L has the lower triangles of the factors; positions are listed in the order in which the compressed matrix keeps its data, so update_gmat writes where it should; G_deriv is the derivative of G; the indices of the effects cut them into consecutive pieces.", "quantifier": "all lists of terms, levels, designs, covariances and patterns of missing values", "why_tests_cant": "about all numbers of terms, levels and covariates; an index shifted by one shows only for some shapes", "anchors": ["pystatsm/pylmm/ranef_terms.py: RandomEffectTerm, RandomEffects, get_u_indices", "pystatsm/pylmm/lmm.py: LMM.update_gmat", "pystatsm/utilities/data_utils.py: _dummy_encode"]}
{"id": "C241", "title": "Symmetric tensors are filled through all rearrangements of each index", "statement": "multiset_permutations meets every rearrangement of a sequence exactly once, in lexicographic order, and its results can be kept; fill_tensor puts each value at every rearrangement of its ascending index, so the tensor is symmetric; array_match finds the places of the entries of one array in another and leaves out or masks those that do not occur.", "quantifier": "all sequences with repetitions, all orders and sizes of the tensor, all arrays and all ways in which argsort breaks ties", "why_tests_cant": "about all sequences with repetitions and all sizes; the number of rearrangements grows too fast to test", "anchors": ["pystatsm/utilities/indexing_utils.py: multiset_permutations, fill_tensor, array_match, ascending_indices"]}
{"id": "C242", "title": "The duplication and elimination matrices are applied on the side and in the direction named", "statement": "The functions and methods that apply D and L from the left, from the right and from both sides give D'A, AD, D'AD and AL' by default, whether they use the matrix or the indices, and agree with each other.", "quantifier": "all sizes n and all arrays with n^2 rows or columns", "why_tests_cant": "about all sizes and shapes; for n = 1 every one of the mistakes is invisible", "anchors": ["pystatsm/utilities/special_mats.py: apply_dmat1, apply_dmat2_pre, apply_dmat2_post, apply_dmat2_pre_post, apply_dmat3, apply_lmat_post1, apply_lmat_post2, EliminationMatrix, DuplicationMatrix"]}
{"id": "C243", "title": "The path of least-angle regression", "statement": "Every turn of lars starts from coefficients at which the active variables share the greatest absolute correlation with the residual, moves along the equiangular direction until another variable reaches that correlation, and so ends at the next such point, at a lower level, recorded as lambda; points of the path with matching signs minimise the lasso criterion, and the last is the least-squares solution.", "quantifier": "all Gram matrices, correlations and numbers of variables", "why_tests_cant": "about all data; equal correlations, as in designed experiments, are the case that fails", "anchors": ["pystatsm/pyglmnet/lars.py: get_cmax, lars_add_var, _tmin, get_lars_gamma, _lars"]}
{"id": "C244", "title": "Rows and slices of the data of several formulas", "statement": "All matrices of a ModelData have the same observations in the same rows, also when values are missing; drop_missing keeps exactly the complete observations in matrices, indexes and weights; dropping the intercept leaves every term name, slice and position pointing at its own columns; the constraint matrix of a term picks the parameters of that term, with any number of designs.", "quantifier": "all data frames, formulas, missing patterns and designs", "why_tests_cant": "about all missing patterns and all positions of the terms; misaligned rows of equal number raise nothing", "anchors": ["pystatsm/pyglm2/regression_model.py: ModelData.from_formulas, ModelData.drop_missing, OrdinalModelData.drop_intercept, RegressionMixin.make_termwise_constraint_matrices"]}
{"id": "C245", "title": "The Freedman-Lane test", "statement": "Each round refits the residuals of the model without the variables of interest, permuted; the values of the variables of interest do not depend on the coefficients of the other columns nor on the unit of the response; with only a constant left the test is the plain permutation test; the value of a variable is the share of arrangements at least as extreme as the observed one.", "quantifier": "all designs of full rank, responses, selections of variables and lists of permutations", "why_tests_cant": "about all responses and permutations at once; ties with the observed statistic are the rule for discrete responses and short series", "anchors": ["pystatsm/pyglm/ols.py: OLS._freedman_lane, OLS._permutation_test, OLS._fit_y"]}
{"id": "C246", "title": "Cutting a variable at its quantiles", "statement": "quantile_cut with n bins sends greater values to no lower bin, uses the bins 0 to n - 1, and makes the bins equally large, up to one value when n does not divide the number of values.", "quantifier": "all arrays, numbers of values and numbers of bins", "why_tests_cant": "about all numbers of values and bins; repeated values are the case that fails, and simulated factors rely on it", "anchors": ["pystatsm/utilities/func_utils.py: quantile_cut"]}
{"id": "C247", "title": "Parameter table of the older formula parser", "statement": "Every row of the table goes to the matrix and cell its relation asks for; every variable gets one variance and one mean; what the formula fixes stays fixed at its value; each factor has its scale fixed once; the free rows are numbered from one without gaps, and two of them share a number exactly when they share a label.", "quantifier": "all parameter tables, labels and fixed values", "why_tests_cant": "about all tables; most defects need a combination of what the formula gives and what is added by default", "anchors": ["pystatsm/pysem/formula.py: FormulaParser._classify_variables, extend_model, fix_first_latent_variable_factor_loading, fix_lv_mean, assign_matrices, index_params"]}
{"id": "C248", "title": "Default rows of the parameter table", "statement": "After the defaults every variable has exactly one variance and one mean and every pair of observed exogenous, of exogenous latent and of endogenous variables exactly one covariance, the row of the formula where there is one; each family of defaults is switched by its own keyword; the moments of observed exogenous variables are fixed at the sample values of their group unless the formula gives them, and a fixed row is not numbered among the free parameters.", "quantifier": "all parameter tables, variable classes, keywords, groups and sample moments", "why_tests_cant": "about all tables and groupings; the defects need a keyword or a given value that examples do not use", "anchors": ["pystatsm/pysem/param_table.py: process_parameter_table, check_missing_variances, check_missing_covs, check_missing_means, add_variances, add_covariances, add_means, fix_sample_stats"]}
{"id": "C249", "title": "Labels of parameters shared between groups", "statement": "Every free row gets one label; two free rows of any groups and matrices read one coordinate of theta exactly when the formula gives both the same label, or gives neither one and their three names agree, the groups having to agree when the matrix is not shared.", "quantifier": "all tables of free parameters, groups, labels and choices of shared matrices", "why_tests_cant": "about all tables and all pairs of rows; a collision or a lost tie appears only for particular labels and matrices", "anchors": ["pystatsm/pysem2/model_base.py: ModelBase.reduce_parameters", "pystatsm/pysem/param_table.py: BaseModel.reduce_parameters", "pystatsm/pysem/multigroup.py: ModelSpecification.add_matrix_equalities"]}
{"id": "C250", "title": "Profile likelihood intervals of variance components", "statement": "The signed root of the likelihood ratio increases along the grid and is zero at the estimate; the interpolated limits are in order, contain the estimate, lie within one grid step of the exact limits, equal the Wald limits for a quadratic profile, and are nonnegative for a variance.", "quantifier": "all unimodal profiles, grids, estimates and quantiles", "why_tests_cant": "about all profiles and grids; a limit beyond the grid is never met by an example whose grid is wide enough", "anchors": ["pystatsm/pylmm/re_mod.py: LMM2.profile, LMM2.profile_confint"]}
{"id": "C251", "title": "Cross-validation data of sparse canonical correlation", "statement": "The folds partition the observations; standardised columns have mean zero and mean square one; a score is a correlation that does not depend on units or origins; a test fold is scored on the variables the weights were fitted for, and the starting weights do not depend on origins.", "quantifier": "all data matrices, numbers of folds, units and weights", "why_tests_cant": "about all data and affine maps; the scale of a test fold only matters with several variables whose fold standard deviations differ from those of the fit", "anchors": ["pystatsm/pyscca/scca.py: kfold_indices, crossval_mats, _corr, SCCA.__init__"]}
{"id": "C252", "title": "Tables of random effects", "statement": "The tables, the frame of all terms and the long table of random effects show each effect once, at its term, level and variable; a prediction takes from each table the row of the level of the observation; a row can be traced to its group and a column to its variable.", "quantifier": "all lists of terms, sizes, groupings and effect vectors", "why_tests_cant": "about all numbers of terms, variables and levels; a wrong stride or offset agrees with the right one when there is one variable or one term", "anchors": ["pystatsm/pylmm/re_mod.py: RandomEffectTerm, LMM2.random_effects, LMM2.predict, sizes_to_slices, make_zinds"]}
{"id": "C253", "title": "The computed bivariate normal distribution function", "statement": "The distribution function as computed with the tabulated rule is symmetric in its arguments, complementary under reflection, the product without correlation, above or below it by the sign of the correlation, never divides by zero for correlations in [-1, 1], and attains its limits at correlations of one and minus one.", "quantifier": "all arguments, all correlations in [-1, 1]", "why_tests_cant": "about all real arguments; the loss at a correlation of one is invisible at moderate correlations", "anchors": ["pystatsm/utilities/func_utils.py: binorm_l2_jit, binorm_dl_jit, binorm_cdf_jit"]}
{"id": "C254", "title": "Harmonic numbers, exact and asymptotic", "statement": "harmonic_exact is the harmonic number; harmonic_asymptotic is Euler's constant plus the expansion of the harmonic numbers to the fourth inverse power, so its error is at most the next term of the expansion.", "quantifier": "all positive integers", "why_tests_cant": "about all integers; a wrong last coefficient changes the tenth decimal only", "anchors": ["pystatsm/utilities/func_utils.py: harmonic_exact, harmonic_asymptotic"]}
{"id": "C255", "title": "Scaling and summary statistics of the least angle path", "statement": "handle_lars_setup gives centred columns of unit length; Rsq of _lars_sumstats is the coefficient of determination, zero for the empty row, at most one and greatest for least squares, and AIC and BIC price a coefficient at two and at the log of the number of observations.", "quantifier": "all designs, responses, rows of the path and methods for the variance", "why_tests_cant": "about all data; a scale of the variance shifts the table without an error", "anchors": ["pystatsm/pyglmnet/lars.py: handle_lars_setup, _lars_sumstats"]}
{"id": "C256", "title": "Coefficients of a simulated model by term", "statement": "make_coefs gives every categorical or mixed term the centred contrast in its own columns, draws the coefficients of all numerical columns at once with half of the signs negative, and sets the intercept to zero, for every formula.", "quantifier": "all lists of terms whose slices tile the columns, all shares and draws", "why_tests_cant": "about all formulas; a misplaced class gives coefficients of another term without an error", "anchors": ["pystatsm/pyglm2/model_sim.py: LinearModelSim._classify_terms, LinearModelSim._make_coef, LinearModelSim.make_coefs"]}
{"id": "C257", "title": "Matrices of the older structural equation models", "statement": "prepare_matrices, apply_fixed_and_free_values and flatten_matrices of pysem send the free vector of a group to matrices with each value in the cell of its row, fixed values in the cells of the fixed rows and defaults elsewhere, and the number of places is the number of free rows.", "quantifier": "all sorted tables of one group and all vectors", "why_tests_cant": "about all tables; a shifted index puts estimates in wrong cells without an error", "anchors": ["pystatsm/pysem/param_table.py: BaseModel.prepare_matrices, BaseModel.apply_fixed_and_free_values, BaseModel.flatten_matrices"]}
{"id": "C258", "title": "Refit with one covariance parameter held", "statement": "_fit_with_fixed_tau hands the minimiser the objective with one component held together with its gradient in the others, keeps variances positive, and returns the profile of the objective, so that likelihood ratios are never negative and vanish at the estimate.", "quantifier": "all models, positions and held values; minimisers by contract", "why_tests_cant": "about derivatives and minima over all parameters; a misaligned mask gives a wrong gradient without an error", "anchors": ["pystatsm/pylmm/re_mod.py: _fit_with_fixed_tau"]}
{"id": "C259", "title": "Data of the multivariate regression simulator", "statement": "generate_mmr_data colours its variates to the reported covariances, scales the residual covariance so that the signal has the target share of the total variance whatever the intercept, reports a parameter vector that unpacks to its coefficients and precision, and its sparsity is the share of zero coefficients.", "quantifier": "all draws, designs, coefficients and targets", "why_tests_cant": "about all draws; a wrong factor gives data of another share without an error", "anchors": ["pystatsm/pyglm2/sim_mvols.py: generate_mmr_data, _scale_to_target_r2, _make_beta_slope, _draw_residuals"]}
{"id": "C260", "title": "Starting values, bounds and constraint of the covariance structure", "statement": "make_param_template starts free variances at one and other free cells at a hundredth and keeps every fixed value, so that the starting covariance matrices are positive definite; make_bounds bounds every variance below by zero; _constraint_func is nonnegative only for positive semidefinite covariances.", "quantifier": "all matrices of labels and fixed values, all sizes", "why_tests_cant": "about all sizes and patterns; an indefinite start or a missing bound shows up only in rare fits", "anchors": ["pystatsm/pysem/cov_model.py: make_param_template, _constraint_func, make_bounds"]}
{"id": "C261", "title": "Simultaneous estimation of location and scale", "statement": "estimate_simultaneous runs with the estimators of its module; its fixed points solve the two estimating equations; it is equivariant under shifts and positive scalings; it stops when the objective no longer changes; the history ends with the values returned.", "quantifier": "all data, weight functions, starts and numbers of turns", "why_tests_cant": "about all runs; a stopping rule against the start looks like slow convergence", "anchors": ["pystatsm/pyrobust/m_estimators.py: estimate_simultaneous"]}
{"id": "C262", "title": "Starting values of generalised linear models", "statement": "get_start_values starts from means inside the range of the family, gives nonnegative finite weights, and its coefficients are a step of Fisher scoring from these means, so that they are determined by the data and are the least squares solution for the normal model.", "quantifier": "all responses, weights, designs, links and variance functions", "why_tests_cant": "about all data; a poor start is hidden by the iterations after it", "anchors": ["pystatsm/pyglm2/glm.py: get_start_values", "pystatsm/pyglm/linear_model.py: get_start_values"]}
{"id": "C263", "title": "Bands of smooth components", "statement": "get_smooth_comps returns, at every point, the value of the smooth and its standard error from the covariance of the coefficients, the same in all three additive models; bands of a higher level contain those of a lower one; the components add up to the predictor.", "quantifier": "all bases, coefficients, covariances and levels", "why_tests_cant": "about all designs; a band from the wrong block of the covariance looks plausible", "anchors": ["pystatsm/pygam/gam.py: get_smooth_comps, _eval_smooth", "pystatsm/pygam/gauls.py: get_smooth_comps", "pystatsm/pygam/gaussian_additive_model.py: get_smooth_comps"]}
{"id": "C264", "title": "Penalties and resampling of sparse canonical correlation", "statement": "make_lambdas gives a geometric sequence inside the unit interval; permutation_test starts from vectors of length one and keeps the margins while permuting the pairing; crossval_mc tests every fold on observations it was not fitted to.", "quantifier": "all draws, sizes, numbers of folds and penalties", "why_tests_cant": "about all draws; leakage only raises the correlations reported", "anchors": ["pystatsm/pyscca/scca.py: make_lambdas, permutation_test, crossval_mc"]}
{"id": "C265", "title": "Gradient of the residual covariance by traces", "statement": "_resid_gradient_trace is the derivative of the (restricted) likelihood in a parameter of the residual covariance: trace of the inverse covariance times the derivative, less the quadratic form and the trace of the fixed effects.", "quantifier": "all designs, residual covariances and derivatives", "why_tests_cant": "about all derivatives; with the identity, the only one in use, a missing factor cannot be seen", "anchors": ["pystatsm/pylmm/re_mod.py: _resid_gradient_trace"]}
{"id": "C266", "title": "Alignment matrix of the free parameters", "statement": "alignment_matrix maps the free parameters of a factor model to those of the model with permuted and reflected factors, is orthogonal, moves standard errors without changing them and leaves quadratic forms unchanged; unpack_se puts each standard error in its place and zero at fixed parameters.", "quantifier": "all numbers of variables and factors, permutations, signs and both masks", "why_tests_cant": "about all permutations at once; a wrong pair of correlations is hidden with two factors", "anchors": ["pystatsm/pyfa2/sim_factor_model.py: alignment_matrix, unpack_se; pystatsm/pyfa2/identification.py: free_mask; pystatsm/pyfa2/layout.py"]}
{"id": "C267", "title": "Sample moments and starting values of the older parameter table", "statement": "update_ptable_with_data of the older structural equation models gives exactly the rows of exogenous variances, covariances and means their sample values, from data frames or arrays, and keeps what the formula fixes; starting_values starts free parameters at their defaults and fixed ones at their value.", "quantifier": "all tables, lists of variables and sample moments", "why_tests_cant": "about all tables; the rows are found by names in either order", "anchors": ["pystatsm/pysem/formula.py: update_ptable_with_data, starting_values"]}
{"id": "C268", "title": "Low and high medians along an axis", "statement": "_median_nd gives the low or high median of every line of a matrix along an axis, and that of all entries without an axis.", "quantifier": "all matrices, both kinds and all axes", "why_tests_cant": "about all shapes; with one column, or along an axis, the index that is out of range without an axis does not show", "anchors": ["pystatsm/pyrobust/dispersion_estimators.py: _median_nd"]}
{"id": "C269", "title": "Log determinant of the random effects from Cholesky parameters", "statement": "lndet_gmat_chol is the log determinant of the covariance of all random effects: twice the log diagonals of the factors, counted for each group, whatever the parameters off the diagonal and the signs, and minus infinity exactly for a zero on a diagonal.", "quantifier": "all terms, numbers of groups and parameters", "why_tests_cant": "about all parameters at once, including singular ones", "anchors": ["pystatsm/pylmm/model_matrices.py: lndet_gmat_chol"]}
{"id": "C270", "title": "Derivative of the matrix exponential", "statement": "dmat_exp is the derivative of the matrix exponential: applied to the stacked entries of a direction it gives the derivative of exp(A + tE) at t = 0.", "quantifier": "all matrices and directions", "why_tests_cant": "about a limit and all directions; random symmetric matrices have different eigenvalues and hide both failures", "anchors": ["pystatsm/utilities/linalg_operations.py: dmat_exp"]}
{"id": "C271", "title": "Start of the penalty path of elastic net generalised linear models", "statement": "get_start_param starts the path at the least penalty at which the null model is the optimum: at and above it no intercept and coefficients are better, below it some are; from there the path falls geometrically.", "quantifier": "all designs, responses, weights, canonical families and mixing parameters", "why_tests_cant": "about an optimum over all coefficients", "anchors": ["pystatsm/pyglmnet/glmen2.py: get_start_param"]}
{"id": "C272", "title": "Parameters constrained by termwise tests over several designs", "statement": "For every term other than the intercepts of every design, make_termwise_constraint_matrices2 and ll_tests2 constrain exactly the parameters at the columns of that term when the designs are laid side by side.", "quantifier": "all lists of designs, terms, numbers of columns, offsets and kinds of response", "why_tests_cant": "about the layout of all designs", "anchors": ["pystatsm/pyglm2/regression_model.py: store, make_termwise_constraint_matrices2, ll_tests2"]}
{"id": "C273", "title": "Cross-validation of the Gaussian elastic net", "statement": "fit_cv chooses the first penalty with the least average prediction error over the folds, each fold being fitted to its own data only, and keeps the coefficients of the fit to all the data at that penalty.", "quantifier": "all data, folds, penalties, starts, tolerances and options", "why_tests_cant": "about every step of two nested loops and the independence of folds", "anchors": ["pystatsm/pyglmnet/gaussian_eln.py: cv_glmnet; pystatsm/pyglmnet/eln_utils.py: process_cv; pystatsm/pyglmnet/glmen.py: fit_cv"]}
{"id": "C274", "title": "Cross-validated deviance of the elastic net GLM", "statement": "The values _glm_elnet_cv stores for a fold are the weighted average deviances of the predictions that the fold's fitted models make for the left out rows.", "quantifier": "all designs, responses, weights, families, folds and fits", "why_tests_cant": "about the scale on which coefficients are fitted and used", "anchors": ["pystatsm/pyglmnet/glmen2.py: _glm_elnet_path, crossval_path, _glm_elnet_cv"]}
{"id": "C275", "title": "Older profile likelihood of variance components", "statement": "profile evaluates each parameter on an increasing grid that holds its estimate, with signed roots that are real, increase with the held value and change sign at the estimate; ix names the parameter of every row.", "quantifier": "all estimates, standard errors, objectives and numbers of points", "why_tests_cant": "about every grid and objective", "anchors": ["pystatsm/pylmm/prf.py: profile"]}
{"id": "C276", "title": "Search of the S-estimator over subsamples", "statement": "RobustSLM.fit keeps the n_subsample refined subsamples with the smallest scales and returns the smallest of their final refinements with its coefficients.", "quantifier": "all lists of refined subsamples whose test is negative just above their scale", "why_tests_cant": "about every order of random subsamples", "anchors": ["pystatsm/pyrobust/rls.py: RobustSLM.fit"]}
{"id": "C277", "title": "Matrices and template from the older parameter table", "statement": "to_model_mats puts the number of every free row and the value of every fixed row into its cell, below the diagonal of symmetric matrices where to_param_template reads; no cell is free and fixed; the template agrees with the starting values of the table.", "quantifier": "all tables of rows with cells", "why_tests_cant": "about every parameter table", "anchors": ["pystatsm/pysem/formula.py: sort_symmetric, to_model_mats, to_param_template, starting_values"]}
{"id": "C278", "title": "Predictions of the older GLM and of beta regression", "statement": "predict gives the linear predictor, the mean or both of every row at given coefficients and designs, with the estimates and data as defaults; beta regression gives one mean and one precision for every row.", "quantifier": "all designs, coefficients, inverse links and kinds", "why_tests_cant": "about every design and coefficient vector", "anchors": ["pystatsm/pyglm/glm.py: predict; pystatsm/pyglm/betareg.py: predict"]}
{"id": "C279", "title": "Bootstrap of the older cumulative link model", "statement": "Each bootstrap sample is the estimate of the model for its resampled rows, it exists for every resample, and the model is afterwards as it was before.", "quantifier": "all data, resamples, links and optimisers", "why_tests_cant": "about every resample", "anchors": ["pystatsm/pyglm/clm.py: CLM.bootstrap; pystatsm/pyglm2/clm.py: CLM._bootstrap"]}
{"id": "C280", "title": "Lasso modification of least angle regression", "statement": "The step is shortened to the first point where an active coefficient vanishes, no coefficient changes sign before, the variables dropped are those that vanish there, and the Cholesky factor afterwards is that of the variables left.", "quantifier": "all coefficients, directions and steps", "why_tests_cant": "about every direction and step", "anchors": ["pystatsm/pyglmnet/lars.py: _lasso_modification, lars_drop_var"]}

# Formal model of pystatsm: design

The code in `/repo` is read as text; nothing is executed.  The model lives in
`lean/Verif/`.  Each area has two or three files:

* `Verif/<Area>/Model.lean`  – definitions mirroring the code, each with a comment
  citing file and lines in `/repo`;
* `Verif/<Area>/Spec.lean` (or a section at the top of `Props.lean`) – the small
  independent specification the properties are stated with;
* `Verif/<Area>/Lemmas.lean` – helper lemmas;
* `Verif/<Area>/Props.lean` – the property theorems only, each followed by an
  `example` showing that a concrete non-trivial case meets the hypotheses.

## Trusted base

* Lean 4.33.0's kernel, and Mathlib's definitions of ℝ, `Matrix`, `HasDerivAt`,
  `Real.sqrt`, `Real.log`, `Real.exp`, ...
* Axioms: at most `propext`, `Classical.choice`, `Quot.sound`
  (`lean/Verif/Axioms.lean` prints them for every property theorem).  No axioms of our
  own, no `sorry`, no `native_decide`, no `bv_decide`.
* The reading of the Python/C source recorded in the citations.
* Idealisations, applied everywhere and not repeated in each comment:
  - floating point is replaced by exact arithmetic in ℝ, ℚ or an arbitrary
    commutative ring/field: rounding, overflow, NaN and infinities are not modelled;
  - `np.sqrt` inside integer index formulas is replaced by the integer square root
    (`Nat.sqrt`), exact for all sizes; the code is exact only while 8n+1 is exactly
    representable and `sqrt` is correctly rounded;
  - fixed-width integers are unbounded `ℕ`/`ℤ`;
  - numpy arrays become lists, or functions of their indices together with an explicit
    size; in-place mutation becomes a function returning the new array, except where
    aliasing is the property (C24), where a heap is modelled;
  - numpy/scipy/pandas primitives (`argsort`, `unique`, `solve`, `eigh`, `groupby`) are
    modelled by their documented contract, stated in the comment at the use site.

## Plan per property

| id | modelled | how it is proved |
|----|----------|------------------|
| C01 | `vec_inds_*` as ℕ arithmetic; `vec` as column-major list | division algorithm; position lemma on the list |
| C02 | `vech_inds_*`, `largest_triangular` with `Nat.sqrt`, `vech` as column-by-column list | triangular-number inequalities, induction on columns |
| C03 | `vecl_inds_*` likewise | as C02 |
| C04 | `kronecker_indices_*` | div/mod arithmetic; related to `Matrix.kroneckerMap` |
| C05 | index list of `_kmat`, its sparse triplets, matrix it denotes | indices are a permutation; sum over a single non-zero |
| C06 | `_dmat` triplets | each row has a single 1 at the vech position of the sorted pair |
| C07 | `_lmat`, `dpmat` | as C06; `DᵀD` diagonal |
| C08 | `ascending_indices_forward/reversed` as fold and search loop | combinatorial number system: monotone binomial sums, induction on tuple length |
| C09 | ravel/unravel loops | mixed-radix induction on the shape |
| C10 | `unique` through `np.unique` contract (sorted uniques, first index, inverse) | permutation argument |
| C11 | `vech/invech/...` as matrix-to-vector functions | from C02/C03 |
| C12 | C loops of `coo_to_csc` as folds over array state | loop invariants: counting-sort |
| C13 | `cs_add` with its workspace `w`, `x` | loop invariant over scatter |
| C14 | `cs_kron_*` loops | invariant + div/mod |
| C15 | `id_sp_kron` with the argument the wrapper really passes | positive theorem for square `B`; negation witness otherwise |
| C16 | `cs_matmul_inplace` loops | loop invariant |
| C17 | two-pointer merge | induction on remaining lengths |
| C18 | `sum_preserving_round` with numpy slice semantics `a[-0:]` | counting; violation witness and `_partial` theorem |
| C19 | `allocate_from_proportions` | corollary of C18; violation witness |
| C20 | `get_part`/`partition_set` recursion | induction on the list; restricted growth strings ↔ partitions |
| C21 | `soft_threshold` | case analysis on ℝ |
| C22 | `_harmonic` recursion | strong induction |
| C23 | memo wrappers as state machines | invariant by induction over the call history |
| C24 | option merge on association lists, and with a heap for aliasing | induction; witness for leakage |
| C25 | Welford folds | induction over the stream |
| C26 | `_grouped_cov` as an in-place loop over pointer arrays from `_sizes_to_ptr`/`_build_layout` | a sorted list is the concatenation of its runs; block sums re-indexed over PSU sets; sum of squares for PSD |
| C27 | `_aggregate_singletons` over row lists | list arguments; witness for the single-singleton case |
| C28 | `FormulaParser` on character lists: comment regex, `strip`, `split`, `_get_var_pair` | abstract syntax with arbitrary padding; split/join and strip lemmas; induction over lines |
| C29 | `default_sort`, `_ord_dict` as list/dict code | the dict of a duplicate-free list is a bijection; a witness where a variable is listed twice |
| C30 | `reduce_parameters`, `theta`/`free`/group maps, `equality_constraint_mat` (pandas index semantics of `unique` kept) | unique facts (C10); adjointness of gradient reduction and expansion |
| C31 | `_index_params`: free/ind columns | closed form of the label loop; counting lemma for the numbering |
| C32 | `_implied_cov_mean` over `Matrix` (real entries) | matrix algebra, Mathlib positive (semi)definiteness |
| C33 | `_dsigma_mu`, `_d2sigma_mu`, `_dloglike_mu`, `_d2loglike_mu`, `fit_func`, `gradient_obs` | entrywise derivative calculus for matrix products, inverse, log-determinant (`Verif/Calc/Matrix`) |
| C34 | all eight links, elementwise; ndtr/ndtri/erfinv as contract `IsNdtr` (shown satisfiable) | exp/log/rpow algebra |
| C35 | all derivative methods; methods that raise are `none` | chain rule; inverse function theorem for probit |
| C36 | variance functions, `gw`, `hw`, `get_ghw`, `get_ehw`, `get_a`, `get_g`, `get_w` of six families | one generic lemma over any good link plus one derivative per family |
| C37 | deviance of six families with the masks for y=0, y=1 | x-1-log x >= 0; also equals the scaled log-likelihood ratio |
| C38 | `Robust/Model.lean`: `Huber`, `Bisquare`, `chi`; entries are reals, masks are `if` | piecewise gluing at kinks; closed forms by clipping / positive part |
| C39 | `Fa/Model.lean`: scatter assignments, `solve` raising on singular | skew matrices have I+S invertible; product form of the transform |
| C40 | `ParamLayout` with uninitialised cells | range partition; assignment closed form |
| C41 | `Transf/Uchol.lean`: the packed loops `rvs`, `fwd` as folds with a store; `Transf/CorrChol.lean` with `np.linalg.cholesky` a contract | closed form of the triangular loop (`triLoop_spec`), then row-wise stick breaking; uniqueness of the Cholesky factor |
| C42 | `Transf/RowNorm.lean`: row index lists by `argsort` (contract) and cumulative sizes, block assignments | rows partition the positions; calculus along paths (`Transf/Jac.lean`: `IsJac`, `IsHess`) |
| C43 | `Transf/CovCorr.lean`: `CovCorr`, `LogScale` with their index arrays from the half-vector index formulas; Jacobian and Hessian assignments in program order | cell-to-position bijection `hp`; closed form of each assignment; calculus along paths |
| C44 | `Transf/Compose.lean`: `ComposedTransform`, `CombinedTransform`, `_hess_chain_rule` over an abstract transform record | fold invariants: after each stage the accumulated Jacobian and Hessian are derivatives of the composed prefix; sorted-range invariant for concatenation |
| C45 | `Lin/Dchol.lean`: three phases of `dchol` as simultaneous updates | closed form of the factor from any Cholesky factor; derivative tracked through each phase |
| C46 | `Lin/Chol.lean`: `add_chol_row`, `chol_downdate` (scalar division raising) | forward substitution, Schur complement by back substitution; rotation invariant |
| C47 | `FlattenedArray`, `BlockFlattenedArrays`, `unique_nonzero` | positions of nonzeros of a concatenation; cell positions from C01/C02 |
| C48 | `get_matrix_assignments`, `_assign_matrices` | case analysis over relation and roles |
| C49 | `Lin/Vander.lean`: both loops of `_solve_vander` over a field | Newton moments; explicit coefficient functions per backward pass; injective linear map |
| C50 | `Lin/Ar1.lean`: `ar1_chol` slice assignments | closed form and geometric telescoping |
| C51 | `cs_block_diag_self_dot` loops | scatter-add lists; merge product = dense inner product |
| C52 | tile / repeat / dense product kernels | nested loop = single loop over flat index |
| C53 | `sum_preserving_min` (numpy slice and fancy assignment) | list sums; witness |
| C54 | `sizes_to_slice_vals` | prefix sums |
| C55 | `handle_default_kws` on association lists | induction |
| C56 | `ZeroConstraint` | single non-zero term of a sum |
| C57 | `_dummy`, `_dummy_encode` | permutation of index lists |
| C58 | sign-change loops | loop invariant; witness |
| C59 | `cross_tabulate`, `expand_crosstab`, any dimension | counting in a nodup list; witness |
| C60 | centring/scaling helpers over ℝ | algebra of sums |
| C61 | index permutation of `swapaxes` | list algebra; witness |
| C62 | `extremal_indices` on the `argpartition` contract | list splitting; witness |
| C63 | `WLSAdapter.fit`, `design_sandwich` over `Matrix` | normal equations; quadratic forms |
| C64 | `fit_func`, `loglike`, `ModelData._initialize`/`subset_and_order` constants; Cholesky as contract | eigenvalue form of log det ≤ trace − p; sum-of-squares decomposition |
| C65 | `GLM._loglike`, `_gradient`, `_gradient_i`, `_hessian`, `_unpack_params_data` | sum of the casewise derivatives |
| C66 | `pearson_resid`, `pearson_chi2`, `deviance_resid`, `signed_resid` | algebra and C37 |
| C67 | `dtau`, `d2tau`, `llscale` chain; gamma functions as contract `IsSp` (shown satisfiable) | chain rule |
| C68 | `_full_loglike` of six families, `logbinom` | exp/log algebra, Mathlib densities, binomial series |
| C69 | `da_dmu`, `d2a_dmu2`, `dw_deta`, `d2w_deta2` | quotient rule, field arithmetic |
| C70 | `E_*` closed forms with `ndtr` a contract | fundamental theorem on the half line, splitting at c |
| C71 | `m_estimate_scale` loop | algebra of the square root; induction on iterations |
| C72 | weights of `irls_step` at fixed scale | majorisation inequality per residual, summed |
| C73 | `Lin/Ar1.lean`: generator recursion | displacement invariant; positive definiteness bounds the reflection coefficients |
| C74 | `Lin/Chol.lean`: `chol_update`, `chol_downdate` on the padded array | reduction to C46; zero rows give 0/0 |
| C75 | the Jacobian and Hessian loops with their accumulator arrays | invariant: accumulators are derivatives of the accumulated products along every path |
| C76 | the row transform in the direction used by `CholeskyCov` | image and round trip of the row transform; witness |
| C77 | `Transf/CholCov.lean`: `OffDiagMask` by index position, the five-stage composition in `Option` | packed strict-lower positions agree with the mask order; the domain of each stage is the range of the previous one; C41, C43 per stage; Cholesky existence from C46 |
| C78 | `Transf/Ordered.lean`: cumulative sums, `np.repeat`/scatter Jacobian, Hessian loops, diagonal Jacobians | closed forms of the scatter and of slab-wise loops; calculus along paths |
| C79 | `apply1`, `apply2`: result buffer with the input's dtype; storing a real into an integer array truncates | direct; witness for integers |
| C80 | `Transf/CorrCholDeriv.lean` over `dchol`, `invecl`, `lmat`, unit matrices; `np.linalg.inv` a contract | `Lin/DcholLin.lean` (linearity of the recurrences in the direction), `Lin/DcholPath.lean` (positive definiteness is open, derivative of the factor along a path); inverse function by the round trip; derivative of a matrix inverse |
| C81 | `Transf/CholCovFull.lean`: the five stages as six-method records | C43, C75, C77, C78, C80 at the intermediate points, composed by C44 |
| C82 | `Fa/Criterion.lean`: flat Fortran-order arrays, the branches on zero constants | derivatives along paths; symmetry by exchanging sums |
| C83 | `gcfConstants` | expansion of the Crawford–Ferguson sums; quartimax refuted on a 2×2 example |
| C84 | `Fa/Rotation.lean`; `inv` partial, `svd` a contract | trace identities; closest rotation by the trace bound for orthogonal matrices of determinant −1 (Householder reflection) |
| C85 | `dRotation`, `cayleyFg` | derivative of the inverse, sum over the strict lower triangle |
| C86 | `Fa/Theta.lean`: slabs, packed rows | adjointness of `d2Q_apply`, derivative of the inverse |
| C87 | `gpaSearch`, `gpaLoop`, `gpaSolve` | loop invariant; retractions are exact to first order, so the Armijo test passes for small steps |
| C88 | `Fa/Likelihood.lean`: slabs of `dsigma`, the two fancy stores of `H3_LPhi_3d`, `kron` block | every gradient entry is a pairing with a slab; product rule along paths of parameter vectors |
| C89 | `Fa/Inference.lean`: three block stores, `np.ix_` on an index list, `inv` partial | reindexing to a 2×2 block matrix; block equations of the inverse |
| C90 | `Fa/Align.lean`; `linear_sum_assignment`, `eigh`, `argsort` contracts | signed permutation matrices; expansion of the squared distance |
| C91 | `Fa/Concentrated.lean`; `eigh` output as a pair `u, V` | simultaneous diagonalisation of the whitened matrices; eigenpair perturbation from the resolvent identity; Weyl inequality and sign fixing in `Fa/EigPathLemmas.lean` |
| C92 | `Like/Info.lean`: integer division guarded, `none` when `n = k+1` | field algebra; `log 7 < 2 < log 8` |
| C93 | `Like/Info.lean`: all nine returned values | `rpow` forms, monotonicity of `exp`, convexity inequality |
| C94 | `Like/Profile.lean`: closures as functions of a late-bound environment, buffer as state, `root_scalar` by contract | `refill_spec`; chain rule along paths through the refilled vector; intermediate value and convexity |
| C95 | `Like/Tests.lean`: both statistics, one pass of `ll_tests` | positive definiteness of `C V Cᵀ` inverse; congruence of quadratic forms |
| C96 | `Like/Leverage.lean`: Cholesky by contract (shown satisfiable from C46), QR by contract on the given input | hat matrix algebra; weighted Gram matrices |
| C97 | `Like/Leverage.lean`: one-step, Cook, likelihood residual | Sherman-Morrison for a deleted row |
| C98 | `Like/Leverage.lean`: the three solvers | factorisation of `Xᵀ W X` through `Q`, sign matrix as `I - 2 Qᵀ D Q` |
| C99 | `Like/Clm.lean`: ordinal design, likelihood, all gradients and Hessians | closed form of the two predictors; chain rule with C35 links and C78 threshold transform |
| C100 | `Like/Clm.lean`: `predict`, the call of `_fit`, the null design | telescoping sums; contrast vector of a linear predictor |
| C101 | `Like/Zinf.lean`: Poisson likelihood, gradients, Hessian weights | chain rule per observation, blocks of the design; exponential series |
| C102 | `Like/Zinf.lean`: negative binomial likelihood, gradients, Hessian, quantiles | chain rule per observation with the gamma function contracts of C68; equality of the two forms of the derivative |
| C103 | `Eln/Model.lean`: objective, coordinate step, sweep, loop, `elnet`, `elnet_grad` | subgradient inequality of the soft threshold; induction over coordinates and iterations |
| C104 | `Eln/Model.lean`, `Eln/Path.lean`: `lambda_max`, path, screening, `GLMEN.fit`, `predict` | optimality conditions of C103 at zero |
| C105 | `Eln/Fold.lean`: `array_split`, pairs, stratified splits | prefix sums, permutations of flattened lists |
| C106 | `Eln/Lasso.lean`: objective, step, both loops | majorisation; telescoping sum of distances |
| C107 | `Eln/Binom.lean`: `binom_glm_cd` | subgradient inequality of the soft threshold, induction over coordinates |
| C108 | `Eln/Binom.lean`: `_binom_glmnet`, `binom_eval`, `lambda_max`, screening | tangents of the logistic loss; one-sided derivatives at zero; concrete runs |
| C109 | `Lmm/Model.lean`: `_loglike`, `update_chol_diag`, `update_gcov`, `lndet_gmat` | Woodbury identity, determinant of the bordered matrix, Cholesky factor of a Schur complement |
| C110 | `Lmm/Model.lean`: `_gradient`, `_gradient_v2`, `accumulate_gradient` | derivative along paths; Euler's identity for the residual variance |
| C111 | `Lmm/Model.lean`: `compute_effects`, `vinv_apply`, `p_apply`, `vinvcrossprod`, `random_effects_se`, `_dC_dtheta` | normal equations, block inverse |
| C112 | `Lmm/Layout.lean`: `make_zinds`, `_make_z_matrix`, `KronIG`, `KronAG`, `scipy` sum, `precompute_grad_caches` | closed forms of the compressed arrays; sorted columns; concrete patterns |
| C113 | `Lmm/Infer.lean`: `approx_degfree`, `_post_fit`, `confint`, `lrt`, `variance_decomposition`, `r_squared` | spectral form of the Wald statistic, delta method, block traces |
| C114 | `Lmm/Infer.lean`: `_VarCorrReparam` | inverse hyperbolic tangent; derivative along paths |
| C115 | `Nd/Model.lean`: `_fd_coefs`, `fd_coefs`, `finite_diff`, `fd_coefficients`, `fd_derivative` | Fornberg's recurrence gives the derivatives of the Lagrange basis; Vandermonde determinant |
| C116 | `Nd/Model.lean`: the forward, central and complex-step quotients | Taylor polynomials along lines and planes; little-o remainders |
| C117 | `Nd/Model.lean`: `grad_approx`, `jac_approx`, `hess_approx`, `_hess_approx`, `hess_approx2` | each pass removes one even power; storage order of the in-place passes |
| C118 | `Spl/Cubic.lean`: `_cr_mats`, `crspline_penalty` (with LAPACK ptsv as an `Option`), `crspline_basis` | pieces glued at knots; diagonal dominance; integration by parts against any C2 competitor |
| C119 | `Spl/Cubic.lean`: `_cc_mats`, `ccspline_penalty`, `ccspline_basis` with its index loop | closed system of moments; integration by parts with periodic ends |
| C120 | `Spl/Cubic.lean`: `crspline_knots`, `ccspline_knots`, `np.unique`, `np.quantile` | strict monotonicity of linear interpolation of a sorted list |
| C121 | `Spl/Bspl.lean`: `bspline_basis` through the de Boor recurrence, `equispaced_knots`, `bspline_knots`, `difference_mat`, the call signatures used by `_get_bsplines` | induction on the degree; Mathlib forward differences |
| C122 | `Gam/Gcv.lean`: `gcv`, `double_gcv` and gradients, `inv` as an `Option` | matrix calculus along the line; Loewner order of the hat matrix; variational comparison |
| C123 | `Gam/Setup.lean`: `absorb_constraints`, `get_penalty_scale`, `get_smooth`; `np.linalg.qr` as a contract | orthogonal completion; null spaces of C118 and C119 |
| C124 | `Gam/Formula.lean`: `get_parametric_formula`, the term search of `parse_smooths`; `Gam/Setup.lean`: `get_smooth_terms`, `get_smooth_matrices` | scans by recursion on the string; induction on the blocks |
| C125 | `Gam/Diag.lean`: `diagonalize_smooth`, the prior of the Stan program; `eigh` as a contract | orthogonality block by block; induction on the smooths |
| C126 | `Gam/Gaus.lean`: `reml`, `gradient`, `hessian`, `grad_beta_rho`, `pirls` as a loop, `Vb`, `Vf`, `edf`; `solve`/`inv` as `Option` | envelope identity, matrix calculus along lines; completing the square |
| C127 | `Gam/Gam.lean`: a family as a record of its functions; `solve_pls`, `pirls` with halving, `reml`, `gradient`, `hessian`, the three derivatives of the coefficients, `Vb`, `Vs`, `F` | differentiability of the branch from its continuity by Newton quotients, then matrix calculus along lines |
| C128 | `Gam/Fam.lean`: links and variance functions as records of their methods, `get_a` to `d2w_deta2`, the scale functions | the log derivative of the weight; the default links have `a = 1` |
| C129 | `Cov/Struct.lean`: indexed assignment to triangles and diagonals, cumulative products, `squareform`, the structures | explicit Cholesky factor of the Markov correlations; quadratic form of the exchangeable matrix |
| C130 | `Cov/Psd.lean`: `project_psd`, the loop of `near_psd` with its options, `_whiten`, `_exact_cov`, `get_canvar_corr`; `eigh`, `cholesky` and `svd` are parameters with contracts | comparison of diagonals in the eigenbasis; uniqueness of the square root of a positive semidefinite matrix; quadratic forms of block matrices |
| C131 | `Cov/Acov.lean`: the pattern matrices as triplets, `np.kron`, the products of the three functions | each sparse factor acts on rows or columns; the rest is algebra in the correlations |
| C132 | `Reg/Two.lean`, `Reg/Beta.lean`: the two predictors, log likelihood, gradient, Hessian, fit statistics, labels | derivative of one term in both predictors, summed along a line; density against Mathlib's beta density |
| C133 | `Reg/Nb2.lean`: log likelihood, gradient, Hessian, deviance, indices, the loop of `bootstrap` | derivatives as in C132; the binomial series for the sums over counts; log inequalities for the deviance |
| C134 | `Reg/Zip.lean`: the split at zero counts, gradient, Hessian, `predict`, indices, labels | derivatives as in C132; the exponential series for the sums |
| C135 | `Reg/Rlm.lean`: objective, gradient, Hessian, `irwls`, three covariances; the criterion, solver and scale are parameters | derivatives as in C132; the normal equations of `nwls`; exact witnesses |
| C136 | `Robust/Disp.lean`: every function of the module; the search as recursion on the interval, order statistics through sorting, constants as parameters | order statistics by counting; loop invariant of the search with infinite padding; permutation invariance |
| C137 | `Mv/Scca.lean`: the norms with floor, soft thresholding, the search as recursion on the iteration count | an inequality between sums and sums of squares under a common shift; intermediate value theorem; bisection invariant |
| C138 | `sparsify`, `sccaLoop`, `sccaVec` (`none` when no iteration is allowed, where the code fails on an unbound name) | Cauchy-Schwarz with a multiplier: the threshold |
| C139 | `deflate`, `sccaComps`, `orthoComps`; inverse as `Option`; rounding of small entries included | projection identities; induction over the components with the data generalised |
| C140 | `vechL`, `lmaxEntries` (positions 0 and 2 of the half vectorisation), `permInit` | evaluation of the column order of the lower triangle |
| C141 | `Mv/Cca.lean`: standardisation, inverse roots with cutoff, thin singular value decomposition as a parameter with contract, column slices, labels that raise | projections on the range; Cauchy-Schwarz in the whitened coordinates; existence of the decompositions in `Mv/SvdLemmas.lean` |
| C142 | `Mv/Ica.lean`: both updates, convergence check, loop, whitening; eigendecomposition as a parameter with contract | inverse square root of a positive definite matrix; loop invariant; four-point source with uneven tanh slopes for the counterexample |
| C143 | `Lmm/Prf.lean`: index arrays, both transformations and the Jacobian as loops over the terms with stores | closed form of one term by cases up to three variables; induction over the terms; chain rule |
| C144 | `Lmm/Lm.lean`: the bordered equations, an ordering as a bijection of the unknowns with positions, the factorisation as a contract | Schur complement of the last position; determinant of the rest; the marginal covariance by Woodbury |
| C145 | `Lmm/Lm.lean`: the quantities before the loops, the loops over terms and parameters, both sparsity branches | closed form of each component as a linear form of the derivative of the covariance; derivative of that form along curves |
| C146 | `Lmm/Lm.lean`: `vinvcross`, `computeEffects`, `pls` with the permutation of `solve_L` | Woodbury; normal equations; scaling of the covariance |
| C147 | `Lmm/LmChol.lean`: stacked positions as pairs, elimination and commutation matrices, padded block diagonal Jacobian, both assembled derivatives | entries of the sandwiched Kronecker products; derivative of LL'; chain rule over C145; uniqueness of the Cholesky factor |
| C148 | `Lmm/LmInfer.lean`: derivatives through `vinvcrossprod`, degrees of freedom, table rows, correlations | derivative of the inverse; eigenvalue form of the Wald statistic; arithmetic of the F mean; the one sample problem |
| C149 | `Mv/Mvols.lean`: packing by cells, likelihood, gradient, rows of the gradient, Hessian with the stack of derivatives of the precision | derivative of the factor; quadratic form as a trace; sums over the triangle as traces of products |
| C150 | `Mv/Mvols.lean`: closed form, estimates | gap to the closed form as a Kullback-Leibler divergence and a quadratic form; Fermat; quadratic form of the Hessian at a stationary point |
| C151 | `Mv/MvolsTest.lean`: cross products, generalised eigenvalues as a contract, thresholds, four partial F tests | orthogonality; simultaneous diagonalisation; permutation invariance of sorted and filtered lists; arithmetic of each approximation |
| C152 | `Mv/MvolsTest.lean`: totals, coefficients of determination, effect sizes | antisymmetry of the Loewner order; geometric and arithmetic means; rank of the hypothesis matrix |
| C153 | `Like/Ols.lean`: likelihood with derivatives, both fits, analysis of variance, constrained coefficients, bootstrap and permutation rounds | derivatives along lines; Pythagoras; Lagrange condition; block inverse; counting |
| C154 | `Like/Output.lean`: one table row, the BCa levels | monotone distribution functions as a contract; sums over lists; translation model of BCa |
| C155 | `Like/OldOls.lean`: constructor, fits, robust errors, influence, likelihood, permutation comparison | singular value decomposition as a contract; rank-one deletion formula; log inequality |
| C156 | `Gam/Gauls.lean`: `identity`, `logb`, `lik`, `muTau`, `toEta`, `etaD` | chain rule column by column from a predicate for both partial derivatives |
| C157 | `Gam/Gauls.lean`: gradient, Hessian, eigenvalue-lifted Newton loop, implicit derivatives | Fréchet derivatives of sums; `Calc/Implicit.lean` turns a continuous stationary branch into a differentiable one |
| C158 | `Gam/Gauls.lean`: `reml`, `gradient`, `hessian`, `post`, `wald`, table, `predict`, `weights` | derivative of the log determinant along the branch; trace inequalities; witnesses for the report |
| C159 | the bivariate normal functions of func_utils.py at one point, with the 63 node table as integers | Plackett's identity by differentiating under the integral sign; the moments of the table by kernel evaluation of integers of a thousand digits |
| C160 | `Index/Ordered.lean`: `generateIndices`, `ascendingIndices`, `descendingIndices`, `convertAcm` | membership by induction on the shape; orders by pairwise relations; the conversion by evaluation |
| C161 | `Lv/Polychor.lean`: cell probabilities, likelihood, `dprob_dparams`, gradient, Hessian, transforms | derivatives of one cell along a curve from C159; sums; chain rule from C44 and C78; witnesses at a two by two table |
| C162 | `Lv/Polychor.lean`: `newtonSearch`, `newtonDir`, `newtonLoop`, `newtonFit`; `Lv/Sample.lean`: `uniq`, `catt`, `cprp`, `tauc`, `crosstab` | loop invariant; induction over columns; derivative of the transformed likelihood from C161 |
| C163 | `Lv/Acov.lean`: `thrA`, `thrB`, `Pair.G`, `wSum`, `getAcov`, `getAcovLoop` | implicit differentiation of the score along a curve with the derivatives of C161; sums over observations as sums over the table |
| C164 | `Lv/Old.lean`: `Flat`, `Pair.hessianO`, `hTanh`, `countsNan`, `getThreshold`, `initCrosstab`, `polychorThresh`, `flatPolychor`, `flatCorr`, `polychorLoglike`, `gl5` | reduction of the flattened sums to the table of C161; margins of C162; moments of the rule as polynomials in the root of 10/7 |
| C165 | `Lv/Serial.lean`: `dcrep`, `order`, `tauArr`, `serialObs`, `serialProb`, `serialLl`, `serialGrad`, `polyserialLl` | sorted search by induction; chain rule; a minimum farthest from zero of a coercive function |
| C166 | `Lv/Sim.lean`: `ncatChoices`, `nWeights`, `quantiles`, `simTaus`, `digitizeE`, `binsInt` | prefix counts of sorted thresholds |
| C167 | `Rand/Lkj.lean`: `spiralN`, `spiralFlat`, `spiralFill`, `normalSamples`, `direction`, `lkjChol`, `lkj` | mirror positions never meet in a triangle; counting |
| C168 | `Rand/Corr.lean`: `vineEntry`, `vineCorr`, `fixEig`, `repair`, `onionQ`, `border`, `onionCorr` | triangular factor of partial correlations; completed squares |
| C169 | `Rand/Mvn.lean`: `exactRmvnorm`, `bartlett`, `chiDf`, `wishart`, `invwishart`, `rInvwishart` | uniqueness of the square root; second moments of Bartlett's factor |
| C170 | `Rand/Trunc.lean`: `firstOk`, `trAlpha`, `pzExp`, `pzUnif`, `truncZ`, `scalarTrunc` | first accepted draw; densities up to a constant |
| C171 | `Rand/Trunc.lean`: `multT`, `houseVec`, `houseMat`, `signD`, `specialOrtho` | products of reflections |
| C172 | `Lmm/Icc.lean`: `iccSummary`, `iccClass`, `iccFun` | field arithmetic |
| C173 | `Np/Xcorr.lean`: `xcorrBrute`, `xcorrFft`, `xcorrFftc`, `xcorrMat` | re-indexed sums; Cauchy-Schwarz |
| C174 | `Misc/Shash.lean`: `logpdf1` … `logpdf4`, programs of the language in `Misc/Expr.lean` | the programs are run on polynomials in the atoms, the entries compared with formal derivatives, by a checker proved sound; the kernel computes |
| C175 | `Misc/Shashr.lean`: `logpdf1` … `logpdf4` | the same checker with exponentials |
| C176 | `Misc/Sash.lean`: `prog` | the same checker |
| C177 | `Misc/SkewNorm.lean`: `prog`; `Misc/SkewDist.lean`: `logpdf`, `loglike`, `dloglike` | the same checker with the error function and π |
| C178 | `Misc/Sad.lean`: the straight-line program of `_grad_elementwise` and `_hess_elementwise`, the sums `_grad`, `_hess` | reflection as in C174 on the same setup as C176; the sums by linearity of the derivative |
| C179 | `Misc/ShashDist.lean`: all closed-form functions of `shash1.py`, `shashr.py`, `sinharcsinh_dist.py`; `ndtr`, `ndtri`, `kv` as parameters | `y ↦ sinh(t arcsinh((y - m)/s) - v)` is an increasing bijection of the line; change of variables |
| C180 | as C179 | `P q = E exp(q arcsinh X)` from the integral representation of the Bessel function by the substitution `x = sinh u`; powers of sinh by multiple angles; `skewness` and `excess_kurtosis` refuted |
| C181 | `Misc/SkewDist.lean` | integration by parts and symmetry for the moments; Fubini and the exchange `φ((x - tz)/r) φ(z) = φ(x) φ((z - tx)/r)` for the law of the draws |
| C182 | `Fa/OldRotation.lean`: both criterion classes, `vgq_cf`, `vgq_ob`, `rotate`, `d_rotate`, `f`, `df`; `vec` as a function of (column, row) | entrywise derivatives along curves; Kronecker products applied to `vec` |
| C183 | as C182, the tables of constants and of parameters by name | closed forms of both families; row sums of squares are invariant under rotation |
| C184 | as C182, the constraint matrices, their Jacobians, the linear system of `dL_dA_Ortho`, the mask of `unrotated_constraints` | product rule along curves, differentiation of the two defining equations of a rotated solution; counterexamples for the correlations and the mask |
| C185 | `Fa/OldRotation.lean`: the inner search, both outer loops and `rotate`; `svd` and `pinv` by contract | specification of the search by cases, loop invariants; polar factor of a multiple of an orthogonal matrix for the counterexample; `Fa/SvdProps.lean` shows that the contract of `svd` can be met |
| C186 | `Fa/OldEfa.lean`: parameters as a sum type, `vec`/`vech` as functions of positions; the array `self.E` as state between calls | derivatives along curves; Kronecker products applied to `vec`; a two-variable counterexample for the first call |
| C187 | `Fa/OldConc.lean`; `eigh` output as a pair `u, V`, `pinv` by the Penrose equations | reduction to the lemmas of C91 (`Fa/EigPathLemmas.lean`: Weyl's inequality, differentiability of simple eigenvectors) |
| C188 | `Fa/OldAug.lean`: the Jacobians, the bordered matrix, the rows kept, the covariance block | product rule along curves with C184; block inverse of the bordered matrix; counterexamples |
| C189 | `Fa/OldScores.lean`: `inv_sqrt`, `mat_sqrt` with their cutoff, all four methods, both modules; `eigh` and `svd` by contract | normal equations and orthogonality of the difference; spectral calculus; polar factor |
| C190 | `Fa/FitMeasures.lean`: counts, discrepancy, all indices; `nan` and `inf` as `none` | integer arithmetic; `kl_nonneg` of C64; traces as sums of squares; closed form of the chi-square survival function for even degrees of freedom |
| C191 | `Fa/OldEfaSetup.lean`: the inputs as flags, the counts as filters, `argsort` as a permutation, labels as lists of positions | prefix counting; entrywise identities; finite checks and the third label for all numbers of factors from four on |
| C192 | `Indep/Model.lean`: row and column sums, both centrings, the loop over pairs of `euclidean_distance`, the ratio with `nan` as `none`, permutations as a list | Schoenberg's theorem for distances (`Indep/KernelLemmas.lean`, as an integral of Gaussian kernels); Cauchy-Schwarz; sums over the symmetric group; a counterexample with p-value 4/3 |
| C193 | `Indep/Model.lean`: the kernel, the buffer of `median_bandwidth`, all kinds of bandwidth, the test | the Gaussian kernel as a limit of polynomials and its definiteness for distinct points; Hadamard products; finite counterexamples |
| C194 | `Mcmc/Model.lean`: both factorisations as functions with a contract, the block coefficient matrix, shapes and rates of the variance draws | the affine map of the draws and its covariance by block algebra; completing the square; the exponents of the posterior densities compared with likelihood times prior |
| C195 | `Mcmc/Model.lean`: one observation or one threshold vector per step, `nan` and unbound names as `none` | acceptance as a measure of the uniform draw, detailed balance; slice bounds solved by the logistic function; cumulative sums of exponentials |
| C196 | `Mcmc/Model.lean`: rescaling, p-value, labels and columns as lists | the normal integral of a normal distribution function; strict inequalities for the factor; lists of labels and contents matched position by position |
| C197 | `Glmm/Model.lean`: families by their functions of one observation, the step with a singular matrix as `none`, the loop with fuel, the objective | derivatives along lines; the tangent inequality of the cumulant; Woodbury and determinant identities; a Gaussian integral; the golden ratio as a false mode |
| C198 | `Glmm/Model.lean`: nodes and weights as a list, one effect per group, the shapes of the subtraction | moments of the normal distribution by parts; the change of variables; normal responses in closed form |
| C199 | `Glmm/Model.lean`: the two loops as entries, `inv` of a singular matrix as `none` | polynomial identities; the quadratic form of the inverse at a difference of vectors |
| C200 | `Lmm/Mlmm.lean`: rows with the response they belong to, orderings and factorisations as in `Lm.lean` | scaling the rows by the root of the residual variance turns it into the univariate model; invariance of likelihood, derivative and effects under scaling; two responses worked out exactly |
| C201 | `Lmm/Mlmm.lean`: positions as numbers, names as pairs of response and variable, the shared array | division and remainder; positions in nested lists |
| C202 | `Lmm/ReDesign.lean`: dictionaries as lists, triples by position | sums over blocks; induction over the terms with the last one split off |
| C203 | `Sem/Builder.lean`: the table as a list of rows, sets with an arbitrary order of enumeration, `nan` and infinity as constructors, `~` on booleans as Python has it | each step appends rows of one kind; counting rows by kind; the loops over first loadings touch the head of a filtered list |
| C204 | `Sem/Params.lean`: tables as lists, last assignment stands, slices and scatter on lists | the positions of the free rows and the flat indices are both increasing and have the same members; positions in concatenated blocks |
| C205 | `Sem/OldSem.lean`: parameters on a sum of index types, `pinv` as a parameter for each size, the work array as an argument | chain rule along curves; every block as a quadratic form through the commutation and duplication matrices, then one identity of matrix words |
| C206 | `Sem/OldSemSetup.lean`: cells as pairs, labels as their parts, tables with names | row and column order as sorted lists with the same members; the loop over latent variables touches each column once; concrete witnesses |
| C207 | `Sem/OldSemFit.lean`: chi-square tail and quantiles as parameters, divisions by zero as `none` | algebra on top of C190; scaling for the standardised residuals; finite sums for the tail at even degrees of freedom |
| C208 | `Glm/OldFamilies.lean`: canonical functions of one entry, not-a-number as `none` | derivatives in closed form; uniqueness of derivatives for the refutations |
| C209 | `Glm/OldFamilies.lean`: likelihoods, weights and residuals of one entry | chain rule through the inverse link for any family whose score is `-w (y - mu) / (phi V)`; comparison with C67 and C68 |
| C210 | `Glm/OldFamilies.lean`: the methods that differ from `pyglm2` | C34 and C35 with `dlink` replaced by an equal function; derivative of a power in its exponent |
| C211 | `Glm/Sampling.lean`: the call of numpy or scipy as a named distribution with its documented density | densities compared with C68 in closed form; refutation at one parameter |
| C212 | `Glm/Sampling.lean`: one row of `_predict`; `ndtri` as a parameter inverse to the normal distribution function | quadratic form; strict monotonicity of the normal distribution function; monotone inverse links |
| C213 | `Glm/Inference.lean`: the squared scores, the samples and `lln`; the optimiser as a parameter | Gram matrix; log-likelihood affine in the response, so that the sum over observations is the deviance at the mean |
| C214 | `Sem/AltGrad.lean`: the loop over the parameters with its work arrays as state; `value_counts` as a stable sort of the counts | the work arrays are zero after every step; both gradients reduced to the canonical form of C33 |
| C215 | `Sem/AltGrad.lean`: discrepancy, gradient and Hessian as functions of the covariance and its derivatives; the loop over pairs and the table of kinds as lists | derivatives along curves; the list of pairs computed in closed form |
| C216 | `Nmf/Model.lean`: arrays as functions of natural indices; `np.roll`, `np.pad` and slices entry by entry | index arithmetic modulo the length of the flattened array; linear integer arithmetic |
| C217 | `Nmf/Model.lean`: the updates entry by entry; the loop as a fold over states | the reconstruction is affine in one entry, so that the derivative is a correlation; refutation of the wrapped terms on five columns |
| C218 | `Sim/Factor.lean`: the columns found as a function of the rows, the signs as numbers | sums reindexed by a bijection; refutation on a target with two largest entries in one column |
| C219 | `Sim/Factor.lean`: blocks of `np.array_split` in closed form; the correlations entry by entry; shapes of the random branch | explicit triangular factor of the autoregressive matrix; arithmetic of quotients |
| C220 | `Sim/Population.lean`: unit and stratum as quotients; the marginal mean as a Gaussian integral; the adapter's bread and scores | symmetry of the normal law and strict concavity of the logistic function on pairs; the scale cancels in the sandwich of C26 |
| C221 | `Sim/Linear.lean`: scalars and entry functions; draws as parameters | algebra; distinct block starts of C219; the integral of C220 |
| C222 | `Sim/Cca.lean`: eigenvectors by their contract, inverse matrices | change of variables to whitened coordinates; refutation on two oblique columns |
| C223 | `Eln/Binom2.lean`: the loop with `active` as state; halving and outer loop over any vector space | the coordinate step of C107; tangents of the logistic loss; refutation of dropping on four rows and two columns |
| C224 | `Eln/Binom2.lean`: the rows of `betas` as a list with the view written back | loop invariant for the rows in closed form; subgradient conditions at the null model |
| C225 | `Eln/Glmen2.lean`: the cycle with `active` as state | scaling by `n` to the step of C107; refutation as in C223; a fit with one column for the screening |
| C226 | `Eln/Glmen2.lean`: a canonical family by cumulant, mean and variance; clipping included; the rows as a list | chain rule term by term inside the clipping limits; loop invariant for the rows |
| C227 | `Like/OldClm.lean`: the arrays of `__init__` as functions; the constraints as the list of closures over the last value of the loop variable | equality with the newer class of C99 under unit weights; refutation with four categories |
| C228 | `Like/OldClm.lean`: statistics as a record; `pd.cut` on a list of bins, raising as `none` | algebra of exponentials; counting thresholds below the predictor; refutation on two close thresholds |
| C229 | `Glm/OldGlm.lean`: the loops over an arbitrary objective and Newton step; the array `theta_init` as part of the result | induction over the iterations; derivative of the profile likelihood; refutations on one observation and on shapes |
| C230 | `Glm/OldGlm.lean`: the dictionary as a record | algebra; refutations for every number of parameters |
| C231 | `Sim/Mixed.lean`: the block diagonal covariance as one matrix; errors as `none`; the order of a set as a permutation | algebra of traces; refutations on two observations, by exchange of blocks and on shapes |
| C232 | `Sim/Mixed.lean`: memberships as functions; ranks within a parent by counting | counting residues and quotients; ranks are a bijection onto an initial segment; refutation on four observations |
| C233 | `Sem/SortKey.lean`: names as lists of code points, the set as a list in any order, a stable sort | digits without leading zeros are determined by the number; uniqueness of sorted rearrangements; refutations on names with the same key |
| C234 | `Sim/SemSim.lean`: model matrices of `Sem/Moments.lean`; generators as states | algebra of matrices; interval arithmetic; refutations on the range, on a cycle of paths and on the state of the module |
| C235 | `Lmm/Formula.lean`: strings as lists of characters; the regular expressions as scans; errors as `none` | induction along the string and the list of terms; refutations by computation on short formulas |
| C236 | `Sem/OldFlat.lean`: offsets as fields, blocks as in C47; `np.squeeze` of one element and assignment of unequal lengths as `none` | induction along the blocks; inversion of `vec` and `vech` from C11; cells from C47 |
| C237 | `Sem/Data.lean`: labels of any linear order, missing values as `none`, pandas covariance as pairwise deletion with its rule for the divisor; kinds of objects for the sample statistics | sums over fibres; sum of squares; refutations on small tables |
| C238 | `Sem/FitRun.lean`: the optimiser as any function from the call to a point and a gradient norm; dictionaries of C55; bounds through `unique` of C10; `np.sqrt` below zero as `none` | unfolding the two attempts; C55, C30; the sandwich as a sum of squares |
| C239 | `Vec/Jax.lean`: numbers static or traced, `int` of a traced one as `none` | entry by entry against `Vec/Model.lean` |
| C240 | `Lmm/ReTerms.lean`: sparse matrices as positions and data; `np.repeat` and `np.tile` as division and remainder; missing values as `none` | bilinear forms of the triplets, induction along the terms; the sorted pairs of `_dummy_encode` by uniqueness of sorted permutations |
| C241 | `Index/Tensor.lean`: one turn of the generator on lists, its run with fuel `n!`, the aliasing of the yielded list, writes into a tensor that raise outside the shape; `argsort` as any sorting permutation | the list cut at the two positions found; least successor in lexicographic order; the fuel suffices because the states are distinct rearrangements |
| C242 | `Vec/Apply.lean`: arrays with their shapes, products that raise when the shapes differ, flags and default sizes as written | the entrywise theorems C06 and C07; comparison of `n(n+1)/2` and `n^2` |
| C243 | `Eln/Lars.lean`: a turn of the loop over the reals, `cho_solve` as a parameter; turns that drop a variable left out (they raise, C74) | the recorded correlations as an invariant; the two quotients of each variable as the times at which it meets the common level; convexity for the lasso criterion |
| C244 | `Reg/ModelData.lean`: observations and columns as numbers and names, patsy's treatment of missing values as a filter on the rows of one formula | the mask as a filter on positions; the slices of the terms by induction on the terms, before and after the intercept; offsets by induction on the designs |
| C245 | `Like/Lane.lean`: the rounds with the permutations as a parameter, `np.linalg.cholesky` by its contract | the response of a round differs from the permuted residuals by a combination of the other columns, which moves no coefficient of interest and no residual |
| C246 | `Func/Cut.lean`: real values, the sorted array as a function of the place, linear interpolation | a quantile is at most a value exactly when its place is; the bin of place `i` is then a quotient of natural numbers |
| C247 | `Sem/OldTable.lean`: rows of names, sets as lists without repetition, nan as a missing place | a strictly increasing count for the numbers; case analysis of the masks for the cells; kernel checks for the tables |
| C248 | `Sem/OldDefaults.lean`: the checks as filters, the classes of variables as parameters, the rows of `Sem/OldTable.lean` | one counting lemma for adding what is missing, used for variances, means and the three kinds of pairs; case analysis of the masks for the sample values |
| C249 | `Sem/Labels.lean`: the loop over the six matrices as a fold of the column, texts as lists of characters; the coordinate is `thetaIndex` of `Sem/Share.lean` | joining words without spaces is injective, decimal texts are injective; the number of words separates the four kinds of labels |
| C250 | `Lmm/Profile.lean`: the refit as a function of the held value; `interp1d` with its clipped search and its extrapolation | the cell found by the search is characterised; monotonicity across cells; all real arithmetic |
| C251 | `Mv/SccaCv.lean`: columns as functions of the row; a constant column standardises to `none`; the folds through `Eln.arraySplit` | mean and standard deviation of an affine image; Cauchy–Schwarz; the fold lemmas of C105; real witnesses |
| C252 | `Lmm/ReTables.lean`: terms after factorising; slices, stored entries of the design, the three forms of the table; a missing group gives `none` | the positions of the long table are the range of all positions; quotient and remainder |
| C253 | `Lv/Binorm.lean` (as for C159), with the tabulated rule itself | symmetries of the integrand; positivity of the table; the quadrant probability by the arcsine; 63 integer bounds on the nodes checked in the kernel |
| C254 | `Func/Harmonic.lean`: the quotient of the fraction of C22; the expansion with its constant as an argument | monotonicity of the step of the expansion by derivatives, limits at infinity; the constant by the expansion at sixteen and a bound on log 2 |
| C255 | `Eln/LarsStats.lean`: the flags of the set up; the three estimates of the variance and the five columns of the table | sums of squares about the mean; the excess over the least sum of squares by the normal equations; bounds on e |
| C256 | `Sim/TermCoefs.lean`: the loop over the terms, the loop over the classes with assignment through a mask, the draw as an argument | induction over the tiled slices and over the sorted classes; the rank in a mask by counting an interval |
| C257 | `Sem/OldMats.lean`: free and starting matrices with the column `fixed`, the override for observed variables of the structural part, template and indexer | reduction to the tables of C204 under the consistency of `fixed` and `free` |
| C258 | `Lmm/ProfileFit.lean`: assignment and selection through the mask as insertion, objective and gradient with their functions as arguments | chain rule in finitely many dimensions; minimality by contract |
| C259 | `Sim/Mmr.lean`: design, coefficients, signal, scaling, colouring and the packed parameters, with the draws as arguments | matrix algebra; positive definiteness from C221, unpacking from C149 |
| C260 | `Sem/CovTemplate.lean`: template cells, the symmetric matrix read back, counts of cells, constraint and lower bounds | cases on the cell; quadratic form bounded row by row; explicit witness of two blocks |
| C261 | `Robust/Simul.lean`: one turn, the loop with its stopping rule, the two kinds of return value | algebra of weighted means; induction over the turns; explicit witnesses |
| C262 | `Glm/Start.lean`: starting means, weights, working responses and the weighted normal equations | order and field algebra; explicit witnesses |
| C263 | `Gam/SmoothBand.lean`: value and half width from the block of the covariance, quantile of the level | the row of the basis as a functional of all coefficients; reindexing of sums |
| C264 | `Mv/SccaResample.lean`: penalties, starts, permuted columns and folds of a resample | exponentials of an arithmetic sequence; reindexing; the partition of C251 |
| C265 | `Lmm/ResidTrace.lean`: the three terms from the inverse of the mixed model equations | matrix algebra; cyclic trace; Woodbury's identity |
| C266 | `Fa/AlignMat.lean`: positions as a sum type, the matrix column by column from unit vectors | signed permutations; injectivity on unordered pairs |
| C267 | `Sem/OldData.lean`: the loops over pairs and names as folds over the rows | folds of maps; rowwise specification |
| C268 | `Robust/MedNd.lean`: lines of a matrix, one index for all | order statistics by counting |
| C269 | `Lmm/LndetChol.lean`: the sum over terms, minus infinity as none | determinants of triangular and block diagonal matrices |
| C270 | `Calc/MatExp.lean`: divided differences between the Kronecker products of the eigenvectors | analyticity of the exponential; the derivative of `A exp A = exp A A`; conjugation by signs |
| C271 | `Eln/StartLam.lean`: the scores at the weighted mean over the mixing parameter | convexity by tangents; one-sided derivatives |
| C272 | `Reg/TermTests.lean`: `store`, slices of terms with the running offset | columns tagged with design and term; induction over designs |
| C273 | `Eln/CvPath.lean`: the loops over penalties and folds, `process_cv`, `fit_cv` | an inductive path of fits; induction over penalties and folds |
| C274 | `Eln/Glmen2Cv.lean`: standardisation, `crossval_path`, one fold of `_glm_elnet_cv` | moments of standardised columns; a rational standardised column |
| C275 | `Lmm/OldProfile.lean`: ends of the grid, signed roots, order of the rows | comparison with the newer profile of C250 |
| C276 | `Robust/FastS.lean`: stored scales, replacement of the largest, choice at the end | invariant: nothing dropped is smaller than anything kept |
| C277 | `Sem/OldTemplate.lean`: cells written in order, defaults, overwritten cells, lower triangle | induction over the writes with one lemma for written and unwritten cells |
| C278 | `Glm/OldPredict.lean`: shapes of designs and parameters, kinds of results, defaults | case analysis of the shapes |
| C279 | `Like/ClmBoot.lean`: resampled arrays, attributes during and after the loop | equality with the data of the resampled rows; monotonicity in the first threshold |
| C280 | `Eln/LarsDrop.lean`: quotients, smallest positive one, positions removed from the factor | sign of a product along the step; positions of a list |

Properties are appended as the model grows; the state of each one is in `MANIFEST.json`.

## Disagreements between the code and the stated properties

Each is proved in Lean as a concrete witness (theorem names in brackets); the positive theorem
then carries the exact guard under which the property does hold.

* C02 `inv_tril_indices` (k = 0) lists the diagonal twice [`C02_inv_tril_indices_violated`].
* C13 `cs_add`: if the preallocated pattern misses a non-zero position the value is added into a
  later column [`C13_cs_add_leak_violated`].
* C15 `id_sp_kron`/`id_sp_kron_inplace` pass `Bnc` as the number of rows: blocks overlap for
  non-square `B` [`C15_id_sp_kron_violated`].
* C18 `sum_preserving_round` of a vector of integers adds one to every entry (`a[-0:]` is the
  whole array) [`C18_sum_preserving_round_integers`, `C18_sum_preserving_round_violated`].
* C19 `allocate_from_proportions(10, [.5, .5])` is `[6, 6]` [`C19_allocate_violated`].
* C23 memoising wrappers return stale values when the extra arguments change, when a call at a
  point raised and is retried, and when points of different length broadcast
  [`C23_memoize_args_violated`, `C23_memoize_exception_violated`, `C23_memoize_broadcast_violated`].
* C24 without user options the returned dictionary is the module-level default itself
  [`C24_leakage_violated`].
* C53 `sum_preserving_min` can leave entries below the minimum [`C53_sum_preserving_min_violated`].
* C58 the k-th sign change, k ≥ 2, is miscounted [`C58_kth_violated`].
* C59 levels with zero total are lost in the round trip [`C59_crosstab_violated`].
* C61 `welford_variance` with axis ≥ 2 permutes the output positions [`C61_welford_axis_violated`].
* C62 `extremal_indices(arr, 0)` returns everything [`C62_extremal_zero_violated`].
* C27 with exactly one single-PSU stratum the aggregate policy renames it but it stays single
  [`C27_single_remains_violated`]; with two or more none is left [`C27_no_singletons`].
* C28 a second `*` in a term is silently ignored (`2*a*x` is a fixed loading on `a`)
  [`C28_double_star_violated`]; outside the well-formed grammar the property quantifies over.
* C29: for `f =~ x1 + x2; x1 ~ z` the latent-side order lists `x1` twice, so `z` gets index 3 in matrices with 3 rows (`C29_lav_order_violated`, for any sort). The order is a bijection when no latent-side variable is both an observed indicator and endogenous.
* C31: when a label is shared by a fixed and a free row, the free row loses its number or the fixed row gains one (`C31_label_fixed_*_violated`); the `ind` column is not shared across a label although the docstring says parameters are (`C31_ind_not_shared_violated`). Otherwise numbering is exact.
* C48: a covariance between a latent-side and a purely observed variable is sent to the factor covariance matrix, where the column does not exist (`C48_in_shape_violated`); `f =~ y` and `y ~ f` share one cell (`C48_injective_violated`).
* C30: `equality_constraint_mat(first_locs)` has `max(first_locs)+1` columns instead of `n_total_free`. If the last free row's label already occurred (e.g. every matrix shared across two groups, the default `shared`), `jac_free_to_theta` raises a dimension error, so `gradient` and `hessian` cannot be computed (`C30_jacobian_raises`, `C30_shared_groups_violated`). The value map itself is right for every label pattern, and the reduction is the exact transpose of it when the last label is new.
* C47: `add_offsets` stores `_offset_nnz`/`_offset_unq`, which nothing reads, so `slices_nonzero`/`slices_unique` overlap (`C47_slices_nonzero_violated`); the slices and flat indices used for storage are right.
* C33: the mean part of `_d2sigma_mu` for two structural coefficients (type 2) gives only `L B Ji B Jj B b`; the second derivative also has the term with `i` and `j` exchanged. `_d2loglike_mu` has both terms, so the Hessian is right and only `_d2sigma_mu` is wrong (`C33_d2mu_violated`).
* C64: `ModelData._initialize` computes `const[i] = -log|S| - p` from all columns of the data frame, and `subset_and_order` does not recompute it. With a column outside the model `fit_func` is shifted, and since `fi < -1` is replaced by infinity, the fit function can be infinite even at a perfect fit (`C64_extra_column_violated`). With exactly the model's columns it is non-negative and zero only at a perfect fit (`C64_nonneg_partial`).
* C35: `IdentityLink.dinv_link` is a static method with two parameters, so every call with one argument raises (`C35_identity_dinv_violated`).
* C35: `ProbitLink.d4link` calls `sp.special.erfinc`, which does not exist (`C35_probit_d4_violated`).
* C35: `PowerLink.d2inv_link` has the wrong sign for every exponent other than 0 and 1 (`C35_power_d2inv_violated`).
* C35: `NegativeBinomialLink.d2link` and `d4link` have the wrong sign everywhere (`C35_negbin_d2_violated`, `C35_negbin_d4_violated`); in consequence `hw` is wrong with this link (`C36_hw_negbin_link_violated`).
* C36: `NegativeBinomial._loglike` ignores `phi`, while `gw` and `hw` divide by it (`C36_negBinomial_phi_violated`).
* C36: `get_ehw` multiplies by the weights twice (`C36_ehw_partial`, `C36_ehw_violated`).
* C36: `get_g` and `get_w` call `self._get_a`, which no class defines (`C36_get_w_violated`).
* C65: the negative binomial cross block of `GLM._hessian` leaves out the weights (`C65_cross_nb_violated`).
* C65: with `scale_estimator = "M"` the objective depends on the coefficients through `phi` too, and `gradient` is not its derivative (`C65_M_violated`); `_optimize` avoids this by switching to `fixed`.
* C66: `signed_resid` ignores the weights (`C66_signed_violated`).
* C67: `InverseGaussian.d2llscale` has the wrong sign (`C67_llscale_invGaussian_violated`).
* C69: all four weight-derivative methods call `self._check_args`, which does not exist, and so raise (`C69_raises_violated`); the formulas after that call are right (`C69_a_partial`, `C69_w_partial`).
* C38: `Huber.__init__` ignores its argument (`self.c = 1.345`), so `Huber(c=2)` clips at 1.345 (`C38_init_violated`). All functions are right for the tuning constant actually in force.
* C38: `np.zeros_like(x)` inherits an integer dtype, so on integer residuals the Huber weights of outliers are truncated to 0 (`C38_integer_violated`).
* C70: the base class `MEstimator.E_psi` integrates `rho`, so `Bisquare().E_psi()` is positive where the expectation of psi is zero (`C70_base_psi_violated`). Huber overrides it and is right.
* C39: rotations with eigenvalue -1 (half turns) have no Cayley vector; `rot_to_vec` raises on them (`C39_half_turn`). This is inherent in the parametrisation and not counted as a defect.
* C73: `toeplitz_cholesky_lower_nb` never divides by `sqrt(A[0,0])`, so it is right only for unit diagonal (`C73_scale_violated`, 1x1 matrix 2).
* C74: `lars_drop_var` calls `chol_downdate` on the whole `n_var x n_var` array, whose rows beyond the active set are zero; the rotation then divides 0 by 0, which numba reports as `ZeroDivisionError` (`C74_drop_violated`, for every active set smaller than the number of variables).
* C45: `np.tril(d2M)` masks the last two axes (directions) instead of the first two (rows, columns), so a non-zero `d2M` leaves junk above the diagonal of `d2L` (`C45_upper_violated`). The package only passes zeros. The derivatives on and below the diagonal are right for any `d2M`.
* C50: the argument order is `ar1_chol(n, rho)`; for `n = 1` the index `L[1:, 1]` is out of range (not checked by the compiler).
* C76: `cov_transform.CholeskyCov` applies `UnconstrainedCholeskyCorr._fwd` (x/sqrt(1+|x|^2)) to the rows of the correlation Cholesky factor, which already have norm below one. The resulting parameters have squared row norm below 1/2, and the reverse map yields a negative radicand outside that set (`C76_unconstrained_violated`: 2x2, parameter 4/5). The round trip from covariance matrices, which is what the tests check, does hold (`C76_roundtrip_partial`). The newer `param_transforms.CholeskyCov` uses the stick-breaking transform instead.
* C44: `CombinedTransform._apply_transform` copies the "remaining" cells `last_index:` after the loop; when index ranges are given out of order this overwrites slices already transformed, while the Jacobian still reports the transform's derivative (`C44_unsorted_violated`). `ComposedTransform([])` returns its input from `_fwd`, but its Hessian methods raise (`C44_empty_violated`). Sorted ranges and nonempty compositions satisfy the full claim.
* C79: `_apply_method` allocates its result with `dtype=x.dtype`, so integer input silently truncates: `LogTransform().fwd(np.array([2]))` is `[0]` and the round trip gives `[1]` (`C79_integer_violated`). Float input is returned unchanged (`C79_float_partial`).
* C83: `_gcf_constants('quartimax')` returns `(0, 1, 1, -1)`, which weighs row and column complexity equally; quartimax is `(0, 1, 0, -1)`. On the loadings `[[1,0],[1,0]]` the coded criterion prefers a rotation that lowers the sum of fourth powers quartimax maximises (`C83_quartimax_violated`).
* C87: when the iteration limit is reached, `grad_norm` is the norm at the previous point, not at the returned one; the theorem speaks only of norms below the tolerance.
* C91: `hess_psi` drops the terms of eigenvalue pairs closer than 1e-12; for tied eigenvalues among the first `r` these terms do not cancel, so the theorem asks for separated eigenvalues (`C91_hess_psi_partial`).
* C92: with fewer than `k + 2` observations AICc is below AIC (`C92_aicc_violated`) and at `n = k + 1` the division raises (`C92_raises`).
* C93: `r2_mb` and `r2_ea` subtract the parameter count from minus the log-likelihood, so extra parameters are rewarded (`C93_adjusted_violated`).
* C93: `_lr_test` has the sign of genuine log-likelihoods while every model returns minus the log-likelihood; it has no caller (`C93_lr_partial`, `C93_lr_violated`).
* C94: the constraint closures bind late, so all of them test the last pair (`C94_constraint_violated`); a boolean mask is turned into a tuple of one array, so all masked entries are tied to the first value (`C94_mask_violated`).
* C96: the QR route assigns leverages summing to the number of columns to rank-deficient designs, where the Cholesky route raises (`C96_rank_violated`).
* C97: `_one_step_approx` divides the residual by `√(1-h)` instead of `1-h`, so its values are not the one-step deletion estimates (`C97_one_step_violated`; the exact factor is in `C97_one_step_partial`).
* C97: the one-step branch of `_jacknife` multiplies the design by the working weights instead of their square roots, a further factor `√φ` in the Gaussian case (`C97_jackknife_partial`, `C97_jackknife_violated`).
* C99: `_loglike` uses the artificial top threshold 300 (the derivatives use probability one), so for predictors near or above 300 its probabilities do not add up to one (`C99_objective_violated`); it is the function differentiated when the link has reached one there (`C99_objective_partial`).
* C99: `_hessian` omits the observation weights from the two terms with second derivatives of the link (`C99_hessian_violated`); exact for unit weights (`C99_hessian_partial`, `C99_hessian_unconstrained_partial`).
* C100: `mu_lower` and `mu_upper` both add up to one, so they cannot enclose `mu` entrywise; for the last category they are always the wrong way round (`C100_limits_rigid`, `C100_limits_reversed`, `C100_limits_violated`).
* C100: `fit(method, opt_kws)` calls `_fit(method, opt_kws)` by position: the method becomes the starting value, the options become the data (`C100_fit_options_violated`). The keys `loewr` and `uppwer` of the returned dictionaries are misspelt.
* C100: the null model of `fit` keeps all thresholds and an intercept and is not identified (`C100_null_redundant`).
* C101: the likelihood uses `gammaln(y)` for `gammaln(y + 1)`, so the probabilities add up to more than one (`C101_pmf_violated`; differs by the factor y, `C101_pmf_partial`). in the zero-inflation block of `_gradient` the weight of a zero count multiplies only one of two terms (`C101_gradient_violated`; exact when zero counts have unit weight, `C101_gradient_partial`, and always in the Poisson block, `C101_gradient_poisson`); `_hessian` is the derivative of the true gradient (`C101_hessian`).
* C102: `loglike_i` omits `w gammaln(y + 1)` (`C102_loglike_i_violated`).
* C102: weights are not replications: for zeros they divide the dispersion, for positive counts `log(1 - mu2)` is not weighted (`C102_weights_violated`, `C102_weights_positive`). `gradient_i` and `hessian` divide the dispersion by the weight also for positive counts, whereas `loglike` and `gradient` multiply, so they disagree unless positive counts have unit weight (`C102_gradient_i_violated`, `C102_hessian_violated`).
* C102: `predict` passes the variance where `ppf` expects the dispersion (`C102_predict_violated`).
* C102: `ZeroInflatedModel.__init__` refers to `ExponentialFamily`, which `zinf.py` does not import: constructing the class raises `NameError`. The static methods modelled here do not depend on it.
* C103: `eln_cd` drops a variable for good once its coefficient is zero, so its fixed points are minimal only among vectors that vanish there (`C103_sweep_fixed`): with two equal columns and default arguments `elnet` returns (0, 1/3), the minimum being at (1/5, 1/5) (`C103_minimum_violated`).
* C103: when the iterations are used up the last row of `fvals` is zero (`C103_stop_violated`); with `n_iters=0` the function raises. `elnet_grad` adds `lambda alpha` for negative coefficients too (`C103_grad_violated`).
* C104: `elnet` centres the response but not the columns; for uncentred columns the mean response is not the optimal intercept (`C104_intercept_violated`). The screening rule compares with a negative number and keeps everything (`C104_screen`). `GLMEN.fit` swaps objective values and active set for the Gaussian family and fails to unpack for the binomial family (`C104_fit_violated`).
* C106: `lasso_accelerated_grad` ignores its starting value in the first step and stops at the first increase, so from a good start it returns the start (`C106_accelerated_violated`).
* C107: a coefficient of at most 1e-12 is set to zero after its unrounded value has gone into the residuals (`C107_residual_violated`); `xv` of a dropped variable keeps its last value (`C107_stale`), so it can hold up the convergence test for ever.
* C108: `_binom_glmnet` has no step control and the deviance can rise (`C108_descent_violated`). The stopping rule ignores the intercept, and on stopping the old coefficients are returned with the new intercept (`C108_stop_violated`). `active` is mutated in place, so `nr_ent` has no effect (`C108_reentry`) and dropped variables never return (`C108_dropped`).
* C108: `cv_binom_glmnet` evaluates the validation folds without the intercept (`C108_cv_violated`), computes `lambda_max` from `y - logit(mean y)` instead of `y - mean y` (`C108_lambda_max_violated`; equal for centred columns), and its screening rule keeps everything (`C108_screen_violated`).
* C110: `_gradient_v2` passes `L_zz_sl` to `accumulate_gradient`, which the method used by `KronAG` does not accept: with a level covariance it raises (`C110_v2_violated`).
* C112: `KronAG` writes the inverse of the level covariance into the pattern of the covariance itself: for a tridiagonal covariance nine values go into seven places (`C112_kron_ag_violated`).
* C112: `C = ZtRZ + G` drops the positions that are zero at the identity, so a covariate that sums to zero within a group loses its covariance with the intercept, and `cs_add_inplace` adds part of it elsewhere (`C112_coefficient_matrix_violated`).
* C112: the cached index map of `KronIG` assumes that the diagonal blocks of `ZtZ` are stored whole; a covariate that is zero throughout a group makes the gradient take entries of other columns (`C112_index_map_violated`) or raise (`C112_index_map_raises`).
* C113: `approx_degfree` leaves out the factor two of Satterthwaite's formula: `(n-1)/2` degrees of freedom for a mean of `n` observations (`C113_one_sample_violated`). `_post_fit` reports one-sided p-values (`C113_p_value_violated`, `C113_duality_violated`). `lrt` ignores the fixed effects and the order of the models (`C113_lrt_violated`).
* C114: correlations beyond 0.999999 are clipped (`C114_clip_violated`); with three variables the parameters need not give a covariance matrix (`C114_posdef_violated`).
* C117: the passes of `grad_approx` and `hess_approx2` use powers of 4 whatever the ratio `v`, so they do not extrapolate for `v` other than 2 (`C117_gradient_violated`, `C117_hessian_violated`).
* C117: `jac_approx` unpacks `args` twice, so one or two scalar arguments raise (`C117_args_violated`); with an integer array the step is rounded to zero and every entry is 0/0 (`C117_integer_violated`).
* C118: outside the knots `crspline_basis` continues the last cubic piece, so the spline is not natural there: predictions beyond the data are cubic, not linear (`C118_natural_violated`).
* C119: with three knots (`df=3`) `_cc_mats` writes the two neighbours of a row into the same cell, so one is lost and the basis does not reproduce constants (`C119_three_knots_violated`); outside the knots the end cubics are continued rather than wrapped (`C119_period_violated`).
* C121: `bspline_knots` with degree 0 slices `[0:-0]` and returns no inner knots (`C121_degree_zero_violated`).
* C121: `_get_bsplines` calls `bspline_penalty` without its `degree`, and `bspline_penalty` passes `degree` twice and an unknown `intercept` to `bspline_basis`, so every `kind='bs'` smooth raises `TypeError` (`C121_calls_violated`).
* C123: with a `by` variable `xm = x0[x0!=0]` also drops observations of the category whose x is zero (`C123_by_values_violated`).
* C124: `get_parametric_formula` turns `y ~ s(x) - 1` into `y~1`, putting back the intercept that was removed (`C124_intercept_violated`).
* C124: a function whose name ends in s, such as `cos(z)`, is taken for a smooth (`C124_function_violated`).
* C124: two smooths of one variable share a dictionary key, so only the last is kept (`C124_same_variable_violated`); a smooth by category can clash with another variable's key, and then the parameter count exceeds the columns (`C124_key_violated`); column names can be duplicated (`C124_name_violated`).
* C125: `D[-1] = 1` treats the last coefficient as unpenalised, which is wrong for cyclic smooths, whose penalty is positive definite (`C125_cyclic_violated`); when the first smooth has one column `np.arange(min(ixp))` repeats indices (`C125_indices_violated`).
* C125: the Stan prior `normal(0, 1.0 ./ s)` has standard deviation 1/lambda, so its precision is lambda squared and not lambda (`C125_prior_violated`).
* C126: `pirls` returns the coefficients of the previous step; when the first step changes the deviance by less than the tolerance it returns the zero start and reports success (`C126_pirls_violated`).
* C126: the first term of `Vf` multiplies `XtX` by the scale where it should divide, so it is off by the square of the scale (`C126_frequentist_violated`).
* C126: `edf = trace(inv(Vb*XtX/scale))` takes an entrywise product and an inverse; it is not the trace of the hat matrix (`C126_edf_violated`).
* C127: where the Newton weight of an observation is exactly zero the working response divides by it, so the step is not a number although the Newton step exists (`C127_newton_violated`).
* C127: `fit` reports one tail of the t distribution as the p-value, so no p-value exceeds a half (`C127_pvalue_violated`).
* C127: a smooth with fewer than 0.05 effective degrees of freedom is tested against a chi-squared with none (`C127_rank_violated`).
* C128: `dw_deta` and `d2w_deta2` divide by `a`, which is zero for a Gaussian response with a log link at half the response, though the weight has both derivatives (`C128_family_violated`).
* C128: `NegativeBinomialLink.d2link` has the wrong sign (`C128_negbin_violated`).
* C128: `llscale` is `None` for negative binomial, Poisson and binomial families, so `GAM.reml` raises for them (`C128_scale_violated`).
* C129: from four variables on `get_antedependence1_corr` fills the upper triangle in the order of the lower one, so the result is not symmetric (`C129_ante_violated`).
* C129: `get_exchangeable_corr` with its default of one variable divides by zero (`C129_exchangeable_violated`).
* C129: `get_mdependent_corr` and `get_toeplitz_corr` do not check that the result is positive semidefinite (`C129_mdependent_violated`, `C129_toeplitz_violated`).
* C129: `get_spatialgaussian_corr` is the exponential structure with the range squared (`C129_spatial_violated`).
* C130: `near_psd` writes the diagonal after raising the eigenvalues, so its result can have a negative eigenvalue with the default arguments (`C130_near_violated`).
* C130: `_whiten` does not centre the data, so `_exact_cov` misses the mean asked for, and with `keep_mean` adds the mean a second time (`C130_exact_violated`).
* C130: `_get_joint_corr_eig` only normalises the directions, so correlated directions give other canonical correlations and matrices that are not positive semidefinite (`C130_canvar_eig_violated`).
* `BetaReg.fit` takes the objective (minus the log likelihood) for the log likelihood: AIC falls as the fit worsens, the McFadden index is not `1 - l1/l0`, the Aldrich-Nelson index is its complement and the Nagelkerke index can be negative (`C132_aic_violated`, `C132_mcf_violated`, `C132_mfa_violated`, `C132_nagelkerke_violated`).
* `BetaReg.fit` on arrays raises, for it calls `tolist` on lists (`C132_labels_violated`).
* `NegativeBinomial.bootstrap` restores `X` and `Y` but leaves `y` at the last resample (`C133_bootstrap_violated`).
* `ZIP._llc` is `gammaln(y)`, not `gammaln(y + 1)`: the likelihood is too large by the product of the positive counts and the terms are no probabilities (`C134_normalised_violated`); estimates are not affected (`C134_loglike_partial`).
* `ZIP.fit`: the corrected AIC adds half the correction, the Cox-Snell index has exponent `1/N`, the adjusted McFadden index rewards parameters, and data frames cannot be labelled (`C134_aicc_violated`, `C134_cs_violated`, `C134_mcfa_violated`, `C134_labels_violated`).
* `RobustLM.fit` computes the covariances from unscaled residuals, so the standard errors depend on the units of the response (`C135_cov_violated`).
* `RobustLM.irwls` passes square roots of the weights to `nwls`, which takes the weights themselves; its fixed points are not stationary points of the objective (`C135_irwls_violated`).
* `qn_estimator` raises for fewer than four observations and takes too large an order statistic: the `k`-th from zero with `ceil` for `floor` (`C136_qn_small_violated`, `C136_qn_violated`, `C136_qn_index`).
* `qn_estimator2` counts the zero distance of every point to itself; it is zero for any four observations (`C136_qn2_violated`).
* `threshold_search` returns the midpoint of the final interval, which may lie below the exact threshold, so the returned vector can exceed the l1 bound by up to the tolerance (`C137_constraint_violated`).
* `l2_penalty` never returns less than 0.05, so short directions are not normalised to unit length (`C138_norm_violated`).
* `orthogonalize_components` zeroes weights below 1e-12 whatever the scale of the data, after which scores need not be orthogonal (`C139_orthogonalize_violated`).
* `SCCA.fit` reads entries 0 and 2 of the half vectorised score correlations: for the default single component this is an index error, for three or more it averages an off-diagonal correlation (`C140_lmax_violated`).
* `permutation_test` divides the second starting vector by the norm of the already normalised first one (`C140_perm_init`).
* `CCA._eig_isq` leaves eigenvalues at or below 1e-16 as they are instead of inverting or zeroing them (`C141_cutoff_violated`).
* `CCA._fit` with default `n_comps` makes `p` labels for `min(p, q)` columns and raises when the second set is smaller (`C141_columns_violated`).
* `_fast_ica` multiplies the mean slopes on the wrong side (`E_dGy.dot(W)` scales rows where components are columns): a separating matrix is not a fixed point (`C142_update_violated`).
* `convergence_check` compares rows where components are columns (`C142_convergence_violated`).
* `VarCorrReparam` of prf.py and model_matrices.py enumerates correlations row by row in one place and column by column in another; from four variables on, correlations are exchanged and the two transformations are not inverse (`C143_order_violated`).
* `_fast_ica2` has the multipliers with the wrong sign: a separating matrix is not a fixed point (`C142_mle_violated`).
* `BetaReg` adds the number of parameters to the wrong side of the adjusted McFadden index (`C132_mcfa_violated`).
* `LMM.loglike` takes the last pivot of `cholesky(M).L()` for `y'Py`; CHOLMOD permutes the rows, and where the response is not last the value is wrong (`C144_ordering_violated`).
* `LMM.hessian` ignores `reml`: for maximum likelihood it is not the derivative of the gradient (`C145_hessian_ml_violated`).
* `LMM.pls` solves with `solve_L` without applying the permutation (`C146_pls_order_violated`) and takes the covariance parameters relative to the residual variance, unlike `loglike` (`C146_pls_scale_violated`).
* `hessian_chol` inherits the ignored `reml` (`C147_hessian_chol_ml_violated`), and `_post_fit` never passes `reml`, so standard errors of a maximum likelihood fit use the restricted criterion (`C148_se_ml_violated`).
* `LMM.approx_degfree` gives zero degrees of freedom whenever Satterthwaite's value is at most two (`C148_satterthwaite_violated`, `C148_one_sample` for two or three observations).
* `LMM.fit` replaces the t statistics of fixed effects by their absolute values (`C148_t_violated`) and reports one-sided p-values without the adjustment (`C148_p_violated`).
* `_hotelling_ftest` divides by `n_par - 1`, so `test_hypothesis` and `fit` raise `ZeroDivisionError` whenever the error degrees of freedom exceed the number of responses by three (`C151_crash_violated`).
* For at most one more error degree of freedom than responses `_hotelling_ftest` reports half the exact F statistic with half the denominator degrees of freedom (`C151_small_sample_violated`): `s(sn+1)` stands where `2(sn+1)` is meant.
* `OLS._permutation_test` takes the sum of squares of the original response in the error variance of the permuted one; the variance can be negative (`C153_perm_violated`). It also reads the attribute `tvalues`, which no class sets.
* `OLS` accepts weights, documented as applied during fitting, and ignores them (`C153_weights_violated`).
* `OLS._bootstrap` stores the residual sum of squares in the column where `params` has the log variance (`C153_boot_violated`).
* `OLS.fit` centres at the mean also without a constant; the reported R2 can then be negative (`C153_no_constant_violated`).
* `compute_bias_corrected_bootstrap_intervals` counts the resamples above the estimate, so the bias correction has the opposite sign of the BCa definition and doubles the bias instead of removing it (`C154_bca_violated`, `C154_translation_violated`). The second `np.divide` has no `out`, so it leaves uninitialised values where its denominator vanishes.
* The column `VIF` of `pyglm.OLS` is the reciprocal of a diagonal entry of the inverse cross products, which has the unit of the column squared, not the variance inflation factor (`C155_vif_violated`); the column `VDP` is the reciprocal of the squared singular value (`C155_vdp_violated`).
* `pyglm.OLS.get_influence` adds `1/n` to leverages that already contain the constant and counts one parameter too many; its studentised residuals also leave the leverage out of the deleted variance (`C155_influence_violated`).
* `pyglm.OLS.permutation_test(store_samples=True)` compares a vector of rounds with a vector of coefficients, which raises for ordinary sizes, and forgets the absolute value (`C155_stored_violated`).
* `LogbLink(b)` stores `0.01` whatever `b` it is given (`C156_offset_violated`).
* `GauLS.reml` fails when only the scale has smooths: the second loop of `logdetS` reuses the index of the first (`C158_gradient_violated`).
* The p-values of `GauLS.fit` are one-sided (`C158_pvalue_violated`); `aic` adds two for a scale parameter that does not exist (`C158_aic_violated`); `rsquared` compares the response with the linear predictor (`C158_rsquared_violated`).
* `GauLS.predict_component` decides about the intercept of the scale by looking at the location (`C158_predict_violated`).
* `generate_indices(first_indices_change_fastest=True)` makes the last index change fastest (`C160_flag_violated`).
* `convert_acm` is the inverse of the conversion it documents (`C160_convert_violated`).
* `Polychor.gradient` does not follow the clamp of `loglike` (`C161_gradient_violated`); `Polychor.hessian` clamps the squared probability at `1e-16`, so it is wrong at every cell with probability below `1e-8` (`C161_hessian_violated`).
* `_fit_qml_newton` reports the score before its last step: when `max_iter` is reached `final_g` and `success` do not describe the point returned (`C162_report_violated`); `max_iter = 0` raises (`C162_zero_iter`).
* `Polychor.get_acov` indexes the influence matrices by the codes `X - min`, so a skipped code raises although the table is well formed (`C163_codes_violated`).
* `_build_g_W` subtracts products of sums where products of means are due; outside the two-step solution a variance can be negative (`C163_centring_violated`).
* `Polychoric` of lvcorr.py counts missing values as a category of their own when it computes thresholds, so the cells of a table do not fill the plane (`C164_nan_violated`); a category that only occurs next to missing values shifts the thresholds of the others (`C164_dropped_violated`). `_get_threshold(outer=False)` always raises (`C164_outer_violated`).
* `dcrep` gives an entry that is no key the value of the next key (`C165_dcrep_violated`).
* `Polyserial` does not standardise the continuous variable, so the estimate depends on its unit (`C165_scale_violated`).
* `random_thresholds(ncat=c)` gives variables with `c - 2` categories, and `cat_sizes` says `c - 1` (`C166_ncat_violated`); `max_cat` is never drawn (`C166_max_violated`).
* `r_lkj_cholesky` and `r_lkj` raise for their default `dim=1` (`C167_one_violated`).
* `vine_corr` loops over `range(k-1, 1, -1)`, leaving out the indices 0 and 1, so the result need not be positive semidefinite from three variables on (`C168_vine_violated`); `onion_corr(1)` is two by two (`C168_onion_one_violated`).
* `scalar_truncnorm` without bounds returns `mu - (mu + sd e) sd` (`C170_unbounded_violated`).
* `multivariate_t` adds the mean twice (`C171_t_violated`).
* `icc` writes the F ratios into the row `ms` and leaves the row `f` zero (`C172_anova_violated`).
* `xcorr_brute`, `xcorr_fftc` and `xcorr_mat` mirror the values of positive lags onto the negative ones (`C173_negative_violated`); an unknown normalisation raises `UnboundLocalError` (`C173_name_violated`).
* Every method of class `SkewNorm` passes five arguments to a function of four and raises (`C177_class_violated`).
* **C180.** `skewness` in `shash1.py` is wrong for every `v ≠ 0`: it uses `E Z²` as if it were the variance, so the cubic term has the wrong coefficient (`C180_skewness_violated`). `skew` in the same file is right.
* **C180.** `excess_kurtosis` in `shash1.py` is wrong for every `v < 0`: `-4 E_Z**3` stands for `-4 E_Z_3 E_Z` and `+3 E_Z**4` for `-3 E_Z**4` (`C180_excess_violated`). `kurt` is right.
* **C181.** `_skewness` of `skewnorm_dist.py` divides by `v**2`; with `v = 0` as a Python number it raises, though the skewness is zero (`C181_skewness_violated`).
* **C182.** `TargetRotation` with weights other than zero and one: `dQ` multiplies by `W` where the derivative of its `Q` has `W**2`, and `vgQ` pairs it with this `Q` (`C182_target_violated`).
* **C183.** `get_gcf_constants('quartimax')` has `k3 = 1`; the class then minimises another criterion than `vgq_cf` with the same name, and can prefer loadings with smaller fourth powers, which quartimax is to maximise (`C183_quartimax_violated`).
* **C183.** `get_gamma_ob('equamax')` returns `p / 2` where the family has `k / 2`: equamax with `method='oblimin'` and with `method='cf'` are different rotations (`C183_equamax_violated`).
* **C184.** `dC_dP_Obl` is right only where the off-diagonal constraints vanish, the stationary point; elsewhere it is not the derivative (`C184_oblique_correlations_violated`).
* **C184.** `oblique_constraint_derivs` takes one of the two positions of a correlation in `Phi`, so the block for the correlations is wrong (`C184_derivs_correlations_violated`).
* **C184.** `unrotated_constraints` masks the `m(m+1)/2` rows with the lower triangle of a `p x p` matrix: it raises unless `p = m`, and for `p = m = 3` it keeps the constraint `(1,1)` and loses `(2,0)` (`C184_unrotated_mask`, `C184_unrotated_violated`).
* **C185.** After ten steps that fail the test the last step is taken all the same, so the criterion can increase: quartimax with the loadings `(8, 4)` goes from 512 to 800 in the first iteration (`C185_descent_violated`).
* **C91, C187.** With tied eigenvalues among those used the Hessian of the concentrated likelihood depends on which valid eigenvectors the library returns (`C91_ties_violated`, `C187_ties_violated`).
* **C186.** `FactorAnalysis` starts with the identity in `self.E`, which `d2sigma` and the Hessians use as a zero array: the first call of `hessian` and of `hessian_augmented` is wrong, later calls are right (`C186_first_call_violated`, `C186_first_augmented_violated`).
* **C187.** `hessian_canonical` has the wrong sign (`C187_canonical`, `C187_canonical_violated`).
* **C188.** `FactorAnalysis` borders the Hessian in the unique variances with the Jacobian in their logarithms (`C188_augmented_violated`), and `constraint_jac` without rotation raises for every number of factors (`C188_jac_violated`).
* **C189.** `compute_factors` of `factor_analysis.py` combines the correlations of the data with loadings of the covariances: unless the variables are standardised the scores have neither the least error (`thurstone`) nor the correlations of the factors (`tenberge`) (`C189_compute_violated`).
* **C190.** The counts of parameters leave out the `m(m-1)/2` rotations (twice as many for oblique rotation): from two factors on the degrees of freedom are too few, differ between rotations of one fit, and can be negative for identified models (`C190_df`, `C190_df_violated`).
* **C190.** `rmsea` of `efa.py` divides by the degrees of freedom of the null model, and `np.max(x, 0)` takes 0 for the axis: too small, or `nan` where it should be zero (`C190_rmsea_violated`).
* **C190.** `lr_test` ignores `df` and takes `p(p+1)/2` for the p-value (`C190_lr_violated`); `srmr` leaves out the variances (`C190_srmr_violated`); `cfi` can be negative or `0/0` (`C190_cfi_violated`).
* **C191.** `_process_data` raises for data together with covariances (`C191_inputs_violated`); `_init_psi` subtracts unscaled eigenvectors, so starting variances can be negative (`C191_start_violated`).
* **C191.** `order_loadings` applies the signs of the columns in their old places, and removes a column with sum zero (`C191_signs_violated`, `C191_contrast_violated`); `_reorder_factors`, not called at present, changes the sign of rows of `T` (`C191_reorder_violated`).
* **C191.** The labels of the factor correlations run by rows, the values by columns: from four factors on they are exchanged (`C191_labels_violated`).
* **C192.** `dcorr_permutation_test` divides the count by the number of observations instead of the number of permutations when the samples are not returned; the p-value can exceed one (`C192_pvalue_violated`). The unbiased correlation is `nan` for equidistant, non-constant samples (`C192_unbiased_equidistant_violated`).
* **C193.** The bandwidth `nvars` uses the number of observations instead of variables (`C193_nvars_violated`); the median bandwidth is zero, and the statistic `nan`, when at least half of the pairs are equal (`C193_median_violated`).
* **C194.** The default prior of the residual variance of normal models subtracts 2 twice (once in `nu`, once in the prior): the posterior is that of a prior proportional to the variance, and with at most three observations the gamma draw raises (`C194_default_prior_violated`).
* **C195.** `sample_tau` reads its loop variable after the loop: with two categories the loop is empty and the first call raises (`C195_tau_binary_violated`).
* **C196.** For binary responses the factor is √(1 + c) instead of √(1 + c²) (`C196_scale_violated`); variances are divided by it instead of its square, so they disagree with the rescaled random effects (`C196_scale_variance_violated`); the p-value is one sided (`C196_pvalue_violated`); `aggregate_samples` raises unless random effects were saved (`C196_aggregate_violated`).
* **C197.** `pirls` uses the score of a canonical link; the reciprocal link of the gamma (and inverse Gaussian) family is minus the natural parameter, so the steps go the wrong way and fixed points are not modes (`C197_gamma_violated`).
* **C198.** `GLMM_AGQ.loglike` evaluates the integrand without dividing by the weight `exp(-z²/2)` of the rule and compensates by √2, which is right for the quadratic expansion alone: from three nodes on no constant factor makes it exact (`C198_rule_violated`). With several random effects per group the penalty has the wrong length and the call raises (`C198_shape_violated`).
* **C199.** `approx_hess` never stores the entries off the diagonal: standard errors are those with all other parameters known, always too small (`C199_understated`, `C199_cross_violated`). For families with a free residual variance the objective does not use it, the Hessian is singular and `fit` raises (`C199_resid_violated`).
* **C200.** Without `reml`, `MLMM.loglike` takes the last residual variance for all rows in the log determinant (`C200_ml_value`, `C200_ml_violated`). `loglike_c` passes `reml` in the place of `use_sparse`, so a fit by maximum likelihood minimises the restricted likelihood (`C200_objective_violated`), with the gradient of the other one (`C200_fit_gradient_violated`).
* **C201.** `MLMM.fit` names coefficients and covariances response by response although they are stored variable by variable (`C201_names_violated`, `C201_labels_violated`). `transform_theta` overwrites `self.theta` (`C201_theta_violated`), and a second fit reads natural parameters as transformed ones (`C201_refit_violated`). p values are one sided (`C201_pvalue_violated`).
* **C202.** Two terms with the same grouping factor share an entry of `dim_dict`: the covariance is smaller than the design (`C202_dims_violated`).
* **C203.** `~` on a Python bool is never false, so `lvx_cov` and `y_cov` are ignored (`C203_flags_ignored_violated`); `fix_first=False` raises (`C203_fix_first_false_raises_violated`); `fix_lv_var=True` leaves `nan` in the parameter template (`C203_fix_lv_var_violated`); a formula that spells out every variance, covariance and mean raises `KeyError` (`C203_complete_formula_raises_violated`); the starting value for loadings goes to the fixed one (`C203_start_on_fixed_violated`). A precedence error in `check_latent_dummies` (model_builder.py 237) makes its exclusion mask constant, without effect on the result.
* **C204.** Holds as stated, except that a vector with one element is spread over all free parameters by numpy (`C204_wrong_length` excludes it). `transform_group_free_to_par` (model_specification.py 126-132) reads an attribute `indexers` that no class sets; nothing calls it.
* **C206.** Labels of loadings and regressions are in row order while the parameters are in column order (`C206_labels_violated`); the default indicator is the largest value, not the first variable, and with negative values no loading is fixed (`C206_default_violated`); an indicator marked with one fixes nothing unless its loading is exactly one (`C206_given_violated`); `Lambda` is put in the order of the covariance, `Psi` is not (`C206_align_violated`); a covariance without data raises (`C206_cov_only_raises_violated`).
* **C207.** The p-value uses the number of free parameters in place of the degrees of freedom (`C207_pvalue_violated`); `CN01` and `CN05` carry each other's values (`C207_critical_n_violated`); SRMR divides squared residuals by one power of the standard deviations and so depends on the units (`C207_srmr_violated`). The statistic is `n - 1` times the discrepancy although the covariance has divisor `n`; `C207_chi2` states the factor.
* **C208.** `d2canonical` is 1 for the Gaussian family instead of 0 (`C208_gaussian_d2_violated`); the canonical parameter of the inverse Gaussian family is `1/mu²`, so its mean function is not a number (`C208_invGaussian_theta_violated`), and `d2canonical` has the wrong sign in `pyglm` and is not a number in `pylmm` (`C208_invGaussian_d2_violated`); the negative binomial mean function returns minus the mean (`C208_negBinomial_mean_violated`) and its cumulant is right only for dispersion one (`C208_negBinomial_cumulant_violated`).
* **C209.** `_loglike` of the Gaussian and inverse Gaussian families in `pylmm` is twice that of the others (`C209_units_violated`), and `gw` half its derivative; the inverse Gaussian density has the wrong power of `y` (`C209_invGaussian_density_violated`); `hw` of the Gaussian family depends on the response (`C209_hw_gaussian_violated`) and that of the inverse Gaussian is not a number; negative binomial weights ignore the scale in the variance (`C209_gw_negBinomial_violated`), `dtau` is wrong unless `mu = 1` or `y = mu` (`C209_dtau_negBinomial`), `d2tau` is wrong (`C209_d2tau_negBinomial_violated`); `d2tau` of the Gaussian family is half the derivative of `dtau`; Pearson residuals use the variance at `mean_func(mu)` (`C209_pearson_poisson_violated`, `C209_pearson_gamma_violated`); `d2link` always raises (`C209_d2link_violated`).
* **C210.** `PowerLink` of `pylmm` differentiates the inverse in the exponent instead of the linear predictor (`C210_power_alpha`, `C210_power_violated`), so that `dlink` divides by zero at one; `ProbitLink.d4link` raises.
* **C211.** The inverse Gaussian family draws with the root of the scale as its shape instead of the inverse, right only for scale one (`C211_invGaussian_rvs_violated`), and its quantiles are those of a distribution that lies above the mean (`C211_invGaussian_ppf_violated`); the Poisson quantile function always raises (`C211_poisson_ppf_violated`).
* **C212.** `pyglm` uses the variance in place of the standard error, right only for variance one (`C212_pyglm_violated`); for a decreasing link the lower limit of the mean is above the upper (`C212_mean_ci_violated`); the prediction interval raises for every family but the binomial (`C212_predicted_violated`).
* **C213.** Weights given to the model are ignored by the robust covariance (`C213_robust_violated`) and the bootstrap (`C213_bootstrap_violated`); the bootstrap of `pyglm` raises without a progress bar (`C213_bootstrapO_violated`); the null model uses the unweighted mean (`C213_null_violated`), and that of the negative binomial family raises with the default scale estimator (`C213_null_negBinomial_violated`).
* **C214.** The multigroup model takes its weights from `value_counts`, sorted by decreasing size, and applies them to the groups in order (`C214_weights_violated`); right only when sizes do not increase. That module also imports names that `derivatives.py` does not define, so it cannot be imported as it stands; the formulas are stated for its text.
* **C215.** `_gradient_direct` always raises (`C215_direct_violated`); a model with exactly one free parameter cannot be constructed (`C215_single_violated`).
* **C216.** `shift` does not shift but blanks the margins (`C216_shift_violated`), so that the penalty reported by `seqnmf_objfunc` does not use the correlations (`C216_objfunc_violated`); the 'same' part of `conv2` is the centred one only for one to three rows (`C216_conv2_violated`); the scaling step shrinks the reconstruction through its `epsilon` (`C216_scaling_violated`).
* **C217.** The denominators of both updates wrap the reconstruction around the ends of the series (`C217_wtxhat_violated`, `C217_xhatht_violated`); the penalty recorded is the largest column sum (`C217_norm_violated`); the error at the start is overwritten (`C217_trace_violated`); `shift_factors=True` always raises (`C217_center_violated`).
* **C218.** The column found for each factor is the largest entry of its row, and two rows may share it: then a factor is lost and the aligned model implies another covariance (`C218_cov_violated`).
* **C219.** At correlation one the factor correlations are singular (`C219_corr_violated`); random factor correlations keep the sample axes, so that the constructor raises (`C219_random_violated`); the simulation study calls `np.matmul` with one operand and raises in its first replication (`C219_run_violated`).
* **C220.** With cluster effects the reported coefficients are conditional ones: the marginal mean is smaller than the logistic function of the predictor where that is positive, and no intercept repairs it (`C220_binomial_violated`, `C220_intercept_violated`).
* **C221.** The sparse simulator ignores `rho` (`C221_rho_violated`) and adds noise to the linear predictor of binomial responses (`C221_binomial_violated`); a generator given is never used (`C221_rng_violated`); default levels are lost and any categorical term raises (`C221_levels_violated`); the intercept can take the only non-zero coefficient (`C221_coefs_violated`); targets outside (0,1) are ignored silently (`C221_target_violated`).
* **C222.** Given coefficients are normalised but not made orthogonal: the canonical correlations are not those asked for, and the joint matrix may be indefinite (`C222_coefs_violated`).
* **C223.** A variable at zero after the first cycle is never visited again, so that the inner loop may stop far from the minimum (`C223_dropped_violated`); the working residuals leave the observation weights out (`C223_weights_violated`).
* **C224.** The row passed to the solver is a view into which the solver writes: row `i` returned holds the solution for penalty `i+1` (`C224_path_violated`); the grid is computed from raw columns, the fit uses standardised ones (`C224_grid_violated`); weights are replaced by ones (`C224_weights_violated`); validation applies the coefficients to raw columns (`C224_cv_violated`).
* **C225.** Dropped variables never come back (`C225_dropped_violated`); the screening rule leaves out `alpha` and excludes variables that the penalty admits (`C225_screen_violated`).
* **C226.** `dev_grad` belongs to half the deviance, `dev_hess` to the whole (`C226_scale_violated`); beyond the clipping limits the gradient is not that of the objective (`C226_clip_violated`); in a fold the start is not the mean (`C226_start_violated`); the warm start lags one fit behind (`C226_warm_violated`).
* **C227.** The constraints of the older `CLM` are made by a list comprehension of lambdas over `i`; each reads `i` when called, so all of them are the constraint on the last two thresholds. With four or more categories the other thresholds may cross and a category gets negative probability (`C227_order_violated`). As in C99 the likelihood has a finite top threshold which the gradient does not (`C227_objective_violated`).
* **C228.** `LLR` is half the likelihood ratio statistic but is referred to the chi-squared distribution (`C228_llr_violated`); its degrees of freedom are one short unless the formula has a constant (`C228_df_violated`); the adjusted McFadden measure rises with the number of predictors (`C228_adjusted_violated`). `predict` gives the median category, not the most probable one (`C228_mode_violated`), and its position in place of the response (`C228_labels_violated`).
* **C229.** `_fit_manual` updates `self.theta_init` in place (`C229_start_kept_violated`). The cross block of `hessian` ignores the data passed, so that bootstrap fits with `NR` use the wrong matrix (`C229_cross_violated`). The starting log scale is the scale (`C229_start_scale_violated`). A plain vector of responses makes the starting values of Gamma models raise (`C229_start_shape_violated`). With the moment scale the gradient is proportional to that of the objective and not equal (`C229_gradient_M`).
* **C230.** `aic` charges one per parameter in place of two (`C230_aic_violated`, `C230_aic_order_violated`); the adjusted McFadden measure has the wrong sign (`C230_adjusted_violated`); weighted Pearson residuals carry the weight and not its root (`C230_pearson_violated`).
* **C231.** `get_var_comps` of the older simulator takes only the diagonal of the covariance of the random effects (`C231_old_covariance_violated`) and the uncentred second moment of the fixed part (`C231_old_centre_violated`), so the shares are not those asked for. Random effects are put together in the order of a Python set and not in that of the columns of `Z` (`C231_order_violated`). Without ratios `theta_true` says one for the residual variance (`C231_resid_violated`). `update_model` raises for the vectors which `simulate_response` returns (`C231_update_violated`). The newer simulator is right for a given design, but `rescaled` draws the covariates again, which changes the variance of nonlinear terms (`C231_redraw_violated`), and a share of zero for the fixed part is not rejected (`C231_zero_share_violated`).
* **C232.** A repeated and a tiled grouping are said to be crossed automatically; they are only if a level of the first has as many observations as the second has levels (`C232_crossed_violated`). Two default groupings of the older simulator are confounded (`C232_old_confounded_violated`).
* **C233.** `re.match` ignores what follows the number, so `x1a` and `x1b` have the same key, as have `x` and `x0`, and `x1` and `x01`; their order is then that of a set of strings, which is random between runs (`C233_order_violated`, `C233_suffix`). An underscore before the number loses the natural order (`C233_natural_violated`).
* **C234.** The data are drawn from the generator of the module and not from the one passed in (`C234_seed_violated`). The upper bound of the group size is excluded and equal bounds raise (`C234_sizes_violated`). Cyclic paths may be given values without a reduced form (`C234_loop_violated`).
* **C235.** `parse_random_effects` raises if there is no random effect (`C235_none_violated`). Variables are cut at `+` without stripping, so the constant stays among them and a variable can occur twice under two spellings (`C235_variables_violated`). A double bar is read as a name (`C235_double_bar_violated`), a function inside a random effect makes it raise (`C235_function_violated`), and a minus or nothing before the first random effect leaves a formula which does not parse (`C235_minus_violated`, `C235_empty_violated`).
* **C236.** `update_offsets` sets attributes nothing reads (`C236_update_violated`); `set_equal` raises if the block has one free entry (`C236_single_violated`); setting a parameter to zero leaves its cell among the rows and columns (`C236_fix_violated`).
* **C237.** With missing values the sample covariance need not be positive semidefinite (`C237_psd_violated`). A missing value in a variable outside the model changes the divisor of the others from `n` to `n - 1` (`C237_unused_violated`). The older `subset_and_order` leaves the data uncut (`C237_subset_violated`). `from_samplestats` always raises, since it turns the frames into arrays and then asks for their columns (`C237_stats_violated`).
* **C238.** In the newer class `fit()` with default arguments always raises: `"method" in None` (`C238_default_violated`). A method named in `minimize_options` is not the one used (`C238_method_violated`). The second attempt forgets the starting value (`C238_restart_violated`), writes into the dictionary of the caller (`C238_mutate_violated`) and, if the options come in `minimize_kws`, repeats the first (`C238_same_violated`). The bound of a group of equal parameters is that of its first member, so a variance can become negative (`C238_bounds_violated`). Model-based standard errors need not exist at a saddle point (`C238_se_violated`).
* **C239.** `jax_invec` and `jax_invech` raise on every input, since they take `int` of a traced number (`C239_inverse_violated`); the latter also needs `index_update`, which has been removed (`C239_update_violated`).
* **C240.** With a missing covariate in one row and a missing level in another, `RandomEffectTerm` raises nothing and pairs the covariate of one observation with the level of another (`C240_missing_violated`).
* **C241.** `multiset_permutations` yields one list and changes it in place: `list(multiset_permutations([0, 1, 2]))` is six times `[2, 1, 0]` (`C241_kept_violated`, in general `C241_kept`).  `fill_tensor` raises for a shape such as `(1, 2)` although the number of values is right (`C241_sides_violated`).  `array_match` against an empty array raises (`C241_empty_violated`).
* **C242.** By default `apply_dmat2_post` (`C242_post_violated`), `DuplicationMatrix.apply_pre_post` (`C242_method_violated`), `apply_lmat_post2` and `EliminationMatrix.apply_post_alt` (`C242_elim_violated`) raise for every `n ≥ 2`.  The flag `t2` means opposite things in the function and in the method (`C242_flag_partial`).  `apply_dmat1` on the right and `apply_dmat3` on the left guess the size from the wrong axis and return an array of the wrong size without an error (`C242_size_violated`).
* **C243.** When two variables have exactly the same absolute correlation the quotient of the second is zero and `_tmin` skips it: for two orthogonal predictors with `X'y = (1, 1)` the path is `(0, 0)`, `(1, 0)`, `(2, 1)` and not `(0, 0)`, `(1, 1)` (`C243_tie_violated`).
* **C244.** `from_formulas` lets patsy drop missing rows formula by formula: with one value missing in a variable of each of two formulas the matrices have the same number of rows and different observations in them, and nothing raises (`C244_rows_violated`). `drop_missing` raises once `y` is flat (`C244_flat_violated`). `drop_intercept` moves the slices of the terms and leaves `column_name_indexes` one too large (`C244_positions_violated`). A slice past the end of the parameters gives a matrix with fewer rows (`C244_short_violated`).
* **C245.** The comparison with the observed statistic is strict and the observed arrangement is not counted: for the response `(0, 0, 1)` against a trend the value is `0` whatever is drawn, although two thirds of the arrangements have the observed absolute statistic (`C245_strict_violated`).
* **C246.** Values equal to a cut go above it, so repeated values can leave bins empty: of `0, 0, 0, 1` none goes to the first of two bins (`C246_ties_violated`).
* **C247.** With default arguments the variance of a factor and its first loading are both fixed at one, a restriction on the data (`C247_scale_violated`); rows of the formula are added again and values of variances replaced (`C247_given_violated`); of two loadings with one label the first is fixed and the second, free, gets the number zero (`C247_label_violated`); a mean in the formula makes `1` an observed variable (`C247_constant_violated`); a covariance of a factor with an indicator gets a missing row or column (`C247_mixed_violated`).
* **C248.** The covariances of exogenous factors are switched by the keyword `fix_lv_cov`, whose default is the other one for the variances; `lvx_cov` does nothing (`C248_keyword_violated`); variances fixed by the keyword have no value (`C248_unset_violated`); a variance given in the formula is replaced by the sample value, and a labelled covariance becomes fixed but keeps its number among the free parameters (`C248_stats_violated`).
* **C249.** A label given to a parameter of a shared matrix and to one of a matrix that is not shared ties nothing, even within one group, because only the second gets the group number (`C249_tie_violated`); a label that contains spaces can be the text of another parameter and is then tied to it (`C249_space_violated`).
* **C250.** The lower limit of a variance can be negative: the grid is cut at a small positive value, and beyond it the interpolation is continued as a line (`C250_negative_violated`).
* **C251.** A test fold is scaled by its own standard deviations, so the weights are scored on other variables than those of the fit (`C251_scale_violated`); a fold of one observation has no score (`C251_single_violated`); the matrix of the starting weights is made of the raw columns and not of the standardised ones (`C251_start_violated`).
* **C252.** Rows of the tables are numbered by first appearance and carry no group, so sorting the data changes which group a row is (`C252_order_violated`); columns are numbered too, so in the frame of all terms the intercepts of one term and the slopes of another share a column (`C252_column_violated`). A missing group has the code -1, which is no column of the design.
* **C253.** At a correlation of one the probability of a quadrant comes out below 0.4985 instead of one half (`C253_one_violated`, with `C253_limit`).
* **C254.** The last coefficient of `harmonic_asymptotic` is 1/120.8 where the expansion has 1/120: from twelve on the error exceeds the next term (`C254_coefficient_violated`).
* **C255.** `_lars_sumstats` divides by `s2 * n` whatever `s2` is: with `s2_method="ols"` `Rsq` is never positive (`C255_ols_violated`), with another method the last row always gets one minus its share of coefficients (`C255_other_violated`), and for data that are not centred the empty row gets a negative value (`C255_rsq_violated`). `standardize` without `intercept` gives columns of different lengths (`C255_unit_violated`).
* **C256.** `make_coefs` reads `term_name_slices["Intercept"]` for every formula: one without an intercept raises (`C256_intercept_violated`). Of a sequence of shares only the first is ever read (`C256_share`).
* **C257.** A row that `fix_sample_stats` fixes keeps its number, so it is counted in the free vector but has no place in the matrices: `group_free_to_par` raises (`C257_length_violated`, with the row of `C248_stats_violated`).
* **C258.** The bound of `_fit_with_fixed_tau` keeps an estimate on the boundary out of reach: there the profile at the estimate lies above the least value (`C258_bound_violated`).
* **C259.** `beta_sparsity` of `generate_mmr_data` is the share of coefficients kept, not of zeros (`C259_sparsity_violated`); a constant signal leaves the residual covariance unscaled (`C259_flat_violated`).
* **C260.** In `CovarianceStructure` a value fixed only above the diagonal is lost (`C260_upper_violated`), the starting matrix is indefinite for some patterns of free covariances (`C260_start_violated`), `mat_inds_comb` counts covariances twice (`C260_comb_violated`), the constraint admits indefinite matrices (`C260_constraint_violated`) and a variance whose label is first used elsewhere has no bound (`C260_bounds_violated`).
* **C261.** `estimate_simultaneous` calls methods that no estimator has (`C261_own_violated`); it compares the objective with that of the start throughout, so it may never stop at a solution (`C261_still_violated`) or stop elsewhere (`C261_early_violated`); the history lacks the last turn (`C261_history_violated`).
* **C262.** Outside the binomial family `get_start_values` leaves the correction `(y - mu) * gp` out of the working response: for the normal model the start is halfway between the mean and least squares (`C262_gaussian_violated`); for counts that are all zero every weight is zero (`C262_zero_violated`).
* **C263.** The third column of `get_smooth_comps` is the half width of the band, not the standard error of the documentation (`C263_error_violated`).
* **C264.** `permutation_test` divides the second start by the length of the first, already one (`C264_start_violated`); `crossval_mc` draws with replacement before it splits, so that observations are fitted to and tested on (`C264_leak_violated`).
* **C265.** The first trace of `_resid_gradient_trace` leaves the derivative out: it is right for the identity only (`C265_T1_violated`).
* **C266.** The constant one on the diagonal of the unpacked correlations never reaches a packed entry, so that the matrix built from unit vectors is exact although unpacking is affine (`C266_apply`).
* **C267.** `update_ptable_with_data` indexes an array of means with names and raises (`C267_arrays_violated`), replaces covariances that the formula fixes (`C267_fixed_violated`); `starting_values` gives fixed variances the default start (`C267_start_fixed_violated`).
* **C268.** Without an axis `_median_nd` takes the index from the number of all entries and the order statistics along the columns: it raises for three columns or more (`C268_none_violated`) and gives the greatest entries for two (`C268_none_two_violated`).
* **C270.** `dmat_exp` divides by the difference of eigenvalues and gives nan when two are equal, as for the zero matrix (`C270_equal_violated`), and takes the transpose of the eigenvectors for their inverse, which is wrong for matrices that are not symmetric (`C270_nonsymmetric_violated`).
* **C271.** `get_start_param` gives nan for a constant response (`C271_constant_violated`), and with a mixing parameter below `alpha_min` the null model is not optimal at the first penalty (`C271_ridge_violated`).
* **C272.** A series as the response leaves nothing in `design_info`, and `design_info[:-1]` then drops the last design: its terms are not tested (`C272_series`, `C272_series_violated`).
* **C273.** Without `refit` the coefficients kept are zero (`C273_no_refit_violated`). With cold starts a fold starts from the fit of the fold before, which saw its left out data (`C273_cold_violated`). With an intercept the left out responses are centred by their own mean, so the error is not that of a prediction (`C273_shift`, `C273_error_violated`). `fit_cv(intercept=False)` fits with an intercept (`C273_intercept_violated`).
* **C274.** `_glm_elnet_path` standardises the rows of a fold by their own mean and spread, and `crossval_path` applies the coefficients to left out rows on the scale of all the data: a fold that predicts without error has a positive value (`C274_fold_violated`). For all the data the second standardisation changes nothing (`C274_full`).
* **C275.** For a variance estimated below 0.01 every point of the grid is above the estimate (`C275_one_sided`), and the grid may run downwards (`C275_bracket_violated`). A refit slightly below the optimum gives nan, where the newer profile gives zero (`C275_nan_violated`).
* **C276.** With `n_subsample=1` the second subsample always replaces the first, even with a larger scale, since `s_max` is still infinite (`C276_single_violated`). From two on the smallest are kept (`C276_kept_partial`).
* **C277.** A row given with a value and added again free makes its cell free and fixed at once (`C277_exclusive_violated`). The column `start` of the table is not used for the template, which starts free loadings at zero and free residual variances at one (`C277_start_violated`).
* **C278.** When the scale is a parameter, coefficients without it are refused (`C278_coefficients_violated`). Beta regression with a new design for the means alone returns them with the precisions of the old rows (`C278_rows_violated`).
* **C279.** A resample that lacks the first category keeps its threshold, which has no estimate (`C279_missing_violated`). An error during the loop leaves the offsets of a resample in the model (`C279_restored_violated`).
* **C280.** If two coefficients vanish at once, the positions to remove are not shifted after the first, and the factor keeps the row of a variable that has left (`C280_factor_violated`).

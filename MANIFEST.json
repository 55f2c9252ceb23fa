{
 "claims": [
  {
   "property": "C01",
   "status": "proved",
   "theorems": [
    "Verif.Index.C01_vec_forwards_position",
    "Verif.Index.C01_vec_bijection",
    "Verif.Vec.C01_vec_element"
   ],
   "note": ""
  },
  {
   "property": "C02",
   "status": "proved",
   "theorems": [
    "Verif.Index.C02_vech_forwards_position",
    "Verif.Index.C02_vech_reverse_forwards",
    "Verif.Index.C02_vech_forwards_reverse",
    "Verif.Vec.C02_vech_order",
    "Verif.Vec.C02_vech_element",
    "Verif.Vec.C02_vech_diag_indices",
    "Verif.Vec.C02_inv_tril_indices_violated"
   ],
   "note": "inv_tril_indices, an alternative helper, is shown to double-count the diagonal for k=0 (C02_inv_tril_indices_violated)."
  },
  {
   "property": "C03",
   "status": "proved",
   "theorems": [
    "Verif.Index.C03_vecl_forwards_position",
    "Verif.Index.C03_vecl_reverse_forwards",
    "Verif.Index.C03_vecl_forwards_reverse",
    "Verif.Vec.C03_vecl_order",
    "Verif.Vec.C03_vecl_element",
    "Verif.Vec.C03_inv_tril_indices"
   ],
   "note": ""
  },
  {
   "property": "C04",
   "status": "proved",
   "theorems": [
    "Verif.Index.C04_kronecker_indices",
    "Verif.Index.C04_kronecker_entry"
   ],
   "note": ""
  },
  {
   "property": "C05",
   "status": "proved",
   "theorems": [
    "Verif.Vec.C05_kmat_vec",
    "Verif.Vec.C05_kmat_inverse",
    "Verif.Vec.C05_apply_agrees"
   ],
   "note": ""
  },
  {
   "property": "C06",
   "status": "proved",
   "theorems": [
    "Verif.Vec.C06_dmat_vech",
    "Verif.Vec.C06_dmat_rows",
    "Verif.Vec.C06_dup_indices",
    "Verif.Vec.C06_apply_dmat"
   ],
   "note": ""
  },
  {
   "property": "C07",
   "status": "proved",
   "theorems": [
    "Verif.Vec.C07_lmat_vec",
    "Verif.Vec.C07_lmat_dmat",
    "Verif.Vec.C07_dpmat_dmat",
    "Verif.Vec.C07_dpmat_vec",
    "Verif.Vec.C07_apply_agrees",
    "Verif.Vec.C07_elim_indices"
   ],
   "note": ""
  },
  {
   "property": "C08",
   "status": "proved",
   "theorems": [
    "Verif.Rank.C08_rank_order_independent",
    "Verif.Rank.C08_unrank_rank",
    "Verif.Rank.C08_rank_unrank",
    "Verif.Rank.C08_numba_agrees",
    "Verif.Rank.C08_descending"
   ],
   "note": ""
  },
  {
   "property": "C09",
   "status": "proved",
   "theorems": [
    "Verif.Rank.C09_colex_reverse_forward",
    "Verif.Rank.C09_colex_forward_reverse",
    "Verif.Rank.C09_lex_reverse_forward",
    "Verif.Rank.C09_lex_forward_reverse",
    "Verif.Rank.C09_order"
   ],
   "note": ""
  },
  {
   "property": "C10",
   "status": "proved",
   "theorems": [
    "Verif.Rank.C10_unique"
   ],
   "note": ""
  },
  {
   "property": "C11",
   "status": "proved",
   "theorems": [
    "Verif.Vec.C11_invec_vec",
    "Verif.Vec.C11_vec_invec",
    "Verif.Vec.C11_vech_versions",
    "Verif.Vec.C11_invech_vech",
    "Verif.Vec.C11_vech_invech",
    "Verif.Vec.C11_invech_rejects",
    "Verif.Vec.C11_invecl_vecl",
    "Verif.Vec.C11_vecl_invecl",
    "Verif.Vec.C11_lower_half",
    "Verif.Vec.C11_sizes"
   ],
   "note": ""
  },
  {
   "property": "C12",
   "status": "proved",
   "theorems": [
    "Verif.Sparse.C12_coo_same_matrix",
    "Verif.Sparse.C12_coo_pointer",
    "Verif.Sparse.C12_coo_order"
   ],
   "note": ""
  },
  {
   "property": "C13",
   "status": "proved",
   "theorems": [
    "Verif.Sparse.C13_cs_add_entry",
    "Verif.Sparse.C13_cs_add_union_pattern",
    "Verif.Sparse.C13_cs_add_pattern_kept",
    "Verif.Sparse.C13_cs_add_leak_violated"
   ],
   "note": "C13_cs_add_leak_violated shows what happens outside the covering hypothesis: uncovered values leak into later columns."
  },
  {
   "property": "C14",
   "status": "proved",
   "theorems": [
    "Verif.Sparse.C14_sparse_kron",
    "Verif.Sparse.C14_ds_kron",
    "Verif.Sparse.C14_dense_sparse_kron",
    "Verif.Sparse.C14_sparse_dense_kron",
    "Verif.Sparse.C14_sparse_kron_pointer",
    "Verif.Sparse.C14_sparse_kron_inplace",
    "Verif.Sparse.C14_ds_kron_inplace",
    "Verif.Sparse.C14_sparse_dense_kron_inplace"
   ],
   "note": ""
  },
  {
   "property": "C15",
   "status": "partial",
   "theorems": [
    "Verif.Sparse.C15_id_sp_kron_square_partial",
    "Verif.Sparse.C15_kernel_any_shape",
    "Verif.Sparse.C15_id_sp_kron_violated",
    "Verif.Sparse.C15_id_sp_kron_inplace_partial"
   ],
   "note": "The code violates the property for non-square B: the wrapper passes B.shape[1] for the row count (python_wrappers.py line 256). Proved for square B; the C kernel is right for any shape; negation witness C15_id_sp_kron_violated."
  },
  {
   "property": "C16",
   "status": "proved",
   "theorems": [
    "Verif.Sparse.C16_cs_matmul_entry",
    "Verif.Sparse.C16_cs_matmul_structure",
    "Verif.Sparse.C16_cs_matmul_pattern"
   ],
   "note": ""
  },
  {
   "property": "C17",
   "status": "proved",
   "theorems": [
    "Verif.Sparse.C17_sparse_dot",
    "Verif.Sparse.C17_pattern_trace"
   ],
   "note": ""
  },
  {
   "property": "C18",
   "status": "partial",
   "theorems": [
    "Verif.Func.C18_sum_preserving_round_total_partial",
    "Verif.Func.C18_sum_preserving_round_entries",
    "Verif.Func.C18_sum_preserving_round_largest",
    "Verif.Func.C18_sum_preserving_round_integers",
    "Verif.Func.C18_sum_preserving_round_violated"
   ],
   "note": "The code violates the property on vectors of integers: sum_diff is 0 and a[-0:] selects everything, so every entry is incremented (C18_sum_preserving_round_integers, _violated). Proved under the guard that the entries are not all integers."
  },
  {
   "property": "C19",
   "status": "partial",
   "theorems": [
    "Verif.Func.C19_allocate_total_partial",
    "Verif.Func.C19_allocate_nonneg",
    "Verif.Func.C19_allocate_error",
    "Verif.Func.C19_allocate_violated"
   ],
   "note": "Violated when all adjusted shares are integers: allocate_from_proportions(10,[.5,.5]) gives [6,6] (C19_allocate_violated). Proved otherwise, with the code's tolerance; non-negativity unconditional."
  },
  {
   "property": "C20",
   "status": "proved",
   "theorems": [
    "Verif.Func.C20_partition_set_nodup",
    "Verif.Func.C20_partition_set_labels",
    "Verif.Func.C20_partition_set_complete",
    "Verif.Func.C20_partition_set_count"
   ],
   "note": ""
  },
  {
   "property": "C21",
   "status": "proved",
   "theorems": [
    "Verif.Func.C21_soft_threshold_prox",
    "Verif.Func.C21_soft_threshold_cases"
   ],
   "note": ""
  },
  {
   "property": "C22",
   "status": "proved",
   "theorems": [
    "Verif.Func.C22_harmonic",
    "Verif.Func.C22_harmonic_fraction",
    "Verif.Func.C22_harmonic_empty_range"
   ],
   "note": ""
  },
  {
   "property": "C23",
   "status": "partial",
   "theorems": [
    "Verif.Opt.C23_memoize_transparent_partial",
    "Verif.Opt.C23_memoize_jac_transparent_partial",
    "Verif.Opt.C23_memoize_single_evaluation",
    "Verif.Opt.C23_memoize_args_violated",
    "Verif.Opt.C23_memoize_exception_violated",
    "Verif.Opt.C23_memoize_broadcast_violated"
   ],
   "note": "Violated in three ways, each with a witness: extra args are not in the key; a raising call leaves the new key with old results; np.all(x==self.x) broadcasts. Proved for histories with fixed args, one length, no exceptions."
  },
  {
   "property": "C24",
   "status": "partial",
   "theorems": [
    "Verif.Opt.C24_process_merge",
    "Verif.Opt.C24_process_no_options",
    "Verif.Opt.C24_process_error",
    "Verif.Opt.C24_no_leakage_partial",
    "Verif.Opt.C24_leakage_violated",
    "Verif.Opt.C24_shared_aliases"
   ],
   "note": "Merge proved without guards. Leakage violated when no options are passed (the module default itself is returned, C24_leakage_violated); no-leakage proved when callers pass their own dictionaries."
  },
  {
   "property": "C25",
   "status": "proved",
   "theorems": [
    "Verif.Data.C25_welford_variance",
    "Verif.Data.C25_welford_variance_scaled",
    "Verif.Data.C25_welford_cov_cross",
    "Verif.Data.C25_welford_cov"
   ],
   "note": ""
  },
  {
   "property": "C26",
   "status": "proved",
   "theorems": [
    "Verif.Design.C26_meat_eq",
    "Verif.Design.C26_meat_symm",
    "Verif.Design.C26_meat_psd",
    "Verif.Design.C26_subset_total",
    "Verif.Design.C26_row_order"
   ],
   "note": ""
  },
  {
   "property": "C27",
   "status": "proved",
   "theorems": [
    "Verif.Design.C27_payload",
    "Verif.Design.C27_others_unchanged",
    "Verif.Design.C27_moved",
    "Verif.Design.C27_psu_partition",
    "Verif.Design.C27_no_singletons",
    "Verif.Design.C27_single_remains_violated"
   ],
   "note": "The statement's guard (two or more single-PSU strata) is necessary: witness C27_single_remains_violated. PSU labels of moved rows are renumbered; membership (the partition) is what is preserved."
  },
  {
   "property": "C28",
   "status": "proved",
   "theorems": [
    "Verif.Sem.C28_parse",
    "Verif.Sem.C28_comments",
    "Verif.Sem.C28_double_star_violated",
    "Verif.Sem.C28_classes"
   ],
   "note": "Proved for every text in the grammar (any padding, blank lines); comment removal proved separately (C28_comments). float() is a parameter. Words exclude whitespace and + * ~ = #."
  },
  {
   "property": "C29",
   "status": "partial",
   "theorems": [
    "Verif.Sem.C29_obs_order",
    "Verif.Sem.C29_mem",
    "Verif.Sem.C29_lav_order_partial",
    "Verif.Sem.C29_lav_order_violated"
   ],
   "note": "Obs order always a bijection; latent-side order under the guard that no variable is an observed, endogenous indicator. The code fails without it."
  },
  {
   "property": "C30",
   "status": "partial",
   "theorems": [
    "Verif.Sem.C30_free",
    "Verif.Sem.C30_group",
    "Verif.Sem.C30_classes",
    "Verif.Sem.C30_roundtrip",
    "Verif.Sem.C30_jacobian_partial",
    "Verif.Sem.C30_jacobian_raises",
    "Verif.Sem.C30_shared_groups_violated"
   ],
   "note": "Value map exact for all label patterns; gradient reduction exact when the last row's label is new, and proved to raise otherwise."
  },
  {
   "property": "C31",
   "status": "partial",
   "theorems": [
    "Verif.Sem.C31_zero_iff_fixed_partial",
    "Verif.Sem.C31_equal_iff_label_partial",
    "Verif.Sem.C31_numbers_partial",
    "Verif.Sem.C31_label_fixed_first_violated",
    "Verif.Sem.C31_label_fixed_second_violated",
    "Verif.Sem.C31_ind_not_shared_violated"
   ],
   "note": "Exact when rows sharing a label agree on `fixed`; witnesses show failure otherwise."
  },
  {
   "property": "C32",
   "status": "proved",
   "theorems": [
    "Verif.Sem.C32_symmetric",
    "Verif.Sem.C32_posSemidef",
    "Verif.Sem.C32_posDef",
    "Verif.Sem.C32_structural"
   ],
   "note": "Symmetric, PSD and PD under the usual assumptions on F and P; structural solution checked."
  },
  {
   "property": "C33",
   "status": "partial",
   "theorems": [
    "Verif.Sem.C33_gradient",
    "Verif.Sem.C33_hessian",
    "Verif.Sem.C33_gradient_obs",
    "Verif.Sem.C33_dsigma_mu",
    "Verif.Sem.C33_d2sigma",
    "Verif.Sem.C33_d2mu_hessian",
    "Verif.Sem.C33_d2mu_partial",
    "Verif.Sem.C33_d2mu_violated"
   ],
   "note": "First derivatives, covariance second derivatives, gradient, Hessian and casewise scores exact; `_d2sigma_mu` mean part wrong for two B coefficients (witness), right elsewhere and right in the Hessian."
  },
  {
   "property": "C34",
   "status": "proved",
   "theorems": [
    "Verif.Glm.C34_identity",
    "Verif.Glm.C34_log",
    "Verif.Glm.C34_reciprocal",
    "Verif.Glm.C34_logit",
    "Verif.Glm.C34_logcomp",
    "Verif.Glm.C34_cloglog",
    "Verif.Glm.C34_negbin",
    "Verif.Glm.C34_power_zero",
    "Verif.Glm.C34_power",
    "Verif.Glm.C34_probit",
    "Verif.Glm.C34_probit_contract"
   ],
   "note": ""
  },
  {
   "property": "C35",
   "status": "partial",
   "theorems": [
    "Verif.Glm.C35_identity_partial",
    "Verif.Glm.C35_identity_dinv_violated",
    "Verif.Glm.C35_log",
    "Verif.Glm.C35_reciprocal",
    "Verif.Glm.C35_logit",
    "Verif.Glm.C35_logcomp",
    "Verif.Glm.C35_cloglog",
    "Verif.Glm.C35_negbin_partial",
    "Verif.Glm.C35_negbin_d2_violated",
    "Verif.Glm.C35_negbin_d4_violated",
    "Verif.Glm.C35_power",
    "Verif.Glm.C35_power_zero",
    "Verif.Glm.C35_power_d2inv_violated",
    "Verif.Glm.C35_probit_partial",
    "Verif.Glm.C35_probit_d4_violated"
   ],
   "note": "Right for logit, log, reciprocal, cloglog, logcomp; identity dinv and probit d4 raise; power d2inv and negbin d2, d4 have the wrong sign."
  },
  {
   "property": "C36",
   "status": "partial",
   "theorems": [
    "Verif.Glm.C36_var_gaussian",
    "Verif.Glm.C36_var_invGaussian",
    "Verif.Glm.C36_var_gamma",
    "Verif.Glm.C36_var_negBinomial",
    "Verif.Glm.C36_var_poisson",
    "Verif.Glm.C36_var_binomial",
    "Verif.Glm.C36_weights_gaussian",
    "Verif.Glm.C36_weights_invGaussian",
    "Verif.Glm.C36_weights_gamma",
    "Verif.Glm.C36_weights_negBinomial_partial",
    "Verif.Glm.C36_weights_poisson",
    "Verif.Glm.C36_weights_binomial",
    "Verif.Glm.C36_negBinomial_phi_violated",
    "Verif.Glm.C36_hw_negbin_link_violated",
    "Verif.Glm.C36_ehw_partial",
    "Verif.Glm.C36_ehw_violated",
    "Verif.Glm.C36_get_w_violated"
   ],
   "note": "Exact for five families with any good link; negative binomial only for phi = 1; get_ehw squares the weights; get_g/get_w raise."
  },
  {
   "property": "C37",
   "status": "proved",
   "theorems": [
    "Verif.Glm.C37_gaussian",
    "Verif.Glm.C37_invGaussian",
    "Verif.Glm.C37_gamma",
    "Verif.Glm.C37_poisson",
    "Verif.Glm.C37_binomial",
    "Verif.Glm.C37_negBinomial",
    "Verif.Glm.C37_saturated_gaussian",
    "Verif.Glm.C37_saturated_invGaussian",
    "Verif.Glm.C37_saturated_gamma",
    "Verif.Glm.C37_saturated_poisson",
    "Verif.Glm.C37_saturated_binomial",
    "Verif.Glm.C37_saturated_negBinomial",
    "Verif.Glm.C37_saturated_zero"
   ],
   "note": ""
  },
  {
   "property": "C38",
   "status": "partial",
   "theorems": [
    "Verif.Robust.C38_huber_psi",
    "Verif.Robust.C38_huber_phi",
    "Verif.Robust.C38_huber_kink",
    "Verif.Robust.C38_huber_weights",
    "Verif.Robust.C38_huber_range",
    "Verif.Robust.C38_huber_even",
    "Verif.Robust.C38_huber_nonneg",
    "Verif.Robust.C38_huber_mono",
    "Verif.Robust.C38_init_violated",
    "Verif.Robust.C38_integer_violated",
    "Verif.Robust.C38_bisq_psi",
    "Verif.Robust.C38_bisq_phi",
    "Verif.Robust.C38_bisq_weights",
    "Verif.Robust.C38_bisq_range",
    "Verif.Robust.C38_bisq_even",
    "Verif.Robust.C38_bisq_nonneg",
    "Verif.Robust.C38_bisq_mono",
    "Verif.Robust.C38_chi_huber",
    "Verif.Robust.C38_chi_bisq"
   ],
   "note": "All stated facts hold for the tuning constant in force; `Huber(c)` ignores c and integer input truncates (witnesses)."
  },
  {
   "property": "C39",
   "status": "proved",
   "theorems": [
    "Verif.Fa.C39_skew",
    "Verif.Fa.C39_skew_inv",
    "Verif.Fa.C39_rotation",
    "Verif.Fa.C39_surjective",
    "Verif.Fa.C39_half_turn"
   ],
   "note": ""
  },
  {
   "property": "C40",
   "status": "proved",
   "theorems": [
    "Verif.Fa.C40_partition",
    "Verif.Fa.C40_pack",
    "Verif.Fa.C40_pack_full",
    "Verif.Fa.C40_unpack_pack",
    "Verif.Fa.C40_pack_unpack"
   ],
   "note": ""
  },
  {
   "property": "C41",
   "status": "proved",
   "theorems": [
    "Verif.Transf.C41_rvs_range",
    "Verif.Transf.C41_fwd_range",
    "Verif.Transf.C41_fwd_rvs",
    "Verif.Transf.C41_rvs_fwd",
    "Verif.Transf.C41_corr",
    "Verif.Transf.C41_corr_fwd_rvs",
    "Verif.Transf.C41_corr_rvs_fwd",
    "Verif.Transf.C41_cube_to_corr"
   ],
   "note": ""
  },
  {
   "property": "C42",
   "status": "proved",
   "theorems": [
    "Verif.Transf.C42_rows",
    "Verif.Transf.C42_row_positions",
    "Verif.Transf.C42_fwd_range",
    "Verif.Transf.C42_rvs_fwd",
    "Verif.Transf.C42_fwd_rvs",
    "Verif.Transf.C42_jac_fwd",
    "Verif.Transf.C42_jac_rvs",
    "Verif.Transf.C42_hess_fwd",
    "Verif.Transf.C42_hess_rvs",
    "Verif.Transf.C42_jac_inverse"
   ],
   "note": ""
  },
  {
   "property": "C43",
   "status": "proved",
   "theorems": [
    "Verif.Transf.C43_fwd_cells",
    "Verif.Transf.C43_posDiag",
    "Verif.Transf.C43_rvs_fwd",
    "Verif.Transf.C43_fwd_rvs",
    "Verif.Transf.C43_jac_fwd",
    "Verif.Transf.C43_jac_rvs",
    "Verif.Transf.C43_hess_fwd",
    "Verif.Transf.C43_hess_rvs",
    "Verif.Transf.C43_log_inverse",
    "Verif.Transf.C43_log_range",
    "Verif.Transf.C43_log_jac",
    "Verif.Transf.C43_log_hess",
    "Verif.Transf.C43_jac_inverse"
   ],
   "note": ""
  },
  {
   "property": "C44",
   "status": "partial",
   "theorems": [
    "Verif.Transf.C44_order",
    "Verif.Transf.C44_inverse",
    "Verif.Transf.C44_jac_fwd",
    "Verif.Transf.C44_jac_rvs",
    "Verif.Transf.C44_hess_fwd",
    "Verif.Transf.C44_hess_rvs",
    "Verif.Transf.C44_empty_violated",
    "Verif.Transf.C44_concat",
    "Verif.Transf.C44_concat_inverse",
    "Verif.Transf.C44_concat_jac",
    "Verif.Transf.C44_concat_hess",
    "Verif.Transf.C44_lengths_sorted",
    "Verif.Transf.C44_unsorted_violated"
   ],
   "note": "Holds for sorted ranges and nonempty compositions; unsorted ranges and the empty composition violate it (witnesses)."
  },
  {
   "property": "C45",
   "status": "proved",
   "theorems": [
    "Verif.Lin.C45_value",
    "Verif.Lin.C45_first",
    "Verif.Lin.C45_second",
    "Verif.Lin.C45_upper",
    "Verif.Lin.C45_upper_violated"
   ],
   "note": "First and second derivatives for every direction; see DESIGN.md for the unused upper triangle of d2L."
  },
  {
   "property": "C46",
   "status": "proved",
   "theorems": [
    "Verif.Lin.C46_add",
    "Verif.Lin.C46_build",
    "Verif.Lin.C46_downdate"
   ],
   "note": ""
  },
  {
   "property": "C47",
   "status": "proved",
   "theorems": [
    "Verif.Sem.C47_slices",
    "Verif.Sem.C47_slice_content",
    "Verif.Sem.C47_flat_indices",
    "Verif.Sem.C47_cells",
    "Verif.Sem.C47_length",
    "Verif.Sem.C47_unique_nonzero",
    "Verif.Sem.C47_slices_nonzero_violated"
   ],
   "note": "Storage slices, flat indices and cell lists are exact; the unused slices_nonzero/slices_unique overlap (witness)."
  },
  {
   "property": "C48",
   "status": "partial",
   "theorems": [
    "Verif.Sem.C48_assign",
    "Verif.Sem.C48_in_shape_partial",
    "Verif.Sem.C48_in_shape_violated",
    "Verif.Sem.C48_injective",
    "Verif.Sem.C48_injective_violated",
    "Verif.Sem.C48_lower",
    "Verif.Sem.C48_lower_inj"
   ],
   "note": "Assignment exact for every row; in-range only under a stated guard, with a witness outside it."
  },
  {
   "property": "C49",
   "status": "proved",
   "theorems": [
    "Verif.Lin.C49_solve",
    "Verif.Lin.C49_solve_correct",
    "Verif.Lin.C49_inv",
    "Verif.Lin.C49_distinct_needed"
   ],
   "note": ""
  },
  {
   "property": "C50",
   "status": "proved",
   "theorems": [
    "Verif.Lin.C50_ar1"
   ],
   "note": "n >= 2, |rho| <= 1."
  },
  {
   "property": "C51",
   "status": "proved",
   "theorems": [
    "Verif.Sparse.C51_block_diag_self_dot",
    "Verif.Sparse.C51_block_diag_symmetric"
   ],
   "note": ""
  },
  {
   "property": "C52",
   "status": "proved",
   "theorems": [
    "Verif.Sparse.C52_tile",
    "Verif.Sparse.C52_tile_modulo_same",
    "Verif.Sparse.C52_repeat",
    "Verif.Sparse.C52_tile_repeat_transpose",
    "Verif.Sparse.C52_naive_matmul"
   ],
   "note": ""
  },
  {
   "property": "C53",
   "status": "partial",
   "theorems": [
    "Verif.Func.C53_sum_preserving_min_total",
    "Verif.Func.C53_sum_preserving_min_nonneg",
    "Verif.Func.C53_sum_preserving_min_id",
    "Verif.Func.C53_sum_preserving_min_floor_partial",
    "Verif.Func.C53_sum_preserving_min_violated"
   ],
   "note": "Total and non-negativity proved in general; the minimum itself is violated ([0,0,3] with minimum 1 gives [1,0,2]); proved for a single short entry."
  },
  {
   "property": "C54",
   "status": "proved",
   "theorems": [
    "Verif.Func.C54_slices",
    "Verif.Func.C54_slices_cover"
   ],
   "note": ""
  },
  {
   "property": "C55",
   "status": "proved",
   "theorems": [
    "Verif.Func.C55_handle_default_kws"
   ],
   "note": ""
  },
  {
   "property": "C56",
   "status": "proved",
   "theorems": [
    "Verif.Opt.C56_zero_constraint",
    "Verif.Opt.C56_zero_constraint_iff"
   ],
   "note": ""
  },
  {
   "property": "C57",
   "status": "proved",
   "theorems": [
    "Verif.Data.C57_dummy_rows",
    "Verif.Data.C57_dummy_reduced",
    "Verif.Data.C57_dummy_encode",
    "Verif.Data.C57_dummy_encode_missing"
   ],
   "note": ""
  },
  {
   "property": "C58",
   "status": "partial",
   "theorems": [
    "Verif.Data.C58_sign_change",
    "Verif.Data.C58_sign_change_none",
    "Verif.Data.C58_kth_first_partial",
    "Verif.Data.C58_kth_counts_elements",
    "Verif.Data.C58_kth_violated"
   ],
   "note": "Violated for k>=2: the code counts elements whose sign differs from the first, not changes (C58_kth_violated, C58_kth_counts_elements). k=1 proved."
  },
  {
   "property": "C59",
   "status": "partial",
   "theorems": [
    "Verif.Data.C59_crosstab_roundtrip_partial",
    "Verif.Data.C59_expand_length",
    "Verif.Data.C59_crosstab_violated"
   ],
   "note": "Violated when some level has zero total (it disappears); proved when every level occurs."
  },
  {
   "property": "C60",
   "status": "proved",
   "theorems": [
    "Verif.Data.C60_center_mean",
    "Verif.Data.C60_csd_eq",
    "Verif.Data.C60_csd_moments",
    "Verif.Data.C60_corr_eq",
    "Verif.Data.C60_corr_diag",
    "Verif.Data.C60_cov_symm",
    "Verif.Data.C60_norm_diag",
    "Verif.Data.C60_corr_norm_diag",
    "Verif.Data.C60_normalize_xtrx",
    "Verif.Data.C60_flip_signs"
   ],
   "note": ""
  },
  {
   "property": "C61",
   "status": "partial",
   "theorems": [
    "Verif.Data.C61_welford_axis_partial",
    "Verif.Data.C61_welford_axis_violated",
    "Verif.Data.C61_welford_cov_mean_order"
   ],
   "note": "Violated for axis >= 2 (swapaxes instead of moveaxis: outputs transposed); proved for axes 0 and 1."
  },
  {
   "property": "C62",
   "status": "partial",
   "theorems": [
    "Verif.Data.C62_extremal_largest_partial",
    "Verif.Data.C62_extremal_smallest",
    "Verif.Data.C62_extremal_zero_violated"
   ],
   "note": "n=0 returns every position (a[-0:]); proved for 1<=n."
  },
  {
   "property": "C63",
   "status": "proved",
   "theorems": [
    "Verif.Design.C63_scores_sum_zero",
    "Verif.Design.C63_bread_symm",
    "Verif.Design.C63_sandwich_psd"
   ],
   "note": ""
  },
  {
   "property": "C64",
   "status": "partial",
   "theorems": [
    "Verif.Sem.C64_nonneg_partial",
    "Verif.Sem.C64_loglike_obs",
    "Verif.Sem.C64_loglike_group",
    "Verif.Sem.C64_weight",
    "Verif.Sem.C64_fit_func",
    "Verif.Sem.C64_extra_column_violated"
   ],
   "note": "Exact when the data has only the model's columns; with extra columns the constant is wrong and the value can be +inf (witness)."
  },
  {
   "property": "C65",
   "status": "partial",
   "theorems": [
    "Verif.Glm.C65_gradient",
    "Verif.Glm.C65_hessian",
    "Verif.Glm.C65_hessian_symm",
    "Verif.Glm.C65_gradient_i",
    "Verif.Glm.C65_tau",
    "Verif.Glm.C65_tau_nb",
    "Verif.Glm.C65_cross",
    "Verif.Glm.C65_cross_nb_partial",
    "Verif.Glm.C65_cross_nb_violated",
    "Verif.Glm.C65_M_violated"
   ],
   "note": "Exact for NR and fixed scale; negative binomial cross block wrong for non-unit weights; M scale not differentiated."
  },
  {
   "property": "C66",
   "status": "partial",
   "theorems": [
    "Verif.Glm.C66_pearson",
    "Verif.Glm.C66_deviance",
    "Verif.Glm.C66_signed_partial",
    "Verif.Glm.C66_signed_violated"
   ],
   "note": "signed_resid ignores weights."
  },
  {
   "property": "C67",
   "status": "partial",
   "theorems": [
    "Verif.Glm.C67_contract",
    "Verif.Glm.C67_gaussian",
    "Verif.Glm.C67_invGaussian",
    "Verif.Glm.C67_gamma",
    "Verif.Glm.C67_negBinomial",
    "Verif.Glm.C67_llscale_gaussian",
    "Verif.Glm.C67_llscale_gamma",
    "Verif.Glm.C67_llscale_invGaussian_partial",
    "Verif.Glm.C67_llscale_invGaussian_violated"
   ],
   "note": "InverseGaussian.d2llscale wrong sign; everything else exact."
  },
  {
   "property": "C68",
   "status": "proved",
   "theorems": [
    "Verif.Glm.C68_gaussian",
    "Verif.Glm.C68_gamma",
    "Verif.Glm.C68_poisson",
    "Verif.Glm.C68_binomial",
    "Verif.Glm.C68_invGaussian",
    "Verif.Glm.C68_negBinomial",
    "Verif.Glm.C68_negBinomial_sum"
   ],
   "note": ""
  },
  {
   "property": "C69",
   "status": "partial",
   "theorems": [
    "Verif.Glm.C69_raises_violated",
    "Verif.Glm.C69_a_partial",
    "Verif.Glm.C69_w_partial"
   ],
   "note": "The methods raise; formulas proved right were the missing attributes present."
  },
  {
   "property": "C70",
   "status": "partial",
   "theorems": [
    "Verif.Robust.C70_rho",
    "Verif.Robust.C70_psi2",
    "Verif.Robust.C70_phi",
    "Verif.Robust.C70_psi",
    "Verif.Robust.C70_pos",
    "Verif.Robust.C70_base_psi_violated"
   ],
   "note": "Huber closed forms exact; base class E_psi integrates rho (witness with Bisquare)."
  },
  {
   "property": "C71",
   "status": "proved",
   "theorems": [
    "Verif.Robust.C71_fixed",
    "Verif.Robust.C71_direction",
    "Verif.Robust.C71_equivariant",
    "Verif.Robust.C71_converged"
   ],
   "note": ""
  },
  {
   "property": "C72",
   "status": "proved",
   "theorems": [
    "Verif.Robust.C72_huber",
    "Verif.Robust.C72_bisq"
   ],
   "note": ""
  },
  {
   "property": "C73",
   "status": "partial",
   "theorems": [
    "Verif.Lin.C73_unit_partial",
    "Verif.Lin.C73_scale_violated"
   ],
   "note": "Proved for unit diagonal; without it the result is wrong (witness)."
  },
  {
   "property": "C74",
   "status": "partial",
   "theorems": [
    "Verif.Lin.C74_update",
    "Verif.Lin.C74_drop_violated"
   ],
   "note": "Adding is right; dropping fails whenever the active set is smaller than the number of variables."
  },
  {
   "property": "C75",
   "status": "proved",
   "theorems": [
    "Verif.Transf.C75_jac_rvs",
    "Verif.Transf.C75_jac_fwd",
    "Verif.Transf.C75_jac_inverse",
    "Verif.Transf.C75_hess_rvs",
    "Verif.Transf.C75_hess_fwd"
   ],
   "note": ""
  },
  {
   "property": "C76",
   "status": "partial",
   "theorems": [
    "Verif.Transf.C76_fwd_image",
    "Verif.Transf.C76_roundtrip_partial",
    "Verif.Transf.C76_unconstrained_violated",
    "Verif.Transf.C76_intended"
   ],
   "note": "Round trip holds on the image; the parameters are constrained to squared row norm < 1/2 (witness)."
  },
  {
   "property": "C77",
   "status": "proved",
   "theorems": [
    "Verif.Transf.C77_mask",
    "Verif.Transf.C77_mask_inverse",
    "Verif.Transf.C77_mask_jac",
    "Verif.Transf.C77_mask_hess",
    "Verif.Transf.C77_roundtrip",
    "Verif.Transf.C77_surjective"
   ],
   "note": ""
  },
  {
   "property": "C78",
   "status": "proved",
   "theorems": [
    "Verif.Transf.C78_ord_range",
    "Verif.Transf.C78_ord_fwd_rvs",
    "Verif.Transf.C78_ord_rvs_fwd",
    "Verif.Transf.C78_ord_jac_rvs",
    "Verif.Transf.C78_ord_hess_rvs",
    "Verif.Transf.C78_ord_jac_fwd",
    "Verif.Transf.C78_ord_hess_fwd",
    "Verif.Transf.C78_log",
    "Verif.Transf.C78_tanh",
    "Verif.Transf.C78_id"
   ],
   "note": ""
  },
  {
   "property": "C79",
   "status": "partial",
   "theorems": [
    "Verif.Transf.C79_float_partial",
    "Verif.Transf.C79_integer_violated"
   ],
   "note": ""
  },
  {
   "property": "C80",
   "status": "proved",
   "theorems": [
    "Verif.Transf.C80_jac_fwd",
    "Verif.Transf.C80_hess_fwd",
    "Verif.Transf.C80_jac_inverse",
    "Verif.Transf.C80_jac_rvs",
    "Verif.Transf.C80_hess_rvs"
   ],
   "note": ""
  },
  {
   "property": "C81",
   "status": "proved",
   "theorems": [
    "Verif.Transf.C81_fwd",
    "Verif.Transf.C81_jac_fwd",
    "Verif.Transf.C81_hess_fwd",
    "Verif.Transf.C81_rvs",
    "Verif.Transf.C81_jac_rvs",
    "Verif.Transf.C81_hess_rvs"
   ],
   "note": ""
  },
  {
   "property": "C82",
   "status": "proved",
   "theorems": [
    "Verif.Fa.C82_gcf",
    "Verif.Fa.C82_target",
    "Verif.Fa.C82_d2Q",
    "Verif.Fa.C82_target_d2Q"
   ],
   "note": ""
  },
  {
   "property": "C83",
   "status": "partial",
   "theorems": [
    "Verif.Fa.C83_named_partial",
    "Verif.Fa.C83_unknown",
    "Verif.Fa.C83_varimax",
    "Verif.Fa.C83_quartimax_violated"
   ],
   "note": "Fails for quartimax: the constants are (0,1,1,-1) instead of (0,1,0,-1)."
  },
  {
   "property": "C84",
   "status": "proved",
   "theorems": [
    "Verif.Fa.C84_ortho_grad",
    "Verif.Fa.C84_oblique_grad",
    "Verif.Fa.C84_ortho_project",
    "Verif.Fa.C84_oblique_project",
    "Verif.Fa.C84_ortho_retract",
    "Verif.Fa.C84_ortho_retract_nearest",
    "Verif.Fa.C84_oblique_retract",
    "Verif.Fa.C84_oblique_step",
    "Verif.Fa.C84_ortho_invariant",
    "Verif.Fa.C84_oblique_invariant"
   ],
   "note": ""
  },
  {
   "property": "C85",
   "status": "proved",
   "theorems": [
    "Verif.Fa.C85_d_rotation",
    "Verif.Fa.C85_fg"
   ],
   "note": ""
  },
  {
   "property": "C86",
   "status": "proved",
   "theorems": [
    "Verif.Fa.C86_ortho",
    "Verif.Fa.C86_oblique_count",
    "Verif.Fa.C86_oblique",
    "Verif.Fa.C86_canonical"
   ],
   "note": ""
  },
  {
   "property": "C87",
   "status": "proved",
   "theorems": [
    "Verif.Fa.C87_ortho",
    "Verif.Fa.C87_oblique",
    "Verif.Fa.C87_oblique_accepts",
    "Verif.Fa.C87_ortho_accepts"
   ],
   "note": ""
  },
  {
   "property": "C88",
   "status": "proved",
   "theorems": [
    "Verif.Fa.C88_dsigma",
    "Verif.Fa.C88_grad",
    "Verif.Fa.C88_hessian",
    "Verif.Fa.C88_hessian_symm",
    "Verif.Fa.C88_score_jacobian",
    "Verif.Fa.C88_meat"
   ],
   "note": ""
  },
  {
   "property": "C89",
   "status": "proved",
   "theorems": [
    "Verif.Fa.C89_bread",
    "Verif.Fa.C89_symm",
    "Verif.Fa.C89_defined",
    "Verif.Fa.C89_sandwich",
    "Verif.Fa.C89_information",
    "Verif.Fa.C89_empirical"
   ],
   "note": ""
  },
  {
   "property": "C90",
   "status": "proved",
   "theorems": [
    "Verif.Fa.C90_invariant",
    "Verif.Fa.C90_signs",
    "Verif.Fa.C90_optimal",
    "Verif.Fa.C90_recovers",
    "Verif.Fa.C90_canonical",
    "Verif.Fa.C90_canonical_constraint"
   ],
   "note": ""
  },
  {
   "property": "C91",
   "status": "partial",
   "theorems": [
    "Verif.Fa.C91_profile",
    "Verif.Fa.C91_grad_psi",
    "Verif.Fa.C91_grad_simple",
    "Verif.Fa.C91_hess_psi_partial",
    "Verif.Fa.C91_exp",
    "Verif.Fa.C91_ties_violated"
   ],
   "note": "The Hessian part needs simple eigenvalues among those used (no assumption on the eigenvectors); for ties it is refuted. The value, gradient and chain-rule parts are complete."
  },
  {
   "property": "C92",
   "status": "proved",
   "theorems": [
    "Verif.Like.C92_criteria",
    "Verif.Like.C92_aicc",
    "Verif.Like.C92_bic",
    "Verif.Like.C92_compare",
    "Verif.Like.C92_raises",
    "Verif.Like.C92_aicc_violated"
   ],
   "note": ""
  },
  {
   "property": "C93",
   "status": "partial",
   "theorems": [
    "Verif.Like.C93_forms",
    "Verif.Like.C93_range",
    "Verif.Like.C93_null",
    "Verif.Like.C93_mono",
    "Verif.Like.C93_adjusted_partial",
    "Verif.Like.C93_adjusted_violated",
    "Verif.Like.C93_lr_partial",
    "Verif.Like.C93_lr_violated"
   ],
   "note": "Adjusted statistics have the wrong penalty sign; `_lr_test` depends on the sign convention."
  },
  {
   "property": "C94",
   "status": "partial",
   "theorems": [
    "Verif.Like.C94_constraint_partial",
    "Verif.Like.C94_constraint_violated",
    "Verif.Like.C94_mask_violated",
    "Verif.Like.C94_history",
    "Verif.Like.C94_gradient",
    "Verif.Like.C94_hessian",
    "Verif.Like.C94_profile",
    "Verif.Like.C94_interval",
    "Verif.Like.C94_interval_set",
    "Verif.Like.C94_interval_raises"
   ],
   "note": "The restricted profile and the interval search are complete; the constrained profile enforces only the last constraint."
  },
  {
   "property": "C95",
   "status": "proved",
   "theorems": [
    "Verif.Like.C95_nonneg",
    "Verif.Like.C95_ll_tests",
    "Verif.Like.C95_invariant",
    "Verif.Like.C95_reparam",
    "Verif.Like.C95_information",
    "Verif.Like.C95_trinity",
    "Verif.Like.C95_selection",
    "Verif.Like.C95_raises"
   ],
   "note": ""
  },
  {
   "property": "C96",
   "status": "partial",
   "theorems": [
    "Verif.Like.C96_leverage",
    "Verif.Like.C96_chol_raises",
    "Verif.Like.C96_range",
    "Verif.Like.C96_intercept",
    "Verif.Like.C96_invariant",
    "Verif.Like.C96_rank_violated",
    "Verif.Like.C96_hc0",
    "Verif.Like.C96_order",
    "Verif.Like.C96_balanced",
    "Verif.Like.C96_raises"
   ],
   "note": "Rank deficiency goes unnoticed on the QR route."
  },
  {
   "property": "C97",
   "status": "partial",
   "theorems": [
    "Verif.Like.C97_deletion",
    "Verif.Like.C97_one_step_partial",
    "Verif.Like.C97_one_step_violated",
    "Verif.Like.C97_hc3",
    "Verif.Like.C97_cooks",
    "Verif.Like.C97_resid_lik",
    "Verif.Like.C97_jackknife_partial",
    "Verif.Like.C97_jackknife_violated"
   ],
   "note": "Cook's distance, the likelihood residual and HC3 are exact; the one-step values carry a wrong factor."
  },
  {
   "property": "C98",
   "status": "proved",
   "theorems": [
    "Verif.Like.C98_minimum",
    "Verif.Like.C98_chol",
    "Verif.Like.C98_qr",
    "Verif.Like.C98_nwls",
    "Verif.Like.C98_agree",
    "Verif.Like.C98_qr_negative"
   ],
   "note": ""
  },
  {
   "property": "C99",
   "status": "partial",
   "theorems": [
    "Verif.Like.C99_eta",
    "Verif.Like.C99_prob",
    "Verif.Like.C99_total",
    "Verif.Like.C99_loglike",
    "Verif.Like.C99_objective_partial",
    "Verif.Like.C99_objective_violated",
    "Verif.Like.C99_gradient",
    "Verif.Like.C99_hessian_partial",
    "Verif.Like.C99_hessian_symm",
    "Verif.Like.C99_hessian_violated",
    "Verif.Like.C99_loglike_unconstrained",
    "Verif.Like.C99_gradient_unconstrained",
    "Verif.Like.C99_hessian_unconstrained_partial"
   ],
   "note": "Exact for unit weights and when the link has reached one at the artificial top threshold."
  },
  {
   "property": "C100",
   "status": "partial",
   "theorems": [
    "Verif.Like.C100_mu",
    "Verif.Like.C100_likelihood",
    "Verif.Like.C100_total",
    "Verif.Like.C100_nonneg",
    "Verif.Like.C100_variance",
    "Verif.Like.C100_cumulative",
    "Verif.Like.C100_limits_partial",
    "Verif.Like.C100_limits_rigid",
    "Verif.Like.C100_limits_reversed",
    "Verif.Like.C100_limits_violated",
    "Verif.Like.C100_fit_options_violated",
    "Verif.Like.C100_null_redundant"
   ],
   "note": "Means, standard errors and cumulative limits hold; limits of the category probabilities and the routing of options do not."
  },
  {
   "property": "C101",
   "status": "partial",
   "theorems": [
    "Verif.Like.C101_weights",
    "Verif.Like.C101_pmf_partial",
    "Verif.Like.C101_pmf_violated",
    "Verif.Like.C101_loglike",
    "Verif.Like.C101_gradient_partial",
    "Verif.Like.C101_gradient_poisson",
    "Verif.Like.C101_gradient_i",
    "Verif.Like.C101_gradient_violated",
    "Verif.Like.C101_hessian",
    "Verif.Like.C101_hessian_partial",
    "Verif.Like.C101_hessian_symm"
   ],
   "note": "Likelihood is off by the factor y; gradient exact when zero counts have unit weight and always in the Poisson block; the Hessian is the derivative of the true gradient for all weights."
  },
  {
   "property": "C102",
   "status": "partial",
   "theorems": [
    "Verif.Like.C102_pmf",
    "Verif.Like.C102_loglike_i_partial",
    "Verif.Like.C102_loglike_i_violated",
    "Verif.Like.C102_weights_violated",
    "Verif.Like.C102_weights_positive",
    "Verif.Like.C102_gradient",
    "Verif.Like.C102_gradient_i_partial",
    "Verif.Like.C102_gradient_i_violated",
    "Verif.Like.C102_hessian_partial",
    "Verif.Like.C102_hessian_violated",
    "Verif.Like.C102_hessian_symm",
    "Verif.Like.C102_predict_violated"
   ],
   "note": "Probabilities, log-likelihood and gradient exact; gradient_i and Hessian for unit weights on positive counts; loglike_i, weights as replications and prediction limits fail."
  },
  {
   "property": "C103",
   "status": "partial",
   "theorems": [
    "Verif.Eln.C103_loglike",
    "Verif.Eln.C103_coordinate",
    "Verif.Eln.C103_residuals",
    "Verif.Eln.C103_decrease",
    "Verif.Eln.C103_monotone",
    "Verif.Eln.C103_stop_partial",
    "Verif.Eln.C103_stop_violated",
    "Verif.Eln.C103_minimum",
    "Verif.Eln.C103_sweep_fixed",
    "Verif.Eln.C103_fixed_partial",
    "Verif.Eln.C103_minimum_violated",
    "Verif.Eln.C103_grad_partial",
    "Verif.Eln.C103_grad_violated"
   ],
   "note": "Updates, residuals, monotonicity and optimality conditions hold; permanently dropped variables, the last history row and the sign in elnet_grad break the rest."
  },
  {
   "property": "C104",
   "status": "partial",
   "theorems": [
    "Verif.Eln.C104_intercept_partial",
    "Verif.Eln.C104_intercept_violated",
    "Verif.Eln.C104_lambda_max",
    "Verif.Eln.C104_lambda_max_some",
    "Verif.Eln.C104_path_start",
    "Verif.Eln.C104_screen",
    "Verif.Eln.C104_path",
    "Verif.Eln.C104_fit_violated"
   ],
   "note": "Intercept for centred columns; fit misassigns results."
  },
  {
   "property": "C105",
   "status": "proved",
   "theorems": [
    "Verif.Eln.C105_array_split",
    "Verif.Eln.C105_partition",
    "Verif.Eln.C105_stratified",
    "Verif.Eln.C105_few_folds"
   ],
   "note": ""
  },
  {
   "property": "C106",
   "status": "partial",
   "theorems": [
    "Verif.Eln.C106_objective",
    "Verif.Eln.C106_step",
    "Verif.Eln.C106_decrease",
    "Verif.Eln.C106_rate",
    "Verif.Eln.C106_fixed",
    "Verif.Eln.C106_result",
    "Verif.Eln.C106_never_worse",
    "Verif.Eln.C106_accelerated_iterate",
    "Verif.Eln.C106_accelerated_partial",
    "Verif.Eln.C106_accelerated_violated"
   ],
   "note": "The plain method is as stated; the accelerated one need not improve."
  },
  {
   "property": "C107",
   "status": "partial",
   "theorems": [
    "Verif.Eln.C107_coordinate",
    "Verif.Eln.C107_intercept",
    "Verif.Eln.C107_decrease_partial",
    "Verif.Eln.C107_residual_violated",
    "Verif.Eln.C107_stale"
   ],
   "note": "Exact as long as no nonzero coefficient is rounded; convergence values of dropped variables are stale."
  },
  {
   "property": "C108",
   "status": "partial",
   "theorems": [
    "Verif.Eln.C108_fixed_partial",
    "Verif.Eln.C108_eval",
    "Verif.Eln.C108_cv_violated",
    "Verif.Eln.C108_deviance",
    "Verif.Eln.C108_values",
    "Verif.Eln.C108_reentry",
    "Verif.Eln.C108_dropped",
    "Verif.Eln.C108_screen_violated",
    "Verif.Eln.C108_descent_violated",
    "Verif.Eln.C108_stop_violated",
    "Verif.Eln.C108_zero_optimal",
    "Verif.Eln.C108_lambda_max_partial",
    "Verif.Eln.C108_lambda_max_violated"
   ],
   "note": "Fixed points are optimal when no variable was dropped; descent, stopping, cross-validation intercept, lambda_max and screening are violated."
  },
  {
   "property": "C109",
   "status": "proved",
   "theorems": [
    "Verif.Lmm.C109_loglike",
    "Verif.Lmm.C109_defined",
    "Verif.Lmm.C109_ordering"
   ],
   "note": ""
  },
  {
   "property": "C110",
   "status": "partial",
   "theorems": [
    "Verif.Lmm.C110_gradient",
    "Verif.Lmm.C110_loglike_gradient",
    "Verif.Lmm.C110_reparam",
    "Verif.Lmm.C110_v2_partial",
    "Verif.Lmm.C110_v2_violated",
    "Verif.Lmm.C110_defined"
   ],
   "note": "_gradient is proved; _gradient_v2 agrees without level covariances and raises with one."
  },
  {
   "property": "C111",
   "status": "proved",
   "theorems": [
    "Verif.Lmm.C111_effects",
    "Verif.Lmm.C111_henderson",
    "Verif.Lmm.C111_joint_minimum",
    "Verif.Lmm.C111_profile",
    "Verif.Lmm.C111_vinv_apply",
    "Verif.Lmm.C111_p_apply",
    "Verif.Lmm.C111_vinvcrossprod",
    "Verif.Lmm.C111_ranef_var",
    "Verif.Lmm.C111_dC_dtheta"
   ],
   "note": ""
  },
  {
   "property": "C112",
   "status": "partial",
   "theorems": [
    "Verif.Lmm.C112_z_matrix",
    "Verif.Lmm.C112_kron_ig",
    "Verif.Lmm.C112_kron_ig_fresh",
    "Verif.Lmm.C112_kron_ag_partial",
    "Verif.Lmm.C112_kron_ag_violated",
    "Verif.Lmm.C112_coefficient_matrix_partial",
    "Verif.Lmm.C112_coefficient_matrix_violated",
    "Verif.Lmm.C112_index_map_partial",
    "Verif.Lmm.C112_index_map_violated",
    "Verif.Lmm.C112_index_map_raises"
   ],
   "note": "Z and I (x) G0 are proved; the level covariance, the coefficient matrix and the index map need conditions on the sparsity pattern and are violated without them."
  },
  {
   "property": "C113",
   "status": "partial",
   "theorems": [
    "Verif.Lmm.C113_wald",
    "Verif.Lmm.C113_df_mean",
    "Verif.Lmm.C113_satterthwaite_half_violated",
    "Verif.Lmm.C113_one_sample_violated",
    "Verif.Lmm.C113_contrast_gradient",
    "Verif.Lmm.C113_p_value_violated",
    "Verif.Lmm.C113_duality_violated",
    "Verif.Lmm.C113_duality_two_sided",
    "Verif.Lmm.C113_llf",
    "Verif.Lmm.C113_criteria",
    "Verif.Lmm.C113_lrt_violated",
    "Verif.Lmm.C113_lrt_partial",
    "Verif.Lmm.C113_total_variance",
    "Verif.Lmm.C113_r_squared",
    "Verif.Lmm.C113_fixed_spread"
   ],
   "note": "Wald statistic, contrast gradient, llf, criteria and variance decomposition are proved; degrees of freedom, p-values and the likelihood ratio test are violated."
  },
  {
   "property": "C114",
   "status": "partial",
   "theorems": [
    "Verif.Lmm.C114_rvs_fwd_partial",
    "Verif.Lmm.C114_fwd_rvs_partial",
    "Verif.Lmm.C114_cauchy_schwarz",
    "Verif.Lmm.C114_clip_violated",
    "Verif.Lmm.C114_posdef_violated",
    "Verif.Lmm.C114_jacobian"
   ],
   "note": "Inverse up to the clipping of correlations; the image is not always a covariance matrix."
  },
  {
   "property": "C115",
   "status": "proved",
   "theorems": [
    "Verif.Nd.C115_weights",
    "Verif.Nd.C115_finite_diff",
    "Verif.Nd.C115_coefficients_raises",
    "Verif.Nd.C115_coefficients",
    "Verif.Nd.C115_fd_derivative",
    "Verif.Nd.C115_agree"
   ],
   "note": ""
  },
  {
   "property": "C116",
   "status": "proved",
   "theorems": [
    "Verif.Nd.C116_symmetric",
    "Verif.Nd.C116_first",
    "Verif.Nd.C116_second_diagonal",
    "Verif.Nd.C116_second_mixed",
    "Verif.Nd.C116_gradient_affine",
    "Verif.Nd.C116_first_limit",
    "Verif.Nd.C116_gradient_limit",
    "Verif.Nd.C116_second_diagonal_limit",
    "Verif.Nd.C116_second_mixed_limit",
    "Verif.Nd.C116_complex_step",
    "Verif.Nd.C116_complex_mixed",
    "Verif.Nd.C116_complex_diagonal"
   ],
   "note": ""
  },
  {
   "property": "C117",
   "status": "partial",
   "theorems": [
    "Verif.Nd.C117_gradient_partial",
    "Verif.Nd.C117_gradient_violated",
    "Verif.Nd.C117_hessian_partial",
    "Verif.Nd.C117_hessian_violated",
    "Verif.Nd.C117_jacobian",
    "Verif.Nd.C117_args_violated",
    "Verif.Nd.C117_integer_violated",
    "Verif.Nd.C117_hess_approx"
   ],
   "note": "Exact for ratio 2 and float arrays without extra arguments; violated for other ratios, extra arguments and integer arrays."
  },
  {
   "property": "C118",
   "status": "partial",
   "theorems": [
    "Verif.Spl.C118_solves",
    "Verif.Spl.C118_basis",
    "Verif.Spl.C118_knots",
    "Verif.Spl.C118_smooth",
    "Verif.Spl.C118_penalty",
    "Verif.Spl.C118_least",
    "Verif.Spl.C118_null",
    "Verif.Spl.C118_lines",
    "Verif.Spl.C118_natural_violated"
   ],
   "note": "All clauses proved inside the knots; extrapolation is cubic, so the natural-spline clause is violated outside them."
  },
  {
   "property": "C119",
   "status": "partial",
   "theorems": [
    "Verif.Spl.C119_solves_partial",
    "Verif.Spl.C119_basis",
    "Verif.Spl.C119_knots",
    "Verif.Spl.C119_smooth_partial",
    "Verif.Spl.C119_penalty_partial",
    "Verif.Spl.C119_least_partial",
    "Verif.Spl.C119_null_partial",
    "Verif.Spl.C119_constants_partial",
    "Verif.Spl.C119_three_knots_violated",
    "Verif.Spl.C119_period_violated"
   ],
   "note": "Proved for four or more knots and arguments inside them; violated for three knots and for periodicity outside."
  },
  {
   "property": "C120",
   "status": "proved",
   "theorems": [
    "Verif.Spl.C120_increasing",
    "Verif.Spl.C120_ends",
    "Verif.Spl.C120_agree",
    "Verif.Spl.C120_splines"
   ],
   "note": ""
  },
  {
   "property": "C121",
   "status": "partial",
   "theorems": [
    "Verif.Spl.C121_support",
    "Verif.Spl.C121_partition",
    "Verif.Spl.C121_nonneg",
    "Verif.Spl.C121_derivative",
    "Verif.Spl.C121_lines",
    "Verif.Spl.C121_basis",
    "Verif.Spl.C121_equispaced",
    "Verif.Spl.C121_bspline",
    "Verif.Spl.C121_knots",
    "Verif.Spl.C121_degree_zero_violated",
    "Verif.Spl.C121_difference",
    "Verif.Spl.C121_difference_null",
    "Verif.Spl.C121_binds",
    "Verif.Spl.C121_calls_violated"
   ],
   "note": "Basis, knots and differences proved; bspline_knots with degree 0 and the bs smooth construction are violated."
  },
  {
   "property": "C122",
   "status": "proved",
   "theorems": [
    "Verif.Gam.C122_gradient",
    "Verif.Gam.C122_gamma_one",
    "Verif.Gam.C122_gradient_gcv",
    "Verif.Gam.C122_defined",
    "Verif.Gam.C122_edf",
    "Verif.Gam.C122_rss",
    "Verif.Gam.C122_fitted"
   ],
   "note": ""
  },
  {
   "property": "C123",
   "status": "partial",
   "theorems": [
    "Verif.Gam.C123_absorb",
    "Verif.Gam.C123_centred",
    "Verif.Gam.C123_span",
    "Verif.Gam.C123_fit",
    "Verif.Gam.C123_constrained",
    "Verif.Gam.C123_not_void",
    "Verif.Gam.C123_constants",
    "Verif.Gam.C123_lines",
    "Verif.Gam.C123_scale",
    "Verif.Gam.C123_unit",
    "Verif.Gam.C123_by",
    "Verif.Gam.C123_by_values_violated",
    "Verif.Gam.C123_cubic",
    "Verif.Gam.C123_cyclic"
   ],
   "note": "All clauses proved except that the stored values of x lose zeros of the category."
  },
  {
   "property": "C124",
   "status": "partial",
   "theorems": [
    "Verif.Gam.C124_formula_partial",
    "Verif.Gam.C124_intercept_violated",
    "Verif.Gam.C124_function_violated",
    "Verif.Gam.C124_same_variable_violated",
    "Verif.Gam.C124_design",
    "Verif.Gam.C124_penalty",
    "Verif.Gam.C124_blocks",
    "Verif.Gam.C124_terms_partial",
    "Verif.Gam.C124_key_violated",
    "Verif.Gam.C124_name_violated"
   ],
   "note": "Layout proved; formula and names proved under stated conditions and violated without them."
  },
  {
   "property": "C125",
   "status": "partial",
   "theorems": [
    "Verif.Gam.C125_inverse",
    "Verif.Gam.C125_penalty",
    "Verif.Gam.C125_cubic_partial",
    "Verif.Gam.C125_cyclic_violated",
    "Verif.Gam.C125_all",
    "Verif.Gam.C125_indices_partial",
    "Verif.Gam.C125_indices_violated",
    "Verif.Gam.C125_prior_violated"
   ],
   "note": "Inverse and penalty identities proved; cyclic smooths, one-column smooths and the Stan prior violate the claim."
  },
  {
   "property": "C126",
   "status": "partial",
   "theorems": [
    "Verif.Gam.C126_gradient",
    "Verif.Gam.C126_coef",
    "Verif.Gam.C126_hessian",
    "Verif.Gam.C126_symmetric",
    "Verif.Gam.C126_defined",
    "Verif.Gam.C126_minimum",
    "Verif.Gam.C126_pirls_partial",
    "Verif.Gam.C126_pirls_violated",
    "Verif.Gam.C126_covariance",
    "Verif.Gam.C126_frequentist_partial",
    "Verif.Gam.C126_frequentist_violated",
    "Verif.Gam.C126_edf_violated"
   ],
   "note": "Criterion, derivatives and minimisation proved; pirls, Vf and edf violate the claim outside stated conditions."
  },
  {
   "property": "C127",
   "status": "partial",
   "theorems": [
    "Verif.Gam.C127_gradient",
    "Verif.Gam.C127_hessian",
    "Verif.Gam.C127_symmetric",
    "Verif.Gam.C127_newton",
    "Verif.Gam.C127_fixed",
    "Verif.Gam.C127_score",
    "Verif.Gam.C127_descent",
    "Verif.Gam.C127_stationary",
    "Verif.Gam.C127_halving",
    "Verif.Gam.C127_newton_violated",
    "Verif.Gam.C127_covariance",
    "Verif.Gam.C127_pvalue_violated",
    "Verif.Gam.C127_rank_partial",
    "Verif.Gam.C127_rank_violated",
    "Verif.Gam.C127_coef",
    "Verif.Gam.C127_hess_beta",
    "Verif.Gam.C127_third"
   ],
   "note": "All derivatives, the Newton step and descent proved; zero weights, p-values and tests of vanishing smooths violate the claim."
  },
  {
   "property": "C128",
   "status": "partial",
   "theorems": [
    "Verif.Gam.C128_family_partial",
    "Verif.Gam.C128_identity",
    "Verif.Gam.C128_log",
    "Verif.Gam.C128_reciprocal",
    "Verif.Gam.C128_logit",
    "Verif.Gam.C128_power",
    "Verif.Gam.C128_negbin_violated",
    "Verif.Gam.C128_gaussian",
    "Verif.Gam.C128_invGaussian",
    "Verif.Gam.C128_gamma",
    "Verif.Gam.C128_poisson",
    "Verif.Gam.C128_binomial",
    "Verif.Gam.C128_poisson_log",
    "Verif.Gam.C128_binomial_logit",
    "Verif.Gam.C128_gaussian_identity",
    "Verif.Gam.C128_gamma_reciprocal",
    "Verif.Gam.C128_invGaussian_power",
    "Verif.Gam.C128_defaults",
    "Verif.Gam.C128_family_violated",
    "Verif.Gam.C128_scale_gaussian",
    "Verif.Gam.C128_scale_invGaussian",
    "Verif.Gam.C128_scale_gamma",
    "Verif.Gam.C128_scale_partial",
    "Verif.Gam.C128_scale_violated"
   ],
   "note": "Proved away from zero weights for every link and variance function meeting the contract, and everywhere for the default links; zero weights, the negative binomial link and the missing scale functions violate the claim."
  },
  {
   "property": "C129",
   "status": "partial",
   "theorems": [
    "Verif.Cov.C129_ante_psd",
    "Verif.Cov.C129_ante_pd",
    "Verif.Cov.C129_ar1",
    "Verif.Cov.C129_ante_lower",
    "Verif.Cov.C129_ante_partial",
    "Verif.Cov.C129_ante_violated",
    "Verif.Cov.C129_exchangeable",
    "Verif.Cov.C129_exchangeable_iff",
    "Verif.Cov.C129_exchangeable_violated",
    "Verif.Cov.C129_mdependent",
    "Verif.Cov.C129_toeplitz_partial",
    "Verif.Cov.C129_toeplitz_violated",
    "Verif.Cov.C129_mdependent_violated",
    "Verif.Cov.C129_factor",
    "Verif.Cov.C129_spatial",
    "Verif.Cov.C129_spatial_zero",
    "Verif.Cov.C129_spatial_violated"
   ],
   "note": "Proved for the AR(1), exchangeable, factor and Markov structures and up to three variables for the antedependence function; the order of its upper triangle, the one variable default, the unchecked Toeplitz and m-dependent structures and the Gaussian structure violate the claim."
  },
  {
   "property": "C130",
   "status": "partial",
   "theorems": [
    "Verif.Cov.C130_whiten",
    "Verif.Cov.C130_svd_factor",
    "Verif.Cov.C130_exact",
    "Verif.Cov.C130_exact_mean_partial",
    "Verif.Cov.C130_exact_violated",
    "Verif.Cov.C130_canvar",
    "Verif.Cov.C130_canvar_eig_partial",
    "Verif.Cov.C130_canvar_eig_violated",
    "Verif.Cov.C130_project",
    "Verif.Cov.C130_project_id",
    "Verif.Cov.C130_project_nearest",
    "Verif.Cov.C130_near_diag",
    "Verif.Cov.C130_near_psd_partial",
    "Verif.Cov.C130_near_id",
    "Verif.Cov.C130_near_violated"
   ],
   "note": "Proved for project_psd, for near_psd with a free diagonal or an admissible argument, for the covariance of _exact_cov and for get_canvar_corr without directions or with uncorrelated ones; the fixed diagonal of near_psd, the mean of _exact_cov and correlated directions violate the claim."
  },
  {
   "property": "C131",
   "status": "proved",
   "theorems": [
    "Verif.Cov.C131_jacobian",
    "Verif.Cov.C131_neudecker",
    "Verif.Cov.C131_variance",
    "Verif.Cov.C131_browne",
    "Verif.Cov.C131_cov",
    "Verif.Cov.C131_cov_normal"
   ],
   "note": ""
  },
  {
   "property": "C132",
   "status": "partial",
   "theorems": [
    "Verif.Reg.C132_logit",
    "Verif.Reg.C132_log",
    "Verif.Reg.C132_gradient",
    "Verif.Reg.C132_hessian",
    "Verif.Reg.C132_density",
    "Verif.Reg.C132_llr",
    "Verif.Reg.C132_aic_violated",
    "Verif.Reg.C132_mcf_violated",
    "Verif.Reg.C132_mfa_violated",
    "Verif.Reg.C132_nagelkerke_violated",
    "Verif.Reg.C132_labels_violated",
    "Verif.Reg.C132_aicc",
    "Verif.Reg.C132_mcfa_violated"
   ],
   "note": "Objective, gradient, Hessian and density proved in full; the fit statistics and array labels are wrong in the code and proved so (C132_*_violated)."
  },
  {
   "property": "C133",
   "status": "partial",
   "theorems": [
    "Verif.Reg.C133_gradient",
    "Verif.Reg.C133_hessian",
    "Verif.Reg.C133_normalised",
    "Verif.Reg.C133_mean",
    "Verif.Reg.C133_variance",
    "Verif.Reg.C133_pearson",
    "Verif.Reg.C133_deviance",
    "Verif.Reg.C133_deviance_nonneg",
    "Verif.Reg.C133_indices",
    "Verif.Reg.C133_bootstrap_violated",
    "Verif.Reg.C133_criteria"
   ],
   "note": "Everything proved except the state after bootstrap, which the code does not restore (C133_bootstrap_violated)."
  },
  {
   "property": "C134",
   "status": "partial",
   "theorems": [
    "Verif.Reg.C134_gradient",
    "Verif.Reg.C134_hessian",
    "Verif.Reg.C134_mean",
    "Verif.Reg.C134_variance",
    "Verif.Reg.C134_loglike_partial",
    "Verif.Reg.C134_normalised_violated",
    "Verif.Reg.C134_stats",
    "Verif.Reg.C134_aicc_violated",
    "Verif.Reg.C134_cs_violated",
    "Verif.Reg.C134_mcfa_violated",
    "Verif.Reg.C134_labels_violated",
    "Verif.Reg.C134_nagelkerke"
   ],
   "note": "Derivatives, prediction and likelihood up to a constant proved; the constant, three indices and the labels of data frames are wrong in the code and proved so."
  },
  {
   "property": "C135",
   "status": "partial",
   "theorems": [
    "Verif.Reg.C135_gradient",
    "Verif.Reg.C135_hessian",
    "Verif.Reg.C135_huber",
    "Verif.Reg.C135_equivariant",
    "Verif.Reg.C135_cov_partial",
    "Verif.Reg.C135_cov_violated",
    "Verif.Reg.C135_irwls_fixed",
    "Verif.Reg.C135_irwls_violated",
    "Verif.Reg.C135_cov_agree"
   ],
   "note": "Derivatives and equivariance of the objective proved; the covariances hold in the quadratic zone only and irwls solves other equations (C135_cov_violated, C135_irwls_violated)."
  },
  {
   "property": "C136",
   "status": "partial",
   "theorems": [
    "Verif.Robust.C136_sn",
    "Verif.Robust.C136_sn_equivariant",
    "Verif.Robust.C136_gmd",
    "Verif.Robust.C136_sn_estimator",
    "Verif.Robust.C136_qn_partial",
    "Verif.Robust.C136_qn_small_violated",
    "Verif.Robust.C136_qn_violated",
    "Verif.Robust.C136_qn_index",
    "Verif.Robust.C136_qn2",
    "Verif.Robust.C136_qn2_violated",
    "Verif.Robust.C136_mad"
   ],
   "note": "Fast Sn, equivariance, Gini and sn_estimator versions proved in full; the two Qn functions are not the estimator and proved so (C136_qn_violated, C136_qn_small_violated, C136_qn2_violated)."
  },
  {
   "property": "C137",
   "status": "proved",
   "theorems": [
    "Verif.Mv.C137_antitone",
    "Verif.Mv.C137_threshold",
    "Verif.Mv.C137_tolerance",
    "Verif.Mv.C137_constraint_violated"
   ],
   "note": "Search and monotonicity proved; the returned threshold is only close to the exact one, so the bound itself may be exceeded (C137_constraint_violated)."
  },
  {
   "property": "C138",
   "status": "proved",
   "theorems": [
    "Verif.Mv.C138_half_step",
    "Verif.Mv.C138_scca_vec",
    "Verif.Mv.C138_ascent",
    "Verif.Mv.C138_norm_violated"
   ],
   "note": "Optimality, ascent, unit ball and stopping proved above the floor of the norm; below it the step is not of unit length (C138_norm_violated)."
  },
  {
   "property": "C139",
   "status": "partial",
   "theorems": [
    "Verif.Mv.C139_scores",
    "Verif.Mv.C139_orthogonalize_partial",
    "Verif.Mv.C139_components",
    "Verif.Mv.C139_total",
    "Verif.Mv.C139_orthogonalize_violated"
   ],
   "note": "Orthogonality proved when no non-zero weight is below 1e-12; false otherwise (C139_orthogonalize_violated)."
  },
  {
   "property": "C140",
   "status": "partial",
   "theorems": [
    "Verif.Mv.C140_lmax_partial",
    "Verif.Mv.C140_lmax_violated",
    "Verif.Mv.C140_perm_init"
   ],
   "note": "Holds for two components only; index error for one and a wrong entry for three or more (C140_lmax_violated); second starting vector not normalised (C140_perm_init)."
  },
  {
   "property": "C141",
   "status": "partial",
   "theorems": [
    "Verif.Mv.C141_variates",
    "Verif.Mv.C141_unit_partial",
    "Verif.Mv.C141_optimal",
    "Verif.Mv.C141_cutoff_violated",
    "Verif.Mv.C141_columns",
    "Verif.Mv.C141_columns_violated"
   ],
   "note": "Full statement for covariance eigenvalues above 1e-16 (C141_optimal) and, for singular ones, where the eigenvalues are exactly zero or above the cutoff (C141_unit_partial); labels and cutoff disagree (C141_columns_violated, C141_cutoff_violated)."
  },
  {
   "property": "C142",
   "status": "partial",
   "theorems": [
    "Verif.Mv.C142_decorr",
    "Verif.Mv.C142_components",
    "Verif.Mv.C142_centred",
    "Verif.Mv.C142_whiten",
    "Verif.Mv.C142_reconstruct",
    "Verif.Mv.C142_update_partial",
    "Verif.Mv.C142_update_violated",
    "Verif.Mv.C142_mle_violated",
    "Verif.Mv.C142_convergence_violated"
   ],
   "note": "Decorrelation, whitening, orthogonality of the iterates and reconstruction proved; the fastica update is the fixed point iteration only when all mean slopes agree (C142_update_partial) and false otherwise (C142_update_violated, C142_convergence_violated)."
  },
  {
   "property": "C143",
   "status": "partial",
   "theorems": [
    "Verif.Lmm.Prf.C143_inverse_partial",
    "Verif.Lmm.Prf.C143_forward_partial",
    "Verif.Lmm.Prf.C143_jacobian_partial",
    "Verif.Lmm.Prf.C143_order_violated"
   ],
   "note": "Proved for any number of terms with at most three variables each; false from four variables on (C143_order_violated)."
  },
  {
   "property": "C144",
   "status": "partial",
   "theorems": [
    "Verif.Lmm.Lm.C144_loglike_partial",
    "Verif.Lmm.Lm.C144_defined",
    "Verif.Lmm.Lm.C144_ordering_violated"
   ],
   "note": "Proved when the response is last in the ordering (the dense branch always); false for other orderings (C144_ordering_violated)."
  },
  {
   "property": "C145",
   "status": "partial",
   "theorems": [
    "Verif.Lmm.Lm.C145_gradient_components",
    "Verif.Lmm.Lm.C145_gradient",
    "Verif.Lmm.Lm.C145_defined",
    "Verif.Lmm.Lm.C145_hessian_partial",
    "Verif.Lmm.Lm.C145_hessian_gradient",
    "Verif.Lmm.Lm.C145_hessian_symm",
    "Verif.Lmm.Lm.C145_hessian_defined",
    "Verif.Lmm.Lm.C145_hessian_ml_violated"
   ],
   "note": "Gradient proved for both criteria; Hessian for the restricted criterion, false for maximum likelihood (C145_hessian_ml_violated)."
  },
  {
   "property": "C146",
   "status": "partial",
   "theorems": [
    "Verif.Lmm.Lm.C146_vinvcrossprod",
    "Verif.Lmm.Lm.C146_effects",
    "Verif.Lmm.Lm.C146_pls_weights",
    "Verif.Lmm.Lm.C146_pls_partial",
    "Verif.Lmm.Lm.C146_pls_deviance",
    "Verif.Lmm.Lm.C146_pls_order_violated",
    "Verif.Lmm.Lm.C146_pls_scale_violated"
   ],
   "note": "vinvcrossprod and effects proved for every ordering; pls for the natural order and relative parameters, false otherwise (C146_pls_order_violated, C146_pls_scale_violated)."
  },
  {
   "property": "C147",
   "status": "partial",
   "theorems": [
    "Verif.Lmm.Lm.C147_covariance",
    "Verif.Lmm.Lm.C147_transform_inverse",
    "Verif.Lmm.Lm.C147_inverse_transform",
    "Verif.Lmm.Lm.C147_transform_defined",
    "Verif.Lmm.Lm.C147_dg_dchol",
    "Verif.Lmm.Lm.C147_d2_chol",
    "Verif.Lmm.Lm.C147_gradient_chol",
    "Verif.Lmm.Lm.C147_gradient_defined",
    "Verif.Lmm.Lm.C147_hessian_chol_partial",
    "Verif.Lmm.Lm.C147_hessian_chol_ml_violated"
   ],
   "note": "Transformations, first and second derivatives and gradient proved; Hessian for the restricted criterion, false for maximum likelihood (C147_hessian_chol_ml_violated)."
  },
  {
   "property": "C148",
   "status": "partial",
   "theorems": [
    "Verif.Lmm.Lm.C148_jacobian",
    "Verif.Lmm.Lm.C148_jacobian_defined",
    "Verif.Lmm.Lm.C148_wald",
    "Verif.Lmm.Lm.C148_df_mean_partial",
    "Verif.Lmm.Lm.C148_satterthwaite_partial",
    "Verif.Lmm.Lm.C148_satterthwaite_violated",
    "Verif.Lmm.Lm.C148_one_sample",
    "Verif.Lmm.Lm.C148_t_violated",
    "Verif.Lmm.Lm.C148_p_violated",
    "Verif.Lmm.Lm.C148_llf_partial",
    "Verif.Lmm.Lm.C148_se_ml_violated",
    "Verif.Lmm.Lm.C148_re_corr"
   ],
   "note": "Wald statistic, derivatives, log likelihood (response last) and correlations proved; degrees of freedom proved above two and zero otherwise; sign of t, one-sided p and standard errors of ML fits are wrong (see the violated theorems)."
  },
  {
   "property": "C149",
   "status": "proved",
   "theorems": [
    "Verif.Mv.Mvols.C149_unpack_pack",
    "Verif.Mv.Mvols.C149_pack_unpack",
    "Verif.Mv.Mvols.C149_loglike",
    "Verif.Mv.Mvols.C149_gradient_i",
    "Verif.Mv.Mvols.C149_gradient",
    "Verif.Mv.Mvols.C149_hessian_symm",
    "Verif.Mv.Mvols.C149_hessian"
   ],
   "note": ""
  },
  {
   "property": "C150",
   "status": "proved",
   "theorems": [
    "Verif.Mv.Mvols.C150_runs",
    "Verif.Mv.Mvols.C150_minimum",
    "Verif.Mv.Mvols.C150_sigma",
    "Verif.Mv.Mvols.C150_score",
    "Verif.Mv.Mvols.C150_beta_cov"
   ],
   "note": ""
  },
  {
   "property": "C151",
   "status": "partial",
   "theorems": [
    "Verif.Mv.Mvols.C151_gram_inv",
    "Verif.Mv.Mvols.C151_hypothesis",
    "Verif.Mv.Mvols.C151_tolerance",
    "Verif.Mv.Mvols.C151_statistics",
    "Verif.Mv.Mvols.C151_exact_partial",
    "Verif.Mv.Mvols.C151_crash_violated",
    "Verif.Mv.Mvols.C151_small_sample_violated",
    "Verif.Mv.Mvols.C151_one_row_partial"
   ],
   "note": "Hypothesis matrix proved; statistics proved exactly away from the tolerances and Wilks and Pillai within them; tests exact in the one-root case except at two ranges of error degrees of freedom, where C151_crash_violated and C151_small_sample_violated apply."
  },
  {
   "property": "C152",
   "status": "proved",
   "theorems": [
    "Verif.Mv.Mvols.C152_total",
    "Verif.Mv.Mvols.C152_generalized",
    "Verif.Mv.Mvols.C152_rsquared",
    "Verif.Mv.Mvols.C152_trace",
    "Verif.Mv.Mvols.C152_effect_sizes",
    "Verif.Mv.Mvols.C152_canonical"
   ],
   "note": ""
  },
  {
   "property": "C153",
   "status": "partial",
   "theorems": [
    "Verif.Like.Ols.C153_gradient",
    "Verif.Like.Ols.C153_hessian",
    "Verif.Like.Ols.C153_fit",
    "Verif.Like.Ols.C153_fit1",
    "Verif.Like.Ols.C153_runs",
    "Verif.Like.Ols.C153_minimum",
    "Verif.Like.Ols.C153_cov",
    "Verif.Like.Ols.C153_scale",
    "Verif.Like.Ols.C153_anova",
    "Verif.Like.Ols.C153_adjusted",
    "Verif.Like.Ols.C153_no_constant_violated",
    "Verif.Like.Ols.C153_constrained",
    "Verif.Like.Ols.C153_boot_partial",
    "Verif.Like.Ols.C153_boot_violated",
    "Verif.Like.Ols.C153_perm_partial",
    "Verif.Like.Ols.C153_perm_exact_partial",
    "Verif.Like.Ols.C153_perm_violated",
    "Verif.Like.Ols.C153_tallies",
    "Verif.Like.Ols.C153_weights_violated"
   ],
   "note": "Likelihood, fits, covariance, analysis of variance and restricted fits proved; permutation variance, bootstrap scale, weights and R2 without a constant disproved by C153_perm_violated, C153_boot_violated, C153_weights_violated and C153_no_constant_violated."
  },
  {
   "property": "C154",
   "status": "partial",
   "theorems": [
    "Verif.Like.Output.C154_center",
    "Verif.Like.Output.C154_duality",
    "Verif.Like.Output.C154_boundary",
    "Verif.Like.Output.C154_scale",
    "Verif.Like.Output.C154_bias_partial",
    "Verif.Like.Output.C154_unbiased_partial",
    "Verif.Like.Output.C154_order",
    "Verif.Like.Output.C154_reflect",
    "Verif.Like.Output.C154_accel",
    "Verif.Like.Output.C154_accel_eq",
    "Verif.Like.Output.C154_bca",
    "Verif.Like.Output.C154_bca_reflect",
    "Verif.Like.Output.C154_bca_violated",
    "Verif.Like.Output.C154_translation_violated",
    "Verif.Like.Output.C154_raises"
   ],
   "note": "Tables proved; BCa proved up to the sign of the bias correction, which C154_bca_violated and C154_translation_violated show to be wrong."
  },
  {
   "property": "C155",
   "status": "partial",
   "theorems": [
    "Verif.Like.OldOls.C155_svd",
    "Verif.Like.OldOls.C155_vif_partial",
    "Verif.Like.OldOls.C155_vif_spec_partial",
    "Verif.Like.OldOls.C155_vif_violated",
    "Verif.Like.OldOls.C155_vdp_partial",
    "Verif.Like.OldOls.C155_vdp_violated",
    "Verif.Like.OldOls.C155_cond",
    "Verif.Like.OldOls.C155_fit",
    "Verif.Like.OldOls.C155_robust",
    "Verif.Like.OldOls.C155_kinds",
    "Verif.Like.OldOls.C155_omega",
    "Verif.Like.OldOls.C155_jackknife",
    "Verif.Like.OldOls.C155_cooks_partial",
    "Verif.Like.OldOls.C155_influence_violated",
    "Verif.Like.OldOls.C155_profile",
    "Verif.Like.OldOls.C155_stored_violated",
    "Verif.Like.OldOls.C155_stored_partial"
   ],
   "note": "Matrices, fits, robust errors, deletions and likelihood proved; condition table, influence measures and stored permutations disproved by C155_vif_violated, C155_vdp_violated, C155_influence_violated and C155_stored_violated."
  },
  {
   "property": "C156",
   "status": "partial",
   "theorems": [
    "Verif.Gam.Gauls.C156_identity",
    "Verif.Gam.Gauls.C156_logb",
    "Verif.Gam.Gauls.C156_offset",
    "Verif.Gam.Gauls.C156_offset_violated",
    "Verif.Gam.Gauls.C156_derivs",
    "Verif.Gam.Gauls.C156_default",
    "Verif.Gam.Gauls.C156_location"
   ],
   "note": "Links and derivatives proved; the offset of LogbLink is disproved by C156_offset_violated."
  },
  {
   "property": "C157",
   "status": "proved",
   "theorems": [
    "Verif.Gam.Gauls.C157_gradient",
    "Verif.Gam.Gauls.C157_hessian",
    "Verif.Gam.Gauls.C157_weights",
    "Verif.Gam.Gauls.C157_direction",
    "Verif.Gam.Gauls.C157_newton",
    "Verif.Gam.Gauls.C157_descent",
    "Verif.Gam.Gauls.C157_beta_rho",
    "Verif.Gam.Gauls.C157_stationary",
    "Verif.Gam.Gauls.C157_coef",
    "Verif.Gam.Gauls.C157_dhess",
    "Verif.Gam.Gauls.C157_hess_beta"
   ],
   "note": "The branch of stationary coefficients is assumed continuous with an invertible penalised Hessian; differentiability is proved."
  },
  {
   "property": "C158",
   "status": "partial",
   "theorems": [
    "Verif.Gam.Gauls.C158_edf",
    "Verif.Gam.Gauls.C158_wald",
    "Verif.Gam.Gauls.C158_pvalue_violated",
    "Verif.Gam.Gauls.C158_aic_partial",
    "Verif.Gam.Gauls.C158_aic_violated",
    "Verif.Gam.Gauls.C158_rsquared_partial",
    "Verif.Gam.Gauls.C158_deviance_partial",
    "Verif.Gam.Gauls.C158_deviance_violated",
    "Verif.Gam.Gauls.C158_rsquared_violated",
    "Verif.Gam.Gauls.C158_predict_partial",
    "Verif.Gam.Gauls.C158_predict_violated",
    "Verif.Gam.Gauls.C158_weights_checked",
    "Verif.Gam.Gauls.C158_weights",
    "Verif.Gam.Gauls.C158_gradient",
    "Verif.Gam.Gauls.C158_gradient_violated",
    "Verif.Gam.Gauls.C158_hessian"
   ],
   "note": "Derivatives, covariances, Wald statistic and weights proved; reml without location smooths, p-values, aic, rsquared and predictions disproved by the _violated theorems."
  },
  {
   "property": "C159",
   "status": "proved",
   "theorems": [
    "Verif.Lv.C159_density",
    "Verif.Lv.C159_dl",
    "Verif.Lv.C159_cdf",
    "Verif.Lv.C159_cdf_error",
    "Verif.Lv.C159_dr",
    "Verif.Lv.C159_dr2",
    "Verif.Lv.C159_du",
    "Verif.Lv.C159_du2",
    "Verif.Lv.C159_region",
    "Verif.Lv.C159_quadrature",
    "Verif.Lv.C159_hart",
    "Verif.Lv.C159_hart_side"
   ],
   "note": "Real arithmetic. The distribution function is exact for an exact rule and an exact normal function; the table is shown to be exact to degree 125 up to 1e-16 per unit coefficient, and how well polynomials approximate the density in the correlation is not modelled."
  },
  {
   "property": "C160",
   "status": "partial",
   "theorems": [
    "Verif.Index.C160_members",
    "Verif.Index.C160_order_partial",
    "Verif.Index.C160_flag_violated",
    "Verif.Index.C160_ascending",
    "Verif.Index.C160_vecl",
    "Verif.Index.C160_convert_partial",
    "Verif.Index.C160_convert_violated"
   ],
   "note": "Members, order and pairs proved; the meaning of the flag and the direction of convert_acm disproved by the _violated theorems."
  },
  {
   "property": "C161",
   "status": "partial",
   "theorems": [
    "Verif.Lv.Pair.C161_gradient_partial",
    "Verif.Lv.Pair.C161_hessian_partial",
    "Verif.Lv.Pair.C161_symmetric",
    "Verif.Lv.Pair.C161_admissible",
    "Verif.Lv.Pair.C161_transformed_partial",
    "Verif.Lv.Pair.C161_quasi_partial",
    "Verif.Lv.Pair.C161_quasi_transformed_partial",
    "Verif.Lv.Pair.C161_gradient_violated",
    "Verif.Lv.Pair.C161_hessian_violated",
    "Verif.Lv.Pair.C161_cells"
   ],
   "note": "Derivatives proved where counted cells are above the clamps; below them disproved by the _violated theorems."
  },
  {
   "property": "C162",
   "status": "partial",
   "theorems": [
    "Verif.Lv.C162_search",
    "Verif.Lv.C162_direction",
    "Verif.Lv.C162_descent",
    "Verif.Lv.C162_fit",
    "Verif.Lv.C162_zero_iter",
    "Verif.Lv.C162_pair_partial",
    "Verif.Lv.C162_report_violated",
    "Verif.Lv.C162_total",
    "Verif.Lv.C162_cprp",
    "Verif.Lv.C162_thresholds",
    "Verif.Lv.C162_margins"
   ],
   "note": "Counts, thresholds, descent and soundness of success proved; the report after the last iteration disproved by C162_report_violated."
  },
  {
   "property": "C163",
   "status": "partial",
   "theorems": [
    "Verif.Lv.C163_jacobian",
    "Verif.Lv.C163_solve",
    "Verif.Lv.Pair.C163_influence",
    "Verif.Lv.Pair.C163_centred",
    "Verif.Lv.C163_codes_partial",
    "Verif.Lv.C163_codes_violated",
    "Verif.Lv.C163_loop",
    "Verif.Lv.C163_psd_partial",
    "Verif.Lv.C163_centring_violated"
   ],
   "note": "Influence, solvability, centring and equality of the two versions proved; skipped codes and centring away from the two-step solution disproved by the _violated theorems."
  },
  {
   "property": "C164",
   "status": "partial",
   "theorems": [
    "Verif.Lv.Flat.C164_flat",
    "Verif.Lv.Flat.C164_flat_partial",
    "Verif.Lv.C164_hessian",
    "Verif.Lv.C164_tanh",
    "Verif.Lv.C164_qtf",
    "Verif.Lv.C164_thresh",
    "Verif.Lv.C164_complete_partial",
    "Verif.Lv.C164_pairwise",
    "Verif.Lv.C164_outer_violated",
    "Verif.Lv.C164_nan_violated",
    "Verif.Lv.C164_dropped_violated",
    "Verif.Lv.C164_table",
    "Verif.Lv.C164_gauss"
   ],
   "note": "Likelihoods, derivatives and thresholds agree without missing values; Polychoric is disproved with missing values by the _violated theorems."
  },
  {
   "property": "C165",
   "status": "partial",
   "theorems": [
    "Verif.Lv.C165_dcrep",
    "Verif.Lv.C165_dcrep_violated",
    "Verif.Lv.C165_obs",
    "Verif.Lv.C165_increasing",
    "Verif.Lv.C165_prob",
    "Verif.Lv.C165_conditional",
    "Verif.Lv.C165_gradient",
    "Verif.Lv.C165_fit",
    "Verif.Lv.C165_ll",
    "Verif.Lv.C165_scale_violated"
   ],
   "note": "Thresholds, probabilities and gradient proved; invariance under the unit of x and dcrep outside its keys disproved."
  },
  {
   "property": "C166",
   "status": "partial",
   "theorems": [
    "Verif.Lv.C166_weights",
    "Verif.Lv.C166_categories",
    "Verif.Lv.C166_ncat_violated",
    "Verif.Lv.C166_bounds",
    "Verif.Lv.C166_max_violated",
    "Verif.Lv.C166_bins"
   ],
   "note": "Weights and categories proved; the requested number of categories and the upper bound disproved by the _violated theorems."
  },
  {
   "property": "C167",
   "status": "partial",
   "theorems": [
    "Verif.Rand.C167_spiral",
    "Verif.Rand.C167_ones",
    "Verif.Rand.C167_chol_partial",
    "Verif.Rand.C167_corr_partial",
    "Verif.Rand.C167_one_violated"
   ],
   "note": "Proved for two or more dimensions; dimension one raises (C167_one_violated)."
  },
  {
   "property": "C168",
   "status": "partial",
   "theorems": [
    "Verif.Rand.C168_vine_entries",
    "Verif.Rand.C168_vine_full",
    "Verif.Rand.C168_vine_partial",
    "Verif.Rand.C168_vine_violated",
    "Verif.Rand.C168_vine_small",
    "Verif.Rand.C168_repair",
    "Verif.Rand.C168_border",
    "Verif.Rand.C168_onion_partial",
    "Verif.Rand.C168_onion_one_violated"
   ],
   "note": "Onion proved for two or more variables; the vine is disproved (C168_vine_violated) and proved for the loop over all indices (C168_vine_full)."
  },
  {
   "property": "C169",
   "status": "proved",
   "theorems": [
    "Verif.Rand.C169_exact",
    "Verif.Rand.C169_wishart",
    "Verif.Rand.C169_wishart_mean",
    "Verif.Rand.C169_inverse"
   ],
   "note": ""
  },
  {
   "property": "C170",
   "status": "partial",
   "theorems": [
    "Verif.Rand.C170_bounds_partial",
    "Verif.Rand.C170_exponential",
    "Verif.Rand.C170_rate",
    "Verif.Rand.C170_uniform",
    "Verif.Rand.C170_unbounded_violated"
   ],
   "note": "Bounds and densities proved when a bound is finite; disproved without bounds."
  },
  {
   "property": "C171",
   "status": "partial",
   "theorems": [
    "Verif.Rand.C171_t_partial",
    "Verif.Rand.C171_t_violated",
    "Verif.Rand.C171_reflection",
    "Verif.Rand.C171_rotation"
   ],
   "note": "Rotations proved; the centre of multivariate_t disproved."
  },
  {
   "property": "C172",
   "status": "partial",
   "theorems": [
    "Verif.Lmm.C172_icc",
    "Verif.Lmm.C172_spearman_brown",
    "Verif.Lmm.C172_within",
    "Verif.Lmm.C172_order",
    "Verif.Lmm.C172_agree",
    "Verif.Lmm.C172_anova_partial",
    "Verif.Lmm.C172_anova_violated",
    "Verif.Lmm.C172_icc1_violated"
   ],
   "note": "Coefficients proved; the table of `icc` and the sign of ICC1 disproved by the _violated theorems."
  },
  {
   "property": "C173",
   "status": "partial",
   "theorems": [
    "Verif.Np.C173_fft",
    "Verif.Np.C173_mirror",
    "Verif.Np.C173_agree_partial",
    "Verif.Np.C173_negative_violated",
    "Verif.Np.C173_coef",
    "Verif.Np.C173_biased",
    "Verif.Np.C173_unbiased",
    "Verif.Np.C173_name_violated"
   ],
   "note": "xcorr_fft proved; the mirrored versions disproved at negative lags."
  },
  {
   "property": "C174",
   "status": "proved",
   "theorems": [
    "Verif.Misc.Shash.C174_logpdf1",
    "Verif.Misc.Shash.C174_logpdf2",
    "Verif.Misc.Shash.C174_logpdf3",
    "Verif.Misc.Shash.C174_logpdf4"
   ],
   "note": ""
  },
  {
   "property": "C175",
   "status": "proved",
   "theorems": [
    "Verif.Misc.Shashr.C175_logpdf1",
    "Verif.Misc.Shashr.C175_logpdf2",
    "Verif.Misc.Shashr.C175_logpdf3",
    "Verif.Misc.Shashr.C175_logpdf4"
   ],
   "note": ""
  },
  {
   "property": "C176",
   "status": "proved",
   "theorems": [
    "Verif.Misc.Sash.C176_loglike",
    "Verif.Misc.Sash.C176_derivatives"
   ],
   "note": ""
  },
  {
   "property": "C177",
   "status": "partial",
   "theorems": [
    "Verif.Misc.SkewNorm.C177_logpdf",
    "Verif.Misc.SkewNorm.C177_first",
    "Verif.Misc.SkewNorm.C177_derivatives",
    "Verif.Misc.SkewNorm.C177_class_violated"
   ],
   "note": "The functions are proved right for all parameters; the methods of the class raise (C177_class_violated)."
  },
  {
   "property": "C178",
   "status": "proved",
   "theorems": [
    "Verif.Misc.Sad.C178_grad",
    "Verif.Misc.Sad.C178_hess",
    "Verif.Misc.Sad.C178_matrix",
    "Verif.Misc.Sad.C178_grad_sum",
    "Verif.Misc.Sad.C178_hess_sum"
   ],
   "note": ""
  },
  {
   "property": "C179",
   "status": "proved",
   "theorems": [
    "Verif.Misc.Shash.C179_log_density",
    "Verif.Misc.Shash.C179_other_density",
    "Verif.Misc.Shash.C179_derivative",
    "Verif.Misc.Shash.C179_cdf",
    "Verif.Misc.Shash.C179_total",
    "Verif.Misc.Shash.C179_inverse",
    "Verif.Misc.Shash.C179_rvs",
    "Verif.Misc.Shash.C179_law",
    "Verif.Misc.Shash.C179_median",
    "Verif.Misc.Shash.C179_log_parameters"
   ],
   "note": ""
  },
  {
   "property": "C180",
   "status": "partial",
   "theorems": [
    "Verif.Misc.Shash.C180_P",
    "Verif.Misc.Shash.C180_moments",
    "Verif.Misc.Shash.C180_mean",
    "Verif.Misc.Shash.C180_variance",
    "Verif.Misc.Shash.C180_skew",
    "Verif.Misc.Shash.C180_kurt",
    "Verif.Misc.Shash.C180_skewness_violated",
    "Verif.Misc.Shash.C180_excess_partial",
    "Verif.Misc.Shash.C180_excess_violated",
    "Verif.Misc.Shash.C180_log_parameters"
   ],
   "note": "P, mean, variance, moments, skew and kurt proved. skewness is right only for v = 0; excess_kurtosis is right for v = 0 and wrong for every v < 0. kv is any function given by the Bessel integral."
  },
  {
   "property": "C181",
   "status": "partial",
   "theorems": [
    "Verif.Misc.SkewNorm.C181_total",
    "Verif.Misc.SkewNorm.C181_mean",
    "Verif.Misc.SkewNorm.C181_variance",
    "Verif.Misc.SkewNorm.C181_skewness_partial",
    "Verif.Misc.SkewNorm.C181_skewness_violated",
    "Verif.Misc.SkewNorm.C181_rvs"
   ],
   "note": "Density, mean, variance and the law of the draws proved; _skewness proved for v other than zero and refuted at v = 0."
  },
  {
   "property": "C182",
   "status": "partial",
   "theorems": [
    "Verif.Fa.Old.C182_cf",
    "Verif.Fa.Old.C182_target_partial",
    "Verif.Fa.Old.C182_target_violated",
    "Verif.Fa.Old.C182_vgq_cf",
    "Verif.Fa.Old.C182_vgq_ob",
    "Verif.Fa.Old.C182_rotate",
    "Verif.Fa.Old.C182_df"
   ],
   "note": "Proved for Crawford-Ferguson, oblimin and for targets with zero-one weights; refuted for other target weights."
  },
  {
   "property": "C183",
   "status": "partial",
   "theorems": [
    "Verif.Fa.Old.C183_consts",
    "Verif.Fa.Old.C183_cf_partial",
    "Verif.Fa.Old.C183_quartimax_violated",
    "Verif.Fa.Old.C183_families",
    "Verif.Fa.Old.C183_names_partial",
    "Verif.Fa.Old.C183_equamax_violated"
   ],
   "note": "Proved for varimax, parsimax, and equamax within the Crawford-Ferguson family, and for quartimax and varimax across families; quartimax of the class and equamax of oblimin refuted."
  },
  {
   "property": "C184",
   "status": "partial",
   "theorems": [
    "Verif.Fa.Old.C184_ortho",
    "Verif.Fa.Old.C184_dL_dA",
    "Verif.Fa.Old.C184_dL_dA_solution",
    "Verif.Fa.Old.C184_oblique_loadings",
    "Verif.Fa.Old.C184_oblique_correlations_partial",
    "Verif.Fa.Old.C184_oblique_correlations_violated",
    "Verif.Fa.Old.C184_derivs_loadings_partial",
    "Verif.Fa.Old.C184_derivs_correlations_violated",
    "Verif.Fa.Old.C184_unrotated_rows_partial",
    "Verif.Fa.Old.C184_unrotated_mask",
    "Verif.Fa.Old.C184_unrotated_violated"
   ],
   "note": "Jacobians in the loadings and the derivative of rotated loadings proved; the correlation blocks are right only at stationary points (dC_dP_Obl) or not at all (oblique_constraint_derivs), and the row selection of unrotated_constraints is refuted."
  },
  {
   "property": "C185",
   "status": "partial",
   "theorems": [
    "Verif.Fa.Old.C185_search",
    "Verif.Fa.Old.C185_descent_partial",
    "Verif.Fa.Old.C185_ortho",
    "Verif.Fa.Old.C185_oblique_partial",
    "Verif.Fa.Old.C185_rotate",
    "Verif.Fa.Old.C185_descent_violated",
    "Verif.Fa.Old.C185_descent_violated_exists"
   ],
   "note": "Invariants, stopping and the reproduced covariance proved; descent proved when one of the ten trials passes and refuted otherwise. The Gq kept by _rotate_obli after its ftol stop belongs to the rejected trial and is not claimed."
  },
  {
   "property": "C186",
   "status": "partial",
   "theorems": [
    "Verif.Fa.Old.C186_dsigma",
    "Verif.Fa.Old.C186_d2sigma",
    "Verif.Fa.Old.C186_gradient",
    "Verif.Fa.Old.C186_hessian",
    "Verif.Fa.Old.C186_params",
    "Verif.Fa.Old.C186_theta_dsigma",
    "Verif.Fa.Old.C186_theta_gradient",
    "Verif.Fa.Old.C186_later_calls_partial",
    "Verif.Fa.Old.C186_first_call_violated",
    "Verif.Fa.Old.C186_first_augmented_violated"
   ],
   "note": "Proved for efa.py, and for factor_analysis.py from the second call on; the first call is refuted."
  },
  {
   "property": "C187",
   "status": "partial",
   "theorems": [
    "Verif.Fa.Old.C187_profile",
    "Verif.Fa.Old.C187_gradient",
    "Verif.Fa.Old.C187_hessian_partial",
    "Verif.Fa.Old.C187_exp_partial",
    "Verif.Fa.Old.C187_ties_violated",
    "Verif.Fa.Old.C187_canonical",
    "Verif.Fa.Old.C187_canonical_violated"
   ],
   "note": "Value and gradient complete; the Hessian for simple eigenvalues, refuted for ties; hessian_canonical refuted (sign)."
  },
  {
   "property": "C188",
   "status": "partial",
   "theorems": [
    "Verif.Fa.Old.C188_canonical",
    "Verif.Fa.Old.C188_unrotated_solution",
    "Verif.Fa.Old.C188_ortho",
    "Verif.Fa.Old.C188_oblique_partial",
    "Verif.Fa.Old.C188_covariance",
    "Verif.Fa.Old.C188_kept",
    "Verif.Fa.Old.C188_log_variances",
    "Verif.Fa.Old.C188_augmented_violated",
    "Verif.Fa.Old.C188_jac_violated"
   ],
   "note": "efa.py proved (oblique rotation: where the constraints hold); the border and constraint_jac of factor_analysis.py refuted."
  },
  {
   "property": "C189",
   "status": "partial",
   "theorems": [
    "Verif.Fa.Old.C189_thurstone",
    "Verif.Fa.Old.C189_bartlett",
    "Verif.Fa.Old.C189_mcdonald",
    "Verif.Fa.Old.C189_tenBerge",
    "Verif.Fa.Old.C189_tenBerge_optimal",
    "Verif.Fa.Old.C189_scores",
    "Verif.Fa.Old.C189_compute_partial",
    "Verif.Fa.Old.C189_compute_violated"
   ],
   "note": "efa.py proved for eigenvalues above the cutoff 1e-12; compute_factors proved for standardised variables and refuted otherwise."
  },
  {
   "property": "C190",
   "status": "partial",
   "theorems": [
    "Verif.Fa.Old.C190_df",
    "Verif.Fa.Old.C190_df_partial",
    "Verif.Fa.Old.C190_df_violated",
    "Verif.Fa.Old.C190_aic",
    "Verif.Fa.Old.C190_discrepancy",
    "Verif.Fa.Old.C190_null",
    "Verif.Fa.Old.C190_nfi",
    "Verif.Fa.Old.C190_relative",
    "Verif.Fa.Old.C190_cfi_partial",
    "Verif.Fa.Old.C190_cfi_violated",
    "Verif.Fa.Old.C190_rmsea_factor_analysis",
    "Verif.Fa.Old.C190_rmsea_partial",
    "Verif.Fa.Old.C190_rmsea_violated",
    "Verif.Fa.Old.C190_lr_statistic",
    "Verif.Fa.Old.C190_lr_violated",
    "Verif.Fa.Old.C190_srmr_partial",
    "Verif.Fa.Old.C190_srmr_violated",
    "Verif.Fa.Old.C190_gfi",
    "Verif.Fa.Old.C190_agfi",
    "Verif.Fa.Old.C190_adequacy",
    "Verif.Fa.Old.C190_adequacy_scale"
   ],
   "note": "Discrepancy, NFI, TLI, IFI, RNI, GFI, AGFI, sampling adequacy and the RMSEA formula of factor_analysis.py proved; degrees of freedom right for at most one factor, CFI and SRMR in part, RMSEA of efa.py and the p-value of lr_test refuted."
  },
  {
   "property": "C191",
   "status": "partial",
   "theorems": [
    "Verif.Fa.Old.C191_inputs_partial",
    "Verif.Fa.Old.C191_inputs_violated",
    "Verif.Fa.Old.C191_proportion",
    "Verif.Fa.Old.C191_eigmin",
    "Verif.Fa.Old.C191_start_partial",
    "Verif.Fa.Old.C191_start_violated",
    "Verif.Fa.Old.C191_order_partial",
    "Verif.Fa.Old.C191_perm",
    "Verif.Fa.Old.C191_signs_violated",
    "Verif.Fa.Old.C191_contrast_violated",
    "Verif.Fa.Old.C191_reorder_partial",
    "Verif.Fa.Old.C191_reorder_violated",
    "Verif.Fa.Old.C191_labels_partial",
    "Verif.Fa.Old.C191_labels_violated"
   ],
   "note": "Number of factors and perm_mat proved; inputs, starting values, order, reordering and labels in part, each refuted in general."
  },
  {
   "property": "C192",
   "status": "partial",
   "theorems": [
    "Verif.Indep.C192_center_biased",
    "Verif.Indep.C192_center_unbiased",
    "Verif.Indep.C192_distance",
    "Verif.Indep.C192_inner_product",
    "Verif.Indep.C192_range",
    "Verif.Indep.C192_self",
    "Verif.Indep.C192_symmetric",
    "Verif.Indep.C192_similarity",
    "Verif.Indep.C192_invariance",
    "Verif.Indep.C192_relabel",
    "Verif.Indep.C192_biased_nonneg",
    "Verif.Indep.C192_biased_defined",
    "Verif.Indep.C192_unbiased_small",
    "Verif.Indep.C192_unbiased_equidistant_violated",
    "Verif.Indep.C192_permutation_mean",
    "Verif.Indep.C192_pvalue_samples",
    "Verif.Indep.C192_pvalue_partial",
    "Verif.Indep.C192_pvalue_violated"
   ],
   "note": "Complete for the correlations, except that the unbiased one is undefined for equidistant samples; the p-value proved when samples are returned, refuted otherwise."
  },
  {
   "property": "C193",
   "status": "partial",
   "theorems": [
    "Verif.Indep.C193_kernel",
    "Verif.Indep.C193_kernel_definite",
    "Verif.Indep.C193_statistic",
    "Verif.Indep.C193_nonneg",
    "Verif.Indep.C193_symmetric",
    "Verif.Indep.C193_constant",
    "Verif.Indep.C193_positive",
    "Verif.Indep.C193_median_buffer",
    "Verif.Indep.C193_median",
    "Verif.Indep.C193_median_invariance",
    "Verif.Indep.C193_median_violated",
    "Verif.Indep.C193_nvars_violated",
    "Verif.Indep.C193_bandwidth_argument",
    "Verif.Indep.C193_pvalue"
   ],
   "note": "Statistic, kernel and p-value complete; the median bandwidth refuted for tied data, the rule nvars refuted."
  },
  {
   "property": "C194",
   "status": "partial",
   "theorems": [
    "Verif.Mcmc.C194_location",
    "Verif.Mcmc.C194_location_mean",
    "Verif.Mcmc.C194_location_density",
    "Verif.Mcmc.C194_location_defined",
    "Verif.Mcmc.C194_gcov",
    "Verif.Mcmc.C194_gcov_draw",
    "Verif.Mcmc.C194_rcov",
    "Verif.Mcmc.C194_rcov_draw",
    "Verif.Mcmc.C194_default_prior_partial",
    "Verif.Mcmc.C194_default_prior_violated"
   ],
   "note": "Draws of effects, covariance matrices and residual variance complete; the flatness of the default prior refuted."
  },
  {
   "property": "C195",
   "status": "partial",
   "theorems": [
    "Verif.Mcmc.C195_mh_accept",
    "Verif.Mcmc.C195_mh_step",
    "Verif.Mcmc.C195_mh_balance",
    "Verif.Mcmc.C195_binomial",
    "Verif.Mcmc.C195_poisson",
    "Verif.Mcmc.C195_slice",
    "Verif.Mcmc.C195_slice_old",
    "Verif.Mcmc.C195_slice_draw",
    "Verif.Mcmc.C195_ordinal_bounds",
    "Verif.Mcmc.C195_ordinal_ends",
    "Verif.Mcmc.C195_tau_proposal",
    "Verif.Mcmc.C195_tau_fixed",
    "Verif.Mcmc.C195_tau_ratio",
    "Verif.Mcmc.C195_tau_step",
    "Verif.Mcmc.C195_tau_binary_violated",
    "Verif.Mcmc.C195_adapt_rate",
    "Verif.Mcmc.C195_adapt_scale"
   ],
   "note": "Complete from three categories on; two categories refuted."
  },
  {
   "property": "C196",
   "status": "partial",
   "theorems": [
    "Verif.Mcmc.C196_marginal",
    "Verif.Mcmc.C196_scale_violated",
    "Verif.Mcmc.C196_scale_effects",
    "Verif.Mcmc.C196_scale_variance_violated",
    "Verif.Mcmc.C196_pvalue_partial",
    "Verif.Mcmc.C196_pvalue_violated",
    "Verif.Mcmc.C196_labels",
    "Verif.Mcmc.C196_aggregate_violated",
    "Verif.Mcmc.C196_aggregate_partial"
   ],
   "note": "Labels and effects proved; factor, variances, p-value and aggregation refuted, with what does hold."
  },
  {
   "property": "C197",
   "status": "partial",
   "theorems": [
    "Verif.Glmm.C197_canonical",
    "Verif.Glmm.C197_cumulants",
    "Verif.Glmm.C197_score",
    "Verif.Glmm.C197_newton",
    "Verif.Glmm.C197_fixed",
    "Verif.Glmm.C197_step_defined",
    "Verif.Glmm.C197_mode",
    "Verif.Glmm.C197_loop",
    "Verif.Glmm.C197_gaussian_step",
    "Verif.Glmm.C197_gaussian_pirls",
    "Verif.Glmm.C197_gamma_fixed",
    "Verif.Glmm.C197_gamma_violated",
    "Verif.Glmm.C197_nll",
    "Verif.Glmm.C197_gaussian_exact",
    "Verif.Glmm.C197_laplace_scalar"
   ],
   "note": "Complete for the normal, Poisson and binomial families; refuted for the reciprocal link. The Laplace integral is proved for one random effect, the exactness for normal responses for any number."
  },
  {
   "property": "C198",
   "status": "partial",
   "theorems": [
    "Verif.Glmm.C198_three_exact",
    "Verif.Glmm.C198_rule_violated",
    "Verif.Glmm.C198_factor",
    "Verif.Glmm.C198_few_partial",
    "Verif.Glmm.C198_substitution",
    "Verif.Glmm.C198_objective",
    "Verif.Glmm.C198_gaussian_partial",
    "Verif.Glmm.C198_shape_partial",
    "Verif.Glmm.C198_shape_violated"
   ],
   "note": "Change of variables, objective for exact sums, one and two nodes and normal responses proved; three nodes and several effects per group refuted."
  },
  {
   "property": "C199",
   "status": "partial",
   "theorems": [
    "Verif.Glmm.C199_diagonal",
    "Verif.Glmm.C199_quadratic",
    "Verif.Glmm.C199_stdErr",
    "Verif.Glmm.C199_understated",
    "Verif.Glmm.C199_diagonal_partial",
    "Verif.Glmm.C199_cross_violated",
    "Verif.Glmm.C199_unused",
    "Verif.Glmm.C199_resid_violated"
   ],
   "note": "The diagonal proved; the Hessian, standard errors with cross terms and families with a residual variance refuted."
  },
  {
   "property": "C200",
   "status": "partial",
   "theorems": [
    "Verif.Lmm.Mlmm.C200_ml_violated",
    "Verif.Lmm.Mlmm.C200_objective_violated",
    "Verif.Lmm.Mlmm.C200_fit_gradient_violated",
    "Verif.Lmm.Mlmm.C200_reml_partial",
    "Verif.Lmm.Mlmm.C200_ml_value",
    "Verif.Lmm.Mlmm.C200_ml_partial",
    "Verif.Lmm.Mlmm.C200_defined",
    "Verif.Lmm.Mlmm.C200_objective_partial",
    "Verif.Lmm.Mlmm.C200_gradient_components",
    "Verif.Lmm.Mlmm.C200_gradient",
    "Verif.Lmm.Mlmm.C200_gradient_defined",
    "Verif.Lmm.Mlmm.C200_effects"
   ],
   "note": "Restricted likelihood (response eliminated last), gradient and effects proved; the unrestricted branch holds for equal residual variances and is refuted otherwise; the objective of a fit by maximum likelihood is refuted."
  },
  {
   "property": "C201",
   "status": "partial",
   "theorems": [
    "Verif.Lmm.Mlmm.C201_entries",
    "Verif.Lmm.Mlmm.C201_predictor",
    "Verif.Lmm.Mlmm.C201_rows",
    "Verif.Lmm.Mlmm.C201_names_partial",
    "Verif.Lmm.Mlmm.C201_names_violated",
    "Verif.Lmm.Mlmm.C201_labels_partial",
    "Verif.Lmm.Mlmm.C201_labels_violated",
    "Verif.Lmm.Mlmm.C201_criteria",
    "Verif.Lmm.Mlmm.C201_criteria_reml",
    "Verif.Lmm.Mlmm.C201_aicc",
    "Verif.Lmm.Mlmm.C201_start",
    "Verif.Lmm.Mlmm.C201_theta_violated",
    "Verif.Lmm.Mlmm.C201_refit_violated",
    "Verif.Lmm.Mlmm.C201_pvalue_violated"
   ],
   "note": "Layout, rows and criteria proved; names and labels hold for one response or one variable and are refuted otherwise; theta, refits and p values refuted."
  },
  {
   "property": "C202",
   "status": "partial",
   "theorems": [
    "Verif.Lmm.ReDesign.C202_design",
    "Verif.Lmm.ReDesign.C202_stacked",
    "Verif.Lmm.ReDesign.C202_gcov",
    "Verif.Lmm.ReDesign.C202_update",
    "Verif.Lmm.ReDesign.C202_dims_partial",
    "Verif.Lmm.ReDesign.C202_dims_violated"
   ],
   "note": "Design and covariance proved; the dictionary of dimensions for distinct grouping factors, refuted otherwise."
  },
  {
   "property": "C203",
   "status": "partial",
   "theorems": [
    "Verif.Sem.C203_fixed_values",
    "Verif.Sem.C203_fix_lv_var_violated",
    "Verif.Sem.C203_total",
    "Verif.Sem.C203_complete_formula_raises_violated",
    "Verif.Sem.C203_flags_ignored_violated",
    "Verif.Sem.C203_fix_first_false_raises_violated",
    "Verif.Sem.C203_prefix",
    "Verif.Sem.C203_variances",
    "Verif.Sem.C203_means",
    "Verif.Sem.C203_covariances",
    "Verif.Sem.C203_loadings",
    "Verif.Sem.C203_dummies",
    "Verif.Sem.C203_start_on_fixed_violated",
    "Verif.Sem.C203_sample_stats"
   ],
   "note": "Rows, counts, loadings and sample moments proved for every formula; the options lvx_cov, y_cov, fix_first=False and fix_lv_var, complete formulas and starting values of loadings are refuted."
  },
  {
   "property": "C204",
   "status": "proved",
   "theorems": [
    "Verif.Sem.C204_order",
    "Verif.Sem.C204_matrices",
    "Verif.Sem.C204_user_table",
    "Verif.Sem.C204_wrong_length",
    "Verif.Sem.C204_defaults"
   ],
   "note": "One row per cell and cells inside the matrices are hypotheses; a single number given for several free parameters is spread by numpy."
  },
  {
   "property": "C205",
   "status": "proved",
   "theorems": [
    "Verif.Sem.Old.C205_dsigma",
    "Verif.Sem.Old.C205_gradient_full",
    "Verif.Sem.Old.C205_hessian_full",
    "Verif.Sem.Old.C205_gradient",
    "Verif.Sem.Old.C205_hessian",
    "Verif.Sem.Old.C205_cov",
    "Verif.Sem.Old.C205_E_unchanged"
   ],
   "note": "Both inverted matrices are invertible at the point; S is symmetric; the Hessian starts from the zero work array, which C205_E_unchanged shows every call leaves in place."
  },
  {
   "property": "C206",
   "status": "partial",
   "theorems": [
    "Verif.Sem.OldSetup.C206_start",
    "Verif.Sem.OldSetup.C206_matrices",
    "Verif.Sem.OldSetup.C206_label_set",
    "Verif.Sem.OldSetup.C206_labels_partial",
    "Verif.Sem.OldSetup.C206_labels_violated",
    "Verif.Sem.OldSetup.C206_given_partial",
    "Verif.Sem.OldSetup.C206_given_violated",
    "Verif.Sem.OldSetup.C206_default_partial",
    "Verif.Sem.OldSetup.C206_indicators_partial",
    "Verif.Sem.OldSetup.C206_default_violated",
    "Verif.Sem.OldSetup.C206_align_loadings",
    "Verif.Sem.OldSetup.C206_align_partial",
    "Verif.Sem.OldSetup.C206_align_violated",
    "Verif.Sem.OldSetup.C206_cov_only_raises_violated",
    "Verif.Sem.OldSetup.C206_data"
   ],
   "note": "Start values, cells and the set of labels proved for all inputs; order of labels, default and given indicators and alignment under stated conditions, and refuted without them."
  },
  {
   "property": "C207",
   "status": "partial",
   "theorems": [
    "Verif.Sem.Old.C207_loglik",
    "Verif.Sem.Old.C207_criteria",
    "Verif.Sem.Old.C207_chi2",
    "Verif.Sem.Old.C207_pvalue_partial",
    "Verif.Sem.Old.C207_pvalue_violated",
    "Verif.Sem.Old.C207_critical_n_violated",
    "Verif.Sem.Old.C207_gfi",
    "Verif.Sem.Old.C207_rmsea",
    "Verif.Sem.Old.C207_rmr",
    "Verif.Sem.Old.C207_srmr_partial",
    "Verif.Sem.Old.C207_srmr_violated",
    "Verif.Sem.Old.C207_cfi",
    "Verif.Sem.Old.C207_relative",
    "Verif.Sem.Old.C207_null"
   ],
   "note": "Likelihood, criteria, statistic, GFI, AGFI, RMSEA, RMR, CFI and relative indices proved; p-value, critical sample sizes and SRMR refuted."
  },
  {
   "property": "C208",
   "status": "partial",
   "theorems": [
    "Verif.Glm.Old.C208_poisson",
    "Verif.Glm.Old.C208_gamma",
    "Verif.Glm.Old.C208_binomial",
    "Verif.Glm.Old.C208_gaussian_partial",
    "Verif.Glm.Old.C208_gaussian_d2_violated",
    "Verif.Glm.Old.C208_invGaussian_partial",
    "Verif.Glm.Old.C208_invGaussian_theta_violated",
    "Verif.Glm.Old.C208_invGaussian_d2_violated",
    "Verif.Glm.Old.C208_negBinomial_partial",
    "Verif.Glm.Old.C208_negBinomial_mean_violated",
    "Verif.Glm.Old.C208_negBinomial_cumulant_violated"
   ],
   "note": "Poisson, gamma and binomial proved in full; Gaussian without d2canonical, inverse Gaussian with the canonical parameter -1/(2 mu^2), negative binomial up to sign and for dispersion one; the rest refuted."
  },
  {
   "property": "C209",
   "status": "partial",
   "theorems": [
    "Verif.Glm.Old.C209_links",
    "Verif.Glm.Old.C209_gw_poisson",
    "Verif.Glm.Old.C209_gw_binomial",
    "Verif.Glm.Old.C209_gw_gamma",
    "Verif.Glm.Old.C209_gw_gaussian_partial",
    "Verif.Glm.Old.C209_gw_invGaussian_partial",
    "Verif.Glm.Old.C209_gw_negBinomial_partial",
    "Verif.Glm.Old.C209_hw_poisson",
    "Verif.Glm.Old.C209_hw_binomial",
    "Verif.Glm.Old.C209_hw_gamma",
    "Verif.Glm.Old.C209_hw_negBinomial",
    "Verif.Glm.Old.C209_hw_gaussian_violated",
    "Verif.Glm.Old.C209_hw_gaussian_spec_violated",
    "Verif.Glm.Old.C209_hw_invGaussian_violated",
    "Verif.Glm.Old.C209_gw_negBinomial_violated",
    "Verif.Glm.Old.C209_units_partial",
    "Verif.Glm.Old.C209_units_violated",
    "Verif.Glm.Old.C209_invGaussian_density_violated",
    "Verif.Glm.Old.C209_tau_partial",
    "Verif.Glm.Old.C209_d2tau_gaussian_violated",
    "Verif.Glm.Old.C209_tau_gamma",
    "Verif.Glm.Old.C209_dtau_negBinomial",
    "Verif.Glm.Old.C209_d2tau_negBinomial_violated",
    "Verif.Glm.Old.C209_deviance",
    "Verif.Glm.Old.C209_pearson_partial",
    "Verif.Glm.Old.C209_pearson_poisson_violated",
    "Verif.Glm.Old.C209_pearson_gamma_violated",
    "Verif.Glm.Old.C209_pearson_invGaussian_violated",
    "Verif.Glm.Old.C209_dlink",
    "Verif.Glm.Old.C209_d2link_partial",
    "Verif.Glm.Old.C209_d2link_violated"
   ],
   "note": "Poisson, binomial and gamma weights, gamma scale derivatives, deviances and dlink proved; factors of two, scale one and other restrictions stated where needed and the rest refuted. scipy's special functions satisfy the contract IsSp."
  },
  {
   "property": "C210",
   "status": "partial",
   "theorems": [
    "Verif.Glm.Old.C210_identity",
    "Verif.Glm.Old.C210_log",
    "Verif.Glm.Old.C210_reciprocal",
    "Verif.Glm.Old.C210_cloglog",
    "Verif.Glm.Old.C210_probit_partial",
    "Verif.Glm.Old.C210_probit_d4_violated",
    "Verif.Glm.Old.C210_power_zero_partial",
    "Verif.Glm.Old.C210_power_alpha",
    "Verif.Glm.Old.C210_power_violated",
    "Verif.Glm.Old.C210_power_one_violated"
   ],
   "note": "All links but the power link of pylmm and the fourth derivative of the probit link; NegativeBinomialLink.d2link, d4link and PowerLink.d2inv_link of pyglm are as in C35 and refuted there."
  },
  {
   "property": "C211",
   "status": "partial",
   "theorems": [
    "Verif.Glm.C211_gaussian",
    "Verif.Glm.C211_gamma",
    "Verif.Glm.C211_negBinomial",
    "Verif.Glm.C211_poisson_partial",
    "Verif.Glm.C211_poisson_ppf_violated",
    "Verif.Glm.C211_binomial",
    "Verif.Glm.C211_invGaussian_partial",
    "Verif.Glm.C211_invGaussian_rvs_violated",
    "Verif.Glm.C211_invGaussian_ppf_violated"
   ],
   "note": "Gaussian, gamma, negative binomial and binomial in full; Poisson draws; inverse Gaussian draws for scale one; the rest refuted."
  },
  {
   "property": "C212",
   "status": "partial",
   "theorems": [
    "Verif.Glm.C212_variance",
    "Verif.Glm.C212_level",
    "Verif.Glm.C212_mean_ci",
    "Verif.Glm.C212_mean_ci_violated",
    "Verif.Glm.C212_pyglm_violated",
    "Verif.Glm.C212_predicted_partial",
    "Verif.Glm.C212_predicted_violated"
   ],
   "note": "Variance, level and interval for increasing links in pyglm2 and the binomial prediction interval; the rest refuted."
  },
  {
   "property": "C213",
   "status": "partial",
   "theorems": [
    "Verif.Glm.C213_robust_partial",
    "Verif.Glm.C213_robust_violated",
    "Verif.Glm.C213_bootstrap_partial",
    "Verif.Glm.C213_bootstrap_violated",
    "Verif.Glm.C213_bootstrapO_partial",
    "Verif.Glm.C213_bootstrapO_violated",
    "Verif.Glm.C213_null_partial",
    "Verif.Glm.C213_null_violated",
    "Verif.Glm.C213_null_negBinomial_partial",
    "Verif.Glm.C213_null_negBinomial_violated"
   ],
   "note": "Proved when the family object carries the weights of the model (null model: equal weights, five families; negative binomial only up to the shape check); refuted otherwise."
  },
  {
   "property": "C214",
   "status": "partial",
   "theorems": [
    "Verif.Sem.C214_alt",
    "Verif.Sem.C214_alt_deriv",
    "Verif.Sem.C214_gradient2",
    "Verif.Sem.C214_weights_violated",
    "Verif.Sem.C214_weights_partial"
   ],
   "note": "Both gradients proved; the weights only for groups in order of decreasing size, refuted otherwise."
  },
  {
   "property": "C215",
   "status": "partial",
   "theorems": [
    "Verif.Sem.C215_gradient",
    "Verif.Sem.C215_hessian",
    "Verif.Sem.C215_dloglike",
    "Verif.Sem.C215_d2loglike",
    "Verif.Sem.C215_pairs",
    "Verif.Sem.C215_kinds",
    "Verif.Sem.C215_pairType",
    "Verif.Sem.C215_direct_violated",
    "Verif.Sem.C215_single_partial",
    "Verif.Sem.C215_single_violated"
   ],
   "note": "Gradient, Hessian and pairs proved; the direct gradient and the model with one free parameter refuted."
  },
  {
   "property": "C216",
   "status": "partial",
   "theorems": [
    "Verif.Nmf.C216_reconstruct",
    "Verif.Nmf.C216_roll_needs_padding",
    "Verif.Nmf.C216_reconstruct_nonneg",
    "Verif.Nmf.C216_scaling",
    "Verif.Nmf.C216_scaling_partial",
    "Verif.Nmf.C216_scaling_violated",
    "Verif.Nmf.C216_shift1d",
    "Verif.Nmf.C216_shift_violated",
    "Verif.Nmf.C216_objfunc_violated",
    "Verif.Nmf.C216_objfunc_partial",
    "Verif.Nmf.C216_conv2_violated"
   ],
   "note": "Reconstruction and shift1d proved; scaling without epsilon; shift, conv2 and the correlations of the objective refuted."
  },
  {
   "property": "C217",
   "status": "partial",
   "theorems": [
    "Verif.Nmf.C217_wtx_partial",
    "Verif.Nmf.C217_wtx_data",
    "Verif.Nmf.C217_wtxhat_violated",
    "Verif.Nmf.C217_wtxhat_ge",
    "Verif.Nmf.C217_xht_partial",
    "Verif.Nmf.C217_xhatht_violated",
    "Verif.Nmf.C217_gradH",
    "Verif.Nmf.C217_gradW",
    "Verif.Nmf.C217_update_nonneg",
    "Verif.Nmf.C217_update_fixed",
    "Verif.Nmf.C217_penaltyH",
    "Verif.Nmf.C217_penaltyW_partial",
    "Verif.Nmf.C217_penaltyW_overlap",
    "Verif.Nmf.C217_norm_violated",
    "Verif.Nmf.C217_trace_violated",
    "Verif.Nmf.C217_trace_start_violated",
    "Verif.Nmf.C217_center_violated"
   ],
   "note": "Gradients, numerators, sign and both penalties proved; denominators, recorded penalty, trace and centring refuted. The penalty on W for time courses with empty margins."
  },
  {
   "property": "C218",
   "status": "partial",
   "theorems": [
    "Verif.Sim.C218_cov_partial",
    "Verif.Sim.C218_cov_violated",
    "Verif.Sim.C218_columns",
    "Verif.Sim.C218_recover_partial",
    "Verif.Sim.C218_se"
   ],
   "note": "Proved when the columns found are different; refuted otherwise. Standard errors in general."
  },
  {
   "property": "C219",
   "status": "partial",
   "theorems": [
    "Verif.Sim.C219_simple",
    "Verif.Sim.C219_loadings",
    "Verif.Sim.C219_nonempty",
    "Verif.Sim.C219_orthogonal",
    "Verif.Sim.C219_corr",
    "Verif.Sim.C219_corr_violated",
    "Verif.Sim.C219_sigma",
    "Verif.Sim.C219_data",
    "Verif.Sim.C219_random_violated",
    "Verif.Sim.C219_random_partial",
    "Verif.Sim.C219_run_violated"
   ],
   "note": "Structure, correlations below one, model covariance and exact data proved; correlation one, random correlations and the study refuted."
  },
  {
   "property": "C220",
   "status": "partial",
   "theorems": [
    "Verif.Sim.C220_nested",
    "Verif.Sim.C220_sizes",
    "Verif.Sim.C220_linear",
    "Verif.Sim.C220_binomial_partial",
    "Verif.Sim.C220_binomial_violated",
    "Verif.Sim.C220_intercept_violated",
    "Verif.Sim.C220_sandwich"
   ],
   "note": "Nesting, sizes, the linear population and the sandwich proved; the binomial population only without cluster effects, refuted with them."
  },
  {
   "property": "C221",
   "status": "partial",
   "theorems": [
    "Verif.Sim.C221_rsq",
    "Verif.Sim.C221_variance",
    "Verif.Sim.C221_rescale",
    "Verif.Sim.C221_target",
    "Verif.Sim.C221_target_violated",
    "Verif.Sim.C221_cat",
    "Verif.Sim.C221_vals",
    "Verif.Sim.C221_positions",
    "Verif.Sim.C221_sparse",
    "Verif.Sim.C221_cov",
    "Verif.Sim.C221_rho_violated",
    "Verif.Sim.C221_binomial_violated",
    "Verif.Sim.C221_binomial_partial",
    "Verif.Sim.C221_rng_violated",
    "Verif.Sim.C221_levels_violated",
    "Verif.Sim.C221_levels_partial",
    "Verif.Sim.C221_coefs_violated",
    "Verif.Sim.C221_coefs_partial"
   ],
   "note": "Scales, factor coefficients, sparse coefficients and correlations proved; ignored arguments and binomial responses refuted."
  },
  {
   "property": "C222",
   "status": "partial",
   "theorems": [
    "Verif.Sim.C222_whiten",
    "Verif.Sim.C222_cross",
    "Verif.Sim.C222_psd",
    "Verif.Sim.C222_unit",
    "Verif.Sim.C222_coefs_partial",
    "Verif.Sim.C222_coefs_violated"
   ],
   "note": "Proved for the construction from correlations; from coefficients only when they are orthogonal, refuted otherwise."
  },
  {
   "property": "C223",
   "status": "partial",
   "theorems": [
    "Verif.Eln.C223_inner",
    "Verif.Eln.C223_working",
    "Verif.Eln.C223_dropped",
    "Verif.Eln.C223_dropped_violated",
    "Verif.Eln.C223_objective",
    "Verif.Eln.C223_convex",
    "Verif.Eln.C223_halving",
    "Verif.Eln.C223_values_partial",
    "Verif.Eln.C223_fixed_partial",
    "Verif.Eln.C223_weights_violated"
   ],
   "note": "Descent, objective, convexity and halving proved; recorded values for inner increases below 1e8; fixed points for equal weights; dropping and weights refuted."
  },
  {
   "property": "C224",
   "status": "partial",
   "theorems": [
    "Verif.Eln.C224_rows",
    "Verif.Eln.C224_path_violated",
    "Verif.Eln.C224_last_partial",
    "Verif.Eln.C224_grid_partial",
    "Verif.Eln.C224_grid_violated",
    "Verif.Eln.C224_weights_violated",
    "Verif.Eln.C224_cv_partial",
    "Verif.Eln.C224_cv_violated"
   ],
   "note": "Rows in closed form, last row proved; grid for the columns fitted, validation for standardised data; refuted otherwise."
  },
  {
   "property": "C225",
   "status": "partial",
   "theorems": [
    "Verif.Eln.C225_coordinate",
    "Verif.Eln.C225_cycle_partial",
    "Verif.Eln.C225_inactive",
    "Verif.Eln.C225_dropped_violated",
    "Verif.Eln.C225_screen_violated",
    "Verif.Eln.C225_screen_partial"
   ],
   "note": "Coordinate steps proved; cycles without rounding; dropping and screening refuted."
  },
  {
   "property": "C226",
   "status": "partial",
   "theorems": [
    "Verif.Eln.C226_grad_partial",
    "Verif.Eln.C226_grad0_partial",
    "Verif.Eln.C226_hess_partial",
    "Verif.Eln.C226_hess0_partial",
    "Verif.Eln.C226_scale_violated",
    "Verif.Eln.C226_clip_violated",
    "Verif.Eln.C226_start_partial",
    "Verif.Eln.C226_start_violated",
    "Verif.Eln.C226_fold",
    "Verif.Eln.C226_rows",
    "Verif.Eln.C226_path",
    "Verif.Eln.C226_warm_violated"
   ],
   "note": "Gradient and Hessian of the objective inside the clipping limits and at non-zero coefficients; rows proved; scale of dev_hess, start, warm start refuted."
  },
  {
   "property": "C227",
   "status": "partial",
   "theorems": [
    "Verif.Like.C227_data",
    "Verif.Like.C227_loglike",
    "Verif.Like.C227_prob",
    "Verif.Like.C227_derivatives",
    "Verif.Like.C227_objective_violated",
    "Verif.Like.C227_constraints",
    "Verif.Like.C227_order_partial",
    "Verif.Like.C227_order_violated",
    "Verif.Like.C227_start",
    "Verif.Like.C227_redundant",
    "Verif.Like.C227_null_redundant"
   ],
   "note": "Derivatives, starting values and redundancy proved; the order of the thresholds for at most three categories, refuted for four; likelihood with its artificial threshold refuted."
  },
  {
   "property": "C228",
   "status": "partial",
   "theorems": [
    "Verif.Like.C228_rsquared",
    "Verif.Like.C228_llr",
    "Verif.Like.C228_llr_violated",
    "Verif.Like.C228_df",
    "Verif.Like.C228_df_violated",
    "Verif.Like.C228_adjusted_violated",
    "Verif.Like.C228_code",
    "Verif.Like.C228_outside",
    "Verif.Like.C228_median",
    "Verif.Like.C228_mode_violated",
    "Verif.Like.C228_labels_violated"
   ],
   "note": "Unadjusted measures and the median category proved; statistic, degrees of freedom, adjusted measure, mode and labels refuted."
  },
  {
   "property": "C229",
   "status": "partial",
   "theorems": [
    "Verif.Glm.C229_step",
    "Verif.Glm.C229_full_step",
    "Verif.Glm.C229_descent",
    "Verif.Glm.C229_stops",
    "Verif.Glm.C229_start_kept_violated",
    "Verif.Glm.C229_ee",
    "Verif.Glm.C229_ee_fixed",
    "Verif.Glm.C229_bootfit",
    "Verif.Glm.C229_start_shape_partial",
    "Verif.Glm.C229_start_shape_violated",
    "Verif.Glm.C229_start_scale_violated",
    "Verif.Glm.C229_gradient_M",
    "Verif.Glm.C229_cross_partial",
    "Verif.Glm.C229_cross_violated"
   ],
   "note": "Descent and stopping of all loops proved; cross block for the model's data; aliasing, bootstrap block, starting scale and shapes refuted."
  },
  {
   "property": "C230",
   "status": "partial",
   "theorems": [
    "Verif.Glm.C230_criteria",
    "Verif.Glm.C230_aic_violated",
    "Verif.Glm.C230_aic_order_violated",
    "Verif.Glm.C230_rsquared",
    "Verif.Glm.C230_adjusted_violated",
    "Verif.Glm.C230_pearson_partial",
    "Verif.Glm.C230_pearson_violated"
   ],
   "note": "All but aic, adjusted McFadden and weighted residuals proved; those refuted."
  },
  {
   "property": "C231",
   "status": "partial",
   "theorems": [
    "Verif.Sim.C231_components",
    "Verif.Sim.C231_new_shares",
    "Verif.Sim.C231_new_raises",
    "Verif.Sim.C231_zero_share_violated",
    "Verif.Sim.C231_old_components_partial",
    "Verif.Sim.C231_old_fixed_partial",
    "Verif.Sim.C231_old_fixed",
    "Verif.Sim.C231_old_shares",
    "Verif.Sim.C231_old_shares_partial",
    "Verif.Sim.C231_old_centre_violated",
    "Verif.Sim.C231_old_covariance_violated",
    "Verif.Sim.C231_resid_partial",
    "Verif.Sim.C231_resid_violated",
    "Verif.Sim.C231_rsq",
    "Verif.Sim.C231_order_partial",
    "Verif.Sim.C231_order_one",
    "Verif.Sim.C231_order_violated",
    "Verif.Sim.C231_update_partial",
    "Verif.Sim.C231_update_violated",
    "Verif.Sim.C231_redraw_partial",
    "Verif.Sim.C231_redraw_violated"
   ],
   "note": "The newer rescaling proved for a given design; the older for diagonal covariances and centred fixed parts; other cases, order, residual parameter and update refuted."
  },
  {
   "property": "C232",
   "status": "partial",
   "theorems": [
    "Verif.Sim.C232_repeat",
    "Verif.Sim.C232_tile",
    "Verif.Sim.C232_raises",
    "Verif.Sim.C232_crossed_iff",
    "Verif.Sim.C232_crossed_violated",
    "Verif.Sim.C232_balanced_partial",
    "Verif.Sim.C232_old_confounded_violated",
    "Verif.Sim.C232_nested",
    "Verif.Sim.C232_nested_balanced",
    "Verif.Sim.C232_nested_raises",
    "Verif.Sim.C232_nested_other"
   ],
   "note": "Balance and nesting proved; crossing characterised exactly and refuted in general."
  },
  {
   "property": "C233",
   "status": "partial",
   "theorems": [
    "Verif.Sem.C233_key",
    "Verif.Sem.C233_key_injective",
    "Verif.Sem.C233_numeric",
    "Verif.Sem.C233_alphabetic",
    "Verif.Sem.C233_sorted",
    "Verif.Sem.C233_order_partial",
    "Verif.Sem.C233_plain",
    "Verif.Sem.C233_order_violated",
    "Verif.Sem.C233_suffix",
    "Verif.Sem.C233_natural_violated"
   ],
   "note": "Plain names proved natural and independent of the order of the set; names with equal keys refuted."
  },
  {
   "property": "C234",
   "status": "partial",
   "theorems": [
    "Verif.Sim.C234_sigma",
    "Verif.Sim.C234_mu",
    "Verif.Sim.C234_reduced",
    "Verif.Sim.C234_posdef",
    "Verif.Sim.C234_params",
    "Verif.Sim.C234_others",
    "Verif.Sim.C234_loop_two",
    "Verif.Sim.C234_loop_violated",
    "Verif.Sim.C234_sizes_partial",
    "Verif.Sim.C234_sizes_violated",
    "Verif.Sim.C234_seed_partial",
    "Verif.Sim.C234_seed_violated",
    "Verif.Sim.C234_seed_unused"
   ],
   "note": "Moments, definiteness and intervals proved; seeding, upper bound and cyclic models refuted."
  },
  {
   "property": "C235",
   "status": "partial",
   "theorems": [
    "Verif.Lmm.C235_roundtrip",
    "Verif.Lmm.C235_none_violated",
    "Verif.Lmm.C235_variables_violated",
    "Verif.Lmm.C235_double_bar_violated",
    "Verif.Lmm.C235_function_violated",
    "Verif.Lmm.C235_minus_violated",
    "Verif.Lmm.C235_empty_violated"
   ],
   "note": "Reading back proved for all formulas of the form written by to_lme4_formula with plain parts and at least one random effect; variables, double bars, functions and formulas without random effects refuted."
  },
  {
   "property": "C236",
   "status": "partial",
   "theorems": [
    "Verif.Sem.C236_slices",
    "Verif.Sem.C236_update_violated",
    "Verif.Sem.C236_toVec",
    "Verif.Sem.C236_toArray",
    "Verif.Sem.C236_setEqual_partial",
    "Verif.Sem.C236_single_violated",
    "Verif.Sem.C236_fix_violated",
    "Verif.Sem.C236_deriv",
    "Verif.Sem.C236_types"
   ],
   "note": "Slices, inversion, derivatives and pair types proved for all lists of blocks; set_equal proved for more or fewer than one free entry and a non-zero value, refuted otherwise; update_offsets refuted."
  },
  {
   "property": "C237",
   "status": "partial",
   "theorems": [
    "Verif.Sem.C237_groups",
    "Verif.Sem.C237_order",
    "Verif.Sem.C237_total",
    "Verif.Sem.C237_complete_partial",
    "Verif.Sem.C237_psd_partial",
    "Verif.Sem.C237_psd_violated",
    "Verif.Sem.C237_unused_violated",
    "Verif.Sem.C237_subset_partial",
    "Verif.Sem.C237_subset_violated",
    "Verif.Sem.C237_stats_violated",
    "Verif.Sem.C237_single",
    "Verif.Sem.C237_init"
   ],
   "note": "Groups, counts and means proved; covariances proved for complete data, refuted with missing values; the columns proved for the newer class, refuted for the older; from_samplestats refuted."
  },
  {
   "property": "C238",
   "status": "partial",
   "theorems": [
    "Verif.Sem.C238_default_violated",
    "Verif.Sem.C238_older_options",
    "Verif.Sem.C238_options_partial",
    "Verif.Sem.C238_once_partial",
    "Verif.Sem.C238_method_violated",
    "Verif.Sem.C238_restart_violated",
    "Verif.Sem.C238_mutate_violated",
    "Verif.Sem.C238_same_violated",
    "Verif.Sem.C238_bounds_partial",
    "Verif.Sem.C238_bounds_violated",
    "Verif.Sem.C238_robust",
    "Verif.Sem.C238_agree",
    "Verif.Sem.C238_se_partial",
    "Verif.Sem.C238_se_violated"
   ],
   "note": "Options, single attempts and robust standard errors proved for every optimiser; default arguments, the second attempt, the method and the bounds of mixed equality constraints refuted."
  },
  {
   "property": "C239",
   "status": "partial",
   "theorems": [
    "Verif.Vec.C239_vec",
    "Verif.Vec.C239_inverse_violated",
    "Verif.Vec.C239_update_violated",
    "Verif.Vec.C239_inverse_partial"
   ],
   "note": "vec and vech proved; the inverses refuted under jit, proved without it."
  },
  {
   "property": "C240",
   "status": "partial",
   "theorems": [
    "Verif.Lmm.ReTerms.C240_levels",
    "Verif.Lmm.ReTerms.C240_term_partial",
    "Verif.Lmm.ReTerms.C240_missing_violated",
    "Verif.Lmm.ReTerms.C240_raises",
    "Verif.Lmm.ReTerms.C240_design",
    "Verif.Lmm.ReTerms.C240_cov",
    "Verif.Lmm.ReTerms.C240_order",
    "Verif.Lmm.ReTerms.C240_update",
    "Verif.Lmm.ReTerms.C240_deriv",
    "Verif.Lmm.ReTerms.C240_factor",
    "Verif.Lmm.ReTerms.C240_indices"
   ],
   "note": "Layout of Z, G, L, their updates and derivatives proved for all lists of terms; rows proved to match their levels without missing values, refuted with them."
  },
  {
   "property": "C241",
   "status": "partial",
   "theorems": [
    "Verif.Index.C241_perms",
    "Verif.Index.C241_next",
    "Verif.Index.C241_kept_violated",
    "Verif.Index.C241_kept",
    "Verif.Index.C241_fill_partial",
    "Verif.Index.C241_symmetric_partial",
    "Verif.Index.C241_long",
    "Verif.Index.C241_sides_violated",
    "Verif.Index.C241_match_partial",
    "Verif.Index.C241_mask_partial",
    "Verif.Index.C241_match_places",
    "Verif.Index.C241_empty_violated"
   ],
   "note": "Enumeration, filling and matching proved for all inputs in range; refuted for kept results, unequal sides and empty arrays."
  },
  {
   "property": "C242",
   "status": "partial",
   "theorems": [
    "Verif.Vec.C242_left",
    "Verif.Vec.C242_right",
    "Verif.Vec.C242_both",
    "Verif.Vec.C242_one_partial",
    "Verif.Vec.C242_size_violated",
    "Verif.Vec.C242_matrix_partial",
    "Verif.Vec.C242_post_violated",
    "Verif.Vec.C242_pre_post_partial",
    "Verif.Vec.C242_method_violated",
    "Verif.Vec.C242_flag_partial",
    "Verif.Vec.C242_elim",
    "Verif.Vec.C242_elim_violated"
   ],
   "note": "Index versions and the working matrix versions proved for all n; four defaults refuted for all n >= 2 and two guesses of the size by example."
  },
  {
   "property": "C243",
   "status": "partial",
   "theorems": [
    "Verif.Eln.C243_gamma_partial",
    "Verif.Eln.C243_next_level_partial",
    "Verif.Eln.C243_direction",
    "Verif.Eln.C243_move_partial",
    "Verif.Eln.C243_add",
    "Verif.Eln.C243_turn_partial",
    "Verif.Eln.C243_start",
    "Verif.Eln.C243_lasso",
    "Verif.Eln.C243_tie_violated"
   ],
   "note": "Start, direction, step, next level, whole turn and optimality for the lasso criterion proved without ties; refuted with a tie."
  },
  {
   "property": "C244",
   "status": "partial",
   "theorems": [
    "Verif.Reg.C244_rows_partial",
    "Verif.Reg.C244_rows_violated",
    "Verif.Reg.C244_response",
    "Verif.Reg.C244_drop_partial",
    "Verif.Reg.C244_flat_violated",
    "Verif.Reg.C244_layout",
    "Verif.Reg.C244_intercept",
    "Verif.Reg.C244_positions_violated",
    "Verif.Reg.C244_matrix_partial",
    "Verif.Reg.C244_designs",
    "Verif.Reg.C244_short_violated"
   ],
   "note": "Rows proved for equal missing patterns, drop_missing for matrices, slices and constraint matrices proved; refuted for different missing patterns, flat responses, positions by name and short parameter vectors."
  },
  {
   "property": "C245",
   "status": "partial",
   "theorems": [
    "Verif.Like.OldOls.C245_observed",
    "Verif.Like.OldOls.C245_response",
    "Verif.Like.OldOls.C245_round",
    "Verif.Like.OldOls.C245_nuisance",
    "Verif.Like.OldOls.C245_unit",
    "Verif.Like.OldOls.C245_intercept",
    "Verif.Like.OldOls.C245_identity",
    "Verif.Like.OldOls.C245_strict_violated"
   ],
   "note": "Rounds, invariance to the other coefficients and the unit, and the reduction to the plain test proved; the share is refuted with ties."
  },
  {
   "property": "C246",
   "status": "partial",
   "theorems": [
    "Verif.Func.C246_place",
    "Verif.Func.C246_equal",
    "Verif.Func.C246_sizes",
    "Verif.Func.C246_order",
    "Verif.Func.C246_ties_violated"
   ],
   "note": "Order and range proved for all arrays, sizes for distinct values; sizes refuted for repeated values."
  },
  {
   "property": "C247",
   "status": "partial",
   "theorems": [
    "Verif.Sem.OldTable.C247_number_partial",
    "Verif.Sem.OldTable.C247_numbers_range",
    "Verif.Sem.OldTable.C247_label_violated",
    "Verif.Sem.OldTable.C247_cell_partial",
    "Verif.Sem.OldTable.C247_mixed_violated",
    "Verif.Sem.OldTable.C247_complete",
    "Verif.Sem.OldTable.C247_pairs",
    "Verif.Sem.OldTable.C247_scale",
    "Verif.Sem.OldTable.C247_scale_violated",
    "Verif.Sem.OldTable.C247_given_violated",
    "Verif.Sem.OldTable.C247_constant_violated",
    "Verif.Sem.OldTable.C247_structural",
    "Verif.Sem.OldTable.C247_means",
    "Verif.Sem.OldTable.C247_covariance_names",
    "Verif.Sem.OldTable.C247_dependent_names",
    "Verif.Sem.OldTable.C247_exogenous"
   ],
   "note": "Cells, completeness, pairs, means and numbers proved, the numbers when no labelled row is fixed; refuted for scales, given rows, labelled first loadings, means in the formula and mixed covariances."
  },
  {
   "property": "C248",
   "status": "partial",
   "theorems": [
    "Verif.Sem.OldTable.C248_variance",
    "Verif.Sem.OldTable.C248_mean",
    "Verif.Sem.OldTable.C248_covariance",
    "Verif.Sem.OldTable.C248_keyword_violated",
    "Verif.Sem.OldTable.C248_unset_violated",
    "Verif.Sem.OldTable.C248_stats",
    "Verif.Sem.OldTable.C248_stats_violated",
    "Verif.Sem.OldTable.C248_variance_fixed"
   ],
   "note": "One variance, one mean and one covariance of each kind proved for all tables, and the sample values of every group; refuted for the keywords, fixed variances without a value, given variances and labelled covariances."
  },
  {
   "property": "C249",
   "status": "partial",
   "theorems": [
    "Verif.Sem.Labels.C249_label",
    "Verif.Sem.Labels.C249_theta_partial",
    "Verif.Sem.Labels.C249_shared",
    "Verif.Sem.Labels.C249_tie_violated",
    "Verif.Sem.Labels.C249_space_violated"
   ],
   "note": "The coordinate of every row characterised for names and labels without spaces; refuted for labels across shared and unshared matrices and for labels with spaces."
  },
  {
   "property": "C250",
   "status": "partial",
   "theorems": [
    "Verif.Lmm.C250_knots",
    "Verif.Lmm.C250_bracket",
    "Verif.Lmm.C250_increasing",
    "Verif.Lmm.C250_root",
    "Verif.Lmm.C250_grid",
    "Verif.Lmm.C250_middle",
    "Verif.Lmm.C250_interval",
    "Verif.Lmm.C250_accuracy",
    "Verif.Lmm.C250_wald",
    "Verif.Lmm.C250_negative_violated"
   ],
   "note": "Order, coverage of the estimate when it is a knot, accuracy within one step and the Wald case proved for all unimodal profiles; refuted for the sign of the lower limit of a variance."
  },
  {
   "property": "C251",
   "status": "partial",
   "theorems": [
    "Verif.Mv.SccaCv.C251_standard",
    "Verif.Mv.SccaCv.C251_corr_range",
    "Verif.Mv.SccaCv.C251_units",
    "Verif.Mv.SccaCv.C251_folds",
    "Verif.Mv.SccaCv.C251_single_partial",
    "Verif.Mv.SccaCv.C251_scale_violated",
    "Verif.Mv.SccaCv.C251_start_violated",
    "Verif.Mv.SccaCv.C251_single_violated"
   ],
   "note": "Folds, standardisation, range and invariance of the correlation proved for all data; test folds score correctly for one variable a side; refuted for several variables, for single-observation folds and for the starting matrix."
  },
  {
   "property": "C252",
   "status": "partial",
   "theorems": [
    "Verif.Lmm.ReTables.C252_levels",
    "Verif.Lmm.ReTables.C252_codes",
    "Verif.Lmm.ReTables.C252_predict",
    "Verif.Lmm.ReTables.C252_long",
    "Verif.Lmm.ReTables.C252_columns",
    "Verif.Lmm.ReTables.C252_multi",
    "Verif.Lmm.ReTables.C252_order_violated",
    "Verif.Lmm.ReTables.C252_column_violated"
   ],
   "note": "Placement, completeness and prediction proved for all lists of terms; refuted for the naming of rows and columns."
  },
  {
   "property": "C253",
   "status": "partial",
   "theorems": [
    "Verif.Lv.C253_symm",
    "Verif.Lv.C253_reflect",
    "Verif.Lv.C253_independent",
    "Verif.Lv.C253_nodes",
    "Verif.Lv.C253_sign",
    "Verif.Lv.C253_quadrant",
    "Verif.Lv.C253_limit",
    "Verif.Lv.C253_one_violated"
   ],
   "note": "Symmetry, reflection, independence, sign and finiteness proved for all arguments; refuted for the limit at a correlation of one."
  },
  {
   "property": "C254",
   "status": "partial",
   "theorems": [
    "Verif.Func.C254_exact",
    "Verif.Func.C254_expansion",
    "Verif.Func.C254_accuracy_partial",
    "Verif.Func.C254_coefficient_violated",
    "Verif.Func.C254_constant"
   ],
   "note": "Exactness, the expansion with 1/120 and the accuracy of the code proved for all numbers; refuted for the coefficient of the fourth power. The constant is checked to 1e-9."
  },
  {
   "property": "C255",
   "status": "partial",
   "theorems": [
    "Verif.Eln.C255_centred",
    "Verif.Eln.C255_unit",
    "Verif.Eln.C255_one",
    "Verif.Eln.C255_unit_partial",
    "Verif.Eln.C255_unit_violated",
    "Verif.Eln.C255_plain",
    "Verif.Eln.C255_rsq_partial",
    "Verif.Eln.C255_rsq_violated",
    "Verif.Eln.C255_ols_violated",
    "Verif.Eln.C255_other_violated",
    "Verif.Eln.C255_given",
    "Verif.Eln.C255_criteria",
    "Verif.Eln.C255_penalty",
    "Verif.Eln.C255_df"
   ],
   "note": "Scaling with an intercept, the table with the variance of a centred response, and the two criteria proved for all data; refuted for the other methods, for responses that are not centred, and for the scaling without an intercept."
  },
  {
   "property": "C256",
   "status": "partial",
   "theorems": [
    "Verif.Sim.C256_classes",
    "Verif.Sim.C256_own",
    "Verif.Sim.C256_categorical",
    "Verif.Sim.C256_sum",
    "Verif.Sim.C256_numerical",
    "Verif.Sim.C256_share",
    "Verif.Sim.C256_draw",
    "Verif.Sim.C256_intercept",
    "Verif.Sim.C256_intercept_violated"
   ],
   "note": "Classes, contrasts, draws and the intercept proved for all tiled designs; refuted for formulas without an intercept under the default flag."
  },
  {
   "property": "C257",
   "status": "partial",
   "theorems": [
    "Verif.Sem.C257_indices",
    "Verif.Sem.C257_matrices",
    "Verif.Sem.C257_count",
    "Verif.Sem.C257_length_violated",
    "Verif.Sem.C257_free_params"
   ],
   "note": "Placement of free, fixed and default values proved for all sorted tables whose fixed rows have no number; refuted for tables with a labelled covariance of exogenous variables."
  },
  {
   "property": "C258",
   "status": "partial",
   "theorems": [
    "Verif.Lmm.C258_entries",
    "Verif.Lmm.C258_start",
    "Verif.Lmm.C258_bounds",
    "Verif.Lmm.C258_gradient",
    "Verif.Lmm.C258_profile",
    "Verif.Lmm.C258_ratio",
    "Verif.Lmm.C258_bound_violated"
   ],
   "note": "Mask, gradient and profile proved for all models, with the estimate inside the bounds of the refit; refuted for an estimate on the boundary."
  },
  {
   "property": "C259",
   "status": "partial",
   "theorems": [
    "Verif.Sim.C259_signal",
    "Verif.Sim.C259_intercept",
    "Verif.Sim.C259_share",
    "Verif.Sim.C259_posdef",
    "Verif.Sim.C259_moments",
    "Verif.Sim.C259_t",
    "Verif.Sim.C259_response",
    "Verif.Sim.C259_theta",
    "Verif.Sim.C259_rank",
    "Verif.Sim.C259_low",
    "Verif.Sim.C259_sparsity_violated",
    "Verif.Sim.C259_kinds",
    "Verif.Sim.C259_flat_violated"
   ],
   "note": "Moments, share of variance and packed parameters proved for all draws; refuted for the meaning of the sparsity and for signals without variance."
  },
  {
   "property": "C260",
   "status": "partial",
   "theorems": [
    "Verif.Sem.C260_cells",
    "Verif.Sem.C260_upper_violated",
    "Verif.Sem.C260_symm",
    "Verif.Sem.C260_start_partial",
    "Verif.Sem.C260_start_violated",
    "Verif.Sem.C260_comb_violated",
    "Verif.Sem.C260_comb_partial",
    "Verif.Sem.C260_constraint",
    "Verif.Sem.C260_constraint_violated",
    "Verif.Sem.C260_bounds_partial",
    "Verif.Sem.C260_bounds_violated"
   ],
   "note": "Cells, form of the constraint and bounds of unshared labels proved for all inputs, positive definite starts below a hundred free covariances per variable; refuted otherwise."
  },
  {
   "property": "C261",
   "status": "partial",
   "theorems": [
    "Verif.Robust.C261_own_violated",
    "Verif.Robust.C261_fixed",
    "Verif.Robust.C261_range",
    "Verif.Robust.C261_equivariant_step",
    "Verif.Robust.C261_equivariant_obj",
    "Verif.Robust.C261_equivariant",
    "Verif.Robust.C261_iterates",
    "Verif.Robust.C261_stop",
    "Verif.Robust.C261_still_violated",
    "Verif.Robust.C261_early_violated",
    "Verif.Robust.C261_history_violated"
   ],
   "note": "Estimating equations, range, iterates and equivariance proved for all data and weights; refuted for the methods called, the stopping rule and the history."
  },
  {
   "property": "C262",
   "status": "partial",
   "theorems": [
    "Verif.Glm.C262_binomial_interior",
    "Verif.Glm.C262_midpoint",
    "Verif.Glm.C262_weights",
    "Verif.Glm.C262_not_finite",
    "Verif.Glm.C262_scoring",
    "Verif.Glm.C262_gaussian_half",
    "Verif.Glm.C262_gaussian_violated",
    "Verif.Glm.C262_zero_violated",
    "Verif.Glm.C262_gamma"
   ],
   "note": "Means, weights and the scoring step of the binomial family proved for all data; refuted for the normal model and for counts that are all zero. The dispersion is left out."
  },
  {
   "property": "C263",
   "status": "partial",
   "theorems": [
    "Verif.Gam.C263_agree",
    "Verif.Gam.C263_functional",
    "Verif.Gam.C263_width",
    "Verif.Gam.C263_level",
    "Verif.Gam.C263_nested",
    "Verif.Gam.C263_sum",
    "Verif.Gam.C263_error_violated"
   ],
   "note": "Values, widths, levels and sums proved for all bases and covariances; refuted for the meaning of the third column."
  },
  {
   "property": "C264",
   "status": "partial",
   "theorems": [
    "Verif.Mv.SccaCv.C264_lambdas",
    "Verif.Mv.SccaCv.C264_start",
    "Verif.Mv.SccaCv.C264_start_violated",
    "Verif.Mv.SccaCv.C264_permutation",
    "Verif.Mv.SccaCv.C264_margins",
    "Verif.Mv.SccaCv.C264_leak_partial",
    "Verif.Mv.SccaCv.C264_leak",
    "Verif.Mv.SccaCv.C264_leak_violated"
   ],
   "note": "Penalties, margins and pairing proved for all draws, disjoint folds for draws without repetition; refuted for the second start and for draws with repetition."
  },
  {
   "property": "C265",
   "status": "partial",
   "theorems": [
    "Verif.Lmm.C265_inverse",
    "Verif.Lmm.C265_T2",
    "Verif.Lmm.C265_T3",
    "Verif.Lmm.C265_T1_partial",
    "Verif.Lmm.C265_gradient_partial",
    "Verif.Lmm.C265_T1_violated"
   ],
   "note": "Quadratic form and restricted trace proved for all symmetric derivatives, the whole gradient for derivatives that keep the trace; refuted for the others."
  },
  {
   "property": "C266",
   "status": "proved",
   "theorems": [
    "Verif.Fa.C266_pack",
    "Verif.Fa.C266_phi",
    "Verif.Fa.C266_entry",
    "Verif.Fa.C266_inj",
    "Verif.Fa.C266_free",
    "Verif.Fa.C266_row",
    "Verif.Fa.C266_apply",
    "Verif.Fa.C266_cov",
    "Verif.Fa.C266_se",
    "Verif.Fa.C266_orthogonal",
    "Verif.Fa.C266_mahalanobis",
    "Verif.Fa.C266_unpack",
    "Verif.Fa.C266_unpack_sym"
   ],
   "note": "For both masks of RotationIdentification, all permutations and signs; the call that uses the matrix in run raises (see the simulation of factor models)."
  },
  {
   "property": "C267",
   "status": "partial",
   "theorems": [
    "Verif.Sem.OldTable.C267_rows",
    "Verif.Sem.OldTable.C267_keeps",
    "Verif.Sem.OldTable.C267_order",
    "Verif.Sem.OldTable.C267_update_partial",
    "Verif.Sem.OldTable.C267_arrays_violated",
    "Verif.Sem.OldTable.C267_fixed_violated",
    "Verif.Sem.OldTable.C267_start",
    "Verif.Sem.OldTable.C267_start_pos",
    "Verif.Sem.OldTable.C267_start_fixed_partial",
    "Verif.Sem.OldTable.C267_start_fixed_violated"
   ],
   "note": "Rowwise specification proved for data frames, order of variables and repeated updates immaterial, starts of free parameters and of fixed ones that are not variances; refuted for arrays, for fixed covariances and for fixed variances."
  },
  {
   "property": "C268",
   "status": "partial",
   "theorems": [
    "Verif.Robust.C268_axis",
    "Verif.Robust.C268_columns",
    "Verif.Robust.C268_indices",
    "Verif.Robust.C268_low_le_high",
    "Verif.Robust.C268_transpose",
    "Verif.Robust.C268_none_partial",
    "Verif.Robust.C268_none_violated",
    "Verif.Robust.C268_none_two_violated"
   ],
   "note": "Proved along an axis and for one column; refuted without an axis."
  },
  {
   "property": "C269",
   "status": "proved",
   "theorems": [
    "Verif.Lmm.C269_diagonal",
    "Verif.Lmm.C269_blocks",
    "Verif.Lmm.C269_singular",
    "Verif.Lmm.C269_only_diagonal",
    "Verif.Lmm.C269_sigma"
   ],
   "note": "For all terms and parameters."
  },
  {
   "property": "C270",
   "status": "partial",
   "theorems": [
    "Verif.Calc.C270_apply",
    "Verif.Calc.C270_derivative_partial",
    "Verif.Calc.C270_equal_violated",
    "Verif.Calc.C270_nonsymmetric_violated",
    "Verif.Calc.C270_symmetric"
   ],
   "note": "The derivative in every direction proved for symmetric matrices with different eigenvalues; refuted for equal eigenvalues and for matrices that are not symmetric."
  },
  {
   "property": "C271",
   "status": "partial",
   "theorems": [
    "Verif.Eln.C271_null_partial",
    "Verif.Eln.C271_below",
    "Verif.Eln.C271_path",
    "Verif.Eln.C271_constant_violated",
    "Verif.Eln.C271_ridge_violated"
   ],
   "note": "Optimality above, and its failure below, the first penalty proved for canonical links and mixing parameters of at least alpha_min; refuted for smaller ones and for constant responses."
  },
  {
   "property": "C272",
   "status": "partial",
   "theorems": [
    "Verif.Reg.C272_tests_partial",
    "Verif.Reg.C272_keys_partial",
    "Verif.Reg.C272_series",
    "Verif.Reg.C272_series_violated",
    "Verif.Reg.C272_no_info"
   ],
   "note": "Proved for responses given as data frames or arrays; refuted for series, where the last design is dropped. Designs without design information raise."
  },
  {
   "property": "C273",
   "status": "partial",
   "theorems": [
    "Verif.Eln.C273_refit",
    "Verif.Eln.C273_folds_partial",
    "Verif.Eln.C273_choice_partial",
    "Verif.Eln.C273_no_refit_violated",
    "Verif.Eln.C273_error_partial",
    "Verif.Eln.C273_shift",
    "Verif.Eln.C273_error_violated",
    "Verif.Eln.C273_cold_violated",
    "Verif.Eln.C273_intercept_partial",
    "Verif.Eln.C273_intercept_violated"
   ],
   "note": "Choice, refit and independence of folds proved for warm starts and refitting, the error without an intercept; refuted for cold starts, no refitting, and the error with an intercept; the intercept option is ignored."
  },
  {
   "property": "C274",
   "status": "partial",
   "theorems": [
    "Verif.Eln.C274_constant",
    "Verif.Eln.C274_standard",
    "Verif.Eln.C274_full",
    "Verif.Eln.C274_fold_partial",
    "Verif.Eln.C274_weights",
    "Verif.Eln.C274_fold_violated"
   ],
   "note": "Proved when the rows fitted have mean zero and spread one, in particular for the path over all the data; refuted for folds in general."
  },
  {
   "property": "C275",
   "status": "partial",
   "theorems": [
    "Verif.Lmm.C275_bracket_partial",
    "Verif.Lmm.C275_middle",
    "Verif.Lmm.C275_root",
    "Verif.Lmm.C275_nan_violated",
    "Verif.Lmm.C275_one_sided",
    "Verif.Lmm.C275_bracket_violated",
    "Verif.Lmm.C275_rows"
   ],
   "note": "Proved for parameters without a bound and variances of at least 0.01, and for refits at or above the optimum; refuted otherwise."
  },
  {
   "property": "C276",
   "status": "partial",
   "theorems": [
    "Verif.Robust.C276_kept_partial",
    "Verif.Robust.C276_best_partial",
    "Verif.Robust.C276_single_violated",
    "Verif.Robust.C276_result"
   ],
   "note": "Proved for at least two kept subsamples and scales of at most 1e12; refuted for one."
  },
  {
   "property": "C277",
   "status": "partial",
   "theorems": [
    "Verif.Sem.OldTable.C277_swap",
    "Verif.Sem.OldTable.C277_free",
    "Verif.Sem.OldTable.C277_not_free",
    "Verif.Sem.OldTable.C277_fixed_partial",
    "Verif.Sem.OldTable.C277_default",
    "Verif.Sem.OldTable.C277_itself",
    "Verif.Sem.OldTable.C277_lower",
    "Verif.Sem.OldTable.C277_template",
    "Verif.Sem.OldTable.C277_exclusive_partial",
    "Verif.Sem.OldTable.C277_exclusive_violated",
    "Verif.Sem.OldTable.C277_start_violated"
   ],
   "note": "Proved for tables whose rows agree on a cell; refuted for repeated rows and for the starting values of free parameters."
  },
  {
   "property": "C278",
   "status": "partial",
   "theorems": [
    "Verif.Glm.C278_predict",
    "Verif.Glm.C278_defaults",
    "Verif.Glm.C278_kind",
    "Verif.Glm.C278_coefficients_violated",
    "Verif.Glm.C278_betareg",
    "Verif.Glm.C278_rows_partial",
    "Verif.Glm.C278_rows_violated"
   ],
   "note": "Proved for parameters with the scale and for two designs with the same rows; refuted for coefficients alone and for one new design."
  },
  {
   "property": "C279",
   "status": "partial",
   "theorems": [
    "Verif.Like.C279_resample",
    "Verif.Like.C279_samples_partial",
    "Verif.Like.C279_restored_violated",
    "Verif.Like.C279_missing_violated",
    "Verif.Like.C279_counts",
    "Verif.Like.C279_newer"
   ],
   "note": "Proved that each pass optimises the model of its rows and that the model is restored if no pass raises; refuted otherwise and for resamples without the first category."
  },
  {
   "property": "C280",
   "status": "partial",
   "theorems": [
    "Verif.Eln.C280_step",
    "Verif.Eln.C280_sign",
    "Verif.Eln.C280_drops",
    "Verif.Eln.C280_none",
    "Verif.Eln.C280_factor_partial",
    "Verif.Eln.C280_factor_violated"
   ],
   "note": "Step and drops proved in general; the factor for one variable dropped at a time, refuted for two."
  }
 ]
}
import Verif.Calc.MatExpProps
import Verif.Cov.AcovProps
import Verif.Cov.ExactProps
import Verif.Cov.PsdProps
import Verif.Cov.StructProps
import Verif.Data.Props
import Verif.Design.Props
import Verif.Eln.Binom2PathProps
import Verif.Eln.Binom2Props
import Verif.Eln.BinomLoopProps
import Verif.Eln.BinomProps
import Verif.Eln.CvPathProps
import Verif.Eln.FoldProps
import Verif.Eln.Glmen2CvProps
import Verif.Eln.Glmen2ObjProps
import Verif.Eln.Glmen2Props
import Verif.Eln.LarsDropProps
import Verif.Eln.LarsProps
import Verif.Eln.LarsStatsProps
import Verif.Eln.LassoProps
import Verif.Eln.PathProps
import Verif.Eln.Props
import Verif.Eln.StartLamProps
import Verif.Fa.AlignMatProps
import Verif.Fa.AlignProps
import Verif.Fa.CayleyProps
import Verif.Fa.ConcentratedProps
import Verif.Fa.ConstraintProps
import Verif.Fa.CriterionProps
import Verif.Fa.FitMeasuresProps
import Verif.Fa.GpaProps
import Verif.Fa.InferenceProps
import Verif.Fa.LayoutProps
import Verif.Fa.LikelihoodProps
import Verif.Fa.OldAugProps
import Verif.Fa.OldConcProps
import Verif.Fa.OldConstraintProps
import Verif.Fa.OldEfaProps
import Verif.Fa.OldEfaSetupProps
import Verif.Fa.OldGpaProps
import Verif.Fa.OldRotationProps
import Verif.Fa.OldScoresProps
import Verif.Fa.RotationProps
import Verif.Fa.SvdProps
import Verif.Func.CutProps
import Verif.Func.HarmonicProps
import Verif.Func.Props
import Verif.Gam.DiagProps
import Verif.Gam.FamProps
import Verif.Gam.FormulaProps
import Verif.Gam.GamCritProps
import Verif.Gam.GamFitProps
import Verif.Gam.GamProps
import Verif.Gam.GamThirdProps
import Verif.Gam.GaulsBetaProps
import Verif.Gam.GaulsFitProps
import Verif.Gam.GaulsLinkProps
import Verif.Gam.GaulsRemlProps
import Verif.Gam.GausProps
import Verif.Gam.GcvProps
import Verif.Gam.LayoutProps
import Verif.Gam.SetupProps
import Verif.Gam.SmoothBandProps
import Verif.Gam.SmoothProps
import Verif.Glm.DensityProps
import Verif.Glm.DevianceProps
import Verif.Glm.FamiliesProps
import Verif.Glm.GlmProps
import Verif.Glm.InferenceProps
import Verif.Glm.LinksProps
import Verif.Glm.NdtrProps
import Verif.Glm.OldFamiliesProps
import Verif.Glm.OldGlmProps
import Verif.Glm.OldLikeProps
import Verif.Glm.OldLinksProps
import Verif.Glm.OldPredictProps
import Verif.Glm.SamplingProps
import Verif.Glm.StartProps
import Verif.Glm.TauProps
import Verif.Glm.WeightDerivProps
import Verif.Glmm.HessProps
import Verif.Glmm.PirlsProps
import Verif.Glmm.QuadProps
import Verif.Indep.DcorrProps
import Verif.Indep.DhsicProps
import Verif.Index.OrderedProps
import Verif.Index.Props
import Verif.Index.TensorProps
import Verif.Like.ClmBootProps
import Verif.Like.ClmPredProps
import Verif.Like.ClmProps
import Verif.Like.InfluenceProps
import Verif.Like.InfoProps
import Verif.Like.LaneProps
import Verif.Like.LeverageProps
import Verif.Like.OldClmPredProps
import Verif.Like.OldClmProps
import Verif.Like.OldOlsProps
import Verif.Like.OlsProps
import Verif.Like.OutputProps
import Verif.Like.ProfileProps
import Verif.Like.TestsProps
import Verif.Like.ZinbProps
import Verif.Like.ZipProps
import Verif.Lin.Ar1Props
import Verif.Lin.CholProps
import Verif.Lin.DcholProps
import Verif.Lin.VanderProps
import Verif.Lmm.EffProps
import Verif.Lmm.FormulaProps
import Verif.Lmm.GradProps
import Verif.Lmm.IccProps
import Verif.Lmm.InferProps
import Verif.Lmm.LayoutProps
import Verif.Lmm.LikeProps
import Verif.Lmm.LmCholProps
import Verif.Lmm.LmEffProps
import Verif.Lmm.LmGradProps
import Verif.Lmm.LmInferProps
import Verif.Lmm.LmLikeProps
import Verif.Lmm.LndetCholProps
import Verif.Lmm.MlmmExProps
import Verif.Lmm.MlmmLayProps
import Verif.Lmm.MlmmProps
import Verif.Lmm.OldProfileProps
import Verif.Lmm.PrfProps
import Verif.Lmm.ProfileFitProps
import Verif.Lmm.ProfileProps
import Verif.Lmm.ReDesignProps
import Verif.Lmm.ReTablesProps
import Verif.Lmm.ReTermsProps
import Verif.Lmm.ReparamProps
import Verif.Lmm.ResidTraceProps
import Verif.Lv.AcovProps
import Verif.Lv.BinormEdgeProps
import Verif.Lv.BinormProps
import Verif.Lv.NewtonProps
import Verif.Lv.OldProps
import Verif.Lv.PolychorProps
import Verif.Lv.SampleProps
import Verif.Lv.SerialProps
import Verif.Lv.SimProps
import Verif.Mcmc.GibbsProps
import Verif.Mcmc.LvarProps
import Verif.Mcmc.ResultProps
import Verif.Misc.SadProps
import Verif.Misc.SashProps
import Verif.Misc.ShashDistProps
import Verif.Misc.ShashProps
import Verif.Misc.ShashrProps
import Verif.Misc.SkewMomentProps
import Verif.Misc.SkewProps
import Verif.Mv.CcaProps
import Verif.Mv.IcaProps
import Verif.Mv.MvolsAssocProps
import Verif.Mv.MvolsFitProps
import Verif.Mv.MvolsProps
import Verif.Mv.MvolsTestProps
import Verif.Mv.SccaCvProps
import Verif.Mv.SccaProps
import Verif.Mv.SccaResampleProps
import Verif.Mv.SccaStepProps
import Verif.Nd.DiffProps
import Verif.Nd.RichProps
import Verif.Nd.WeightProps
import Verif.Nmf.Props
import Verif.Np.XcorrProps
import Verif.Opt.Props
import Verif.Rand.CorrProps
import Verif.Rand.LkjProps
import Verif.Rand.MvnProps
import Verif.Rand.TruncProps
import Verif.Rank.Props
import Verif.Reg.BetaProps
import Verif.Reg.ModelDataProps
import Verif.Reg.Nb2Props
import Verif.Reg.RlmProps
import Verif.Reg.TermTestsProps
import Verif.Reg.ZipProps
import Verif.Robust.DispProps
import Verif.Robust.FastSProps
import Verif.Robust.MedNdProps
import Verif.Robust.NormalProps
import Verif.Robust.Props
import Verif.Robust.ScaleProps
import Verif.Robust.SimulProps
import Verif.Sem.AltGradProps
import Verif.Sem.BuilderFixProps
import Verif.Sem.BuilderProps
import Verif.Sem.CovTemplateProps
import Verif.Sem.DataProps
import Verif.Sem.FitProps
import Verif.Sem.FitRunProps
import Verif.Sem.FlatProps
import Verif.Sem.FormulaProps
import Verif.Sem.LabelsProps
import Verif.Sem.LikeProps
import Verif.Sem.MomentsProps
import Verif.Sem.OldDataProps
import Verif.Sem.OldDefaultsProps
import Verif.Sem.OldFlatProps
import Verif.Sem.OldMatsProps
import Verif.Sem.OldSemFitProps
import Verif.Sem.OldSemProps
import Verif.Sem.OldSemSetupProps
import Verif.Sem.OldTableProps
import Verif.Sem.OldTemplateProps
import Verif.Sem.ParamsProps
import Verif.Sem.ShareProps
import Verif.Sem.SortKeyProps
import Verif.Sem.TableProps
import Verif.Sim.CcaProps
import Verif.Sim.FactorProps
import Verif.Sim.LinearProps
import Verif.Sim.MixedGroupProps
import Verif.Sim.MixedProps
import Verif.Sim.MmrProps
import Verif.Sim.PopulationProps
import Verif.Sim.SemSimProps
import Verif.Sim.TermCoefsProps
import Verif.Sparse.Props
import Verif.Spl.BsplProps
import Verif.Spl.CubicProps
import Verif.Spl.CyclicProps
import Verif.Spl.KnotProps
import Verif.Transf.CholCovFullProps
import Verif.Transf.CholCovProps
import Verif.Transf.ComposeProps
import Verif.Transf.CorrCholDerivProps
import Verif.Transf.CovCorrProps
import Verif.Transf.OrderedProps
import Verif.Transf.RowNormProps
import Verif.Transf.UcholDerivProps
import Verif.Transf.UcholProps
import Verif.Vec.ApplyProps
import Verif.Vec.JaxProps
import Verif.Vec.Props
/-! Axiom audit: one `#print axioms` per property theorem (printed during the build). -/

#print axioms Verif.Index.C01_vec_forwards_position
#print axioms Verif.Index.C01_vec_bijection
#print axioms Verif.Vec.C01_vec_element
#print axioms Verif.Index.C02_vech_forwards_position
#print axioms Verif.Index.C02_vech_reverse_forwards
#print axioms Verif.Index.C02_vech_forwards_reverse
#print axioms Verif.Vec.C02_vech_order
#print axioms Verif.Vec.C02_vech_element
#print axioms Verif.Vec.C02_vech_diag_indices
#print axioms Verif.Vec.C02_inv_tril_indices_violated
#print axioms Verif.Index.C03_vecl_forwards_position
#print axioms Verif.Index.C03_vecl_reverse_forwards
#print axioms Verif.Index.C03_vecl_forwards_reverse
#print axioms Verif.Vec.C03_vecl_order
#print axioms Verif.Vec.C03_vecl_element
#print axioms Verif.Vec.C03_inv_tril_indices
#print axioms Verif.Index.C04_kronecker_indices
#print axioms Verif.Index.C04_kronecker_entry
#print axioms Verif.Vec.C05_kmat_vec
#print axioms Verif.Vec.C05_kmat_inverse
#print axioms Verif.Vec.C05_apply_agrees
#print axioms Verif.Vec.C06_dmat_vech
#print axioms Verif.Vec.C06_dmat_rows
#print axioms Verif.Vec.C06_dup_indices
#print axioms Verif.Vec.C06_apply_dmat
#print axioms Verif.Vec.C07_lmat_vec
#print axioms Verif.Vec.C07_lmat_dmat
#print axioms Verif.Vec.C07_dpmat_dmat
#print axioms Verif.Vec.C07_dpmat_vec
#print axioms Verif.Vec.C07_apply_agrees
#print axioms Verif.Vec.C07_elim_indices
#print axioms Verif.Rank.C08_rank_order_independent
#print axioms Verif.Rank.C08_unrank_rank
#print axioms Verif.Rank.C08_rank_unrank
#print axioms Verif.Rank.C08_numba_agrees
#print axioms Verif.Rank.C08_descending
#print axioms Verif.Rank.C09_colex_reverse_forward
#print axioms Verif.Rank.C09_colex_forward_reverse
#print axioms Verif.Rank.C09_lex_reverse_forward
#print axioms Verif.Rank.C09_lex_forward_reverse
#print axioms Verif.Rank.C09_order
#print axioms Verif.Rank.C10_unique
#print axioms Verif.Like.C100_mu
#print axioms Verif.Like.C100_likelihood
#print axioms Verif.Like.C100_total
#print axioms Verif.Like.C100_nonneg
#print axioms Verif.Like.C100_variance
#print axioms Verif.Like.C100_cumulative
#print axioms Verif.Like.C100_limits_partial
#print axioms Verif.Like.C100_limits_rigid
#print axioms Verif.Like.C100_limits_reversed
#print axioms Verif.Like.C100_limits_violated
#print axioms Verif.Like.C100_fit_options_violated
#print axioms Verif.Like.C100_null_redundant
#print axioms Verif.Like.C101_weights
#print axioms Verif.Like.C101_pmf_partial
#print axioms Verif.Like.C101_pmf_violated
#print axioms Verif.Like.C101_loglike
#print axioms Verif.Like.C101_gradient_partial
#print axioms Verif.Like.C101_gradient_poisson
#print axioms Verif.Like.C101_gradient_i
#print axioms Verif.Like.C101_gradient_violated
#print axioms Verif.Like.C101_hessian
#print axioms Verif.Like.C101_hessian_partial
#print axioms Verif.Like.C101_hessian_symm
#print axioms Verif.Like.C102_pmf
#print axioms Verif.Like.C102_loglike_i_partial
#print axioms Verif.Like.C102_loglike_i_violated
#print axioms Verif.Like.C102_weights_violated
#print axioms Verif.Like.C102_weights_positive
#print axioms Verif.Like.C102_gradient
#print axioms Verif.Like.C102_gradient_i_partial
#print axioms Verif.Like.C102_gradient_i_violated
#print axioms Verif.Like.C102_hessian_partial
#print axioms Verif.Like.C102_hessian_violated
#print axioms Verif.Like.C102_hessian_symm
#print axioms Verif.Like.C102_predict_violated
#print axioms Verif.Eln.C103_loglike
#print axioms Verif.Eln.C103_coordinate
#print axioms Verif.Eln.C103_residuals
#print axioms Verif.Eln.C103_decrease
#print axioms Verif.Eln.C103_monotone
#print axioms Verif.Eln.C103_stop_partial
#print axioms Verif.Eln.C103_stop_violated
#print axioms Verif.Eln.C103_minimum
#print axioms Verif.Eln.C103_sweep_fixed
#print axioms Verif.Eln.C103_fixed_partial
#print axioms Verif.Eln.C103_minimum_violated
#print axioms Verif.Eln.C103_grad_partial
#print axioms Verif.Eln.C103_grad_violated
#print axioms Verif.Eln.C104_intercept_partial
#print axioms Verif.Eln.C104_intercept_violated
#print axioms Verif.Eln.C104_lambda_max
#print axioms Verif.Eln.C104_lambda_max_some
#print axioms Verif.Eln.C104_path_start
#print axioms Verif.Eln.C104_screen
#print axioms Verif.Eln.C104_path
#print axioms Verif.Eln.C104_fit_violated
#print axioms Verif.Eln.C105_array_split
#print axioms Verif.Eln.C105_partition
#print axioms Verif.Eln.C105_stratified
#print axioms Verif.Eln.C105_few_folds
#print axioms Verif.Eln.C106_objective
#print axioms Verif.Eln.C106_step
#print axioms Verif.Eln.C106_decrease
#print axioms Verif.Eln.C106_rate
#print axioms Verif.Eln.C106_fixed
#print axioms Verif.Eln.C106_result
#print axioms Verif.Eln.C106_never_worse
#print axioms Verif.Eln.C106_accelerated_iterate
#print axioms Verif.Eln.C106_accelerated_partial
#print axioms Verif.Eln.C106_accelerated_violated
#print axioms Verif.Eln.C107_coordinate
#print axioms Verif.Eln.C107_intercept
#print axioms Verif.Eln.C107_decrease_partial
#print axioms Verif.Eln.C107_residual_violated
#print axioms Verif.Eln.C107_stale
#print axioms Verif.Eln.C108_fixed_partial
#print axioms Verif.Eln.C108_eval
#print axioms Verif.Eln.C108_cv_violated
#print axioms Verif.Eln.C108_deviance
#print axioms Verif.Eln.C108_values
#print axioms Verif.Eln.C108_reentry
#print axioms Verif.Eln.C108_dropped
#print axioms Verif.Eln.C108_screen_violated
#print axioms Verif.Eln.C108_descent_violated
#print axioms Verif.Eln.C108_stop_violated
#print axioms Verif.Eln.C108_zero_optimal
#print axioms Verif.Eln.C108_lambda_max_partial
#print axioms Verif.Eln.C108_lambda_max_violated
#print axioms Verif.Lmm.C109_loglike
#print axioms Verif.Lmm.C109_defined
#print axioms Verif.Lmm.C109_ordering
#print axioms Verif.Vec.C11_invec_vec
#print axioms Verif.Vec.C11_vec_invec
#print axioms Verif.Vec.C11_vech_versions
#print axioms Verif.Vec.C11_invech_vech
#print axioms Verif.Vec.C11_vech_invech
#print axioms Verif.Vec.C11_invech_rejects
#print axioms Verif.Vec.C11_invecl_vecl
#print axioms Verif.Vec.C11_vecl_invecl
#print axioms Verif.Vec.C11_lower_half
#print axioms Verif.Vec.C11_sizes
#print axioms Verif.Lmm.C110_gradient
#print axioms Verif.Lmm.C110_loglike_gradient
#print axioms Verif.Lmm.C110_reparam
#print axioms Verif.Lmm.C110_v2_partial
#print axioms Verif.Lmm.C110_v2_violated
#print axioms Verif.Lmm.C110_defined
#print axioms Verif.Lmm.C111_effects
#print axioms Verif.Lmm.C111_henderson
#print axioms Verif.Lmm.C111_joint_minimum
#print axioms Verif.Lmm.C111_profile
#print axioms Verif.Lmm.C111_vinv_apply
#print axioms Verif.Lmm.C111_p_apply
#print axioms Verif.Lmm.C111_vinvcrossprod
#print axioms Verif.Lmm.C111_ranef_var
#print axioms Verif.Lmm.C111_dC_dtheta
#print axioms Verif.Lmm.C112_z_matrix
#print axioms Verif.Lmm.C112_kron_ig
#print axioms Verif.Lmm.C112_kron_ig_fresh
#print axioms Verif.Lmm.C112_kron_ag_partial
#print axioms Verif.Lmm.C112_kron_ag_violated
#print axioms Verif.Lmm.C112_coefficient_matrix_partial
#print axioms Verif.Lmm.C112_coefficient_matrix_violated
#print axioms Verif.Lmm.C112_index_map_partial
#print axioms Verif.Lmm.C112_index_map_violated
#print axioms Verif.Lmm.C112_index_map_raises
#print axioms Verif.Lmm.C113_wald
#print axioms Verif.Lmm.C113_df_mean
#print axioms Verif.Lmm.C113_satterthwaite_half_violated
#print axioms Verif.Lmm.C113_one_sample_violated
#print axioms Verif.Lmm.C113_contrast_gradient
#print axioms Verif.Lmm.C113_p_value_violated
#print axioms Verif.Lmm.C113_duality_violated
#print axioms Verif.Lmm.C113_duality_two_sided
#print axioms Verif.Lmm.C113_llf
#print axioms Verif.Lmm.C113_criteria
#print axioms Verif.Lmm.C113_lrt_violated
#print axioms Verif.Lmm.C113_lrt_partial
#print axioms Verif.Lmm.C113_total_variance
#print axioms Verif.Lmm.C113_r_squared
#print axioms Verif.Lmm.C113_fixed_spread
#print axioms Verif.Lmm.C114_rvs_fwd_partial
#print axioms Verif.Lmm.C114_fwd_rvs_partial
#print axioms Verif.Lmm.C114_cauchy_schwarz
#print axioms Verif.Lmm.C114_clip_violated
#print axioms Verif.Lmm.C114_posdef_violated
#print axioms Verif.Lmm.C114_jacobian
#print axioms Verif.Nd.C115_weights
#print axioms Verif.Nd.C115_finite_diff
#print axioms Verif.Nd.C115_coefficients_raises
#print axioms Verif.Nd.C115_coefficients
#print axioms Verif.Nd.C115_fd_derivative
#print axioms Verif.Nd.C115_agree
#print axioms Verif.Nd.C116_symmetric
#print axioms Verif.Nd.C116_first
#print axioms Verif.Nd.C116_second_diagonal
#print axioms Verif.Nd.C116_second_mixed
#print axioms Verif.Nd.C116_gradient_affine
#print axioms Verif.Nd.C116_first_limit
#print axioms Verif.Nd.C116_gradient_limit
#print axioms Verif.Nd.C116_second_diagonal_limit
#print axioms Verif.Nd.C116_second_mixed_limit
#print axioms Verif.Nd.C116_complex_step
#print axioms Verif.Nd.C116_complex_mixed
#print axioms Verif.Nd.C116_complex_diagonal
#print axioms Verif.Nd.C117_gradient_partial
#print axioms Verif.Nd.C117_gradient_violated
#print axioms Verif.Nd.C117_hessian_partial
#print axioms Verif.Nd.C117_hessian_violated
#print axioms Verif.Nd.C117_jacobian
#print axioms Verif.Nd.C117_args_violated
#print axioms Verif.Nd.C117_integer_violated
#print axioms Verif.Nd.C117_hess_approx
#print axioms Verif.Spl.C118_solves
#print axioms Verif.Spl.C118_basis
#print axioms Verif.Spl.C118_knots
#print axioms Verif.Spl.C118_smooth
#print axioms Verif.Spl.C118_penalty
#print axioms Verif.Spl.C118_least
#print axioms Verif.Spl.C118_null
#print axioms Verif.Spl.C118_lines
#print axioms Verif.Spl.C118_natural_violated
#print axioms Verif.Spl.C119_solves_partial
#print axioms Verif.Spl.C119_basis
#print axioms Verif.Spl.C119_knots
#print axioms Verif.Spl.C119_smooth_partial
#print axioms Verif.Spl.C119_penalty_partial
#print axioms Verif.Spl.C119_least_partial
#print axioms Verif.Spl.C119_null_partial
#print axioms Verif.Spl.C119_constants_partial
#print axioms Verif.Spl.C119_three_knots_violated
#print axioms Verif.Spl.C119_period_violated
#print axioms Verif.Sparse.C12_coo_same_matrix
#print axioms Verif.Sparse.C12_coo_pointer
#print axioms Verif.Sparse.C12_coo_order
#print axioms Verif.Spl.C120_increasing
#print axioms Verif.Spl.C120_ends
#print axioms Verif.Spl.C120_agree
#print axioms Verif.Spl.C120_splines
#print axioms Verif.Spl.C121_support
#print axioms Verif.Spl.C121_partition
#print axioms Verif.Spl.C121_nonneg
#print axioms Verif.Spl.C121_derivative
#print axioms Verif.Spl.C121_lines
#print axioms Verif.Spl.C121_basis
#print axioms Verif.Spl.C121_equispaced
#print axioms Verif.Spl.C121_bspline
#print axioms Verif.Spl.C121_knots
#print axioms Verif.Spl.C121_degree_zero_violated
#print axioms Verif.Spl.C121_difference
#print axioms Verif.Spl.C121_difference_null
#print axioms Verif.Spl.C121_binds
#print axioms Verif.Spl.C121_calls_violated
#print axioms Verif.Gam.C122_gradient
#print axioms Verif.Gam.C122_gamma_one
#print axioms Verif.Gam.C122_gradient_gcv
#print axioms Verif.Gam.C122_defined
#print axioms Verif.Gam.C122_edf
#print axioms Verif.Gam.C122_rss
#print axioms Verif.Gam.C122_fitted
#print axioms Verif.Gam.C123_absorb
#print axioms Verif.Gam.C123_centred
#print axioms Verif.Gam.C123_span
#print axioms Verif.Gam.C123_fit
#print axioms Verif.Gam.C123_constrained
#print axioms Verif.Gam.C123_not_void
#print axioms Verif.Gam.C123_constants
#print axioms Verif.Gam.C123_lines
#print axioms Verif.Gam.C123_scale
#print axioms Verif.Gam.C123_unit
#print axioms Verif.Gam.C123_by
#print axioms Verif.Gam.C123_by_values_violated
#print axioms Verif.Gam.C123_cubic
#print axioms Verif.Gam.C123_cyclic
#print axioms Verif.Gam.C124_formula_partial
#print axioms Verif.Gam.C124_intercept_violated
#print axioms Verif.Gam.C124_function_violated
#print axioms Verif.Gam.C124_same_variable_violated
#print axioms Verif.Gam.C124_design
#print axioms Verif.Gam.C124_penalty
#print axioms Verif.Gam.C124_blocks
#print axioms Verif.Gam.C124_terms_partial
#print axioms Verif.Gam.C124_key_violated
#print axioms Verif.Gam.C124_name_violated
#print axioms Verif.Gam.C125_inverse
#print axioms Verif.Gam.C125_penalty
#print axioms Verif.Gam.C125_cubic_partial
#print axioms Verif.Gam.C125_cyclic_violated
#print axioms Verif.Gam.C125_all
#print axioms Verif.Gam.C125_indices_partial
#print axioms Verif.Gam.C125_indices_violated
#print axioms Verif.Gam.C125_prior_violated
#print axioms Verif.Gam.C126_gradient
#print axioms Verif.Gam.C126_coef
#print axioms Verif.Gam.C126_hessian
#print axioms Verif.Gam.C126_symmetric
#print axioms Verif.Gam.C126_defined
#print axioms Verif.Gam.C126_minimum
#print axioms Verif.Gam.C126_pirls_partial
#print axioms Verif.Gam.C126_pirls_violated
#print axioms Verif.Gam.C126_covariance
#print axioms Verif.Gam.C126_frequentist_partial
#print axioms Verif.Gam.C126_frequentist_violated
#print axioms Verif.Gam.C126_edf_violated
#print axioms Verif.Gam.C127_gradient
#print axioms Verif.Gam.C127_hessian
#print axioms Verif.Gam.C127_symmetric
#print axioms Verif.Gam.C127_newton
#print axioms Verif.Gam.C127_fixed
#print axioms Verif.Gam.C127_score
#print axioms Verif.Gam.C127_descent
#print axioms Verif.Gam.C127_stationary
#print axioms Verif.Gam.C127_halving
#print axioms Verif.Gam.C127_newton_violated
#print axioms Verif.Gam.C127_covariance
#print axioms Verif.Gam.C127_pvalue_violated
#print axioms Verif.Gam.C127_rank_partial
#print axioms Verif.Gam.C127_rank_violated
#print axioms Verif.Gam.C127_coef
#print axioms Verif.Gam.C127_hess_beta
#print axioms Verif.Gam.C127_third
#print axioms Verif.Gam.C128_family_partial
#print axioms Verif.Gam.C128_identity
#print axioms Verif.Gam.C128_log
#print axioms Verif.Gam.C128_reciprocal
#print axioms Verif.Gam.C128_logit
#print axioms Verif.Gam.C128_power
#print axioms Verif.Gam.C128_negbin_violated
#print axioms Verif.Gam.C128_gaussian
#print axioms Verif.Gam.C128_invGaussian
#print axioms Verif.Gam.C128_gamma
#print axioms Verif.Gam.C128_poisson
#print axioms Verif.Gam.C128_binomial
#print axioms Verif.Gam.C128_poisson_log
#print axioms Verif.Gam.C128_binomial_logit
#print axioms Verif.Gam.C128_gaussian_identity
#print axioms Verif.Gam.C128_gamma_reciprocal
#print axioms Verif.Gam.C128_invGaussian_power
#print axioms Verif.Gam.C128_defaults
#print axioms Verif.Gam.C128_family_violated
#print axioms Verif.Gam.C128_scale_gaussian
#print axioms Verif.Gam.C128_scale_invGaussian
#print axioms Verif.Gam.C128_scale_gamma
#print axioms Verif.Gam.C128_scale_partial
#print axioms Verif.Gam.C128_scale_violated
#print axioms Verif.Cov.C129_ante_psd
#print axioms Verif.Cov.C129_ante_pd
#print axioms Verif.Cov.C129_ar1
#print axioms Verif.Cov.C129_ante_lower
#print axioms Verif.Cov.C129_ante_partial
#print axioms Verif.Cov.C129_ante_violated
#print axioms Verif.Cov.C129_exchangeable
#print axioms Verif.Cov.C129_exchangeable_iff
#print axioms Verif.Cov.C129_exchangeable_violated
#print axioms Verif.Cov.C129_mdependent
#print axioms Verif.Cov.C129_toeplitz_partial
#print axioms Verif.Cov.C129_toeplitz_violated
#print axioms Verif.Cov.C129_mdependent_violated
#print axioms Verif.Cov.C129_factor
#print axioms Verif.Cov.C129_spatial
#print axioms Verif.Cov.C129_spatial_zero
#print axioms Verif.Cov.C129_spatial_violated
#print axioms Verif.Sparse.C13_cs_add_entry
#print axioms Verif.Sparse.C13_cs_add_union_pattern
#print axioms Verif.Sparse.C13_cs_add_pattern_kept
#print axioms Verif.Sparse.C13_cs_add_leak_violated
#print axioms Verif.Cov.C130_whiten
#print axioms Verif.Cov.C130_svd_factor
#print axioms Verif.Cov.C130_exact
#print axioms Verif.Cov.C130_exact_mean_partial
#print axioms Verif.Cov.C130_exact_violated
#print axioms Verif.Cov.C130_canvar
#print axioms Verif.Cov.C130_canvar_eig_partial
#print axioms Verif.Cov.C130_canvar_eig_violated
#print axioms Verif.Cov.C130_project
#print axioms Verif.Cov.C130_project_id
#print axioms Verif.Cov.C130_project_nearest
#print axioms Verif.Cov.C130_near_diag
#print axioms Verif.Cov.C130_near_psd_partial
#print axioms Verif.Cov.C130_near_id
#print axioms Verif.Cov.C130_near_violated
#print axioms Verif.Cov.C131_jacobian
#print axioms Verif.Cov.C131_neudecker
#print axioms Verif.Cov.C131_variance
#print axioms Verif.Cov.C131_browne
#print axioms Verif.Cov.C131_cov
#print axioms Verif.Cov.C131_cov_normal
#print axioms Verif.Reg.C132_logit
#print axioms Verif.Reg.C132_log
#print axioms Verif.Reg.C132_gradient
#print axioms Verif.Reg.C132_hessian
#print axioms Verif.Reg.C132_density
#print axioms Verif.Reg.C132_llr
#print axioms Verif.Reg.C132_aic_violated
#print axioms Verif.Reg.C132_mcf_violated
#print axioms Verif.Reg.C132_mfa_violated
#print axioms Verif.Reg.C132_nagelkerke_violated
#print axioms Verif.Reg.C132_labels_violated
#print axioms Verif.Reg.C132_aicc
#print axioms Verif.Reg.C132_mcfa_violated
#print axioms Verif.Reg.C133_gradient
#print axioms Verif.Reg.C133_hessian
#print axioms Verif.Reg.C133_normalised
#print axioms Verif.Reg.C133_mean
#print axioms Verif.Reg.C133_variance
#print axioms Verif.Reg.C133_pearson
#print axioms Verif.Reg.C133_deviance
#print axioms Verif.Reg.C133_deviance_nonneg
#print axioms Verif.Reg.C133_indices
#print axioms Verif.Reg.C133_bootstrap_violated
#print axioms Verif.Reg.C133_criteria
#print axioms Verif.Reg.C134_gradient
#print axioms Verif.Reg.C134_hessian
#print axioms Verif.Reg.C134_mean
#print axioms Verif.Reg.C134_variance
#print axioms Verif.Reg.C134_loglike_partial
#print axioms Verif.Reg.C134_normalised_violated
#print axioms Verif.Reg.C134_stats
#print axioms Verif.Reg.C134_aicc_violated
#print axioms Verif.Reg.C134_cs_violated
#print axioms Verif.Reg.C134_mcfa_violated
#print axioms Verif.Reg.C134_labels_violated
#print axioms Verif.Reg.C134_nagelkerke
#print axioms Verif.Reg.C135_gradient
#print axioms Verif.Reg.C135_hessian
#print axioms Verif.Reg.C135_huber
#print axioms Verif.Reg.C135_equivariant
#print axioms Verif.Reg.C135_cov_partial
#print axioms Verif.Reg.C135_cov_violated
#print axioms Verif.Reg.C135_irwls_fixed
#print axioms Verif.Reg.C135_irwls_violated
#print axioms Verif.Reg.C135_cov_agree
#print axioms Verif.Robust.C136_sn
#print axioms Verif.Robust.C136_sn_equivariant
#print axioms Verif.Robust.C136_gmd
#print axioms Verif.Robust.C136_sn_estimator
#print axioms Verif.Robust.C136_qn_partial
#print axioms Verif.Robust.C136_qn_small_violated
#print axioms Verif.Robust.C136_qn_violated
#print axioms Verif.Robust.C136_qn_index
#print axioms Verif.Robust.C136_qn2
#print axioms Verif.Robust.C136_qn2_violated
#print axioms Verif.Robust.C136_mad
#print axioms Verif.Mv.C137_antitone
#print axioms Verif.Mv.C137_threshold
#print axioms Verif.Mv.C137_tolerance
#print axioms Verif.Mv.C137_constraint_violated
#print axioms Verif.Mv.C138_half_step
#print axioms Verif.Mv.C138_scca_vec
#print axioms Verif.Mv.C138_ascent
#print axioms Verif.Mv.C138_norm_violated
#print axioms Verif.Mv.C139_scores
#print axioms Verif.Mv.C139_orthogonalize_partial
#print axioms Verif.Mv.C139_components
#print axioms Verif.Mv.C139_total
#print axioms Verif.Mv.C139_orthogonalize_violated
#print axioms Verif.Sparse.C14_sparse_kron
#print axioms Verif.Sparse.C14_ds_kron
#print axioms Verif.Sparse.C14_dense_sparse_kron
#print axioms Verif.Sparse.C14_sparse_dense_kron
#print axioms Verif.Sparse.C14_sparse_kron_pointer
#print axioms Verif.Sparse.C14_sparse_kron_inplace
#print axioms Verif.Sparse.C14_ds_kron_inplace
#print axioms Verif.Sparse.C14_sparse_dense_kron_inplace
#print axioms Verif.Mv.C140_lmax_partial
#print axioms Verif.Mv.C140_lmax_violated
#print axioms Verif.Mv.C140_perm_init
#print axioms Verif.Mv.C141_variates
#print axioms Verif.Mv.C141_unit_partial
#print axioms Verif.Mv.C141_optimal
#print axioms Verif.Mv.C141_cutoff_violated
#print axioms Verif.Mv.C141_columns
#print axioms Verif.Mv.C141_columns_violated
#print axioms Verif.Mv.C142_decorr
#print axioms Verif.Mv.C142_components
#print axioms Verif.Mv.C142_centred
#print axioms Verif.Mv.C142_whiten
#print axioms Verif.Mv.C142_reconstruct
#print axioms Verif.Mv.C142_update_partial
#print axioms Verif.Mv.C142_update_violated
#print axioms Verif.Mv.C142_mle_violated
#print axioms Verif.Mv.C142_convergence_violated
#print axioms Verif.Lmm.Prf.C143_inverse_partial
#print axioms Verif.Lmm.Prf.C143_forward_partial
#print axioms Verif.Lmm.Prf.C143_jacobian_partial
#print axioms Verif.Lmm.Prf.C143_order_violated
#print axioms Verif.Lmm.Lm.C144_loglike_partial
#print axioms Verif.Lmm.Lm.C144_defined
#print axioms Verif.Lmm.Lm.C144_ordering_violated
#print axioms Verif.Lmm.Lm.C145_gradient_components
#print axioms Verif.Lmm.Lm.C145_gradient
#print axioms Verif.Lmm.Lm.C145_defined
#print axioms Verif.Lmm.Lm.C145_hessian_partial
#print axioms Verif.Lmm.Lm.C145_hessian_gradient
#print axioms Verif.Lmm.Lm.C145_hessian_symm
#print axioms Verif.Lmm.Lm.C145_hessian_defined
#print axioms Verif.Lmm.Lm.C145_hessian_ml_violated
#print axioms Verif.Lmm.Lm.C146_vinvcrossprod
#print axioms Verif.Lmm.Lm.C146_effects
#print axioms Verif.Lmm.Lm.C146_pls_weights
#print axioms Verif.Lmm.Lm.C146_pls_partial
#print axioms Verif.Lmm.Lm.C146_pls_deviance
#print axioms Verif.Lmm.Lm.C146_pls_order_violated
#print axioms Verif.Lmm.Lm.C146_pls_scale_violated
#print axioms Verif.Lmm.Lm.C147_covariance
#print axioms Verif.Lmm.Lm.C147_transform_inverse
#print axioms Verif.Lmm.Lm.C147_inverse_transform
#print axioms Verif.Lmm.Lm.C147_transform_defined
#print axioms Verif.Lmm.Lm.C147_dg_dchol
#print axioms Verif.Lmm.Lm.C147_d2_chol
#print axioms Verif.Lmm.Lm.C147_gradient_chol
#print axioms Verif.Lmm.Lm.C147_gradient_defined
#print axioms Verif.Lmm.Lm.C147_hessian_chol_partial
#print axioms Verif.Lmm.Lm.C147_hessian_chol_ml_violated
#print axioms Verif.Lmm.Lm.C148_jacobian
#print axioms Verif.Lmm.Lm.C148_jacobian_defined
#print axioms Verif.Lmm.Lm.C148_wald
#print axioms Verif.Lmm.Lm.C148_df_mean_partial
#print axioms Verif.Lmm.Lm.C148_satterthwaite_partial
#print axioms Verif.Lmm.Lm.C148_satterthwaite_violated
#print axioms Verif.Lmm.Lm.C148_one_sample
#print axioms Verif.Lmm.Lm.C148_t_violated
#print axioms Verif.Lmm.Lm.C148_p_violated
#print axioms Verif.Lmm.Lm.C148_llf_partial
#print axioms Verif.Lmm.Lm.C148_se_ml_violated
#print axioms Verif.Lmm.Lm.C148_re_corr
#print axioms Verif.Mv.Mvols.C149_unpack_pack
#print axioms Verif.Mv.Mvols.C149_pack_unpack
#print axioms Verif.Mv.Mvols.C149_loglike
#print axioms Verif.Mv.Mvols.C149_gradient_i
#print axioms Verif.Mv.Mvols.C149_gradient
#print axioms Verif.Mv.Mvols.C149_hessian_symm
#print axioms Verif.Mv.Mvols.C149_hessian
#print axioms Verif.Sparse.C15_id_sp_kron_square_partial
#print axioms Verif.Sparse.C15_kernel_any_shape
#print axioms Verif.Sparse.C15_id_sp_kron_violated
#print axioms Verif.Sparse.C15_id_sp_kron_inplace_partial
#print axioms Verif.Mv.Mvols.C150_runs
#print axioms Verif.Mv.Mvols.C150_minimum
#print axioms Verif.Mv.Mvols.C150_sigma
#print axioms Verif.Mv.Mvols.C150_score
#print axioms Verif.Mv.Mvols.C150_beta_cov
#print axioms Verif.Mv.Mvols.C151_gram_inv
#print axioms Verif.Mv.Mvols.C151_hypothesis
#print axioms Verif.Mv.Mvols.C151_tolerance
#print axioms Verif.Mv.Mvols.C151_statistics
#print axioms Verif.Mv.Mvols.C151_exact_partial
#print axioms Verif.Mv.Mvols.C151_crash_violated
#print axioms Verif.Mv.Mvols.C151_small_sample_violated
#print axioms Verif.Mv.Mvols.C151_one_row_partial
#print axioms Verif.Mv.Mvols.C152_total
#print axioms Verif.Mv.Mvols.C152_generalized
#print axioms Verif.Mv.Mvols.C152_rsquared
#print axioms Verif.Mv.Mvols.C152_trace
#print axioms Verif.Mv.Mvols.C152_effect_sizes
#print axioms Verif.Mv.Mvols.C152_canonical
#print axioms Verif.Like.Ols.C153_gradient
#print axioms Verif.Like.Ols.C153_hessian
#print axioms Verif.Like.Ols.C153_fit
#print axioms Verif.Like.Ols.C153_fit1
#print axioms Verif.Like.Ols.C153_runs
#print axioms Verif.Like.Ols.C153_minimum
#print axioms Verif.Like.Ols.C153_cov
#print axioms Verif.Like.Ols.C153_scale
#print axioms Verif.Like.Ols.C153_anova
#print axioms Verif.Like.Ols.C153_adjusted
#print axioms Verif.Like.Ols.C153_no_constant_violated
#print axioms Verif.Like.Ols.C153_constrained
#print axioms Verif.Like.Ols.C153_boot_partial
#print axioms Verif.Like.Ols.C153_boot_violated
#print axioms Verif.Like.Ols.C153_perm_partial
#print axioms Verif.Like.Ols.C153_perm_exact_partial
#print axioms Verif.Like.Ols.C153_perm_violated
#print axioms Verif.Like.Ols.C153_tallies
#print axioms Verif.Like.Ols.C153_weights_violated
#print axioms Verif.Like.Output.C154_center
#print axioms Verif.Like.Output.C154_duality
#print axioms Verif.Like.Output.C154_boundary
#print axioms Verif.Like.Output.C154_scale
#print axioms Verif.Like.Output.C154_bias_partial
#print axioms Verif.Like.Output.C154_unbiased_partial
#print axioms Verif.Like.Output.C154_order
#print axioms Verif.Like.Output.C154_reflect
#print axioms Verif.Like.Output.C154_accel
#print axioms Verif.Like.Output.C154_accel_eq
#print axioms Verif.Like.Output.C154_bca
#print axioms Verif.Like.Output.C154_bca_reflect
#print axioms Verif.Like.Output.C154_bca_violated
#print axioms Verif.Like.Output.C154_translation_violated
#print axioms Verif.Like.Output.C154_raises
#print axioms Verif.Like.OldOls.C155_svd
#print axioms Verif.Like.OldOls.C155_vif_partial
#print axioms Verif.Like.OldOls.C155_vif_spec_partial
#print axioms Verif.Like.OldOls.C155_vif_violated
#print axioms Verif.Like.OldOls.C155_vdp_partial
#print axioms Verif.Like.OldOls.C155_vdp_violated
#print axioms Verif.Like.OldOls.C155_cond
#print axioms Verif.Like.OldOls.C155_fit
#print axioms Verif.Like.OldOls.C155_robust
#print axioms Verif.Like.OldOls.C155_kinds
#print axioms Verif.Like.OldOls.C155_omega
#print axioms Verif.Like.OldOls.C155_jackknife
#print axioms Verif.Like.OldOls.C155_cooks_partial
#print axioms Verif.Like.OldOls.C155_influence_violated
#print axioms Verif.Like.OldOls.C155_profile
#print axioms Verif.Like.OldOls.C155_stored_violated
#print axioms Verif.Like.OldOls.C155_stored_partial
#print axioms Verif.Gam.Gauls.C156_identity
#print axioms Verif.Gam.Gauls.C156_logb
#print axioms Verif.Gam.Gauls.C156_offset
#print axioms Verif.Gam.Gauls.C156_offset_violated
#print axioms Verif.Gam.Gauls.C156_derivs
#print axioms Verif.Gam.Gauls.C156_default
#print axioms Verif.Gam.Gauls.C156_location
#print axioms Verif.Gam.Gauls.C157_gradient
#print axioms Verif.Gam.Gauls.C157_hessian
#print axioms Verif.Gam.Gauls.C157_weights
#print axioms Verif.Gam.Gauls.C157_direction
#print axioms Verif.Gam.Gauls.C157_newton
#print axioms Verif.Gam.Gauls.C157_descent
#print axioms Verif.Gam.Gauls.C157_beta_rho
#print axioms Verif.Gam.Gauls.C157_stationary
#print axioms Verif.Gam.Gauls.C157_coef
#print axioms Verif.Gam.Gauls.C157_dhess
#print axioms Verif.Gam.Gauls.C157_hess_beta
#print axioms Verif.Gam.Gauls.C158_edf
#print axioms Verif.Gam.Gauls.C158_wald
#print axioms Verif.Gam.Gauls.C158_pvalue_violated
#print axioms Verif.Gam.Gauls.C158_aic_partial
#print axioms Verif.Gam.Gauls.C158_aic_violated
#print axioms Verif.Gam.Gauls.C158_rsquared_partial
#print axioms Verif.Gam.Gauls.C158_deviance_partial
#print axioms Verif.Gam.Gauls.C158_deviance_violated
#print axioms Verif.Gam.Gauls.C158_rsquared_violated
#print axioms Verif.Gam.Gauls.C158_predict_partial
#print axioms Verif.Gam.Gauls.C158_predict_violated
#print axioms Verif.Gam.Gauls.C158_weights_checked
#print axioms Verif.Gam.Gauls.C158_weights
#print axioms Verif.Gam.Gauls.C158_gradient
#print axioms Verif.Gam.Gauls.C158_gradient_violated
#print axioms Verif.Gam.Gauls.C158_hessian
#print axioms Verif.Lv.C159_density
#print axioms Verif.Lv.C159_dl
#print axioms Verif.Lv.C159_cdf
#print axioms Verif.Lv.C159_cdf_error
#print axioms Verif.Lv.C159_dr
#print axioms Verif.Lv.C159_dr2
#print axioms Verif.Lv.C159_du
#print axioms Verif.Lv.C159_du2
#print axioms Verif.Lv.C159_region
#print axioms Verif.Lv.C159_quadrature
#print axioms Verif.Lv.C159_hart
#print axioms Verif.Lv.C159_hart_side
#print axioms Verif.Sparse.C16_cs_matmul_entry
#print axioms Verif.Sparse.C16_cs_matmul_structure
#print axioms Verif.Sparse.C16_cs_matmul_pattern
#print axioms Verif.Index.C160_members
#print axioms Verif.Index.C160_order_partial
#print axioms Verif.Index.C160_flag_violated
#print axioms Verif.Index.C160_ascending
#print axioms Verif.Index.C160_vecl
#print axioms Verif.Index.C160_convert_partial
#print axioms Verif.Index.C160_convert_violated
#print axioms Verif.Lv.Pair.C161_gradient_partial
#print axioms Verif.Lv.Pair.C161_hessian_partial
#print axioms Verif.Lv.Pair.C161_symmetric
#print axioms Verif.Lv.Pair.C161_admissible
#print axioms Verif.Lv.Pair.C161_transformed_partial
#print axioms Verif.Lv.Pair.C161_quasi_partial
#print axioms Verif.Lv.Pair.C161_quasi_transformed_partial
#print axioms Verif.Lv.Pair.C161_gradient_violated
#print axioms Verif.Lv.Pair.C161_hessian_violated
#print axioms Verif.Lv.Pair.C161_cells
#print axioms Verif.Lv.C162_search
#print axioms Verif.Lv.C162_direction
#print axioms Verif.Lv.C162_descent
#print axioms Verif.Lv.C162_fit
#print axioms Verif.Lv.C162_zero_iter
#print axioms Verif.Lv.C162_pair_partial
#print axioms Verif.Lv.C162_report_violated
#print axioms Verif.Lv.C162_total
#print axioms Verif.Lv.C162_cprp
#print axioms Verif.Lv.C162_thresholds
#print axioms Verif.Lv.C162_margins
#print axioms Verif.Lv.C163_jacobian
#print axioms Verif.Lv.C163_solve
#print axioms Verif.Lv.Pair.C163_influence
#print axioms Verif.Lv.Pair.C163_centred
#print axioms Verif.Lv.C163_codes_partial
#print axioms Verif.Lv.C163_codes_violated
#print axioms Verif.Lv.C163_loop
#print axioms Verif.Lv.C163_psd_partial
#print axioms Verif.Lv.C163_centring_violated
#print axioms Verif.Lv.Flat.C164_flat
#print axioms Verif.Lv.Flat.C164_flat_partial
#print axioms Verif.Lv.C164_hessian
#print axioms Verif.Lv.C164_tanh
#print axioms Verif.Lv.C164_qtf
#print axioms Verif.Lv.C164_thresh
#print axioms Verif.Lv.C164_complete_partial
#print axioms Verif.Lv.C164_pairwise
#print axioms Verif.Lv.C164_outer_violated
#print axioms Verif.Lv.C164_nan_violated
#print axioms Verif.Lv.C164_dropped_violated
#print axioms Verif.Lv.C164_table
#print axioms Verif.Lv.C164_gauss
#print axioms Verif.Lv.C165_dcrep
#print axioms Verif.Lv.C165_dcrep_violated
#print axioms Verif.Lv.C165_obs
#print axioms Verif.Lv.C165_increasing
#print axioms Verif.Lv.C165_prob
#print axioms Verif.Lv.C165_conditional
#print axioms Verif.Lv.C165_gradient
#print axioms Verif.Lv.C165_fit
#print axioms Verif.Lv.C165_ll
#print axioms Verif.Lv.C165_scale_violated
#print axioms Verif.Lv.C166_weights
#print axioms Verif.Lv.C166_categories
#print axioms Verif.Lv.C166_ncat_violated
#print axioms Verif.Lv.C166_bounds
#print axioms Verif.Lv.C166_max_violated
#print axioms Verif.Lv.C166_bins
#print axioms Verif.Rand.C167_spiral
#print axioms Verif.Rand.C167_ones
#print axioms Verif.Rand.C167_chol_partial
#print axioms Verif.Rand.C167_corr_partial
#print axioms Verif.Rand.C167_one_violated
#print axioms Verif.Rand.C168_vine_entries
#print axioms Verif.Rand.C168_vine_full
#print axioms Verif.Rand.C168_vine_partial
#print axioms Verif.Rand.C168_vine_violated
#print axioms Verif.Rand.C168_vine_small
#print axioms Verif.Rand.C168_repair
#print axioms Verif.Rand.C168_border
#print axioms Verif.Rand.C168_onion_partial
#print axioms Verif.Rand.C168_onion_one_violated
#print axioms Verif.Rand.C169_exact
#print axioms Verif.Rand.C169_wishart
#print axioms Verif.Rand.C169_wishart_mean
#print axioms Verif.Rand.C169_inverse
#print axioms Verif.Sparse.C17_sparse_dot
#print axioms Verif.Sparse.C17_pattern_trace
#print axioms Verif.Rand.C170_bounds_partial
#print axioms Verif.Rand.C170_exponential
#print axioms Verif.Rand.C170_rate
#print axioms Verif.Rand.C170_uniform
#print axioms Verif.Rand.C170_unbounded_violated
#print axioms Verif.Rand.C171_t_partial
#print axioms Verif.Rand.C171_t_violated
#print axioms Verif.Rand.C171_reflection
#print axioms Verif.Rand.C171_rotation
#print axioms Verif.Lmm.C172_icc
#print axioms Verif.Lmm.C172_spearman_brown
#print axioms Verif.Lmm.C172_within
#print axioms Verif.Lmm.C172_order
#print axioms Verif.Lmm.C172_agree
#print axioms Verif.Lmm.C172_anova_partial
#print axioms Verif.Lmm.C172_anova_violated
#print axioms Verif.Lmm.C172_icc1_violated
#print axioms Verif.Np.C173_fft
#print axioms Verif.Np.C173_mirror
#print axioms Verif.Np.C173_agree_partial
#print axioms Verif.Np.C173_negative_violated
#print axioms Verif.Np.C173_coef
#print axioms Verif.Np.C173_biased
#print axioms Verif.Np.C173_unbiased
#print axioms Verif.Np.C173_name_violated
#print axioms Verif.Misc.Shash.C174_logpdf1
#print axioms Verif.Misc.Shash.C174_logpdf2
#print axioms Verif.Misc.Shash.C174_logpdf3
#print axioms Verif.Misc.Shash.C174_logpdf4
#print axioms Verif.Misc.Shashr.C175_logpdf1
#print axioms Verif.Misc.Shashr.C175_logpdf2
#print axioms Verif.Misc.Shashr.C175_logpdf3
#print axioms Verif.Misc.Shashr.C175_logpdf4
#print axioms Verif.Misc.Sash.C176_loglike
#print axioms Verif.Misc.Sash.C176_derivatives
#print axioms Verif.Misc.SkewNorm.C177_logpdf
#print axioms Verif.Misc.SkewNorm.C177_first
#print axioms Verif.Misc.SkewNorm.C177_derivatives
#print axioms Verif.Misc.SkewNorm.C177_class_violated
#print axioms Verif.Misc.Sad.C178_grad
#print axioms Verif.Misc.Sad.C178_hess
#print axioms Verif.Misc.Sad.C178_matrix
#print axioms Verif.Misc.Sad.C178_grad_sum
#print axioms Verif.Misc.Sad.C178_hess_sum
#print axioms Verif.Misc.Shash.C179_log_density
#print axioms Verif.Misc.Shash.C179_other_density
#print axioms Verif.Misc.Shash.C179_derivative
#print axioms Verif.Misc.Shash.C179_cdf
#print axioms Verif.Misc.Shash.C179_total
#print axioms Verif.Misc.Shash.C179_inverse
#print axioms Verif.Misc.Shash.C179_rvs
#print axioms Verif.Misc.Shash.C179_law
#print axioms Verif.Misc.Shash.C179_median
#print axioms Verif.Misc.Shash.C179_log_parameters
#print axioms Verif.Func.C18_sum_preserving_round_total_partial
#print axioms Verif.Func.C18_sum_preserving_round_entries
#print axioms Verif.Func.C18_sum_preserving_round_largest
#print axioms Verif.Func.C18_sum_preserving_round_integers
#print axioms Verif.Func.C18_sum_preserving_round_violated
#print axioms Verif.Misc.Shash.C180_P
#print axioms Verif.Misc.Shash.C180_moments
#print axioms Verif.Misc.Shash.C180_mean
#print axioms Verif.Misc.Shash.C180_variance
#print axioms Verif.Misc.Shash.C180_skew
#print axioms Verif.Misc.Shash.C180_kurt
#print axioms Verif.Misc.Shash.C180_skewness_violated
#print axioms Verif.Misc.Shash.C180_excess_partial
#print axioms Verif.Misc.Shash.C180_excess_violated
#print axioms Verif.Misc.Shash.C180_log_parameters
#print axioms Verif.Misc.SkewNorm.C181_total
#print axioms Verif.Misc.SkewNorm.C181_mean
#print axioms Verif.Misc.SkewNorm.C181_variance
#print axioms Verif.Misc.SkewNorm.C181_skewness_partial
#print axioms Verif.Misc.SkewNorm.C181_skewness_violated
#print axioms Verif.Misc.SkewNorm.C181_rvs
#print axioms Verif.Fa.Old.C182_cf
#print axioms Verif.Fa.Old.C182_target_partial
#print axioms Verif.Fa.Old.C182_target_violated
#print axioms Verif.Fa.Old.C182_vgq_cf
#print axioms Verif.Fa.Old.C182_vgq_ob
#print axioms Verif.Fa.Old.C182_rotate
#print axioms Verif.Fa.Old.C182_df
#print axioms Verif.Fa.Old.C183_consts
#print axioms Verif.Fa.Old.C183_cf_partial
#print axioms Verif.Fa.Old.C183_quartimax_violated
#print axioms Verif.Fa.Old.C183_families
#print axioms Verif.Fa.Old.C183_names_partial
#print axioms Verif.Fa.Old.C183_equamax_violated
#print axioms Verif.Fa.Old.C184_ortho
#print axioms Verif.Fa.Old.C184_dL_dA
#print axioms Verif.Fa.Old.C184_dL_dA_solution
#print axioms Verif.Fa.Old.C184_oblique_loadings
#print axioms Verif.Fa.Old.C184_oblique_correlations_partial
#print axioms Verif.Fa.Old.C184_oblique_correlations_violated
#print axioms Verif.Fa.Old.C184_derivs_loadings_partial
#print axioms Verif.Fa.Old.C184_derivs_correlations_violated
#print axioms Verif.Fa.Old.C184_unrotated_rows_partial
#print axioms Verif.Fa.Old.C184_unrotated_mask
#print axioms Verif.Fa.Old.C184_unrotated_violated
#print axioms Verif.Fa.Old.C185_search
#print axioms Verif.Fa.Old.C185_descent_partial
#print axioms Verif.Fa.Old.C185_ortho
#print axioms Verif.Fa.Old.C185_oblique_partial
#print axioms Verif.Fa.Old.C185_rotate
#print axioms Verif.Fa.Old.C185_descent_violated
#print axioms Verif.Fa.Old.C185_descent_violated_exists
#print axioms Verif.Fa.Old.C186_dsigma
#print axioms Verif.Fa.Old.C186_d2sigma
#print axioms Verif.Fa.Old.C186_gradient
#print axioms Verif.Fa.Old.C186_hessian
#print axioms Verif.Fa.Old.C186_params
#print axioms Verif.Fa.Old.C186_theta_dsigma
#print axioms Verif.Fa.Old.C186_theta_gradient
#print axioms Verif.Fa.Old.C186_later_calls_partial
#print axioms Verif.Fa.Old.C186_first_call_violated
#print axioms Verif.Fa.Old.C186_first_augmented_violated
#print axioms Verif.Fa.Old.C187_profile
#print axioms Verif.Fa.Old.C187_gradient
#print axioms Verif.Fa.Old.C187_hessian_partial
#print axioms Verif.Fa.Old.C187_exp_partial
#print axioms Verif.Fa.Old.C187_ties_violated
#print axioms Verif.Fa.Old.C187_canonical
#print axioms Verif.Fa.Old.C187_canonical_violated
#print axioms Verif.Fa.Old.C188_canonical
#print axioms Verif.Fa.Old.C188_unrotated_solution
#print axioms Verif.Fa.Old.C188_ortho
#print axioms Verif.Fa.Old.C188_oblique_partial
#print axioms Verif.Fa.Old.C188_covariance
#print axioms Verif.Fa.Old.C188_kept
#print axioms Verif.Fa.Old.C188_log_variances
#print axioms Verif.Fa.Old.C188_augmented_violated
#print axioms Verif.Fa.Old.C188_jac_violated
#print axioms Verif.Fa.Old.C189_thurstone
#print axioms Verif.Fa.Old.C189_bartlett
#print axioms Verif.Fa.Old.C189_mcdonald
#print axioms Verif.Fa.Old.C189_tenBerge
#print axioms Verif.Fa.Old.C189_tenBerge_optimal
#print axioms Verif.Fa.Old.C189_scores
#print axioms Verif.Fa.Old.C189_compute_partial
#print axioms Verif.Fa.Old.C189_compute_violated
#print axioms Verif.Func.C19_allocate_total_partial
#print axioms Verif.Func.C19_allocate_nonneg
#print axioms Verif.Func.C19_allocate_error
#print axioms Verif.Func.C19_allocate_violated
#print axioms Verif.Fa.Old.C190_df
#print axioms Verif.Fa.Old.C190_df_partial
#print axioms Verif.Fa.Old.C190_df_violated
#print axioms Verif.Fa.Old.C190_aic
#print axioms Verif.Fa.Old.C190_discrepancy
#print axioms Verif.Fa.Old.C190_null
#print axioms Verif.Fa.Old.C190_nfi
#print axioms Verif.Fa.Old.C190_relative
#print axioms Verif.Fa.Old.C190_cfi_partial
#print axioms Verif.Fa.Old.C190_cfi_violated
#print axioms Verif.Fa.Old.C190_rmsea_factor_analysis
#print axioms Verif.Fa.Old.C190_rmsea_partial
#print axioms Verif.Fa.Old.C190_rmsea_violated
#print axioms Verif.Fa.Old.C190_lr_statistic
#print axioms Verif.Fa.Old.C190_lr_violated
#print axioms Verif.Fa.Old.C190_srmr_partial
#print axioms Verif.Fa.Old.C190_srmr_violated
#print axioms Verif.Fa.Old.C190_gfi
#print axioms Verif.Fa.Old.C190_agfi
#print axioms Verif.Fa.Old.C190_adequacy
#print axioms Verif.Fa.Old.C190_adequacy_scale
#print axioms Verif.Fa.Old.C191_inputs_partial
#print axioms Verif.Fa.Old.C191_inputs_violated
#print axioms Verif.Fa.Old.C191_proportion
#print axioms Verif.Fa.Old.C191_eigmin
#print axioms Verif.Fa.Old.C191_start_partial
#print axioms Verif.Fa.Old.C191_start_violated
#print axioms Verif.Fa.Old.C191_order_partial
#print axioms Verif.Fa.Old.C191_perm
#print axioms Verif.Fa.Old.C191_signs_violated
#print axioms Verif.Fa.Old.C191_contrast_violated
#print axioms Verif.Fa.Old.C191_reorder_partial
#print axioms Verif.Fa.Old.C191_reorder_violated
#print axioms Verif.Fa.Old.C191_labels_partial
#print axioms Verif.Fa.Old.C191_labels_violated
#print axioms Verif.Indep.C192_center_biased
#print axioms Verif.Indep.C192_center_unbiased
#print axioms Verif.Indep.C192_distance
#print axioms Verif.Indep.C192_inner_product
#print axioms Verif.Indep.C192_range
#print axioms Verif.Indep.C192_self
#print axioms Verif.Indep.C192_symmetric
#print axioms Verif.Indep.C192_similarity
#print axioms Verif.Indep.C192_invariance
#print axioms Verif.Indep.C192_relabel
#print axioms Verif.Indep.C192_biased_nonneg
#print axioms Verif.Indep.C192_biased_defined
#print axioms Verif.Indep.C192_unbiased_small
#print axioms Verif.Indep.C192_unbiased_equidistant_violated
#print axioms Verif.Indep.C192_permutation_mean
#print axioms Verif.Indep.C192_pvalue_samples
#print axioms Verif.Indep.C192_pvalue_partial
#print axioms Verif.Indep.C192_pvalue_violated
#print axioms Verif.Indep.C193_kernel
#print axioms Verif.Indep.C193_kernel_definite
#print axioms Verif.Indep.C193_statistic
#print axioms Verif.Indep.C193_nonneg
#print axioms Verif.Indep.C193_symmetric
#print axioms Verif.Indep.C193_constant
#print axioms Verif.Indep.C193_positive
#print axioms Verif.Indep.C193_median_buffer
#print axioms Verif.Indep.C193_median
#print axioms Verif.Indep.C193_median_invariance
#print axioms Verif.Indep.C193_median_violated
#print axioms Verif.Indep.C193_nvars_violated
#print axioms Verif.Indep.C193_bandwidth_argument
#print axioms Verif.Indep.C193_pvalue
#print axioms Verif.Mcmc.C194_location
#print axioms Verif.Mcmc.C194_location_mean
#print axioms Verif.Mcmc.C194_location_density
#print axioms Verif.Mcmc.C194_location_defined
#print axioms Verif.Mcmc.C194_gcov
#print axioms Verif.Mcmc.C194_gcov_draw
#print axioms Verif.Mcmc.C194_rcov
#print axioms Verif.Mcmc.C194_rcov_draw
#print axioms Verif.Mcmc.C194_default_prior_partial
#print axioms Verif.Mcmc.C194_default_prior_violated
#print axioms Verif.Mcmc.C195_mh_accept
#print axioms Verif.Mcmc.C195_mh_step
#print axioms Verif.Mcmc.C195_mh_balance
#print axioms Verif.Mcmc.C195_binomial
#print axioms Verif.Mcmc.C195_poisson
#print axioms Verif.Mcmc.C195_slice
#print axioms Verif.Mcmc.C195_slice_old
#print axioms Verif.Mcmc.C195_slice_draw
#print axioms Verif.Mcmc.C195_ordinal_bounds
#print axioms Verif.Mcmc.C195_ordinal_ends
#print axioms Verif.Mcmc.C195_tau_proposal
#print axioms Verif.Mcmc.C195_tau_fixed
#print axioms Verif.Mcmc.C195_tau_ratio
#print axioms Verif.Mcmc.C195_tau_step
#print axioms Verif.Mcmc.C195_tau_binary_violated
#print axioms Verif.Mcmc.C195_adapt_rate
#print axioms Verif.Mcmc.C195_adapt_scale
#print axioms Verif.Mcmc.C196_marginal
#print axioms Verif.Mcmc.C196_scale_violated
#print axioms Verif.Mcmc.C196_scale_effects
#print axioms Verif.Mcmc.C196_scale_variance_violated
#print axioms Verif.Mcmc.C196_pvalue_partial
#print axioms Verif.Mcmc.C196_pvalue_violated
#print axioms Verif.Mcmc.C196_labels
#print axioms Verif.Mcmc.C196_aggregate_violated
#print axioms Verif.Mcmc.C196_aggregate_partial
#print axioms Verif.Glmm.C197_canonical
#print axioms Verif.Glmm.C197_cumulants
#print axioms Verif.Glmm.C197_score
#print axioms Verif.Glmm.C197_newton
#print axioms Verif.Glmm.C197_fixed
#print axioms Verif.Glmm.C197_step_defined
#print axioms Verif.Glmm.C197_mode
#print axioms Verif.Glmm.C197_loop
#print axioms Verif.Glmm.C197_gaussian_step
#print axioms Verif.Glmm.C197_gaussian_pirls
#print axioms Verif.Glmm.C197_gamma_fixed
#print axioms Verif.Glmm.C197_gamma_violated
#print axioms Verif.Glmm.C197_nll
#print axioms Verif.Glmm.C197_gaussian_exact
#print axioms Verif.Glmm.C197_laplace_scalar
#print axioms Verif.Glmm.C198_three_exact
#print axioms Verif.Glmm.C198_rule_violated
#print axioms Verif.Glmm.C198_factor
#print axioms Verif.Glmm.C198_few_partial
#print axioms Verif.Glmm.C198_substitution
#print axioms Verif.Glmm.C198_objective
#print axioms Verif.Glmm.C198_gaussian_partial
#print axioms Verif.Glmm.C198_shape_partial
#print axioms Verif.Glmm.C198_shape_violated
#print axioms Verif.Glmm.C199_diagonal
#print axioms Verif.Glmm.C199_quadratic
#print axioms Verif.Glmm.C199_stdErr
#print axioms Verif.Glmm.C199_understated
#print axioms Verif.Glmm.C199_diagonal_partial
#print axioms Verif.Glmm.C199_cross_violated
#print axioms Verif.Glmm.C199_unused
#print axioms Verif.Glmm.C199_resid_violated
#print axioms Verif.Func.C20_partition_set_nodup
#print axioms Verif.Func.C20_partition_set_labels
#print axioms Verif.Func.C20_partition_set_complete
#print axioms Verif.Func.C20_partition_set_count
#print axioms Verif.Lmm.Mlmm.C200_ml_violated
#print axioms Verif.Lmm.Mlmm.C200_objective_violated
#print axioms Verif.Lmm.Mlmm.C200_fit_gradient_violated
#print axioms Verif.Lmm.Mlmm.C200_reml_partial
#print axioms Verif.Lmm.Mlmm.C200_ml_value
#print axioms Verif.Lmm.Mlmm.C200_ml_partial
#print axioms Verif.Lmm.Mlmm.C200_defined
#print axioms Verif.Lmm.Mlmm.C200_objective_partial
#print axioms Verif.Lmm.Mlmm.C200_gradient_components
#print axioms Verif.Lmm.Mlmm.C200_gradient
#print axioms Verif.Lmm.Mlmm.C200_gradient_defined
#print axioms Verif.Lmm.Mlmm.C200_effects
#print axioms Verif.Lmm.Mlmm.C201_entries
#print axioms Verif.Lmm.Mlmm.C201_predictor
#print axioms Verif.Lmm.Mlmm.C201_rows
#print axioms Verif.Lmm.Mlmm.C201_names_partial
#print axioms Verif.Lmm.Mlmm.C201_names_violated
#print axioms Verif.Lmm.Mlmm.C201_labels_partial
#print axioms Verif.Lmm.Mlmm.C201_labels_violated
#print axioms Verif.Lmm.Mlmm.C201_criteria
#print axioms Verif.Lmm.Mlmm.C201_criteria_reml
#print axioms Verif.Lmm.Mlmm.C201_aicc
#print axioms Verif.Lmm.Mlmm.C201_start
#print axioms Verif.Lmm.Mlmm.C201_theta_violated
#print axioms Verif.Lmm.Mlmm.C201_refit_violated
#print axioms Verif.Lmm.Mlmm.C201_pvalue_violated
#print axioms Verif.Lmm.ReDesign.C202_design
#print axioms Verif.Lmm.ReDesign.C202_stacked
#print axioms Verif.Lmm.ReDesign.C202_gcov
#print axioms Verif.Lmm.ReDesign.C202_update
#print axioms Verif.Lmm.ReDesign.C202_dims_partial
#print axioms Verif.Lmm.ReDesign.C202_dims_violated
#print axioms Verif.Sem.C203_fixed_values
#print axioms Verif.Sem.C203_fix_lv_var_violated
#print axioms Verif.Sem.C203_total
#print axioms Verif.Sem.C203_complete_formula_raises_violated
#print axioms Verif.Sem.C203_flags_ignored_violated
#print axioms Verif.Sem.C203_fix_first_false_raises_violated
#print axioms Verif.Sem.C203_prefix
#print axioms Verif.Sem.C203_variances
#print axioms Verif.Sem.C203_means
#print axioms Verif.Sem.C203_covariances
#print axioms Verif.Sem.C203_loadings
#print axioms Verif.Sem.C203_dummies
#print axioms Verif.Sem.C203_start_on_fixed_violated
#print axioms Verif.Sem.C203_sample_stats
#print axioms Verif.Sem.C204_order
#print axioms Verif.Sem.C204_matrices
#print axioms Verif.Sem.C204_user_table
#print axioms Verif.Sem.C204_wrong_length
#print axioms Verif.Sem.C204_defaults
#print axioms Verif.Sem.Old.C205_dsigma
#print axioms Verif.Sem.Old.C205_gradient_full
#print axioms Verif.Sem.Old.C205_hessian_full
#print axioms Verif.Sem.Old.C205_gradient
#print axioms Verif.Sem.Old.C205_hessian
#print axioms Verif.Sem.Old.C205_cov
#print axioms Verif.Sem.Old.C205_E_unchanged
#print axioms Verif.Sem.OldSetup.C206_start
#print axioms Verif.Sem.OldSetup.C206_matrices
#print axioms Verif.Sem.OldSetup.C206_label_set
#print axioms Verif.Sem.OldSetup.C206_labels_partial
#print axioms Verif.Sem.OldSetup.C206_labels_violated
#print axioms Verif.Sem.OldSetup.C206_given_partial
#print axioms Verif.Sem.OldSetup.C206_given_violated
#print axioms Verif.Sem.OldSetup.C206_default_partial
#print axioms Verif.Sem.OldSetup.C206_indicators_partial
#print axioms Verif.Sem.OldSetup.C206_default_violated
#print axioms Verif.Sem.OldSetup.C206_align_loadings
#print axioms Verif.Sem.OldSetup.C206_align_partial
#print axioms Verif.Sem.OldSetup.C206_align_violated
#print axioms Verif.Sem.OldSetup.C206_cov_only_raises_violated
#print axioms Verif.Sem.OldSetup.C206_data
#print axioms Verif.Sem.Old.C207_loglik
#print axioms Verif.Sem.Old.C207_criteria
#print axioms Verif.Sem.Old.C207_chi2
#print axioms Verif.Sem.Old.C207_pvalue_partial
#print axioms Verif.Sem.Old.C207_pvalue_violated
#print axioms Verif.Sem.Old.C207_critical_n_violated
#print axioms Verif.Sem.Old.C207_gfi
#print axioms Verif.Sem.Old.C207_rmsea
#print axioms Verif.Sem.Old.C207_rmr
#print axioms Verif.Sem.Old.C207_srmr_partial
#print axioms Verif.Sem.Old.C207_srmr_violated
#print axioms Verif.Sem.Old.C207_cfi
#print axioms Verif.Sem.Old.C207_relative
#print axioms Verif.Sem.Old.C207_null
#print axioms Verif.Glm.Old.C208_poisson
#print axioms Verif.Glm.Old.C208_gamma
#print axioms Verif.Glm.Old.C208_binomial
#print axioms Verif.Glm.Old.C208_gaussian_partial
#print axioms Verif.Glm.Old.C208_gaussian_d2_violated
#print axioms Verif.Glm.Old.C208_invGaussian_partial
#print axioms Verif.Glm.Old.C208_invGaussian_theta_violated
#print axioms Verif.Glm.Old.C208_invGaussian_d2_violated
#print axioms Verif.Glm.Old.C208_negBinomial_partial
#print axioms Verif.Glm.Old.C208_negBinomial_mean_violated
#print axioms Verif.Glm.Old.C208_negBinomial_cumulant_violated
#print axioms Verif.Glm.Old.C209_links
#print axioms Verif.Glm.Old.C209_gw_poisson
#print axioms Verif.Glm.Old.C209_gw_binomial
#print axioms Verif.Glm.Old.C209_gw_gamma
#print axioms Verif.Glm.Old.C209_gw_gaussian_partial
#print axioms Verif.Glm.Old.C209_gw_invGaussian_partial
#print axioms Verif.Glm.Old.C209_gw_negBinomial_partial
#print axioms Verif.Glm.Old.C209_hw_poisson
#print axioms Verif.Glm.Old.C209_hw_binomial
#print axioms Verif.Glm.Old.C209_hw_gamma
#print axioms Verif.Glm.Old.C209_hw_negBinomial
#print axioms Verif.Glm.Old.C209_hw_gaussian_violated
#print axioms Verif.Glm.Old.C209_hw_gaussian_spec_violated
#print axioms Verif.Glm.Old.C209_hw_invGaussian_violated
#print axioms Verif.Glm.Old.C209_gw_negBinomial_violated
#print axioms Verif.Glm.Old.C209_units_partial
#print axioms Verif.Glm.Old.C209_units_violated
#print axioms Verif.Glm.Old.C209_invGaussian_density_violated
#print axioms Verif.Glm.Old.C209_tau_partial
#print axioms Verif.Glm.Old.C209_d2tau_gaussian_violated
#print axioms Verif.Glm.Old.C209_tau_gamma
#print axioms Verif.Glm.Old.C209_dtau_negBinomial
#print axioms Verif.Glm.Old.C209_d2tau_negBinomial_violated
#print axioms Verif.Glm.Old.C209_deviance
#print axioms Verif.Glm.Old.C209_pearson_partial
#print axioms Verif.Glm.Old.C209_pearson_poisson_violated
#print axioms Verif.Glm.Old.C209_pearson_gamma_violated
#print axioms Verif.Glm.Old.C209_pearson_invGaussian_violated
#print axioms Verif.Glm.Old.C209_dlink
#print axioms Verif.Glm.Old.C209_d2link_partial
#print axioms Verif.Glm.Old.C209_d2link_violated
#print axioms Verif.Func.C21_soft_threshold_prox
#print axioms Verif.Func.C21_soft_threshold_cases
#print axioms Verif.Glm.Old.C210_identity
#print axioms Verif.Glm.Old.C210_log
#print axioms Verif.Glm.Old.C210_reciprocal
#print axioms Verif.Glm.Old.C210_cloglog
#print axioms Verif.Glm.Old.C210_probit_partial
#print axioms Verif.Glm.Old.C210_probit_d4_violated
#print axioms Verif.Glm.Old.C210_power_zero_partial
#print axioms Verif.Glm.Old.C210_power_alpha
#print axioms Verif.Glm.Old.C210_power_violated
#print axioms Verif.Glm.Old.C210_power_one_violated
#print axioms Verif.Glm.C211_gaussian
#print axioms Verif.Glm.C211_gamma
#print axioms Verif.Glm.C211_negBinomial
#print axioms Verif.Glm.C211_poisson_partial
#print axioms Verif.Glm.C211_poisson_ppf_violated
#print axioms Verif.Glm.C211_binomial
#print axioms Verif.Glm.C211_invGaussian_partial
#print axioms Verif.Glm.C211_invGaussian_rvs_violated
#print axioms Verif.Glm.C211_invGaussian_ppf_violated
#print axioms Verif.Glm.C212_variance
#print axioms Verif.Glm.C212_level
#print axioms Verif.Glm.C212_mean_ci
#print axioms Verif.Glm.C212_mean_ci_violated
#print axioms Verif.Glm.C212_pyglm_violated
#print axioms Verif.Glm.C212_predicted_partial
#print axioms Verif.Glm.C212_predicted_violated
#print axioms Verif.Glm.C213_robust_partial
#print axioms Verif.Glm.C213_robust_violated
#print axioms Verif.Glm.C213_bootstrap_partial
#print axioms Verif.Glm.C213_bootstrap_violated
#print axioms Verif.Glm.C213_bootstrapO_partial
#print axioms Verif.Glm.C213_bootstrapO_violated
#print axioms Verif.Glm.C213_null_partial
#print axioms Verif.Glm.C213_null_violated
#print axioms Verif.Glm.C213_null_negBinomial_partial
#print axioms Verif.Glm.C213_null_negBinomial_violated
#print axioms Verif.Sem.C214_alt
#print axioms Verif.Sem.C214_alt_deriv
#print axioms Verif.Sem.C214_gradient2
#print axioms Verif.Sem.C214_weights_violated
#print axioms Verif.Sem.C214_weights_partial
#print axioms Verif.Sem.C215_gradient
#print axioms Verif.Sem.C215_hessian
#print axioms Verif.Sem.C215_dloglike
#print axioms Verif.Sem.C215_d2loglike
#print axioms Verif.Sem.C215_pairs
#print axioms Verif.Sem.C215_kinds
#print axioms Verif.Sem.C215_pairType
#print axioms Verif.Sem.C215_direct_violated
#print axioms Verif.Sem.C215_single_partial
#print axioms Verif.Sem.C215_single_violated
#print axioms Verif.Nmf.C216_reconstruct
#print axioms Verif.Nmf.C216_roll_needs_padding
#print axioms Verif.Nmf.C216_reconstruct_nonneg
#print axioms Verif.Nmf.C216_scaling
#print axioms Verif.Nmf.C216_scaling_partial
#print axioms Verif.Nmf.C216_scaling_violated
#print axioms Verif.Nmf.C216_shift1d
#print axioms Verif.Nmf.C216_shift_violated
#print axioms Verif.Nmf.C216_objfunc_violated
#print axioms Verif.Nmf.C216_objfunc_partial
#print axioms Verif.Nmf.C216_conv2_violated
#print axioms Verif.Nmf.C217_wtx_partial
#print axioms Verif.Nmf.C217_wtx_data
#print axioms Verif.Nmf.C217_wtxhat_violated
#print axioms Verif.Nmf.C217_wtxhat_ge
#print axioms Verif.Nmf.C217_xht_partial
#print axioms Verif.Nmf.C217_xhatht_violated
#print axioms Verif.Nmf.C217_gradH
#print axioms Verif.Nmf.C217_gradW
#print axioms Verif.Nmf.C217_update_nonneg
#print axioms Verif.Nmf.C217_update_fixed
#print axioms Verif.Nmf.C217_penaltyH
#print axioms Verif.Nmf.C217_penaltyW_partial
#print axioms Verif.Nmf.C217_penaltyW_overlap
#print axioms Verif.Nmf.C217_norm_violated
#print axioms Verif.Nmf.C217_trace_violated
#print axioms Verif.Nmf.C217_trace_start_violated
#print axioms Verif.Nmf.C217_center_violated
#print axioms Verif.Sim.C218_cov_partial
#print axioms Verif.Sim.C218_cov_violated
#print axioms Verif.Sim.C218_columns
#print axioms Verif.Sim.C218_recover_partial
#print axioms Verif.Sim.C218_se
#print axioms Verif.Sim.C219_simple
#print axioms Verif.Sim.C219_loadings
#print axioms Verif.Sim.C219_nonempty
#print axioms Verif.Sim.C219_orthogonal
#print axioms Verif.Sim.C219_corr
#print axioms Verif.Sim.C219_corr_violated
#print axioms Verif.Sim.C219_sigma
#print axioms Verif.Sim.C219_data
#print axioms Verif.Sim.C219_random_violated
#print axioms Verif.Sim.C219_random_partial
#print axioms Verif.Sim.C219_run_violated
#print axioms Verif.Func.C22_harmonic
#print axioms Verif.Func.C22_harmonic_fraction
#print axioms Verif.Func.C22_harmonic_empty_range
#print axioms Verif.Sim.C220_nested
#print axioms Verif.Sim.C220_sizes
#print axioms Verif.Sim.C220_linear
#print axioms Verif.Sim.C220_binomial_partial
#print axioms Verif.Sim.C220_binomial_violated
#print axioms Verif.Sim.C220_intercept_violated
#print axioms Verif.Sim.C220_sandwich
#print axioms Verif.Sim.C221_rsq
#print axioms Verif.Sim.C221_variance
#print axioms Verif.Sim.C221_rescale
#print axioms Verif.Sim.C221_target
#print axioms Verif.Sim.C221_target_violated
#print axioms Verif.Sim.C221_cat
#print axioms Verif.Sim.C221_vals
#print axioms Verif.Sim.C221_positions
#print axioms Verif.Sim.C221_sparse
#print axioms Verif.Sim.C221_cov
#print axioms Verif.Sim.C221_rho_violated
#print axioms Verif.Sim.C221_binomial_violated
#print axioms Verif.Sim.C221_binomial_partial
#print axioms Verif.Sim.C221_rng_violated
#print axioms Verif.Sim.C221_levels_violated
#print axioms Verif.Sim.C221_levels_partial
#print axioms Verif.Sim.C221_coefs_violated
#print axioms Verif.Sim.C221_coefs_partial
#print axioms Verif.Sim.C222_whiten
#print axioms Verif.Sim.C222_cross
#print axioms Verif.Sim.C222_psd
#print axioms Verif.Sim.C222_unit
#print axioms Verif.Sim.C222_coefs_partial
#print axioms Verif.Sim.C222_coefs_violated
#print axioms Verif.Eln.C223_inner
#print axioms Verif.Eln.C223_working
#print axioms Verif.Eln.C223_dropped
#print axioms Verif.Eln.C223_dropped_violated
#print axioms Verif.Eln.C223_objective
#print axioms Verif.Eln.C223_convex
#print axioms Verif.Eln.C223_halving
#print axioms Verif.Eln.C223_values_partial
#print axioms Verif.Eln.C223_fixed_partial
#print axioms Verif.Eln.C223_weights_violated
#print axioms Verif.Eln.C224_rows
#print axioms Verif.Eln.C224_path_violated
#print axioms Verif.Eln.C224_last_partial
#print axioms Verif.Eln.C224_grid_partial
#print axioms Verif.Eln.C224_grid_violated
#print axioms Verif.Eln.C224_weights_violated
#print axioms Verif.Eln.C224_cv_partial
#print axioms Verif.Eln.C224_cv_violated
#print axioms Verif.Eln.C225_coordinate
#print axioms Verif.Eln.C225_cycle_partial
#print axioms Verif.Eln.C225_inactive
#print axioms Verif.Eln.C225_dropped_violated
#print axioms Verif.Eln.C225_screen_violated
#print axioms Verif.Eln.C225_screen_partial
#print axioms Verif.Eln.C226_grad_partial
#print axioms Verif.Eln.C226_grad0_partial
#print axioms Verif.Eln.C226_hess_partial
#print axioms Verif.Eln.C226_hess0_partial
#print axioms Verif.Eln.C226_scale_violated
#print axioms Verif.Eln.C226_clip_violated
#print axioms Verif.Eln.C226_start_partial
#print axioms Verif.Eln.C226_start_violated
#print axioms Verif.Eln.C226_fold
#print axioms Verif.Eln.C226_rows
#print axioms Verif.Eln.C226_path
#print axioms Verif.Eln.C226_warm_violated
#print axioms Verif.Like.C227_data
#print axioms Verif.Like.C227_loglike
#print axioms Verif.Like.C227_prob
#print axioms Verif.Like.C227_derivatives
#print axioms Verif.Like.C227_objective_violated
#print axioms Verif.Like.C227_constraints
#print axioms Verif.Like.C227_order_partial
#print axioms Verif.Like.C227_order_violated
#print axioms Verif.Like.C227_start
#print axioms Verif.Like.C227_redundant
#print axioms Verif.Like.C227_null_redundant
#print axioms Verif.Like.C228_rsquared
#print axioms Verif.Like.C228_llr
#print axioms Verif.Like.C228_llr_violated
#print axioms Verif.Like.C228_df
#print axioms Verif.Like.C228_df_violated
#print axioms Verif.Like.C228_adjusted_violated
#print axioms Verif.Like.C228_code
#print axioms Verif.Like.C228_outside
#print axioms Verif.Like.C228_median
#print axioms Verif.Like.C228_mode_violated
#print axioms Verif.Like.C228_labels_violated
#print axioms Verif.Glm.C229_step
#print axioms Verif.Glm.C229_full_step
#print axioms Verif.Glm.C229_descent
#print axioms Verif.Glm.C229_stops
#print axioms Verif.Glm.C229_start_kept_violated
#print axioms Verif.Glm.C229_ee
#print axioms Verif.Glm.C229_ee_fixed
#print axioms Verif.Glm.C229_bootfit
#print axioms Verif.Glm.C229_start_shape_partial
#print axioms Verif.Glm.C229_start_shape_violated
#print axioms Verif.Glm.C229_start_scale_violated
#print axioms Verif.Glm.C229_gradient_M
#print axioms Verif.Glm.C229_cross_partial
#print axioms Verif.Glm.C229_cross_violated
#print axioms Verif.Opt.C23_memoize_transparent_partial
#print axioms Verif.Opt.C23_memoize_jac_transparent_partial
#print axioms Verif.Opt.C23_memoize_single_evaluation
#print axioms Verif.Opt.C23_memoize_args_violated
#print axioms Verif.Opt.C23_memoize_exception_violated
#print axioms Verif.Opt.C23_memoize_broadcast_violated
#print axioms Verif.Glm.C230_criteria
#print axioms Verif.Glm.C230_aic_violated
#print axioms Verif.Glm.C230_aic_order_violated
#print axioms Verif.Glm.C230_rsquared
#print axioms Verif.Glm.C230_adjusted_violated
#print axioms Verif.Glm.C230_pearson_partial
#print axioms Verif.Glm.C230_pearson_violated
#print axioms Verif.Sim.C231_components
#print axioms Verif.Sim.C231_new_shares
#print axioms Verif.Sim.C231_new_raises
#print axioms Verif.Sim.C231_zero_share_violated
#print axioms Verif.Sim.C231_old_components_partial
#print axioms Verif.Sim.C231_old_fixed_partial
#print axioms Verif.Sim.C231_old_fixed
#print axioms Verif.Sim.C231_old_shares
#print axioms Verif.Sim.C231_old_shares_partial
#print axioms Verif.Sim.C231_old_centre_violated
#print axioms Verif.Sim.C231_old_covariance_violated
#print axioms Verif.Sim.C231_resid_partial
#print axioms Verif.Sim.C231_resid_violated
#print axioms Verif.Sim.C231_rsq
#print axioms Verif.Sim.C231_order_partial
#print axioms Verif.Sim.C231_order_one
#print axioms Verif.Sim.C231_order_violated
#print axioms Verif.Sim.C231_update_partial
#print axioms Verif.Sim.C231_update_violated
#print axioms Verif.Sim.C231_redraw_partial
#print axioms Verif.Sim.C231_redraw_violated
#print axioms Verif.Sim.C232_repeat
#print axioms Verif.Sim.C232_tile
#print axioms Verif.Sim.C232_raises
#print axioms Verif.Sim.C232_crossed_iff
#print axioms Verif.Sim.C232_crossed_violated
#print axioms Verif.Sim.C232_balanced_partial
#print axioms Verif.Sim.C232_old_confounded_violated
#print axioms Verif.Sim.C232_nested
#print axioms Verif.Sim.C232_nested_balanced
#print axioms Verif.Sim.C232_nested_raises
#print axioms Verif.Sim.C232_nested_other
#print axioms Verif.Sem.C233_key
#print axioms Verif.Sem.C233_key_injective
#print axioms Verif.Sem.C233_numeric
#print axioms Verif.Sem.C233_alphabetic
#print axioms Verif.Sem.C233_sorted
#print axioms Verif.Sem.C233_order_partial
#print axioms Verif.Sem.C233_plain
#print axioms Verif.Sem.C233_order_violated
#print axioms Verif.Sem.C233_suffix
#print axioms Verif.Sem.C233_natural_violated
#print axioms Verif.Sim.C234_sigma
#print axioms Verif.Sim.C234_mu
#print axioms Verif.Sim.C234_reduced
#print axioms Verif.Sim.C234_posdef
#print axioms Verif.Sim.C234_params
#print axioms Verif.Sim.C234_others
#print axioms Verif.Sim.C234_loop_two
#print axioms Verif.Sim.C234_loop_violated
#print axioms Verif.Sim.C234_sizes_partial
#print axioms Verif.Sim.C234_sizes_violated
#print axioms Verif.Sim.C234_seed_partial
#print axioms Verif.Sim.C234_seed_violated
#print axioms Verif.Sim.C234_seed_unused
#print axioms Verif.Lmm.C235_roundtrip
#print axioms Verif.Lmm.C235_none_violated
#print axioms Verif.Lmm.C235_variables_violated
#print axioms Verif.Lmm.C235_double_bar_violated
#print axioms Verif.Lmm.C235_function_violated
#print axioms Verif.Lmm.C235_minus_violated
#print axioms Verif.Lmm.C235_empty_violated
#print axioms Verif.Sem.C236_slices
#print axioms Verif.Sem.C236_update_violated
#print axioms Verif.Sem.C236_toVec
#print axioms Verif.Sem.C236_toArray
#print axioms Verif.Sem.C236_setEqual_partial
#print axioms Verif.Sem.C236_single_violated
#print axioms Verif.Sem.C236_fix_violated
#print axioms Verif.Sem.C236_deriv
#print axioms Verif.Sem.C236_types
#print axioms Verif.Sem.C237_groups
#print axioms Verif.Sem.C237_order
#print axioms Verif.Sem.C237_total
#print axioms Verif.Sem.C237_complete_partial
#print axioms Verif.Sem.C237_psd_partial
#print axioms Verif.Sem.C237_psd_violated
#print axioms Verif.Sem.C237_unused_violated
#print axioms Verif.Sem.C237_subset_partial
#print axioms Verif.Sem.C237_subset_violated
#print axioms Verif.Sem.C237_stats_violated
#print axioms Verif.Sem.C237_single
#print axioms Verif.Sem.C237_init
#print axioms Verif.Sem.C238_default_violated
#print axioms Verif.Sem.C238_older_options
#print axioms Verif.Sem.C238_options_partial
#print axioms Verif.Sem.C238_once_partial
#print axioms Verif.Sem.C238_method_violated
#print axioms Verif.Sem.C238_restart_violated
#print axioms Verif.Sem.C238_mutate_violated
#print axioms Verif.Sem.C238_same_violated
#print axioms Verif.Sem.C238_bounds_partial
#print axioms Verif.Sem.C238_bounds_violated
#print axioms Verif.Sem.C238_robust
#print axioms Verif.Sem.C238_agree
#print axioms Verif.Sem.C238_se_partial
#print axioms Verif.Sem.C238_se_violated
#print axioms Verif.Vec.C239_vec
#print axioms Verif.Vec.C239_inverse_violated
#print axioms Verif.Vec.C239_update_violated
#print axioms Verif.Vec.C239_inverse_partial
#print axioms Verif.Opt.C24_process_merge
#print axioms Verif.Opt.C24_process_no_options
#print axioms Verif.Opt.C24_process_error
#print axioms Verif.Opt.C24_no_leakage_partial
#print axioms Verif.Opt.C24_leakage_violated
#print axioms Verif.Opt.C24_shared_aliases
#print axioms Verif.Lmm.ReTerms.C240_levels
#print axioms Verif.Lmm.ReTerms.C240_term_partial
#print axioms Verif.Lmm.ReTerms.C240_missing_violated
#print axioms Verif.Lmm.ReTerms.C240_raises
#print axioms Verif.Lmm.ReTerms.C240_design
#print axioms Verif.Lmm.ReTerms.C240_cov
#print axioms Verif.Lmm.ReTerms.C240_order
#print axioms Verif.Lmm.ReTerms.C240_update
#print axioms Verif.Lmm.ReTerms.C240_deriv
#print axioms Verif.Lmm.ReTerms.C240_factor
#print axioms Verif.Lmm.ReTerms.C240_indices
#print axioms Verif.Index.C241_perms
#print axioms Verif.Index.C241_next
#print axioms Verif.Index.C241_kept_violated
#print axioms Verif.Index.C241_kept
#print axioms Verif.Index.C241_fill_partial
#print axioms Verif.Index.C241_symmetric_partial
#print axioms Verif.Index.C241_long
#print axioms Verif.Index.C241_sides_violated
#print axioms Verif.Index.C241_match_partial
#print axioms Verif.Index.C241_mask_partial
#print axioms Verif.Index.C241_match_places
#print axioms Verif.Index.C241_empty_violated
#print axioms Verif.Vec.C242_left
#print axioms Verif.Vec.C242_right
#print axioms Verif.Vec.C242_both
#print axioms Verif.Vec.C242_one_partial
#print axioms Verif.Vec.C242_size_violated
#print axioms Verif.Vec.C242_matrix_partial
#print axioms Verif.Vec.C242_post_violated
#print axioms Verif.Vec.C242_pre_post_partial
#print axioms Verif.Vec.C242_method_violated
#print axioms Verif.Vec.C242_flag_partial
#print axioms Verif.Vec.C242_elim
#print axioms Verif.Vec.C242_elim_violated
#print axioms Verif.Eln.C243_gamma_partial
#print axioms Verif.Eln.C243_next_level_partial
#print axioms Verif.Eln.C243_direction
#print axioms Verif.Eln.C243_move_partial
#print axioms Verif.Eln.C243_add
#print axioms Verif.Eln.C243_turn_partial
#print axioms Verif.Eln.C243_start
#print axioms Verif.Eln.C243_lasso
#print axioms Verif.Eln.C243_tie_violated
#print axioms Verif.Reg.C244_rows_partial
#print axioms Verif.Reg.C244_rows_violated
#print axioms Verif.Reg.C244_response
#print axioms Verif.Reg.C244_drop_partial
#print axioms Verif.Reg.C244_flat_violated
#print axioms Verif.Reg.C244_layout
#print axioms Verif.Reg.C244_intercept
#print axioms Verif.Reg.C244_positions_violated
#print axioms Verif.Reg.C244_matrix_partial
#print axioms Verif.Reg.C244_designs
#print axioms Verif.Reg.C244_short_violated
#print axioms Verif.Like.OldOls.C245_observed
#print axioms Verif.Like.OldOls.C245_response
#print axioms Verif.Like.OldOls.C245_round
#print axioms Verif.Like.OldOls.C245_nuisance
#print axioms Verif.Like.OldOls.C245_unit
#print axioms Verif.Like.OldOls.C245_intercept
#print axioms Verif.Like.OldOls.C245_identity
#print axioms Verif.Like.OldOls.C245_strict_violated
#print axioms Verif.Func.C246_place
#print axioms Verif.Func.C246_equal
#print axioms Verif.Func.C246_sizes
#print axioms Verif.Func.C246_order
#print axioms Verif.Func.C246_ties_violated
#print axioms Verif.Sem.OldTable.C247_number_partial
#print axioms Verif.Sem.OldTable.C247_numbers_range
#print axioms Verif.Sem.OldTable.C247_label_violated
#print axioms Verif.Sem.OldTable.C247_cell_partial
#print axioms Verif.Sem.OldTable.C247_mixed_violated
#print axioms Verif.Sem.OldTable.C247_complete
#print axioms Verif.Sem.OldTable.C247_pairs
#print axioms Verif.Sem.OldTable.C247_scale
#print axioms Verif.Sem.OldTable.C247_scale_violated
#print axioms Verif.Sem.OldTable.C247_given_violated
#print axioms Verif.Sem.OldTable.C247_constant_violated
#print axioms Verif.Sem.OldTable.C247_structural
#print axioms Verif.Sem.OldTable.C247_means
#print axioms Verif.Sem.OldTable.C247_covariance_names
#print axioms Verif.Sem.OldTable.C247_dependent_names
#print axioms Verif.Sem.OldTable.C247_exogenous
#print axioms Verif.Sem.OldTable.C248_variance
#print axioms Verif.Sem.OldTable.C248_mean
#print axioms Verif.Sem.OldTable.C248_covariance
#print axioms Verif.Sem.OldTable.C248_keyword_violated
#print axioms Verif.Sem.OldTable.C248_unset_violated
#print axioms Verif.Sem.OldTable.C248_stats
#print axioms Verif.Sem.OldTable.C248_stats_violated
#print axioms Verif.Sem.OldTable.C248_variance_fixed
#print axioms Verif.Sem.Labels.C249_label
#print axioms Verif.Sem.Labels.C249_theta_partial
#print axioms Verif.Sem.Labels.C249_shared
#print axioms Verif.Sem.Labels.C249_tie_violated
#print axioms Verif.Sem.Labels.C249_space_violated
#print axioms Verif.Data.C25_welford_variance
#print axioms Verif.Data.C25_welford_variance_scaled
#print axioms Verif.Data.C25_welford_cov_cross
#print axioms Verif.Data.C25_welford_cov
#print axioms Verif.Lmm.C250_knots
#print axioms Verif.Lmm.C250_bracket
#print axioms Verif.Lmm.C250_increasing
#print axioms Verif.Lmm.C250_root
#print axioms Verif.Lmm.C250_grid
#print axioms Verif.Lmm.C250_middle
#print axioms Verif.Lmm.C250_interval
#print axioms Verif.Lmm.C250_accuracy
#print axioms Verif.Lmm.C250_wald
#print axioms Verif.Lmm.C250_negative_violated
#print axioms Verif.Mv.SccaCv.C251_standard
#print axioms Verif.Mv.SccaCv.C251_corr_range
#print axioms Verif.Mv.SccaCv.C251_units
#print axioms Verif.Mv.SccaCv.C251_folds
#print axioms Verif.Mv.SccaCv.C251_single_partial
#print axioms Verif.Mv.SccaCv.C251_scale_violated
#print axioms Verif.Mv.SccaCv.C251_start_violated
#print axioms Verif.Mv.SccaCv.C251_single_violated
#print axioms Verif.Lmm.ReTables.C252_levels
#print axioms Verif.Lmm.ReTables.C252_codes
#print axioms Verif.Lmm.ReTables.C252_predict
#print axioms Verif.Lmm.ReTables.C252_long
#print axioms Verif.Lmm.ReTables.C252_columns
#print axioms Verif.Lmm.ReTables.C252_multi
#print axioms Verif.Lmm.ReTables.C252_order_violated
#print axioms Verif.Lmm.ReTables.C252_column_violated
#print axioms Verif.Lv.C253_symm
#print axioms Verif.Lv.C253_reflect
#print axioms Verif.Lv.C253_independent
#print axioms Verif.Lv.C253_nodes
#print axioms Verif.Lv.C253_sign
#print axioms Verif.Lv.C253_quadrant
#print axioms Verif.Lv.C253_limit
#print axioms Verif.Lv.C253_one_violated
#print axioms Verif.Func.C254_exact
#print axioms Verif.Func.C254_expansion
#print axioms Verif.Func.C254_accuracy_partial
#print axioms Verif.Func.C254_coefficient_violated
#print axioms Verif.Func.C254_constant
#print axioms Verif.Eln.C255_centred
#print axioms Verif.Eln.C255_unit
#print axioms Verif.Eln.C255_one
#print axioms Verif.Eln.C255_unit_partial
#print axioms Verif.Eln.C255_unit_violated
#print axioms Verif.Eln.C255_plain
#print axioms Verif.Eln.C255_rsq_partial
#print axioms Verif.Eln.C255_rsq_violated
#print axioms Verif.Eln.C255_ols_violated
#print axioms Verif.Eln.C255_other_violated
#print axioms Verif.Eln.C255_given
#print axioms Verif.Eln.C255_criteria
#print axioms Verif.Eln.C255_penalty
#print axioms Verif.Eln.C255_df
#print axioms Verif.Sim.C256_classes
#print axioms Verif.Sim.C256_own
#print axioms Verif.Sim.C256_categorical
#print axioms Verif.Sim.C256_sum
#print axioms Verif.Sim.C256_numerical
#print axioms Verif.Sim.C256_share
#print axioms Verif.Sim.C256_draw
#print axioms Verif.Sim.C256_intercept
#print axioms Verif.Sim.C256_intercept_violated
#print axioms Verif.Sem.C257_indices
#print axioms Verif.Sem.C257_matrices
#print axioms Verif.Sem.C257_count
#print axioms Verif.Sem.C257_length_violated
#print axioms Verif.Sem.C257_free_params
#print axioms Verif.Lmm.C258_entries
#print axioms Verif.Lmm.C258_start
#print axioms Verif.Lmm.C258_bounds
#print axioms Verif.Lmm.C258_gradient
#print axioms Verif.Lmm.C258_profile
#print axioms Verif.Lmm.C258_ratio
#print axioms Verif.Lmm.C258_bound_violated
#print axioms Verif.Sim.C259_signal
#print axioms Verif.Sim.C259_intercept
#print axioms Verif.Sim.C259_share
#print axioms Verif.Sim.C259_posdef
#print axioms Verif.Sim.C259_moments
#print axioms Verif.Sim.C259_t
#print axioms Verif.Sim.C259_response
#print axioms Verif.Sim.C259_theta
#print axioms Verif.Sim.C259_rank
#print axioms Verif.Sim.C259_low
#print axioms Verif.Sim.C259_sparsity_violated
#print axioms Verif.Sim.C259_kinds
#print axioms Verif.Sim.C259_flat_violated
#print axioms Verif.Design.C26_meat_eq
#print axioms Verif.Design.C26_meat_symm
#print axioms Verif.Design.C26_meat_psd
#print axioms Verif.Design.C26_subset_total
#print axioms Verif.Design.C26_row_order
#print axioms Verif.Sem.C260_cells
#print axioms Verif.Sem.C260_upper_violated
#print axioms Verif.Sem.C260_symm
#print axioms Verif.Sem.C260_start_partial
#print axioms Verif.Sem.C260_start_violated
#print axioms Verif.Sem.C260_comb_violated
#print axioms Verif.Sem.C260_comb_partial
#print axioms Verif.Sem.C260_constraint
#print axioms Verif.Sem.C260_constraint_violated
#print axioms Verif.Sem.C260_bounds_partial
#print axioms Verif.Sem.C260_bounds_violated
#print axioms Verif.Robust.C261_own_violated
#print axioms Verif.Robust.C261_fixed
#print axioms Verif.Robust.C261_range
#print axioms Verif.Robust.C261_equivariant_step
#print axioms Verif.Robust.C261_equivariant_obj
#print axioms Verif.Robust.C261_equivariant
#print axioms Verif.Robust.C261_iterates
#print axioms Verif.Robust.C261_stop
#print axioms Verif.Robust.C261_still_violated
#print axioms Verif.Robust.C261_early_violated
#print axioms Verif.Robust.C261_history_violated
#print axioms Verif.Glm.C262_binomial_interior
#print axioms Verif.Glm.C262_midpoint
#print axioms Verif.Glm.C262_weights
#print axioms Verif.Glm.C262_not_finite
#print axioms Verif.Glm.C262_scoring
#print axioms Verif.Glm.C262_gaussian_half
#print axioms Verif.Glm.C262_gaussian_violated
#print axioms Verif.Glm.C262_zero_violated
#print axioms Verif.Glm.C262_gamma
#print axioms Verif.Gam.C263_agree
#print axioms Verif.Gam.C263_functional
#print axioms Verif.Gam.C263_width
#print axioms Verif.Gam.C263_level
#print axioms Verif.Gam.C263_nested
#print axioms Verif.Gam.C263_sum
#print axioms Verif.Gam.C263_error_violated
#print axioms Verif.Mv.SccaCv.C264_lambdas
#print axioms Verif.Mv.SccaCv.C264_start
#print axioms Verif.Mv.SccaCv.C264_start_violated
#print axioms Verif.Mv.SccaCv.C264_permutation
#print axioms Verif.Mv.SccaCv.C264_margins
#print axioms Verif.Mv.SccaCv.C264_leak_partial
#print axioms Verif.Mv.SccaCv.C264_leak
#print axioms Verif.Mv.SccaCv.C264_leak_violated
#print axioms Verif.Lmm.C265_inverse
#print axioms Verif.Lmm.C265_T2
#print axioms Verif.Lmm.C265_T3
#print axioms Verif.Lmm.C265_T1_partial
#print axioms Verif.Lmm.C265_gradient_partial
#print axioms Verif.Lmm.C265_T1_violated
#print axioms Verif.Fa.C266_pack
#print axioms Verif.Fa.C266_phi
#print axioms Verif.Fa.C266_entry
#print axioms Verif.Fa.C266_inj
#print axioms Verif.Fa.C266_free
#print axioms Verif.Fa.C266_row
#print axioms Verif.Fa.C266_apply
#print axioms Verif.Fa.C266_cov
#print axioms Verif.Fa.C266_se
#print axioms Verif.Fa.C266_orthogonal
#print axioms Verif.Fa.C266_mahalanobis
#print axioms Verif.Fa.C266_unpack
#print axioms Verif.Fa.C266_unpack_sym
#print axioms Verif.Sem.OldTable.C267_rows
#print axioms Verif.Sem.OldTable.C267_keeps
#print axioms Verif.Sem.OldTable.C267_order
#print axioms Verif.Sem.OldTable.C267_update_partial
#print axioms Verif.Sem.OldTable.C267_arrays_violated
#print axioms Verif.Sem.OldTable.C267_fixed_violated
#print axioms Verif.Sem.OldTable.C267_start
#print axioms Verif.Sem.OldTable.C267_start_pos
#print axioms Verif.Sem.OldTable.C267_start_fixed_partial
#print axioms Verif.Sem.OldTable.C267_start_fixed_violated
#print axioms Verif.Robust.C268_axis
#print axioms Verif.Robust.C268_columns
#print axioms Verif.Robust.C268_indices
#print axioms Verif.Robust.C268_low_le_high
#print axioms Verif.Robust.C268_transpose
#print axioms Verif.Robust.C268_none_partial
#print axioms Verif.Robust.C268_none_violated
#print axioms Verif.Robust.C268_none_two_violated
#print axioms Verif.Lmm.C269_diagonal
#print axioms Verif.Lmm.C269_blocks
#print axioms Verif.Lmm.C269_singular
#print axioms Verif.Lmm.C269_only_diagonal
#print axioms Verif.Lmm.C269_sigma
#print axioms Verif.Design.C27_payload
#print axioms Verif.Design.C27_others_unchanged
#print axioms Verif.Design.C27_moved
#print axioms Verif.Design.C27_psu_partition
#print axioms Verif.Design.C27_no_singletons
#print axioms Verif.Design.C27_single_remains_violated
#print axioms Verif.Calc.C270_apply
#print axioms Verif.Calc.C270_derivative_partial
#print axioms Verif.Calc.C270_equal_violated
#print axioms Verif.Calc.C270_nonsymmetric_violated
#print axioms Verif.Calc.C270_symmetric
#print axioms Verif.Eln.C271_null_partial
#print axioms Verif.Eln.C271_below
#print axioms Verif.Eln.C271_path
#print axioms Verif.Eln.C271_constant_violated
#print axioms Verif.Eln.C271_ridge_violated
#print axioms Verif.Reg.C272_tests_partial
#print axioms Verif.Reg.C272_keys_partial
#print axioms Verif.Reg.C272_series
#print axioms Verif.Reg.C272_series_violated
#print axioms Verif.Reg.C272_no_info
#print axioms Verif.Eln.C273_refit
#print axioms Verif.Eln.C273_folds_partial
#print axioms Verif.Eln.C273_choice_partial
#print axioms Verif.Eln.C273_no_refit_violated
#print axioms Verif.Eln.C273_error_partial
#print axioms Verif.Eln.C273_shift
#print axioms Verif.Eln.C273_error_violated
#print axioms Verif.Eln.C273_cold_violated
#print axioms Verif.Eln.C273_intercept_partial
#print axioms Verif.Eln.C273_intercept_violated
#print axioms Verif.Eln.C274_constant
#print axioms Verif.Eln.C274_standard
#print axioms Verif.Eln.C274_full
#print axioms Verif.Eln.C274_fold_partial
#print axioms Verif.Eln.C274_weights
#print axioms Verif.Eln.C274_fold_violated
#print axioms Verif.Lmm.C275_bracket_partial
#print axioms Verif.Lmm.C275_middle
#print axioms Verif.Lmm.C275_root
#print axioms Verif.Lmm.C275_nan_violated
#print axioms Verif.Lmm.C275_one_sided
#print axioms Verif.Lmm.C275_bracket_violated
#print axioms Verif.Lmm.C275_rows
#print axioms Verif.Robust.C276_kept_partial
#print axioms Verif.Robust.C276_best_partial
#print axioms Verif.Robust.C276_single_violated
#print axioms Verif.Robust.C276_result
#print axioms Verif.Sem.OldTable.C277_swap
#print axioms Verif.Sem.OldTable.C277_free
#print axioms Verif.Sem.OldTable.C277_not_free
#print axioms Verif.Sem.OldTable.C277_fixed_partial
#print axioms Verif.Sem.OldTable.C277_default
#print axioms Verif.Sem.OldTable.C277_itself
#print axioms Verif.Sem.OldTable.C277_lower
#print axioms Verif.Sem.OldTable.C277_template
#print axioms Verif.Sem.OldTable.C277_exclusive_partial
#print axioms Verif.Sem.OldTable.C277_exclusive_violated
#print axioms Verif.Sem.OldTable.C277_start_violated
#print axioms Verif.Glm.C278_predict
#print axioms Verif.Glm.C278_defaults
#print axioms Verif.Glm.C278_kind
#print axioms Verif.Glm.C278_coefficients_violated
#print axioms Verif.Glm.C278_betareg
#print axioms Verif.Glm.C278_rows_partial
#print axioms Verif.Glm.C278_rows_violated
#print axioms Verif.Like.C279_resample
#print axioms Verif.Like.C279_samples_partial
#print axioms Verif.Like.C279_restored_violated
#print axioms Verif.Like.C279_missing_violated
#print axioms Verif.Like.C279_counts
#print axioms Verif.Like.C279_newer
#print axioms Verif.Sem.C28_parse
#print axioms Verif.Sem.C28_comments
#print axioms Verif.Sem.C28_double_star_violated
#print axioms Verif.Sem.C28_classes
#print axioms Verif.Eln.C280_step
#print axioms Verif.Eln.C280_sign
#print axioms Verif.Eln.C280_drops
#print axioms Verif.Eln.C280_none
#print axioms Verif.Eln.C280_factor_partial
#print axioms Verif.Eln.C280_factor_violated
#print axioms Verif.Sem.C29_obs_order
#print axioms Verif.Sem.C29_mem
#print axioms Verif.Sem.C29_lav_order_partial
#print axioms Verif.Sem.C29_lav_order_violated
#print axioms Verif.Sem.C30_free
#print axioms Verif.Sem.C30_group
#print axioms Verif.Sem.C30_classes
#print axioms Verif.Sem.C30_roundtrip
#print axioms Verif.Sem.C30_jacobian_partial
#print axioms Verif.Sem.C30_jacobian_raises
#print axioms Verif.Sem.C30_shared_groups_violated
#print axioms Verif.Sem.C31_zero_iff_fixed_partial
#print axioms Verif.Sem.C31_equal_iff_label_partial
#print axioms Verif.Sem.C31_numbers_partial
#print axioms Verif.Sem.C31_label_fixed_first_violated
#print axioms Verif.Sem.C31_label_fixed_second_violated
#print axioms Verif.Sem.C31_ind_not_shared_violated
#print axioms Verif.Sem.C32_symmetric
#print axioms Verif.Sem.C32_posSemidef
#print axioms Verif.Sem.C32_posDef
#print axioms Verif.Sem.C32_structural
#print axioms Verif.Sem.C33_gradient
#print axioms Verif.Sem.C33_hessian
#print axioms Verif.Sem.C33_gradient_obs
#print axioms Verif.Sem.C33_dsigma_mu
#print axioms Verif.Sem.C33_d2sigma
#print axioms Verif.Sem.C33_d2mu_hessian
#print axioms Verif.Sem.C33_d2mu_partial
#print axioms Verif.Sem.C33_d2mu_violated
#print axioms Verif.Glm.C34_identity
#print axioms Verif.Glm.C34_log
#print axioms Verif.Glm.C34_reciprocal
#print axioms Verif.Glm.C34_logit
#print axioms Verif.Glm.C34_logcomp
#print axioms Verif.Glm.C34_cloglog
#print axioms Verif.Glm.C34_negbin
#print axioms Verif.Glm.C34_power_zero
#print axioms Verif.Glm.C34_power
#print axioms Verif.Glm.C34_probit
#print axioms Verif.Glm.C34_probit_contract
#print axioms Verif.Glm.C35_identity_partial
#print axioms Verif.Glm.C35_identity_dinv_violated
#print axioms Verif.Glm.C35_log
#print axioms Verif.Glm.C35_reciprocal
#print axioms Verif.Glm.C35_logit
#print axioms Verif.Glm.C35_logcomp
#print axioms Verif.Glm.C35_cloglog
#print axioms Verif.Glm.C35_negbin_partial
#print axioms Verif.Glm.C35_negbin_d2_violated
#print axioms Verif.Glm.C35_negbin_d4_violated
#print axioms Verif.Glm.C35_power
#print axioms Verif.Glm.C35_power_zero
#print axioms Verif.Glm.C35_power_d2inv_violated
#print axioms Verif.Glm.C35_probit_partial
#print axioms Verif.Glm.C35_probit_d4_violated
#print axioms Verif.Glm.C36_var_gaussian
#print axioms Verif.Glm.C36_var_invGaussian
#print axioms Verif.Glm.C36_var_gamma
#print axioms Verif.Glm.C36_var_negBinomial
#print axioms Verif.Glm.C36_var_poisson
#print axioms Verif.Glm.C36_var_binomial
#print axioms Verif.Glm.C36_weights_gaussian
#print axioms Verif.Glm.C36_weights_invGaussian
#print axioms Verif.Glm.C36_weights_gamma
#print axioms Verif.Glm.C36_weights_negBinomial_partial
#print axioms Verif.Glm.C36_weights_poisson
#print axioms Verif.Glm.C36_weights_binomial
#print axioms Verif.Glm.C36_negBinomial_phi_violated
#print axioms Verif.Glm.C36_hw_negbin_link_violated
#print axioms Verif.Glm.C36_ehw_partial
#print axioms Verif.Glm.C36_ehw_violated
#print axioms Verif.Glm.C36_get_w_violated
#print axioms Verif.Glm.C37_gaussian
#print axioms Verif.Glm.C37_invGaussian
#print axioms Verif.Glm.C37_gamma
#print axioms Verif.Glm.C37_poisson
#print axioms Verif.Glm.C37_binomial
#print axioms Verif.Glm.C37_negBinomial
#print axioms Verif.Glm.C37_saturated_gaussian
#print axioms Verif.Glm.C37_saturated_invGaussian
#print axioms Verif.Glm.C37_saturated_gamma
#print axioms Verif.Glm.C37_saturated_poisson
#print axioms Verif.Glm.C37_saturated_binomial
#print axioms Verif.Glm.C37_saturated_negBinomial
#print axioms Verif.Glm.C37_saturated_zero
#print axioms Verif.Robust.C38_huber_psi
#print axioms Verif.Robust.C38_huber_phi
#print axioms Verif.Robust.C38_huber_kink
#print axioms Verif.Robust.C38_huber_weights
#print axioms Verif.Robust.C38_huber_range
#print axioms Verif.Robust.C38_huber_even
#print axioms Verif.Robust.C38_huber_nonneg
#print axioms Verif.Robust.C38_huber_mono
#print axioms Verif.Robust.C38_init_violated
#print axioms Verif.Robust.C38_integer_violated
#print axioms Verif.Robust.C38_bisq_psi
#print axioms Verif.Robust.C38_bisq_phi
#print axioms Verif.Robust.C38_bisq_weights
#print axioms Verif.Robust.C38_bisq_range
#print axioms Verif.Robust.C38_bisq_even
#print axioms Verif.Robust.C38_bisq_nonneg
#print axioms Verif.Robust.C38_bisq_mono
#print axioms Verif.Robust.C38_chi_huber
#print axioms Verif.Robust.C38_chi_bisq
#print axioms Verif.Fa.C39_skew
#print axioms Verif.Fa.C39_skew_inv
#print axioms Verif.Fa.C39_rotation
#print axioms Verif.Fa.C39_surjective
#print axioms Verif.Fa.C39_half_turn
#print axioms Verif.Fa.C40_partition
#print axioms Verif.Fa.C40_pack
#print axioms Verif.Fa.C40_pack_full
#print axioms Verif.Fa.C40_unpack_pack
#print axioms Verif.Fa.C40_pack_unpack
#print axioms Verif.Transf.C41_rvs_range
#print axioms Verif.Transf.C41_fwd_range
#print axioms Verif.Transf.C41_fwd_rvs
#print axioms Verif.Transf.C41_rvs_fwd
#print axioms Verif.Transf.C41_corr
#print axioms Verif.Transf.C41_corr_fwd_rvs
#print axioms Verif.Transf.C41_corr_rvs_fwd
#print axioms Verif.Transf.C41_cube_to_corr
#print axioms Verif.Transf.C42_rows
#print axioms Verif.Transf.C42_row_positions
#print axioms Verif.Transf.C42_fwd_range
#print axioms Verif.Transf.C42_rvs_fwd
#print axioms Verif.Transf.C42_fwd_rvs
#print axioms Verif.Transf.C42_jac_fwd
#print axioms Verif.Transf.C42_jac_rvs
#print axioms Verif.Transf.C42_hess_fwd
#print axioms Verif.Transf.C42_hess_rvs
#print axioms Verif.Transf.C42_jac_inverse
#print axioms Verif.Transf.C43_fwd_cells
#print axioms Verif.Transf.C43_posDiag
#print axioms Verif.Transf.C43_rvs_fwd
#print axioms Verif.Transf.C43_fwd_rvs
#print axioms Verif.Transf.C43_jac_fwd
#print axioms Verif.Transf.C43_jac_rvs
#print axioms Verif.Transf.C43_hess_fwd
#print axioms Verif.Transf.C43_hess_rvs
#print axioms Verif.Transf.C43_log_inverse
#print axioms Verif.Transf.C43_log_range
#print axioms Verif.Transf.C43_log_jac
#print axioms Verif.Transf.C43_log_hess
#print axioms Verif.Transf.C43_jac_inverse
#print axioms Verif.Transf.C44_order
#print axioms Verif.Transf.C44_inverse
#print axioms Verif.Transf.C44_jac_fwd
#print axioms Verif.Transf.C44_jac_rvs
#print axioms Verif.Transf.C44_hess_fwd
#print axioms Verif.Transf.C44_hess_rvs
#print axioms Verif.Transf.C44_empty_violated
#print axioms Verif.Transf.C44_concat
#print axioms Verif.Transf.C44_concat_inverse
#print axioms Verif.Transf.C44_concat_jac
#print axioms Verif.Transf.C44_concat_hess
#print axioms Verif.Transf.C44_lengths_sorted
#print axioms Verif.Transf.C44_unsorted_violated
#print axioms Verif.Lin.C45_value
#print axioms Verif.Lin.C45_first
#print axioms Verif.Lin.C45_second
#print axioms Verif.Lin.C45_upper
#print axioms Verif.Lin.C45_upper_violated
#print axioms Verif.Lin.C46_add
#print axioms Verif.Lin.C46_build
#print axioms Verif.Lin.C46_downdate
#print axioms Verif.Sem.C47_slices
#print axioms Verif.Sem.C47_slice_content
#print axioms Verif.Sem.C47_flat_indices
#print axioms Verif.Sem.C47_cells
#print axioms Verif.Sem.C47_length
#print axioms Verif.Sem.C47_unique_nonzero
#print axioms Verif.Sem.C47_slices_nonzero_violated
#print axioms Verif.Sem.C48_assign
#print axioms Verif.Sem.C48_in_shape_partial
#print axioms Verif.Sem.C48_in_shape_violated
#print axioms Verif.Sem.C48_injective
#print axioms Verif.Sem.C48_injective_violated
#print axioms Verif.Sem.C48_lower
#print axioms Verif.Sem.C48_lower_inj
#print axioms Verif.Lin.C49_solve
#print axioms Verif.Lin.C49_solve_correct
#print axioms Verif.Lin.C49_inv
#print axioms Verif.Lin.C49_distinct_needed
#print axioms Verif.Lin.C50_ar1
#print axioms Verif.Sparse.C51_block_diag_self_dot
#print axioms Verif.Sparse.C51_block_diag_symmetric
#print axioms Verif.Sparse.C52_tile
#print axioms Verif.Sparse.C52_tile_modulo_same
#print axioms Verif.Sparse.C52_repeat
#print axioms Verif.Sparse.C52_tile_repeat_transpose
#print axioms Verif.Sparse.C52_naive_matmul
#print axioms Verif.Func.C53_sum_preserving_min_total
#print axioms Verif.Func.C53_sum_preserving_min_nonneg
#print axioms Verif.Func.C53_sum_preserving_min_id
#print axioms Verif.Func.C53_sum_preserving_min_floor_partial
#print axioms Verif.Func.C53_sum_preserving_min_violated
#print axioms Verif.Func.C54_slices
#print axioms Verif.Func.C54_slices_cover
#print axioms Verif.Func.C55_handle_default_kws
#print axioms Verif.Opt.C56_zero_constraint
#print axioms Verif.Opt.C56_zero_constraint_iff
#print axioms Verif.Data.C57_dummy_rows
#print axioms Verif.Data.C57_dummy_reduced
#print axioms Verif.Data.C57_dummy_encode
#print axioms Verif.Data.C57_dummy_encode_missing
#print axioms Verif.Data.C58_sign_change
#print axioms Verif.Data.C58_sign_change_none
#print axioms Verif.Data.C58_kth_first_partial
#print axioms Verif.Data.C58_kth_counts_elements
#print axioms Verif.Data.C58_kth_violated
#print axioms Verif.Data.C59_crosstab_roundtrip_partial
#print axioms Verif.Data.C59_expand_length
#print axioms Verif.Data.C59_crosstab_violated
#print axioms Verif.Data.C60_center_mean
#print axioms Verif.Data.C60_csd_eq
#print axioms Verif.Data.C60_csd_moments
#print axioms Verif.Data.C60_corr_eq
#print axioms Verif.Data.C60_corr_diag
#print axioms Verif.Data.C60_cov_symm
#print axioms Verif.Data.C60_norm_diag
#print axioms Verif.Data.C60_corr_norm_diag
#print axioms Verif.Data.C60_normalize_xtrx
#print axioms Verif.Data.C60_flip_signs
#print axioms Verif.Data.C61_welford_axis_partial
#print axioms Verif.Data.C61_welford_axis_violated
#print axioms Verif.Data.C61_welford_cov_mean_order
#print axioms Verif.Data.C62_extremal_largest_partial
#print axioms Verif.Data.C62_extremal_smallest
#print axioms Verif.Data.C62_extremal_zero_violated
#print axioms Verif.Design.C63_scores_sum_zero
#print axioms Verif.Design.C63_bread_symm
#print axioms Verif.Design.C63_sandwich_psd
#print axioms Verif.Sem.C64_nonneg_partial
#print axioms Verif.Sem.C64_loglike_obs
#print axioms Verif.Sem.C64_loglike_group
#print axioms Verif.Sem.C64_weight
#print axioms Verif.Sem.C64_fit_func
#print axioms Verif.Sem.C64_extra_column_violated
#print axioms Verif.Glm.C65_gradient
#print axioms Verif.Glm.C65_hessian
#print axioms Verif.Glm.C65_hessian_symm
#print axioms Verif.Glm.C65_gradient_i
#print axioms Verif.Glm.C65_tau
#print axioms Verif.Glm.C65_tau_nb
#print axioms Verif.Glm.C65_cross
#print axioms Verif.Glm.C65_cross_nb_partial
#print axioms Verif.Glm.C65_cross_nb_violated
#print axioms Verif.Glm.C65_M_violated
#print axioms Verif.Glm.C66_pearson
#print axioms Verif.Glm.C66_deviance
#print axioms Verif.Glm.C66_signed_partial
#print axioms Verif.Glm.C66_signed_violated
#print axioms Verif.Glm.C67_contract
#print axioms Verif.Glm.C67_gaussian
#print axioms Verif.Glm.C67_invGaussian
#print axioms Verif.Glm.C67_gamma
#print axioms Verif.Glm.C67_negBinomial
#print axioms Verif.Glm.C67_llscale_gaussian
#print axioms Verif.Glm.C67_llscale_gamma
#print axioms Verif.Glm.C67_llscale_invGaussian_partial
#print axioms Verif.Glm.C67_llscale_invGaussian_violated
#print axioms Verif.Glm.C68_gaussian
#print axioms Verif.Glm.C68_gamma
#print axioms Verif.Glm.C68_poisson
#print axioms Verif.Glm.C68_binomial
#print axioms Verif.Glm.C68_invGaussian
#print axioms Verif.Glm.C68_negBinomial
#print axioms Verif.Glm.C68_negBinomial_sum
#print axioms Verif.Glm.C69_raises_violated
#print axioms Verif.Glm.C69_a_partial
#print axioms Verif.Glm.C69_w_partial
#print axioms Verif.Robust.C70_rho
#print axioms Verif.Robust.C70_psi2
#print axioms Verif.Robust.C70_phi
#print axioms Verif.Robust.C70_psi
#print axioms Verif.Robust.C70_pos
#print axioms Verif.Robust.C70_base_psi_violated
#print axioms Verif.Robust.C71_fixed
#print axioms Verif.Robust.C71_direction
#print axioms Verif.Robust.C71_equivariant
#print axioms Verif.Robust.C71_converged
#print axioms Verif.Robust.C72_huber
#print axioms Verif.Robust.C72_bisq
#print axioms Verif.Lin.C73_unit_partial
#print axioms Verif.Lin.C73_scale_violated
#print axioms Verif.Lin.C74_update
#print axioms Verif.Lin.C74_drop_violated
#print axioms Verif.Transf.C75_jac_rvs
#print axioms Verif.Transf.C75_jac_fwd
#print axioms Verif.Transf.C75_jac_inverse
#print axioms Verif.Transf.C75_hess_rvs
#print axioms Verif.Transf.C75_hess_fwd
#print axioms Verif.Transf.C76_fwd_image
#print axioms Verif.Transf.C76_roundtrip_partial
#print axioms Verif.Transf.C76_unconstrained_violated
#print axioms Verif.Transf.C76_intended
#print axioms Verif.Transf.C77_mask
#print axioms Verif.Transf.C77_mask_inverse
#print axioms Verif.Transf.C77_mask_jac
#print axioms Verif.Transf.C77_mask_hess
#print axioms Verif.Transf.C77_roundtrip
#print axioms Verif.Transf.C77_surjective
#print axioms Verif.Transf.C78_ord_range
#print axioms Verif.Transf.C78_ord_fwd_rvs
#print axioms Verif.Transf.C78_ord_rvs_fwd
#print axioms Verif.Transf.C78_ord_jac_rvs
#print axioms Verif.Transf.C78_ord_hess_rvs
#print axioms Verif.Transf.C78_ord_jac_fwd
#print axioms Verif.Transf.C78_ord_hess_fwd
#print axioms Verif.Transf.C78_log
#print axioms Verif.Transf.C78_tanh
#print axioms Verif.Transf.C78_id
#print axioms Verif.Transf.C79_float_partial
#print axioms Verif.Transf.C79_integer_violated
#print axioms Verif.Transf.C80_jac_fwd
#print axioms Verif.Transf.C80_hess_fwd
#print axioms Verif.Transf.C80_jac_inverse
#print axioms Verif.Transf.C80_jac_rvs
#print axioms Verif.Transf.C80_hess_rvs
#print axioms Verif.Transf.C81_fwd
#print axioms Verif.Transf.C81_jac_fwd
#print axioms Verif.Transf.C81_hess_fwd
#print axioms Verif.Transf.C81_rvs
#print axioms Verif.Transf.C81_jac_rvs
#print axioms Verif.Transf.C81_hess_rvs
#print axioms Verif.Fa.C82_gcf
#print axioms Verif.Fa.C82_target
#print axioms Verif.Fa.C82_d2Q
#print axioms Verif.Fa.C82_target_d2Q
#print axioms Verif.Fa.C83_named_partial
#print axioms Verif.Fa.C83_unknown
#print axioms Verif.Fa.C83_varimax
#print axioms Verif.Fa.C83_quartimax_violated
#print axioms Verif.Fa.C84_ortho_grad
#print axioms Verif.Fa.C84_oblique_grad
#print axioms Verif.Fa.C84_ortho_project
#print axioms Verif.Fa.C84_oblique_project
#print axioms Verif.Fa.C84_ortho_retract
#print axioms Verif.Fa.C84_ortho_retract_nearest
#print axioms Verif.Fa.C84_oblique_retract
#print axioms Verif.Fa.C84_oblique_step
#print axioms Verif.Fa.C84_ortho_invariant
#print axioms Verif.Fa.C84_oblique_invariant
#print axioms Verif.Fa.C85_d_rotation
#print axioms Verif.Fa.C85_fg
#print axioms Verif.Fa.C86_ortho
#print axioms Verif.Fa.C86_oblique_count
#print axioms Verif.Fa.C86_oblique
#print axioms Verif.Fa.C86_canonical
#print axioms Verif.Fa.C87_ortho
#print axioms Verif.Fa.C87_oblique
#print axioms Verif.Fa.C87_oblique_accepts
#print axioms Verif.Fa.C87_ortho_accepts
#print axioms Verif.Fa.C88_dsigma
#print axioms Verif.Fa.C88_grad
#print axioms Verif.Fa.C88_hessian
#print axioms Verif.Fa.C88_hessian_symm
#print axioms Verif.Fa.C88_score_jacobian
#print axioms Verif.Fa.C88_meat
#print axioms Verif.Fa.C89_bread
#print axioms Verif.Fa.C89_symm
#print axioms Verif.Fa.C89_defined
#print axioms Verif.Fa.C89_sandwich
#print axioms Verif.Fa.C89_information
#print axioms Verif.Fa.C89_empirical
#print axioms Verif.Fa.C90_invariant
#print axioms Verif.Fa.C90_signs
#print axioms Verif.Fa.C90_optimal
#print axioms Verif.Fa.C90_recovers
#print axioms Verif.Fa.C90_canonical
#print axioms Verif.Fa.C90_canonical_constraint
#print axioms Verif.Fa.C91_profile
#print axioms Verif.Fa.C91_grad_psi
#print axioms Verif.Fa.C91_grad_simple
#print axioms Verif.Fa.C91_hess_psi_partial
#print axioms Verif.Fa.C91_exp
#print axioms Verif.Fa.C91_ties_violated
#print axioms Verif.Like.C92_criteria
#print axioms Verif.Like.C92_aicc
#print axioms Verif.Like.C92_bic
#print axioms Verif.Like.C92_compare
#print axioms Verif.Like.C92_raises
#print axioms Verif.Like.C92_aicc_violated
#print axioms Verif.Like.C93_forms
#print axioms Verif.Like.C93_range
#print axioms Verif.Like.C93_null
#print axioms Verif.Like.C93_mono
#print axioms Verif.Like.C93_adjusted_partial
#print axioms Verif.Like.C93_adjusted_violated
#print axioms Verif.Like.C93_lr_partial
#print axioms Verif.Like.C93_lr_violated
#print axioms Verif.Like.C94_constraint_partial
#print axioms Verif.Like.C94_constraint_violated
#print axioms Verif.Like.C94_mask_violated
#print axioms Verif.Like.C94_history
#print axioms Verif.Like.C94_gradient
#print axioms Verif.Like.C94_hessian
#print axioms Verif.Like.C94_profile
#print axioms Verif.Like.C94_interval
#print axioms Verif.Like.C94_interval_set
#print axioms Verif.Like.C94_interval_raises
#print axioms Verif.Like.C95_nonneg
#print axioms Verif.Like.C95_ll_tests
#print axioms Verif.Like.C95_invariant
#print axioms Verif.Like.C95_reparam
#print axioms Verif.Like.C95_information
#print axioms Verif.Like.C95_trinity
#print axioms Verif.Like.C95_selection
#print axioms Verif.Like.C95_raises
#print axioms Verif.Like.C96_leverage
#print axioms Verif.Like.C96_chol_raises
#print axioms Verif.Like.C96_range
#print axioms Verif.Like.C96_intercept
#print axioms Verif.Like.C96_invariant
#print axioms Verif.Like.C96_rank_violated
#print axioms Verif.Like.C96_hc0
#print axioms Verif.Like.C96_order
#print axioms Verif.Like.C96_balanced
#print axioms Verif.Like.C96_raises
#print axioms Verif.Like.C97_deletion
#print axioms Verif.Like.C97_one_step_partial
#print axioms Verif.Like.C97_one_step_violated
#print axioms Verif.Like.C97_hc3
#print axioms Verif.Like.C97_cooks
#print axioms Verif.Like.C97_resid_lik
#print axioms Verif.Like.C97_jackknife_partial
#print axioms Verif.Like.C97_jackknife_violated
#print axioms Verif.Like.C98_minimum
#print axioms Verif.Like.C98_chol
#print axioms Verif.Like.C98_qr
#print axioms Verif.Like.C98_nwls
#print axioms Verif.Like.C98_agree
#print axioms Verif.Like.C98_qr_negative
#print axioms Verif.Like.C99_eta
#print axioms Verif.Like.C99_prob
#print axioms Verif.Like.C99_total
#print axioms Verif.Like.C99_loglike
#print axioms Verif.Like.C99_objective_partial
#print axioms Verif.Like.C99_objective_violated
#print axioms Verif.Like.C99_gradient
#print axioms Verif.Like.C99_hessian_partial
#print axioms Verif.Like.C99_hessian_symm
#print axioms Verif.Like.C99_hessian_violated
#print axioms Verif.Like.C99_loglike_unconstrained
#print axioms Verif.Like.C99_gradient_unconstrained
#print axioms Verif.Like.C99_hessian_unconstrained_partial

import Verif.Algo.PropsAverage
import Verif.Algo.PropsBlocked
import Verif.Algo.PropsBlockedAvg
import Verif.Algo.PropsBlockedConv
import Verif.Algo.PropsBlockedDens
import Verif.Algo.PropsBlockedHyper
import Verif.Algo.PropsBlockedLs
import Verif.Algo.PropsBlockedNgg
import Verif.Algo.PropsCond
import Verif.Algo.PropsDensity
import Verif.Algo.PropsGibbs
import Verif.Algo.PropsGibbsMore
import Verif.Algo.PropsGibbsMulti
import Verif.Algo.PropsGibbsNeal2
import Verif.Algo.PropsGibbsVals
import Verif.Algo.PropsHyperLaw
import Verif.Algo.PropsLaplaceRun
import Verif.Algo.PropsMassRun
import Verif.Algo.PropsMeanHyper
import Verif.Algo.PropsMeanHyperMass
import Verif.Algo.PropsNeal2Chain
import Verif.Algo.PropsNeal3Avg
import Verif.Algo.PropsNeal3Chain
import Verif.Algo.PropsNeal3Density
import Verif.Algo.PropsNeal3Hyper
import Verif.Algo.PropsNeal3Multi
import Verif.Algo.PropsNeal8Chain
import Verif.Algo.PropsNeal8Ls
import Verif.Algo.PropsNggIter
import Verif.Algo.PropsPredictive
import Verif.Algo.PropsSMAvg
import Verif.Algo.PropsSMAvgThree
import Verif.Algo.PropsSMChain
import Verif.Algo.PropsSMFinite
import Verif.Algo.PropsSMMass
import Verif.Algo.PropsSMThree
import Verif.Algo.PropsSMTwo
import Verif.Algo.PropsSemiConjLaw
import Verif.Algo.PropsSemiConjUnique
import Verif.Algo.PropsSemiHdp
import Verif.Algo.PropsSemiHdpMoves
import Verif.Algo.PropsSemiHdpPseudo
import Verif.Algo.PropsSemiHdpWeights
import Verif.Algo.PropsSlice
import Verif.Algo.PropsSliceFinite
import Verif.Algo.PropsSplitMerge
import Verif.Algo.PropsTotalMass
import Verif.Alloc.Props
import Verif.Alloc.PropsMoves
import Verif.Collect.Props
import Verif.Collect.PropsRReader
import Verif.Example.PropsGamma
import Verif.Hier.PropsConj
import Verif.Hier.PropsFA
import Verif.Hier.PropsGauss
import Verif.Hier.PropsHyper
import Verif.Hier.PropsHyperSerial
import Verif.Hier.PropsLaw
import Verif.Hier.PropsLinReg
import Verif.Hier.PropsMetropolis
import Verif.Hier.PropsMetropolisLaw
import Verif.Hier.PropsMetropolisState
import Verif.Hier.PropsMixDist
import Verif.Hier.PropsMixDistMulti
import Verif.Hier.PropsMoments
import Verif.Hier.PropsNW
import Verif.Hier.PropsNwLaw
import Verif.Hier.PropsPrior
import Verif.Hier.PropsPriorAccept
import Verif.Hier.PropsSerial
import Verif.Hier.PropsShare
import Verif.Hier.PropsStats
import Verif.Hier.PropsUncon
import Verif.Mixing.Props
import Verif.Mixing.PropsAccept
import Verif.Mixing.PropsLogitLaw
import Verif.Mixing.PropsSerial
import Verif.Mixing.PropsTrunc
import Verif.Program.PropsBuild
import Verif.Program.PropsPlot
import Verif.Program.PropsProgram
import Verif.Program.PropsPython
import Verif.Utils.Props
import Verif.Utils.PropsPlots
import Verif.Utils.PropsTruncBeta
import Verif.Utils.PropsWrapIn
import Verif.Utils.PropsWrappers

/-! Prints, at build time, the axioms each property theorem depends on. -/

#print axioms Bayesmix.c01_neal2_neal3_consistent
#print axioms Bayesmix.c01_neal2_neal3_run
#print axioms Bayesmix.c02_neal8_consistent
#print axioms Bayesmix.c02_no_aux_is_ub
#print axioms Bayesmix.c03_single_row_is_ub
#print axioms Bayesmix.c04_neal2_others_unmoved
#print axioms Bayesmix.c04_neal8_others_unmoved
#print axioms Bayesmix.c05_neal3_draws_from_posterior
#print axioms Bayesmix.c05_neal2_draws_from_posterior_partial
#print axioms Bayesmix.c05_neal2_violated
#print axioms Bayesmix.c05_initialized_object_ignores_data
#print axioms Bayesmix.SplitMerge.c05_split_merge_draws_from_posterior
#print axioms Bayesmix.c06_neal3_predictive_hypers_partial
#print axioms Bayesmix.c06_violated_with_hyperprior
#print axioms Bayesmix.SplitMerge.c06_split_merge_predictive_hypers_partial
#print axioms Bayesmix.c07_blocked_gibbs_consistent
#print axioms Bayesmix.c07_blocked_gibbs_moves_one
#print axioms Bayesmix.c12_initialize_consistent
#print axioms Bayesmix.c12_too_many_clusters_is_ub
#print axioms Bayesmix.c12_second_initialize_throws
#print axioms Bayesmix.c13_decision_table
#print axioms Bayesmix.c14_run_saves_post_burnin
#print axioms Bayesmix.c14_run_into_memory
#print axioms Bayesmix.c14_run_into_file
#print axioms Bayesmix.c15_memory_collector_is_log
#print axioms Bayesmix.c16_read_into_new_collector_partial
#print axioms Bayesmix.c16_write_then_read
#print axioms Bayesmix.c16_violated_size
#print axioms Bayesmix.c16_violated_cursor
#print axioms Bayesmix.c17_file_collector_any_chunk_size
#print axioms Bayesmix.c17_nonpositive_chunk_is_ub
#print axioms Bayesmix.c18_decode_encode
#print axioms Bayesmix.c18_no_collision
#print axioms Bayesmix.c18_append
#print axioms Bayesmix.c19_truncated_file
#print axioms Bayesmix.c19_crash_leaves_prefix
#print axioms Bayesmix.c20_python_agrees_partial
#print axioms Bayesmix.c20_python_on_cut_file
#print axioms Bayesmix.c20_violated_on_cut_file
#print axioms Bayesmix.c21_chunks_generic
#print axioms Bayesmix.c21_memory_chunks
#print axioms Bayesmix.c21_file_chunks
#print axioms Bayesmix.c22_eval_lpdf
#print axioms Bayesmix.c22_empty_chain_is_ub
#print axioms Bayesmix.c23_low_memory_parallel
#print axioms Bayesmix.c23_zero_chunk_never_ends
#print axioms Bayesmix.c24_full_memory_parallel_partial
#print axioms Bayesmix.c24_full_memory_violated
#print axioms Bayesmix.c61_file_size_after_one_run_partial
#print axioms Bayesmix.c61_file_size_violated
#print axioms Bayesmix.c62_run_mcmc_outputs_partial
#print axioms Bayesmix.c62_run_mcmc_outputs_violated
#print axioms Bayesmix.c25_dirichlet_masses
#print axioms Bayesmix.c26_dirichlet_log_mass_partial
#print axioms Bayesmix.c26_dirichlet_log_mass_violated
#print axioms Bayesmix.c26_pitman_yor_log_mass
#print axioms Bayesmix.c26_finite_mixture_log_mass
#print axioms Bayesmix.c27_pitman_yor_masses
#print axioms Bayesmix.c27_zero_discount_is_dirichlet
#print axioms Bayesmix.c28_coefficients_exist
#print axioms Bayesmix.c28_finite_mixture_masses_partial
#print axioms Bayesmix.c28_finite_mixture_violated
#print axioms Bayesmix.c29_pitman_yor_exchangeable
#print axioms Bayesmix.c29_dirichlet_exchangeable
#print axioms Bayesmix.c30_truncated_weights
#print axioms Bayesmix.c30_update_finite_sums_to_one
#print axioms Bayesmix.c30_initial_weights_violated
#print axioms Bayesmix.c31_keep_breaking
#print axioms Bayesmix.c31_keep_breaking_dp_succeeds
#print axioms Bayesmix.c32_shape_parameters_partial
#print axioms Bayesmix.c32_shape_parameters_violated
#print axioms Bayesmix.c33_logit_weights_partial
#print axioms Bayesmix.c33_logit_weights_violated
#print axioms Bayesmix.c63_finite_mixture_exchangeable_partial
#print axioms Bayesmix.c63_truncated_violated
#print axioms Bayesmix.c64_masses_independent_of_history_partial
#print axioms Bayesmix.c64_masses_independent_of_history_violated
#print axioms Bayesmix.c65_acceptance_ratio_partial
#print axioms Bayesmix.c65_acceptance_ratio_violated
#print axioms Bayesmix.c66_full_conditional
#print axioms Bayesmix.c66_gradient
#print axioms Bayesmix.c66_proposal
#print axioms Bayesmix.c67_total_mass_update_partial
#print axioms Bayesmix.c67_total_mass_update_violated
#print axioms Bayesmix.c68_neal2_neal3_move
#print axioms Bayesmix.c68_neal8_move
#print axioms Bayesmix.c68_every_option_reachable
#print axioms Bayesmix.c69_neal2_neal3_hypers
#print axioms Bayesmix.c69_neal8_hypers
#print axioms Bayesmix.c69_blocked_gibbs_hypers
#print axioms Bayesmix.Slice.c69_slice_violated
#print axioms Bayesmix.c70_initial_labels
#print axioms Bayesmix.c70_initial_values_partial
#print axioms Bayesmix.c70_last_cluster_not_drawn_violated
#print axioms Bayesmix.c71_stick_update
#print axioms Bayesmix.c71_new_sticks
#print axioms Bayesmix.Utils.c46_vector_roundtrip
#print axioms Bayesmix.Utils.c46_matrix_roundtrip_partial
#print axioms Bayesmix.Utils.c46_empty_matrix_violated
#print axioms Bayesmix.Utils.c46_storage_orders
#print axioms Bayesmix.Utils.c46_short_data_is_ub
#print axioms Bayesmix.Utils.c47_axis
#print axioms Bayesmix.Utils.c47_grid_partial
#print axioms Bayesmix.Utils.c47_grid_violated
#print axioms Bayesmix.Utils.c48_vstack
#print axioms Bayesmix.Utils.c48_vstack_nothing_is_ub
#print axioms Bayesmix.Utils.c48_append
#print axioms Bayesmix.Utils.c48_append_assoc
#print axioms Bayesmix.Utils.c48_stack_vectors
#print axioms Bayesmix.Utils.c49_fraction
#print axioms Bayesmix.Utils.c49_relabel
#print axioms Bayesmix.Utils.c50_first_minimiser_partial
#print axioms Bayesmix.Utils.c50_uninitialised_violated
#print axioms Bayesmix.Utils.c50_empty_chain_fails
#print axioms Bayesmix.Utils.c51_roundtrip_partial
#print axioms Bayesmix.Utils.c51_empty_matrix_violated
#print axioms Bayesmix.Utils.c51_ragged
#print axioms Bayesmix.Utils.c51_bad_entry_throws
#print axioms Bayesmix.Utils.c52_lookup
#print axioms Bayesmix.Utils.c52_grid_pointwise
#print axioms Bayesmix.Utils.c52_prior_grid_agrees
#print axioms Bayesmix.Hierarchies.c52_student_grid
#print axioms Bayesmix.Utils.c53_first_registration_wins
#print axioms Bayesmix.Utils.c53_registration_idempotent
#print axioms Bayesmix.Utils.c53_known_builders
#print axioms Bayesmix.Utils.c53_known_name_partial
#print axioms Bayesmix.Utils.c53_unknown_name_violated
#print axioms Bayesmix.Hierarchies.c34_members
#print axioms Bayesmix.Hierarchies.c34_legal_iff
#print axioms Bayesmix.Hierarchies.c34_cardinality
#print axioms Bayesmix.Hierarchies.c34_uni_norm
#print axioms Bayesmix.Hierarchies.c34_multi_norm
#print axioms Bayesmix.Hierarchies.c34_lin_reg
#print axioms Bayesmix.Hierarchies.c34_fa
#print axioms Bayesmix.Hierarchies.c34_gamma
#print axioms Bayesmix.Hierarchies.c34_insert_remove_identity
#print axioms Bayesmix.Hierarchies.c34_clone
#print axioms Bayesmix.Hierarchies.c44_cluster_lpdf
#print axioms Bayesmix.Hierarchies.c44_cluster_lpdf_laplace
#print axioms Bayesmix.Hierarchies.c35_bayes_rule
#print axioms Bayesmix.Hierarchies.c35_batch_eq_sequential
#print axioms Bayesmix.Hierarchies.c35_order_independent
#print axioms Bayesmix.Hierarchies.c35_cluster_bayes
#print axioms Bayesmix.Hierarchies.c35_predictive
#print axioms Bayesmix.Hierarchies.c36_nig_valid
#print axioms Bayesmix.Hierarchies.c36_nxig_valid
#print axioms Bayesmix.Hierarchies.c36_gamma_valid
#print axioms Bayesmix.Hierarchies.c36_nw_valid
#print axioms Bayesmix.Hierarchies.c39_mean_conditional
#print axioms Bayesmix.Hierarchies.c39_variance_conditional
#print axioms Bayesmix.Hierarchies.c72_semi_conjugate_draw_partial
#print axioms Bayesmix.Hierarchies.c72_semi_conjugate_draw_violated
#print axioms Bayesmix.Hierarchies.c37_bayes_rule
#print axioms Bayesmix.Hierarchies.c37_batch_eq_sequential
#print axioms Bayesmix.Hierarchies.c37_order_independent
#print axioms Bayesmix.Hierarchies.c37_cluster_bayes
#print axioms Bayesmix.Hierarchies.c38_batch_eq_sequential
#print axioms Bayesmix.Hierarchies.c38_order_independent
#print axioms Bayesmix.Hierarchies.c38_posterior_values
#print axioms Bayesmix.Hierarchies.c73_bayes_rule
#print axioms Bayesmix.Hierarchies.c73_cluster_bayes
#print axioms Bayesmix.Hierarchies.c74_multi_normal_likelihood_partial
#print axioms Bayesmix.Hierarchies.c74_multi_normal_likelihood_violated
#print axioms Bayesmix.Hierarchies.c40_clone
#print axioms Bayesmix.Hierarchies.c40_clone_keeps_sharing
#print axioms Bayesmix.Hierarchies.c40_deep_clone_independent
#print axioms Bayesmix.Hierarchies.c40_deep_clone_hypers_partial
#print axioms Bayesmix.Hierarchies.c40_deep_clone_hypers_violated
#print axioms Bayesmix.Hierarchies.c40_null_prior_is_ub
#print axioms Bayesmix.Hierarchies.c41_uni_ls
#print axioms Bayesmix.Hierarchies.c41_lin_reg
#print axioms Bayesmix.Hierarchies.c41_multi_ls
#print axioms Bayesmix.Hierarchies.c41_multi_ls_logdet
#print axioms Bayesmix.Hierarchies.c41_fa
#print axioms Bayesmix.Hierarchies.c41_get_state_proto_card
#print axioms Bayesmix.Hierarchies.c41_wrong_kind_reads_default
#print axioms Bayesmix.Hierarchies.c42_uni_ls
#print axioms Bayesmix.Hierarchies.c42_lin_reg
#print axioms Bayesmix.Hierarchies.c42_multi_ls
#print axioms Bayesmix.Hierarchies.c42_multi_ls_sizes
#print axioms Bayesmix.Hierarchies.c42_multi_ls_state
#print axioms Bayesmix.Hierarchies.c43_random_walk_partial
#print axioms Bayesmix.Hierarchies.c43_mala_partial
#print axioms Bayesmix.Hierarchies.c43_proposal_density
#print axioms Bayesmix.Hierarchies.c43_full_conditional_violated
#print axioms Bayesmix.Hierarchies.c43_uninitialised_violated
#print axioms Bayesmix.Hierarchies.c43_never_fails
#print axioms Bayesmix.Hierarchies.c43_kernel_partial
#print axioms Bayesmix.Hierarchies.c43_kernel_violated
#print axioms Bayesmix.Hierarchies.c43_proper_prior_violated
#print axioms Bayesmix.Hierarchies.c43_laplace_violated
#print axioms Bayesmix.Hierarchies.c43_nnig_violated
#print axioms Bayesmix.Hierarchies.c75_uni_ls
#print axioms Bayesmix.Hierarchies.c75_lin_reg
#print axioms Bayesmix.Hierarchies.c75_multi_ls_violated
#print axioms Bayesmix.Hierarchies.c76_default_laplace_updater_violated
#print axioms Bayesmix.Hierarchies.c76_laplace_random_walk_partial
#print axioms Bayesmix.Hierarchies.c76_positive_step_partial
#print axioms Bayesmix.Hierarchies.c59_logdet
#print axioms Bayesmix.Hierarchies.c59_quadratic_form
#print axioms Bayesmix.Hierarchies.c59_lpdf
#print axioms Bayesmix.Hierarchies.c45_in_sync_partial
#print axioms Bayesmix.Hierarchies.c45_initial_state_partial
#print axioms Bayesmix.Hierarchies.c45_stale_after_draws
#print axioms Bayesmix.Hierarchies.c45_prior_draw_unusable
#print axioms Bayesmix.Hierarchies.c45_in_sync_violated
#print axioms Bayesmix.Hierarchies.c77_scores
#print axioms Bayesmix.Hierarchies.c77_loadings
#print axioms Bayesmix.Hierarchies.c77_means_partial
#print axioms Bayesmix.Hierarchies.c77_means_violated
#print axioms Bayesmix.Hierarchies.c77_noise_partial
#print axioms Bayesmix.Hierarchies.c77_noise_violated
#print axioms Bayesmix.Hierarchies.c77_draw_order
#print axioms Bayesmix.Hierarchies.c78_prec_chol_rng
#print axioms Bayesmix.Hierarchies.c78_diag_rng
#print axioms Bayesmix.Hierarchies.c60_nig_normal_mean
#print axioms Bayesmix.Hierarchies.c60_ngg_mean_partial
#print axioms Bayesmix.Hierarchies.c60_ngg_mean_violated
#print axioms Bayesmix.Hierarchies.c60_ngg_scaling_partial
#print axioms Bayesmix.Hierarchies.c60_ngg_scaling_violated
#print axioms Bayesmix.Hierarchies.c60_ngg_scale
#print axioms Bayesmix.Hierarchies.c60_ngg_update
#print axioms Bayesmix.Hierarchies.c60_nw_normal_mean
#print axioms Bayesmix.Hierarchies.c60_ngiw_mean
#print axioms Bayesmix.Hierarchies.c60_ngiw_scaling_partial
#print axioms Bayesmix.Hierarchies.c60_ngiw_scaling_violated
#print axioms Bayesmix.Hierarchies.c60_ngiw_scale
#print axioms Bayesmix.Hierarchies.c60_ngiw_update
#print axioms Bayesmix.Hierarchies.c79_fixed
#print axioms Bayesmix.Hierarchies.c79_ngg_never_fails
#print axioms Bayesmix.Hierarchies.c79_normal_mean_partial
#print axioms Bayesmix.Hierarchies.c79_normal_mean_violated
#print axioms Bayesmix.Hierarchies.c79_ngiw_never_fails
#print axioms Bayesmix.Hierarchies.c79_nw_normal_mean_never_fails
#print axioms Bayesmix.Hierarchies.c80_l2_distance
#print axioms Bayesmix.Hierarchies.c80_unit_sums_partial
#print axioms Bayesmix.Hierarchies.c80_symmetric_partial
#print axioms Bayesmix.Hierarchies.c80_l2_distance_violated
#print axioms Bayesmix.Slice.c08_step
#print axioms Bayesmix.Slice.c08_run
#print axioms Bayesmix.Slice.c08_labels_above_slice
#print axioms Bayesmix.Slice.c08_step_succeeds
#print axioms Bayesmix.Slice.c08_truncation_partial
#print axioms Bayesmix.Slice.c08_init
#print axioms Bayesmix.Slice.c08_truncation_violated
#print axioms Bayesmix.Slice.c08_zero_components_violated
#print axioms Bayesmix.Slice.c08_beta_priors_violated
#print axioms Bayesmix.Hierarchies.c81_nig
#print axioms Bayesmix.Hierarchies.c81_nxig
#print axioms Bayesmix.Hierarchies.c81_nw
#print axioms Bayesmix.Hierarchies.c81_mnig
#print axioms Bayesmix.Hierarchies.c81_gamma
#print axioms Bayesmix.Hierarchies.c81_fa
#print axioms Bayesmix.Hierarchies.c82_gamma_bayes
#print axioms Bayesmix.Hierarchies.c82_gamma_draw
#print axioms Bayesmix.Hierarchies.c82_nnig_draw
#print axioms Bayesmix.Hierarchies.c82_lin_reg_draw
#print axioms Bayesmix.Hierarchies.c82_nnw_draw
#print axioms Bayesmix.SplitMerge.c09_update
#print axioms Bayesmix.SplitMerge.c09_run
#print axioms Bayesmix.SplitMerge.c10_update
#print axioms Bayesmix.SplitMerge.c10_decision
#print axioms Bayesmix.SplitMerge.c11_distinct
#print axioms Bayesmix.SplitMerge.c11_every_pair
#print axioms Bayesmix.SplitMerge.c11_single_row_throws
#print axioms Bayesmix.SplitMerge.c83_balance_iff
#print axioms Bayesmix.SplitMerge.c83_scan_probability
#print axioms Bayesmix.SplitMerge.c83_nnig_marginal
#print axioms Bayesmix.Chain.c83_conjugate_marginal
#print axioms Bayesmix.SplitMerge.c83_dirichlet_partial
#print axioms Bayesmix.SplitMerge.c83_dirichlet_violated
#print axioms Bayesmix.SplitMerge.c83_pitman_yor_violated
#print axioms Bayesmix.SplitMerge.c83_finite_mixture_balance_iff
#print axioms Bayesmix.SplitMerge.c83_finite_mixture_violated
#print axioms Bayesmix.Gibbs.c55_pitman_yor
#print axioms Bayesmix.Gibbs.c55_dirichlet_partial
#print axioms Bayesmix.Gibbs.c55_dirichlet_violated
#print axioms Bayesmix.Gibbs.c55_finite_mixture_partial
#print axioms Bayesmix.Density.c54_dirichlet
#print axioms Bayesmix.Density.c54_pitman_yor
#print axioms Bayesmix.Density.c54_neal8_component
#print axioms Bayesmix.Density.c54_integrates_to_one
#print axioms Bayesmix.Density.c54_saved_cards
#print axioms Bayesmix.Density.c54_finite_mixture_partial
#print axioms Bayesmix.Density.c54_finite_mixture_violated
#print axioms Bayesmix.Density.c54_reader_violated
#print axioms Bayesmix.Density.c84_finite_partial
#print axioms Bayesmix.Density.c84_infinite_violated
#print axioms Bayesmix.Density.c84_logit_violated
#print axioms Bayesmix.SemiHdp.c56_relabel
#print axioms Bayesmix.SemiHdp.c56_run
#print axioms Bayesmix.SemiHdp.c56_empty_group_violated
#print axioms Bayesmix.SemiHdp.c57_violated
#print axioms Bayesmix.SemiHdp.c57_partial
#print axioms Bayesmix.SemiHdp.c57_run_violated
#print axioms Bayesmix.SemiHdp.c58_violated
#print axioms Bayesmix.SemiHdp.c58_partial
#print axioms Bayesmix.SemiHdp.c85_run_partial
#print axioms Bayesmix.SemiHdp.c85_small_group_violated
#print axioms Bayesmix.SemiHdp.c85_multivariate_violated
#print axioms Bayesmix.SemiHdp.c85_thin_violated
#print axioms Bayesmix.SemiHdp.c86_unique_vals
#print axioms Bayesmix.SemiHdp.c87_private_partial
#print axioms Bayesmix.SemiHdp.c87_shared_violated
#print axioms Bayesmix.SemiHdp.c88_table_weight_partial
#print axioms Bayesmix.SemiHdp.c88_table_weight_violated
#print axioms Bayesmix.SemiHdp.c88_first_step_violated
#print axioms Bayesmix.SemiHdp.c89_log_m_violated
#print axioms Bayesmix.SemiHdp.c89_cnt_violated
#print axioms Bayesmix.SemiHdp.c90_violated
#print axioms Bayesmix.SemiHdp.c91_stale_counts_violated
#print axioms Bayesmix.SemiHdp.c91_empty_table_violated
#print axioms Bayesmix.SemiHdp.c92_weight
#print axioms Bayesmix.SemiHdp.c92_dirichlet
#print axioms Bayesmix.Gibbs.c93_neal8_pitman_yor
#print axioms Bayesmix.Gibbs.c93_neal8_finite_mixture_partial
#print axioms Bayesmix.Gibbs.c93_neal8_dirichlet_partial
#print axioms Bayesmix.Gibbs.c93_neal8_dirichlet_violated
#print axioms Bayesmix.Gibbs.c94_neal2_pitman_yor
#print axioms Bayesmix.Gibbs.c94_neal2_nnig
#print axioms Bayesmix.Gibbs.c94_neal2_linreg
#print axioms Bayesmix.Gibbs.c94_neal2_finite_mixture_partial
#print axioms Bayesmix.Gibbs.c94_neal2_dirichlet_partial
#print axioms Bayesmix.Gibbs.c94_neal2_dirichlet_violated
#print axioms Bayesmix.Gibbs.c94_neal2_marginal
#print axioms Bayesmix.Gibbs.c94_neal2_nnw_violated
#print axioms Bayesmix.Hierarchies.c95_uni_likelihoods
#print axioms Bayesmix.Hierarchies.c95_linreg_likelihood
#print axioms Bayesmix.Hierarchies.c95_gamma_likelihood
#print axioms Bayesmix.Hierarchies.c95_multi_norm_likelihood
#print axioms Bayesmix.Hierarchies.c95_fa_likelihood
#print axioms Bayesmix.Hierarchies.c95_fa_likelihood_draws
#print axioms Bayesmix.Hierarchies.c95_nig_prior
#print axioms Bayesmix.Hierarchies.c95_nxig_prior
#print axioms Bayesmix.Hierarchies.c95_mnig_prior
#print axioms Bayesmix.Hierarchies.c95_gamma_prior
#print axioms Bayesmix.Hierarchies.c95_nw_prior
#print axioms Bayesmix.Hierarchies.c95_fa_prior
#print axioms Bayesmix.Hierarchies.c96_nnig
#print axioms Bayesmix.Hierarchies.c96_linreg
#print axioms Bayesmix.Hierarchies.c96_nnw_partial
#print axioms Bayesmix.Hierarchies.c96_nnw_violated
#print axioms Bayesmix.Hierarchies.c97_uni
#print axioms Bayesmix.Hierarchies.c97_linreg
#print axioms Bayesmix.Hierarchies.c97_multi_norm_partial
#print axioms Bayesmix.Hierarchies.c97_drawn_partial
#print axioms Bayesmix.Hierarchies.c97_multi_norm_violated
#print axioms Bayesmix.Hierarchies.c97_fa_partial
#print axioms Bayesmix.Cond.c98_blocked_truncated_sb
#print axioms Bayesmix.Cond.c98_blocked_logit_partial
#print axioms Bayesmix.Cond.c98_blocked_logit_violated
#print axioms Bayesmix.Cond.c99_slice_partial
#print axioms Bayesmix.Cond.c99_floor_violated
#print axioms Bayesmix.Cond.c100_blocked_step
#print axioms Bayesmix.Cond.c100_blocked_invariant_partial
#print axioms Bayesmix.Cond.c100_blocked_nnig_partial
#print axioms Bayesmix.Cond.c100_blocked_linreg_partial
#print axioms Bayesmix.Cond.c100_blocked_hyperprior_violated
#print axioms Bayesmix.Cond.c100_blocked_stale_violated
#print axioms Bayesmix.Chain.c101_neal3_pitman_yor
#print axioms Bayesmix.Chain.c101_neal3_nnig
#print axioms Bayesmix.Chain.c101_neal3_linreg
#print axioms Bayesmix.Chain.c101_neal3_nnw
#print axioms Bayesmix.Chain.c101_neal3_dirichlet_partial
#print axioms Bayesmix.Chain.c101_neal3_dirichlet_violated
#print axioms Bayesmix.Chain.c102_neal3_pitman_yor
#print axioms Bayesmix.Chain.c102_neal3_nnig
#print axioms Bayesmix.Chain.c102_neal3_linreg
#print axioms Bayesmix.Chain.c102_neal3_nnw
#print axioms Bayesmix.Chain.c102_neal3_coclustering
#print axioms Bayesmix.Chain.c102_neal3_dirichlet_partial
#print axioms Bayesmix.Chain.c102_neal3_dirichlet_violated
#print axioms Bayesmix.Utils.c103_mesh_partial
#print axioms Bayesmix.Utils.c103_mesh_violated
#print axioms Bayesmix.Utils.c103_only_square
#print axioms Bayesmix.Utils.c104_bars
#print axioms Bayesmix.Wrappers.c105_numbers_partial
#print axioms Bayesmix.Wrappers.c105_python_violated
#print axioms Bayesmix.Wrappers.c105_file_violated
#print axioms Bayesmix.Wrappers.c106_r
#print axioms Bayesmix.Wrappers.c106_python_violated
#print axioms Bayesmix.Wrappers.c106_python_empty_violated
#print axioms Bayesmix.Wrappers.c106_python_partial
#print axioms Bayesmix.Wrappers.c107_python
#print axioms Bayesmix.Wrappers.c107_r_partial
#print axioms Bayesmix.Wrappers.c107_r_violated
#print axioms Bayesmix.Wrappers.c108_shapes_partial
#print axioms Bayesmix.Wrappers.c108_shapes_violated
#print axioms Bayesmix.Cond.c109_blocked_converges_partial
#print axioms Bayesmix.Cond.c109_blocked_initialize_partial
#print axioms Bayesmix.Cond.c109_blocked_first_violated
#print axioms Bayesmix.Cond.c109_blocked_nnig_violated
#print axioms Bayesmix.Cond.c110_blocked_average_partial
#print axioms Bayesmix.Cond.c110_blocked_first_violated
#print axioms Bayesmix.Cond.c110_blocked_nnig_violated
#print axioms Bayesmix.Hierarchies.c111_distance
#print axioms Bayesmix.Hierarchies.c111_metric
#print axioms Bayesmix.Hierarchies.c111_accepted
#print axioms Bayesmix.Hierarchies.c111_univariate
#print axioms Bayesmix.Hierarchies.c111_empty_violated
#print axioms Bayesmix.Utils.c112_in_range
#print axioms Bayesmix.Utils.c112_law
#print axioms Bayesmix.Utils.c112_checked
#print axioms Bayesmix.Chain.c113_neal2_pitman_yor
#print axioms Bayesmix.Chain.c113_neal2_nnig
#print axioms Bayesmix.Chain.c113_neal2_linreg
#print axioms Bayesmix.Chain.c113_neal2_dirichlet_partial
#print axioms Bayesmix.Chain.c113_neal2_dirichlet_violated
#print axioms Bayesmix.Chain.c114_neal2_pitman_yor
#print axioms Bayesmix.Chain.c114_neal2_nnig
#print axioms Bayesmix.Chain.c114_neal2_linreg
#print axioms Bayesmix.Chain.c114_neal2_dirichlet_partial
#print axioms Bayesmix.Chain.c114_neal2_dirichlet_violated
#print axioms Bayesmix.Chain.c115_neal8_pitman_yor
#print axioms Bayesmix.Chain.c115_neal8_nnig
#print axioms Bayesmix.Chain.c115_neal8_linreg
#print axioms Bayesmix.Chain.c115_neal8_dirichlet_partial
#print axioms Bayesmix.Chain.c115_neal8_dirichlet_violated
#print axioms Bayesmix.Chain.c116_neal8_pitman_yor
#print axioms Bayesmix.Chain.c116_neal8_nnig
#print axioms Bayesmix.Chain.c116_neal8_linreg
#print axioms Bayesmix.Chain.c116_neal8_dirichlet_partial
#print axioms Bayesmix.Chain.c116_neal8_dirichlet_violated
#print axioms Bayesmix.Chain.c117_neal2_pitman_yor
#print axioms Bayesmix.Chain.c117_neal8_pitman_yor
#print axioms Bayesmix.Chain.c117_nnig
#print axioms Bayesmix.Chain.c117_linreg
#print axioms Bayesmix.Chain.c117_dirichlet_partial
#print axioms Bayesmix.Chain.c117_dirichlet_violated
#print axioms Bayesmix.Chain.c117_nnig_dirichlet_violated
#print axioms Bayesmix.Chain.c118_pitman_yor
#print axioms Bayesmix.Chain.c118_density_pitman_yor
#print axioms Bayesmix.Chain.c118_nnig
#print axioms Bayesmix.Chain.c118_linreg
#print axioms Bayesmix.Chain.c118_dirichlet_partial
#print axioms Bayesmix.Chain.c118_dirichlet_violated
#print axioms Bayesmix.Chain.c119_pitman_yor
#print axioms Bayesmix.Chain.c119_density_pitman_yor
#print axioms Bayesmix.Chain.c119_nnig
#print axioms Bayesmix.Chain.c119_linreg
#print axioms Bayesmix.Chain.c119_nnw_partial
#print axioms Bayesmix.Chain.c119_nnw_violated
#print axioms Bayesmix.Chain.c119_dirichlet_partial
#print axioms Bayesmix.Chain.c119_dirichlet_violated
#print axioms Bayesmix.Chain.c119_density_dirichlet_violated
#print axioms Bayesmix.Program.c120_accepted
#print axioms Bayesmix.Program.c120_values_partial
#print axioms Bayesmix.Program.c120_collector_violated
#print axioms Bayesmix.Program.c120_dangling_violated
#print axioms Bayesmix.Program.c120_plot_values
#print axioms Bayesmix.Program.c121_outputs_partial
#print axioms Bayesmix.Program.c121_grid_violated
#print axioms Bayesmix.Program.c121_same_file_violated
#print axioms Bayesmix.Program.c122_others
#print axioms Bayesmix.Program.c122_inputs
#print axioms Bayesmix.Program.c122_earlier_results_partial
#print axioms Bayesmix.Program.c122_earlier_results_violated
#print axioms Bayesmix.Program.c123_data_partial
#print axioms Bayesmix.Program.c123_matrices
#print axioms Bayesmix.Program.c123_parameters_violated
#print axioms Bayesmix.Program.c124_command_partial
#print axioms Bayesmix.Program.c124_space_violated
#print axioms Bayesmix.Program.c124_exe_violated
#print axioms Bayesmix.c125_masses_partial
#print axioms Bayesmix.c125_truncation_violated
#print axioms Bayesmix.Example.c126_initialize_iff
#print axioms Bayesmix.Example.c126_cluster_bayes
#print axioms Bayesmix.Example.c126_messages
#print axioms Bayesmix.Example.c126_neal8_converges
#print axioms Bayesmix.Example.c126_start_refused
#print axioms Bayesmix.Example.c126_averages
#print axioms Bayesmix.Example.c126_neal2_throws
#print axioms Bayesmix.c127_dirichlet_partial
#print axioms Bayesmix.c127_dirichlet_violated
#print axioms Bayesmix.c127_pitman_yor
#print axioms Bayesmix.c127_finite_mixture_partial
#print axioms Bayesmix.c127_finite_mixture_violated
#print axioms Bayesmix.c127_truncated_sb
#print axioms Bayesmix.c127_logit_sb_partial
#print axioms Bayesmix.c127_logit_sb_violated
#print axioms Bayesmix.Hierarchies.c127_nig
#print axioms Bayesmix.Hierarchies.c127_nxig
#print axioms Bayesmix.Hierarchies.c127_normal_wishart
#print axioms Bayesmix.Hierarchies.c127_lin_reg_partial
#print axioms Bayesmix.Hierarchies.c127_lin_reg_violated
#print axioms Bayesmix.Hierarchies.c127_fa_partial
#print axioms Bayesmix.Hierarchies.c127_fa_violated
#print axioms Bayesmix.Hierarchies.c128_values_partial
#print axioms Bayesmix.Hierarchies.c128_draws_violated
#print axioms Bayesmix.Hierarchies.c128_run_violated
#print axioms Bayesmix.Hierarchies.c128_initialized
#print axioms Bayesmix.Hierarchies.c128_scales_violated
#print axioms Bayesmix.Hierarchies.c128_no_data_is_ub
#print axioms Bayesmix.Chain.c129_pitman_yor_partial
#print axioms Bayesmix.Chain.c129_nnig_partial
#print axioms Bayesmix.Chain.c129_dirichlet_partial
#print axioms Bayesmix.Chain.c129_dirichlet_violated
#print axioms Bayesmix.Chain.c129_discount_violated
#print axioms Bayesmix.Chain.c129_no_full_scan_violated
#print axioms Bayesmix.Chain.c129_two_rows_partial
#print axioms Bayesmix.Chain.c129_three_rows_violated
#print axioms Bayesmix.Wrappers.c130_python
#print axioms Bayesmix.Wrappers.c130_r
#print axioms Bayesmix.Wrappers.c130_taken_violated
#print axioms Bayesmix.Chain.c131_pitman_yor_partial
#print axioms Bayesmix.Chain.c131_nnig_partial
#print axioms Bayesmix.Chain.c131_coclustering_partial
#print axioms Bayesmix.Chain.c131_dirichlet_partial
#print axioms Bayesmix.Chain.c131_dirichlet_violated
#print axioms Bayesmix.Chain.c131_two_rows_partial
#print axioms Bayesmix.Chain.c131_three_rows_violated
#print axioms Bayesmix.Density.c132_dirichlet
#print axioms Bayesmix.Density.c132_pitman_yor
#print axioms Bayesmix.Density.c132_neal8
#print axioms Bayesmix.Density.c132_finite_mixture_partial
#print axioms Bayesmix.Density.c132_finite_mixture_violated
#print axioms Bayesmix.Density.c132_finite_mixture_two_rows_violated
#print axioms Bayesmix.Density.c132_finite_mixture_neal8_violated
#print axioms Bayesmix.SemiHdp.c133_full
#print axioms Bayesmix.SemiHdp.c133_metro_base
#print axioms Bayesmix.SemiHdp.c133_metro_dist_partial
#print axioms Bayesmix.SemiHdp.c133_metro_dist_two_partial
#print axioms Bayesmix.SemiHdp.c133_metro_dist_violated
#print axioms Bayesmix.SemiHdp.c133_move
#print axioms Bayesmix.SemiHdp.c133_unknown_name_violated
#print axioms Bayesmix.SemiHdp.c134_pseudo_prior
#print axioms Bayesmix.SemiHdp.c134_probabilities
#print axioms Bayesmix.SemiHdp.c134_weight_violated
#print axioms Bayesmix.SemiHdp.c134_collectors_violated
#print axioms Bayesmix.SemiHdp.c134_perturb_partial
#print axioms Bayesmix.SemiHdp.c134_perturb_violated
#print axioms Bayesmix.SemiHdp.c135_save_violated
#print axioms Bayesmix.SemiHdp.c135_run_violated
#print axioms Bayesmix.SemiHdp.c135_nothing_collected_partial
#print axioms Bayesmix.c136_r_agrees_partial
#print axioms Bayesmix.c136_last_empty_violated
#print axioms Bayesmix.c136_empty_inside_violated
#print axioms Bayesmix.c136_cut_body_violated
#print axioms Bayesmix.Program.c137_figures_partial
#print axioms Bayesmix.Program.c137_contour_partial
#print axioms Bayesmix.Program.c137_rectangle_violated
#print axioms Bayesmix.Program.c137_dimension_violated
#print axioms Bayesmix.Program.c137_name_violated
#print axioms Bayesmix.Chain.c138_neal2_pitman_yor
#print axioms Bayesmix.Chain.c138_neal8_pitman_yor
#print axioms Bayesmix.Chain.c138_dirichlet_partial
#print axioms Bayesmix.Chain.c138_dirichlet_violated
#print axioms Bayesmix.Chain.c139_total_mass_partial
#print axioms Bayesmix.Chain.c139_total_mass_violated
#print axioms Bayesmix.Chain.c139_run_violated
#print axioms Bayesmix.Cond.c140_blocked_density_partial
#print axioms Bayesmix.Cond.c140_initialize_partial
#print axioms Bayesmix.Cond.c140_single_violated
#print axioms Bayesmix.Cond.c140_share_violated
#print axioms Bayesmix.Cond.c140_nnig_violated
#print axioms Bayesmix.Cond.c141_blocked_average_partial
#print axioms Bayesmix.Cond.c141_initialize_partial
#print axioms Bayesmix.Cond.c141_single_violated
#print axioms Bayesmix.Cond.c141_nnig_violated
#print axioms Bayesmix.SplitMerge.c142_dirichlet
#print axioms Bayesmix.SplitMerge.c142_pitman_yor
#print axioms Bayesmix.SplitMerge.c142_finite_mixture_move_violated
#print axioms Bayesmix.SplitMerge.c142_finite_mixture_scan_violated
#print axioms Bayesmix.SplitMerge.c142_finite_mixture_coefficients
#print axioms Bayesmix.SplitMerge.c142_finite_mixture_partial
#print axioms Bayesmix.Slice.c143_last_used_partial
#print axioms Bayesmix.Slice.c143_violated
#print axioms Bayesmix.c144_dirichlet
#print axioms Bayesmix.c144_dirichlet_gamma
#print axioms Bayesmix.c144_pitman_yor
#print axioms Bayesmix.c144_finite_mixture
#print axioms Bayesmix.c144_truncated_partial
#print axioms Bayesmix.c144_truncated_violated
#print axioms Bayesmix.c144_logit_partial
#print axioms Bayesmix.c144_logit_violated
#print axioms Bayesmix.Hierarchies.c145_nig
#print axioms Bayesmix.Hierarchies.c145_nxig_violated
#print axioms Bayesmix.Chain.c146_laplace_runs_violated
#print axioms Bayesmix.Chain.c146_random_walk_partial
#print axioms Bayesmix.Chain.c146_random_walk_slice_partial
#print axioms Bayesmix.Hierarchies.c147_fixed
#print axioms Bayesmix.Hierarchies.c147_ngg
#print axioms Bayesmix.Hierarchies.c147_fa
#print axioms Bayesmix.Hierarchies.c147_multivariate
#print axioms Bayesmix.Hierarchies.c147_normal_mean_partial
#print axioms Bayesmix.Hierarchies.c147_normal_mean_violated
#print axioms Bayesmix.Hierarchies.c147_ngiw_partial
#print axioms Bayesmix.Hierarchies.c147_ngiw_violated
#print axioms Bayesmix.Program.c148_r_runs
#print axioms Bayesmix.Program.c148_r_failed_build
#print axioms Bayesmix.Program.c148_r_no_build
#print axioms Bayesmix.Program.c148_python_new_process_partial
#print axioms Bayesmix.Program.c148_python_failed_build_violated
#print axioms Bayesmix.Program.c148_python_same_process_violated
#print axioms Bayesmix.Mixing.c149_never_fails
#print axioms Bayesmix.Mixing.c149_empty_column
#print axioms Bayesmix.Mixing.c149_update_violated
#print axioms Bayesmix.Chain.c150_fixed
#print axioms Bayesmix.Chain.c150_normal_mean
#print axioms Bayesmix.Chain.c150_ngg_violated
#print axioms Bayesmix.Chain.c151_violated
#print axioms Bayesmix.Chain.c151_product_law
#print axioms Bayesmix.Chain.c151_unique_law
#print axioms Bayesmix.Chain.c151_empty_partial
#print axioms Bayesmix.Chain.c152_violated
#print axioms Bayesmix.Chain.c153_row_updates
#print axioms Bayesmix.Chain.c153_violated
#print axioms Bayesmix.Chain.c153_dirichlet_violated
#print axioms Bayesmix.Chain.c154_pitman_yor_violated
#print axioms Bayesmix.Chain.c154_dirichlet_violated
#print axioms Bayesmix.Chain.c155_violated
#print axioms Bayesmix.Chain.c156_pitman_yor_partial
#print axioms Bayesmix.Chain.c156_dirichlet_partial
#print axioms Bayesmix.Chain.c156_violated

{
 "claims": [
  {
   "property": "C01",
   "status": "proved",
   "theorems": [
    "Bayesmix.c01_neal2_neal3_consistent",
    "Bayesmix.c01_neal2_neal3_run"
   ],
   "note": "Neal2 and Neal3, any number of iterations, any draws, at least two rows; c01_neal2_neal3_run starts from initialize. One row: see C03."
  },
  {
   "property": "C02",
   "status": "proved",
   "theorems": [
    "Bayesmix.c02_neal8_consistent",
    "Bayesmix.c02_no_aux_is_ub"
   ],
   "note": "Needs at least one auxiliary block; c02_no_aux_is_ub shows that zero auxiliary blocks is undefined behaviour. Draws of the updater do not throw in this model; an updater whose draws throw is treated in C146."
  },
  {
   "property": "C03",
   "status": "partial",
   "theorems": [
    "Bayesmix.c01_neal2_neal3_consistent",
    "Bayesmix.c02_neal8_consistent",
    "Bayesmix.c03_single_row_is_ub"
   ],
   "note": "Proved for at least two rows (model returns no fault). For a single row the claim is false for Neal2/Neal3: c03_single_row_is_ub."
  },
  {
   "property": "C04",
   "status": "proved",
   "theorems": [
    "Bayesmix.c04_neal2_others_unmoved",
    "Bayesmix.c04_neal8_others_unmoved"
   ],
   "note": ""
  },
  {
   "property": "C05",
   "status": "partial",
   "theorems": [
    "Bayesmix.c05_neal3_draws_from_posterior",
    "Bayesmix.c05_neal2_draws_from_posterior_partial",
    "Bayesmix.c05_neal2_violated",
    "Bayesmix.c05_initialized_object_ignores_data",
    "Bayesmix.SplitMerge.c05_split_merge_draws_from_posterior"
   ],
   "note": "Full for Neal3 and split-merge. For Neal2-like samplers the object handed in by the user keeps the prior hypers cached by initialize: all clusters but one are right, and the violation is proved."
  },
  {
   "property": "C06",
   "status": "partial",
   "theorems": [
    "Bayesmix.c06_neal3_predictive_hypers_partial",
    "Bayesmix.c06_violated_with_hyperprior",
    "Bayesmix.SplitMerge.c06_split_merge_predictive_hypers_partial"
   ],
   "note": "Proved when hyperparameters are fixed; false with a hyperprior (concrete run)."
  },
  {
   "property": "C07",
   "status": "proved",
   "theorems": [
    "Bayesmix.c07_blocked_gibbs_consistent",
    "Bayesmix.c07_blocked_gibbs_moves_one"
   ],
   "note": ""
  },
  {
   "property": "C12",
   "status": "partial",
   "theorems": [
    "Bayesmix.c12_initialize_consistent",
    "Bayesmix.c12_too_many_clusters_is_ub",
    "Bayesmix.c12_second_initialize_throws"
   ],
   "note": "Holds when the number of initial clusters is at most the number of rows, on the first call; both other cases are shown to fail."
  },
  {
   "property": "C13",
   "status": "proved",
   "theorems": [
    "Bayesmix.c13_decision_table"
   ],
   "note": ""
  },
  {
   "property": "C14",
   "status": "proved",
   "theorems": [
    "Bayesmix.c14_run_saves_post_burnin",
    "Bayesmix.c14_run_into_memory",
    "Bayesmix.c14_run_into_file"
   ],
   "note": ""
  },
  {
   "property": "C15",
   "status": "proved",
   "theorems": [
    "Bayesmix.c15_memory_collector_is_log"
   ],
   "note": "Counters are naturals (no wrap at 2^32)."
  },
  {
   "property": "C16",
   "status": "partial",
   "theorems": [
    "Bayesmix.c16_read_into_new_collector_partial",
    "Bayesmix.c16_write_then_read",
    "Bayesmix.c16_violated_size",
    "Bayesmix.c16_violated_cursor"
   ],
   "note": "Holds for a new collector; false when the collector already holds states (size, then out-of-range read) or has been read (cursor)."
  },
  {
   "property": "C17",
   "status": "proved",
   "theorems": [
    "Bayesmix.c17_file_collector_any_chunk_size",
    "Bayesmix.c17_nonpositive_chunk_is_ub"
   ],
   "note": "Chunk size at least 1; zero or negative is shown to be undefined behaviour."
  },
  {
   "property": "C18",
   "status": "proved",
   "theorems": [
    "Bayesmix.c18_decode_encode",
    "Bayesmix.c18_no_collision",
    "Bayesmix.c18_append"
   ],
   "note": "Protobuf message serialization is an abstract codec; varint framing is modelled on bytes."
  },
  {
   "property": "C19",
   "status": "proved",
   "theorems": [
    "Bayesmix.c19_truncated_file",
    "Bayesmix.c19_crash_leaves_prefix"
   ],
   "note": ""
  },
  {
   "property": "C20",
   "status": "partial",
   "theorems": [
    "Bayesmix.c20_python_agrees_partial",
    "Bayesmix.c20_python_on_cut_file",
    "Bayesmix.c20_violated_on_cut_file"
   ],
   "note": "Agreement on complete files; on cut files the possible outcomes are characterised and the disagreement is shown."
  },
  {
   "property": "C21",
   "status": "proved",
   "theorems": [
    "Bayesmix.c21_chunks_generic",
    "Bayesmix.c21_memory_chunks",
    "Bayesmix.c21_file_chunks"
   ],
   "note": ""
  },
  {
   "property": "C22",
   "status": "proved",
   "theorems": [
    "Bayesmix.c22_eval_lpdf",
    "Bayesmix.c22_empty_chain_is_ub"
   ],
   "note": "Non-empty chain; empty chain shown to be undefined behaviour."
  },
  {
   "property": "C23",
   "status": "proved",
   "theorems": [
    "Bayesmix.c23_low_memory_parallel",
    "Bayesmix.c23_zero_chunk_never_ends"
   ],
   "note": ""
  },
  {
   "property": "C24",
   "status": "partial",
   "theorems": [
    "Bayesmix.c24_full_memory_parallel_partial",
    "Bayesmix.c24_full_memory_violated"
   ],
   "note": "Rows are right up to a permutation; the order is wrong for two or more jobs."
  },
  {
   "property": "C61",
   "status": "partial",
   "theorems": [
    "Bayesmix.c61_file_size_after_one_run_partial",
    "Bayesmix.c61_file_size_violated"
   ],
   "note": "Holds after one run into a new file collector; violated for a reused collector, whose size counts the states of all runs."
  },
  {
   "property": "C62",
   "status": "partial",
   "theorems": [
    "Bayesmix.c62_run_mcmc_outputs_partial",
    "Bayesmix.c62_run_mcmc_outputs_violated"
   ],
   "note": "Each file has the right rows, the clusterings in the order of the chain; violated: row i of the two files need not refer to the same state, because the densities come out in another order."
  },
  {
   "property": "C25",
   "status": "proved",
   "theorems": [
    "Bayesmix.c25_dirichlet_masses"
   ],
   "note": ""
  },
  {
   "property": "C26",
   "status": "partial",
   "theorems": [
    "Bayesmix.c26_dirichlet_log_mass_partial",
    "Bayesmix.c26_dirichlet_log_mass_violated",
    "Bayesmix.c26_pitman_yor_log_mass",
    "Bayesmix.c26_finite_mixture_log_mass"
   ],
   "note": "Holds for Pitman-Yor and finite mixtures and for existing clusters of the DP; violated for new clusters of the DP during sampling."
  },
  {
   "property": "C27",
   "status": "proved",
   "theorems": [
    "Bayesmix.c27_pitman_yor_masses",
    "Bayesmix.c27_zero_discount_is_dirichlet"
   ],
   "note": ""
  },
  {
   "property": "C28",
   "status": "partial",
   "theorems": [
    "Bayesmix.c28_coefficients_exist",
    "Bayesmix.c28_finite_mixture_masses_partial",
    "Bayesmix.c28_finite_mixture_violated"
   ],
   "note": "Sum-to-one whenever fewer clusters than data; otherwise shown to be out of bounds."
  },
  {
   "property": "C29",
   "status": "proved",
   "theorems": [
    "Bayesmix.c29_pitman_yor_exchangeable",
    "Bayesmix.c29_dirichlet_exchangeable"
   ],
   "note": ""
  },
  {
   "property": "C30",
   "status": "partial",
   "theorems": [
    "Bayesmix.c30_truncated_weights",
    "Bayesmix.c30_update_finite_sums_to_one",
    "Bayesmix.c30_initial_weights_violated"
   ],
   "note": "Everything but the initial weights, which are shown to sum to less than one."
  },
  {
   "property": "C31",
   "status": "proved",
   "theorems": [
    "Bayesmix.c31_keep_breaking",
    "Bayesmix.c31_keep_breaking_dp_succeeds"
   ],
   "note": ""
  },
  {
   "property": "C32",
   "status": "partial",
   "theorems": [
    "Bayesmix.c32_shape_parameters_partial",
    "Bayesmix.c32_shape_parameters_violated"
   ],
   "note": "Positive for every accepted prior except the last pair of a list of Beta priors and the first component of a Pitman-Yor prior with strength not positive; both exceptions are shown to be accepted with negative parameters."
  },
  {
   "property": "C33",
   "status": "partial",
   "theorems": [
    "Bayesmix.c33_logit_weights_partial",
    "Bayesmix.c33_logit_weights_violated"
   ],
   "note": "Positive, one per component, at most one in total; violated: the total is never one."
  },
  {
   "property": "C63",
   "status": "partial",
   "theorems": [
    "Bayesmix.c63_finite_mixture_exchangeable_partial",
    "Bayesmix.c63_truncated_violated"
   ],
   "note": "Holds for the exact series; violated for the truncated one."
  },
  {
   "property": "C64",
   "status": "partial",
   "theorems": [
    "Bayesmix.c64_masses_independent_of_history_partial",
    "Bayesmix.c64_masses_independent_of_history_violated"
   ],
   "note": "Holds as long as all queries are about the same number of data; violated otherwise, because the coefficients are computed once."
  },
  {
   "property": "C65",
   "status": "partial",
   "theorems": [
    "Bayesmix.c65_acceptance_ratio_partial",
    "Bayesmix.c65_acceptance_ratio_violated"
   ],
   "note": "Exact characterisation of when the ratio is right, and a witness that it is not in general."
  },
  {
   "property": "C66",
   "status": "proved",
   "theorems": [
    "Bayesmix.c66_full_conditional",
    "Bayesmix.c66_gradient",
    "Bayesmix.c66_proposal"
   ],
   "note": ""
  },
  {
   "property": "C67",
   "status": "partial",
   "theorems": [
    "Bayesmix.c67_total_mass_update_partial",
    "Bayesmix.c67_total_mass_update_violated"
   ],
   "note": "Escobar and West whenever the auxiliary variable is in the unit interval, where the code does not keep it (gamma instead of beta); violated: large draws make the update throw. The law of the update is C139."
  },
  {
   "property": "C68",
   "status": "proved",
   "theorems": [
    "Bayesmix.c68_neal2_neal3_move",
    "Bayesmix.c68_neal8_move",
    "Bayesmix.c68_every_option_reachable"
   ],
   "note": ""
  },
  {
   "property": "C69",
   "status": "partial",
   "theorems": [
    "Bayesmix.c69_neal2_neal3_hypers",
    "Bayesmix.c69_neal8_hypers",
    "Bayesmix.c69_blocked_gibbs_hypers",
    "Bayesmix.Slice.c69_slice_violated"
   ],
   "note": "proved for Neal2, Neal3, Neal8 and blocked Gibbs; the slice sampler never updates the hyperparameters"
  },
  {
   "property": "C70",
   "status": "partial",
   "theorems": [
    "Bayesmix.c70_initial_labels",
    "Bayesmix.c70_initial_values_partial",
    "Bayesmix.c70_last_cluster_not_drawn_violated"
   ],
   "note": "Labels and the values of all clusters but the last; violated: the last cluster never gets a draw of its own."
  },
  {
   "property": "C71",
   "status": "proved",
   "theorems": [
    "Bayesmix.c71_stick_update",
    "Bayesmix.c71_new_sticks"
   ],
   "note": "Pitman-Yor shapes as the code computes them; that they differ from the usual ones is C32."
  },
  {
   "property": "C46",
   "status": "partial",
   "theorems": [
    "Bayesmix.Utils.c46_vector_roundtrip",
    "Bayesmix.Utils.c46_matrix_roundtrip_partial",
    "Bayesmix.Utils.c46_empty_matrix_violated",
    "Bayesmix.Utils.c46_storage_orders",
    "Bayesmix.Utils.c46_short_data_is_ub"
   ],
   "note": "a matrix with no rows or no columns loses its other dimension (Utils.c46_empty_matrix_violated)"
  },
  {
   "property": "C47",
   "status": "partial",
   "theorems": [
    "Bayesmix.Utils.c47_axis",
    "Bayesmix.Utils.c47_grid_partial",
    "Bayesmix.Utils.c47_grid_violated"
   ],
   "note": "right exactly when the axes have equal lengths or are degenerate; otherwise out-of-range or missing rows (Utils.c47_grid_violated)"
  },
  {
   "property": "C48",
   "status": "proved",
   "theorems": [
    "Bayesmix.Utils.c48_vstack",
    "Bayesmix.Utils.c48_vstack_nothing_is_ub",
    "Bayesmix.Utils.c48_append",
    "Bayesmix.Utils.c48_append_assoc",
    "Bayesmix.Utils.c48_stack_vectors"
   ],
   "note": ""
  },
  {
   "property": "C49",
   "status": "proved",
   "theorems": [
    "Bayesmix.Utils.c49_fraction",
    "Bayesmix.Utils.c49_relabel"
   ],
   "note": "the diagonal and the upper triangle are zero"
  },
  {
   "property": "C50",
   "status": "partial",
   "theorems": [
    "Bayesmix.Utils.c50_first_minimiser_partial",
    "Bayesmix.Utils.c50_uninitialised_violated",
    "Bayesmix.Utils.c50_empty_chain_fails"
   ],
   "note": "holds if the uninitialised accumulators are zero; otherwise any row may be returned"
  },
  {
   "property": "C51",
   "status": "partial",
   "theorems": [
    "Bayesmix.Utils.c51_roundtrip_partial",
    "Bayesmix.Utils.c51_empty_matrix_violated",
    "Bayesmix.Utils.c51_ragged",
    "Bayesmix.Utils.c51_bad_entry_throws"
   ],
   "note": "matrices without entries lose their shape"
  },
  {
   "property": "C52",
   "status": "proved",
   "theorems": [
    "Bayesmix.Utils.c52_lookup",
    "Bayesmix.Utils.c52_grid_pointwise",
    "Bayesmix.Utils.c52_prior_grid_agrees",
    "Bayesmix.Hierarchies.c52_student_grid"
   ],
   "note": ""
  },
  {
   "property": "C53",
   "status": "partial",
   "theorems": [
    "Bayesmix.Utils.c53_first_registration_wins",
    "Bayesmix.Utils.c53_registration_idempotent",
    "Bayesmix.Utils.c53_known_builders",
    "Bayesmix.Utils.c53_known_name_partial",
    "Bayesmix.Utils.c53_unknown_name_violated"
   ],
   "note": "creation by an unknown name uses an uninitialised identifier"
  },
  {
   "property": "C34",
   "status": "proved",
   "theorems": [
    "Bayesmix.Hierarchies.c34_members",
    "Bayesmix.Hierarchies.c34_legal_iff",
    "Bayesmix.Hierarchies.c34_cardinality",
    "Bayesmix.Hierarchies.c34_uni_norm",
    "Bayesmix.Hierarchies.c34_multi_norm",
    "Bayesmix.Hierarchies.c34_lin_reg",
    "Bayesmix.Hierarchies.c34_fa",
    "Bayesmix.Hierarchies.c34_gamma",
    "Bayesmix.Hierarchies.c34_insert_remove_identity",
    "Bayesmix.Hierarchies.c34_clone"
   ],
   "note": ""
  },
  {
   "property": "C44",
   "status": "proved",
   "theorems": [
    "Bayesmix.Hierarchies.c44_cluster_lpdf",
    "Bayesmix.Hierarchies.c44_cluster_lpdf_laplace"
   ],
   "note": ""
  },
  {
   "property": "C35",
   "status": "proved",
   "theorems": [
    "Bayesmix.Hierarchies.c35_bayes_rule",
    "Bayesmix.Hierarchies.c35_batch_eq_sequential",
    "Bayesmix.Hierarchies.c35_order_independent",
    "Bayesmix.Hierarchies.c35_cluster_bayes",
    "Bayesmix.Hierarchies.c35_predictive"
   ],
   "note": ""
  },
  {
   "property": "C36",
   "status": "proved",
   "theorems": [
    "Bayesmix.Hierarchies.c36_nig_valid",
    "Bayesmix.Hierarchies.c36_nxig_valid",
    "Bayesmix.Hierarchies.c36_gamma_valid",
    "Bayesmix.Hierarchies.c36_nw_valid"
   ],
   "note": ""
  },
  {
   "property": "C39",
   "status": "proved",
   "theorems": [
    "Bayesmix.Hierarchies.c39_mean_conditional",
    "Bayesmix.Hierarchies.c39_variance_conditional"
   ],
   "note": ""
  },
  {
   "property": "C72",
   "status": "partial",
   "theorems": [
    "Bayesmix.Hierarchies.c72_semi_conjugate_draw_partial",
    "Bayesmix.Hierarchies.c72_semi_conjugate_draw_violated"
   ],
   "note": "both parameters are drawn from the full conditionals at the state before the draw"
  },
  {
   "property": "C37",
   "status": "proved",
   "theorems": [
    "Bayesmix.Hierarchies.c37_bayes_rule",
    "Bayesmix.Hierarchies.c37_batch_eq_sequential",
    "Bayesmix.Hierarchies.c37_order_independent",
    "Bayesmix.Hierarchies.c37_cluster_bayes"
   ],
   "note": ""
  },
  {
   "property": "C38",
   "status": "proved",
   "theorems": [
    "Bayesmix.Hierarchies.c38_batch_eq_sequential",
    "Bayesmix.Hierarchies.c38_order_independent",
    "Bayesmix.Hierarchies.c38_posterior_values"
   ],
   "note": ""
  },
  {
   "property": "C73",
   "status": "proved",
   "theorems": [
    "Bayesmix.Hierarchies.c73_bayes_rule",
    "Bayesmix.Hierarchies.c73_cluster_bayes"
   ],
   "note": ""
  },
  {
   "property": "C74",
   "status": "partial",
   "theorems": [
    "Bayesmix.Hierarchies.c74_multi_normal_likelihood_partial",
    "Bayesmix.Hierarchies.c74_multi_normal_likelihood_violated"
   ],
   "note": "exact condition for drawn states, and a witness that it fails"
  },
  {
   "property": "C40",
   "status": "partial",
   "theorems": [
    "Bayesmix.Hierarchies.c40_clone",
    "Bayesmix.Hierarchies.c40_clone_keeps_sharing",
    "Bayesmix.Hierarchies.c40_deep_clone_independent",
    "Bayesmix.Hierarchies.c40_deep_clone_hypers_partial",
    "Bayesmix.Hierarchies.c40_deep_clone_hypers_violated",
    "Bayesmix.Hierarchies.c40_null_prior_is_ub"
   ],
   "note": "deep clones have the initial hyperparameters of the prior message, not the updated ones"
  },
  {
   "property": "C41",
   "status": "proved",
   "theorems": [
    "Bayesmix.Hierarchies.c41_uni_ls",
    "Bayesmix.Hierarchies.c41_lin_reg",
    "Bayesmix.Hierarchies.c41_multi_ls",
    "Bayesmix.Hierarchies.c41_multi_ls_logdet",
    "Bayesmix.Hierarchies.c41_fa",
    "Bayesmix.Hierarchies.c41_get_state_proto_card",
    "Bayesmix.Hierarchies.c41_wrong_kind_reads_default"
   ],
   "note": "matrices are never assigned or have rows and columns, as in every state the samplers store; get_state_proto carries no cardinality"
  },
  {
   "property": "C42",
   "status": "proved",
   "theorems": [
    "Bayesmix.Hierarchies.c42_uni_ls",
    "Bayesmix.Hierarchies.c42_lin_reg",
    "Bayesmix.Hierarchies.c42_multi_ls",
    "Bayesmix.Hierarchies.c42_multi_ls_sizes",
    "Bayesmix.Hierarchies.c42_multi_ls_state"
   ],
   "note": ""
  },
  {
   "property": "C43",
   "status": "partial",
   "theorems": [
    "Bayesmix.Hierarchies.c43_random_walk_partial",
    "Bayesmix.Hierarchies.c43_mala_partial",
    "Bayesmix.Hierarchies.c43_proposal_density",
    "Bayesmix.Hierarchies.c43_full_conditional_violated",
    "Bayesmix.Hierarchies.c43_uninitialised_violated",
    "Bayesmix.Hierarchies.c43_never_fails",
    "Bayesmix.Hierarchies.c43_kernel_partial",
    "Bayesmix.Hierarchies.c43_kernel_violated",
    "Bayesmix.Hierarchies.c43_proper_prior_violated",
    "Bayesmix.Hierarchies.c43_laplace_violated",
    "Bayesmix.Hierarchies.c43_nnig_violated"
   ],
   "note": "balance holds for the likelihood alone with zero accumulators, between states and for the law of the state; with the prior it holds only between states of equal prior density, and the law of the full conditional is kept exactly if the prior is almost everywhere constant, so for no proper prior; in particular never for the Laplace hierarchy with a random walk nor for the NNIG hierarchy"
  },
  {
   "property": "C75",
   "status": "partial",
   "theorems": [
    "Bayesmix.Hierarchies.c75_uni_ls",
    "Bayesmix.Hierarchies.c75_lin_reg",
    "Bayesmix.Hierarchies.c75_multi_ls_violated"
   ],
   "note": "the multivariate function throws"
  },
  {
   "property": "C76",
   "status": "partial",
   "theorems": [
    "Bayesmix.Hierarchies.c76_default_laplace_updater_violated",
    "Bayesmix.Hierarchies.c76_laplace_random_walk_partial",
    "Bayesmix.Hierarchies.c76_positive_step_partial"
   ],
   "note": "the Langevin updater throws for every step size, because the prior of the Laplace hierarchy has no log density for unconstrained parameters; the random walk never fails"
  },
  {
   "property": "C59",
   "status": "proved",
   "theorems": [
    "Bayesmix.Hierarchies.c59_logdet",
    "Bayesmix.Hierarchies.c59_quadratic_form",
    "Bayesmix.Hierarchies.c59_lpdf"
   ],
   "note": ""
  },
  {
   "property": "C45",
   "status": "partial",
   "theorems": [
    "Bayesmix.Hierarchies.c45_in_sync_partial",
    "Bayesmix.Hierarchies.c45_initial_state_partial",
    "Bayesmix.Hierarchies.c45_stale_after_draws",
    "Bayesmix.Hierarchies.c45_prior_draw_unusable",
    "Bayesmix.Hierarchies.c45_in_sync_violated"
   ],
   "note": "holds directly after initialisation or reading a state; draws leave the derived members stale or unset"
  },
  {
   "property": "C77",
   "status": "partial",
   "theorems": [
    "Bayesmix.Hierarchies.c77_scores",
    "Bayesmix.Hierarchies.c77_loadings",
    "Bayesmix.Hierarchies.c77_means_partial",
    "Bayesmix.Hierarchies.c77_means_violated",
    "Bayesmix.Hierarchies.c77_noise_partial",
    "Bayesmix.Hierarchies.c77_noise_violated",
    "Bayesmix.Hierarchies.c77_draw_order"
   ],
   "note": "exact conditions under which the means and variances are right"
  },
  {
   "property": "C78",
   "status": "proved",
   "theorems": [
    "Bayesmix.Hierarchies.c78_prec_chol_rng",
    "Bayesmix.Hierarchies.c78_diag_rng"
   ],
   "note": ""
  },
  {
   "property": "C60",
   "status": "partial",
   "theorems": [
    "Bayesmix.Hierarchies.c60_nig_normal_mean",
    "Bayesmix.Hierarchies.c60_ngg_mean_partial",
    "Bayesmix.Hierarchies.c60_ngg_mean_violated",
    "Bayesmix.Hierarchies.c60_ngg_scaling_partial",
    "Bayesmix.Hierarchies.c60_ngg_scaling_violated",
    "Bayesmix.Hierarchies.c60_ngg_scale",
    "Bayesmix.Hierarchies.c60_ngg_update",
    "Bayesmix.Hierarchies.c60_nw_normal_mean",
    "Bayesmix.Hierarchies.c60_ngiw_mean",
    "Bayesmix.Hierarchies.c60_ngiw_scaling_partial",
    "Bayesmix.Hierarchies.c60_ngiw_scaling_violated",
    "Bayesmix.Hierarchies.c60_ngiw_scale",
    "Bayesmix.Hierarchies.c60_ngiw_update"
   ],
   "note": "Normal prior on the mean proved; the other priors violate the claim for mean or scaling, with exact conditions"
  },
  {
   "property": "C79",
   "status": "partial",
   "theorems": [
    "Bayesmix.Hierarchies.c79_fixed",
    "Bayesmix.Hierarchies.c79_ngg_never_fails",
    "Bayesmix.Hierarchies.c79_normal_mean_partial",
    "Bayesmix.Hierarchies.c79_normal_mean_violated",
    "Bayesmix.Hierarchies.c79_ngiw_never_fails",
    "Bayesmix.Hierarchies.c79_nw_normal_mean_never_fails"
   ],
   "note": "fails only for an unchecked variance"
  },
  {
   "property": "C80",
   "status": "partial",
   "theorems": [
    "Bayesmix.Hierarchies.c80_l2_distance",
    "Bayesmix.Hierarchies.c80_unit_sums_partial",
    "Bayesmix.Hierarchies.c80_symmetric_partial",
    "Bayesmix.Hierarchies.c80_l2_distance_violated"
   ],
   "note": "univariate overload"
  },
  {
   "property": "C08",
   "status": "partial",
   "theorems": [
    "Bayesmix.Slice.c08_step",
    "Bayesmix.Slice.c08_run",
    "Bayesmix.Slice.c08_labels_above_slice",
    "Bayesmix.Slice.c08_step_succeeds",
    "Bayesmix.Slice.c08_truncation_partial",
    "Bayesmix.Slice.c08_init",
    "Bayesmix.Slice.c08_truncation_violated",
    "Bayesmix.Slice.c08_zero_components_violated",
    "Bayesmix.Slice.c08_beta_priors_violated"
   ],
   "note": "alignment proved for all draws and any number of iterations; coverage holds only for the slice levels of the previous iteration"
  },
  {
   "property": "C81",
   "status": "proved",
   "theorems": [
    "Bayesmix.Hierarchies.c81_nig",
    "Bayesmix.Hierarchies.c81_nxig",
    "Bayesmix.Hierarchies.c81_nw",
    "Bayesmix.Hierarchies.c81_mnig",
    "Bayesmix.Hierarchies.c81_gamma",
    "Bayesmix.Hierarchies.c81_fa"
   ],
   "note": ""
  },
  {
   "property": "C82",
   "status": "proved",
   "theorems": [
    "Bayesmix.Hierarchies.c82_gamma_bayes",
    "Bayesmix.Hierarchies.c82_gamma_draw",
    "Bayesmix.Hierarchies.c82_nnig_draw",
    "Bayesmix.Hierarchies.c82_lin_reg_draw",
    "Bayesmix.Hierarchies.c82_nnw_draw"
   ],
   "note": "for the Normal-Wishart model the likelihood is the exact Gaussian density; how the code evaluates it is C74"
  },
  {
   "property": "C09",
   "status": "proved",
   "theorems": [
    "Bayesmix.SplitMerge.c09_update",
    "Bayesmix.SplitMerge.c09_run"
   ],
   "note": "conjugate hierarchies (the only ones the sampler accepts); randomness is arbitrary"
  },
  {
   "property": "C10",
   "status": "proved",
   "theorems": [
    "Bayesmix.SplitMerge.c10_update",
    "Bayesmix.SplitMerge.c10_decision"
   ],
   "note": ""
  },
  {
   "property": "C11",
   "status": "proved",
   "theorems": [
    "Bayesmix.SplitMerge.c11_distinct",
    "Bayesmix.SplitMerge.c11_every_pair",
    "Bayesmix.SplitMerge.c11_single_row_throws"
   ],
   "note": ""
  },
  {
   "property": "C83",
   "status": "partial",
   "theorems": [
    "Bayesmix.SplitMerge.c83_balance_iff",
    "Bayesmix.SplitMerge.c83_scan_probability",
    "Bayesmix.SplitMerge.c83_nnig_marginal",
    "Bayesmix.Chain.c83_conjugate_marginal",
    "Bayesmix.SplitMerge.c83_dirichlet_partial",
    "Bayesmix.SplitMerge.c83_dirichlet_violated",
    "Bayesmix.SplitMerge.c83_pitman_yor_violated",
    "Bayesmix.SplitMerge.c83_finite_mixture_balance_iff",
    "Bayesmix.SplitMerge.c83_finite_mixture_violated"
   ],
   "note": "holds exactly when the new-cluster mass is the one for the current number of clusters: Dirichlet process with total mass one, Pitman-Yor with discount zero or two clusters, mixture of finite mixtures with two clusters and a table made for the number of rows. C142 says for how many rows the table is made"
  },
  {
   "property": "C55",
   "status": "partial",
   "theorems": [
    "Bayesmix.Gibbs.c55_pitman_yor",
    "Bayesmix.Gibbs.c55_dirichlet_partial",
    "Bayesmix.Gibbs.c55_dirichlet_violated",
    "Bayesmix.Gibbs.c55_finite_mixture_partial"
   ],
   "note": "holds for the Pitman-Yor process; with a Dirichlet process the code targets total mass one; finite mixtures: for the truncated coefficients and while two other rows share a cluster. Fixed hyperparameters (with a hyperprior the caches are stale, C06)"
  },
  {
   "property": "C54",
   "status": "partial",
   "theorems": [
    "Bayesmix.Density.c54_dirichlet",
    "Bayesmix.Density.c54_pitman_yor",
    "Bayesmix.Density.c54_neal8_component",
    "Bayesmix.Density.c54_integrates_to_one",
    "Bayesmix.Density.c54_saved_cards",
    "Bayesmix.Density.c54_finite_mixture_partial",
    "Bayesmix.Density.c54_finite_mixture_violated",
    "Bayesmix.Density.c54_reader_violated"
   ],
   "note": "holds for the Dirichlet and Pitman-Yor processes; fails for the mixture of finite mixtures when every datum is alone, and for an algorithm object that was never initialised with data"
  },
  {
   "property": "C84",
   "status": "partial",
   "theorems": [
    "Bayesmix.Density.c84_finite_partial",
    "Bayesmix.Density.c84_infinite_violated",
    "Bayesmix.Density.c84_logit_violated"
   ],
   "note": "holds for finite mixtures with truncated stick-breaking weights; the slice sampler and the logit mixing give weights that sum to less than one"
  },
  {
   "property": "C56",
   "status": "partial",
   "theorems": [
    "Bayesmix.SemiHdp.c56_relabel",
    "Bayesmix.SemiHdp.c56_run",
    "Bayesmix.SemiHdp.c56_empty_group_violated"
   ],
   "note": "holds when every group has an observation; with an empty group relabel takes the maximum of an empty range"
  },
  {
   "property": "C57",
   "status": "partial",
   "theorems": [
    "Bayesmix.SemiHdp.c57_violated",
    "Bayesmix.SemiHdp.c57_partial",
    "Bayesmix.SemiHdp.c57_run_violated"
   ],
   "note": "holds for thinning 1 only; otherwise all iterations or none are collected"
  },
  {
   "property": "C58",
   "status": "partial",
   "theorems": [
    "Bayesmix.SemiHdp.c58_violated",
    "Bayesmix.SemiHdp.c58_partial"
   ],
   "note": "the shared values are repeated once per group; the other parts of the message are right; the types of the messages are in C135"
  },
  {
   "property": "C85",
   "status": "partial",
   "theorems": [
    "Bayesmix.SemiHdp.c85_run_partial",
    "Bayesmix.SemiHdp.c85_small_group_violated",
    "Bayesmix.SemiHdp.c85_multivariate_violated",
    "Bayesmix.SemiHdp.c85_thin_violated"
   ],
   "note": "holds for univariate groups of at least five observations; the float-to-int conversions are in C88, writing the collected states to messages in C135"
  },
  {
   "property": "C86",
   "status": "proved",
   "theorems": [
    "Bayesmix.SemiHdp.c86_unique_vals"
   ],
   "note": ""
  },
  {
   "property": "C87",
   "status": "partial",
   "theorems": [
    "Bayesmix.SemiHdp.c87_private_partial",
    "Bayesmix.SemiHdp.c87_shared_violated"
   ],
   "note": "holds for private values; a concrete run shows the failure for shared values"
  },
  {
   "property": "C88",
   "status": "partial",
   "theorems": [
    "Bayesmix.SemiHdp.c88_table_weight_partial",
    "Bayesmix.SemiHdp.c88_table_weight_violated",
    "Bayesmix.SemiHdp.c88_first_step_violated"
   ],
   "note": "weights are right up to a factor e; empty tables are undefined behaviour"
  },
  {
   "property": "C89",
   "status": "partial",
   "theorems": [
    "Bayesmix.SemiHdp.c89_log_m_violated",
    "Bayesmix.SemiHdp.c89_cnt_violated"
   ],
   "note": "violated"
  },
  {
   "property": "C90",
   "status": "partial",
   "theorems": [
    "Bayesmix.SemiHdp.c90_violated"
   ],
   "note": "violated"
  },
  {
   "property": "C91",
   "status": "partial",
   "theorems": [
    "Bayesmix.SemiHdp.c91_stale_counts_violated",
    "Bayesmix.SemiHdp.c91_empty_table_violated"
   ],
   "note": "violated"
  },
  {
   "property": "C92",
   "status": "proved",
   "theorems": [
    "Bayesmix.SemiHdp.c92_weight",
    "Bayesmix.SemiHdp.c92_dirichlet"
   ],
   "note": ""
  },
  {
   "property": "C93",
   "status": "partial",
   "theorems": [
    "Bayesmix.Gibbs.c93_neal8_pitman_yor",
    "Bayesmix.Gibbs.c93_neal8_finite_mixture_partial",
    "Bayesmix.Gibbs.c93_neal8_dirichlet_partial",
    "Bayesmix.Gibbs.c93_neal8_dirichlet_violated"
   ],
   "note": "full for the Pitman-Yor process; mixtures of finite mixtures with the coefficients the code computes; for the Dirichlet process the invariant law is the one with total mass one, whatever the configured mass"
  },
  {
   "property": "C94",
   "status": "partial",
   "theorems": [
    "Bayesmix.Gibbs.c94_neal2_pitman_yor",
    "Bayesmix.Gibbs.c94_neal2_nnig",
    "Bayesmix.Gibbs.c94_neal2_linreg",
    "Bayesmix.Gibbs.c94_neal2_finite_mixture_partial",
    "Bayesmix.Gibbs.c94_neal2_dirichlet_partial",
    "Bayesmix.Gibbs.c94_neal2_dirichlet_violated",
    "Bayesmix.Gibbs.c94_neal2_marginal",
    "Bayesmix.Gibbs.c94_neal2_nnw_violated"
   ],
   "note": "full for the Pitman-Yor process, and without assumption on the hierarchy for the normal model and the linear regression; mixtures of finite mixtures with the coefficients the code computes; for the Dirichlet process the conditional is the one with total mass one, whatever the configured mass; violated for the multivariate Normal hierarchy with the likelihood that is evaluated"
  },
  {
   "property": "C95",
   "status": "proved",
   "theorems": [
    "Bayesmix.Hierarchies.c95_uni_likelihoods",
    "Bayesmix.Hierarchies.c95_linreg_likelihood",
    "Bayesmix.Hierarchies.c95_gamma_likelihood",
    "Bayesmix.Hierarchies.c95_multi_norm_likelihood",
    "Bayesmix.Hierarchies.c95_fa_likelihood",
    "Bayesmix.Hierarchies.c95_fa_likelihood_draws",
    "Bayesmix.Hierarchies.c95_nig_prior",
    "Bayesmix.Hierarchies.c95_nxig_prior",
    "Bayesmix.Hierarchies.c95_mnig_prior",
    "Bayesmix.Hierarchies.c95_gamma_prior",
    "Bayesmix.Hierarchies.c95_nw_prior",
    "Bayesmix.Hierarchies.c95_fa_prior"
   ],
   "note": "Lebesgue measure; precisions by their entries on and above the diagonal"
  },
  {
   "property": "C96",
   "status": "partial",
   "theorems": [
    "Bayesmix.Hierarchies.c96_nnig",
    "Bayesmix.Hierarchies.c96_linreg",
    "Bayesmix.Hierarchies.c96_nnw_partial",
    "Bayesmix.Hierarchies.c96_nnw_violated"
   ],
   "note": "full for the univariate Normal and the linear regression; for the multivariate Normal with the likelihood of states with the lower Cholesky factor (the Normal density); violated, for every two-dimensional prior, with the likelihood that is evaluated at drawn states (C74)"
  },
  {
   "property": "C97",
   "status": "partial",
   "theorems": [
    "Bayesmix.Hierarchies.c97_uni",
    "Bayesmix.Hierarchies.c97_linreg",
    "Bayesmix.Hierarchies.c97_multi_norm_partial",
    "Bayesmix.Hierarchies.c97_drawn_partial",
    "Bayesmix.Hierarchies.c97_multi_norm_violated",
    "Bayesmix.Hierarchies.c97_fa_partial"
   ],
   "note": "full for the univariate likelihoods; multivariate Normal for states read from their representation, violated for drawn ones; factor-analytic after initialization or reading (C45)"
  },
  {
   "property": "C98",
   "status": "partial",
   "theorems": [
    "Bayesmix.Cond.c98_blocked_truncated_sb",
    "Bayesmix.Cond.c98_blocked_logit_partial",
    "Bayesmix.Cond.c98_blocked_logit_violated"
   ],
   "note": "full for truncated stick breaking; for logit stick breaking with the weights the code computes, whose last stick is sigmoid(1) (C33)"
  },
  {
   "property": "C99",
   "status": "partial",
   "theorems": [
    "Bayesmix.Cond.c99_slice_partial",
    "Bayesmix.Cond.c99_floor_violated"
   ],
   "note": "between labellings that use components of weight above 1e-16; the floor of the levels breaks it below; components beyond the truncation are the subject of C08"
  },
  {
   "property": "C100",
   "status": "partial",
   "theorems": [
    "Bayesmix.Cond.c100_blocked_step",
    "Bayesmix.Cond.c100_blocked_invariant_partial",
    "Bayesmix.Cond.c100_blocked_nnig_partial",
    "Bayesmix.Cond.c100_blocked_linreg_partial",
    "Bayesmix.Cond.c100_blocked_hyperprior_violated",
    "Bayesmix.Cond.c100_blocked_stale_violated"
   ],
   "note": "holds for fixed hyperparameters in states without saved hyperparameters, without assumption on the hierarchy for the normal model and the linear regression; initialization saves the prior hyperparameters in the first object, so for conjugate hierarchies its value is drawn from the prior for ever; violated with a Normal prior on the mean of the base measure, for every data set and every mixture with two components or more"
  },
  {
   "property": "C101",
   "status": "partial",
   "theorems": [
    "Bayesmix.Chain.c101_neal3_pitman_yor",
    "Bayesmix.Chain.c101_neal3_nnig",
    "Bayesmix.Chain.c101_neal3_linreg",
    "Bayesmix.Chain.c101_neal3_nnw",
    "Bayesmix.Chain.c101_neal3_dirichlet_partial",
    "Bayesmix.Chain.c101_neal3_dirichlet_violated"
   ],
   "note": "full for the Pitman-Yor process, without assumption on the hierarchy for the univariate and multivariate normal models and the linear regression; with a Dirichlet process the limit is the posterior with total mass one; mixtures of finite mixtures are not covered, their coefficients are read out of bounds (C28)"
  },
  {
   "property": "C102",
   "status": "partial",
   "theorems": [
    "Bayesmix.Chain.c102_neal3_pitman_yor",
    "Bayesmix.Chain.c102_neal3_nnig",
    "Bayesmix.Chain.c102_neal3_linreg",
    "Bayesmix.Chain.c102_neal3_nnw",
    "Bayesmix.Chain.c102_neal3_coclustering",
    "Bayesmix.Chain.c102_neal3_dirichlet_partial",
    "Bayesmix.Chain.c102_neal3_dirichlet_violated"
   ],
   "note": "full for the Pitman-Yor process, without assumption on the hierarchy for the univariate and multivariate normal models and the linear regression; with a Dirichlet process averages estimate the posterior with total mass one"
  },
  {
   "property": "C103",
   "status": "partial",
   "theorems": [
    "Bayesmix.Utils.c103_mesh_partial",
    "Bayesmix.Utils.c103_mesh_violated",
    "Bayesmix.Utils.c103_only_square"
   ],
   "note": "square grids with at least two points per axis; all other rectangular grids are undefined behaviour; for arbitrary grids: tables are returned only for a square number of rows, and then every entry is right"
  },
  {
   "property": "C104",
   "status": "proved",
   "theorems": [
    "Bayesmix.Utils.c104_bars"
   ],
   "note": "numbers handed to the plotting library, for files with one number of clusters per line as run_mcmc writes them"
  },
  {
   "property": "C105",
   "status": "partial",
   "theorems": [
    "Bayesmix.Wrappers.c105_numbers_partial",
    "Bayesmix.Wrappers.c105_python_violated",
    "Bayesmix.Wrappers.c105_file_violated"
   ],
   "note": "violated by printing five decimals (Python) and by reading single precision (all programs); error bound and exactness of whole numbers below 2^24"
  },
  {
   "property": "C106",
   "status": "partial",
   "theorems": [
    "Bayesmix.Wrappers.c106_r",
    "Bayesmix.Wrappers.c106_python_violated",
    "Bayesmix.Wrappers.c106_python_empty_violated",
    "Bayesmix.Wrappers.c106_python_partial"
   ],
   "note": "full for R; Python ignores the exit status"
  },
  {
   "property": "C107",
   "status": "partial",
   "theorems": [
    "Bayesmix.Wrappers.c107_python",
    "Bayesmix.Wrappers.c107_r_partial",
    "Bayesmix.Wrappers.c107_r_violated"
   ],
   "note": "full for Python; R deletes the directory of the user on failure and empties files that were not asked for"
  },
  {
   "property": "C108",
   "status": "partial",
   "theorems": [
    "Bayesmix.Wrappers.c108_shapes_partial",
    "Bayesmix.Wrappers.c108_shapes_violated"
   ],
   "note": "exactly the sizes different from one"
  },
  {
   "property": "C109",
   "status": "partial",
   "theorems": [
    "Bayesmix.Cond.c109_blocked_converges_partial",
    "Bayesmix.Cond.c109_blocked_initialize_partial",
    "Bayesmix.Cond.c109_blocked_first_violated",
    "Bayesmix.Cond.c109_blocked_nnig_violated"
   ],
   "note": "geometric convergence from every state, to the posterior if nothing is saved; from initialize the first value keeps the law of the prior, and for the normal model with constant data the limit differs from the posterior"
  },
  {
   "property": "C110",
   "status": "partial",
   "theorems": [
    "Bayesmix.Cond.c110_blocked_average_partial",
    "Bayesmix.Cond.c110_blocked_first_violated",
    "Bayesmix.Cond.c110_blocked_nnig_violated"
   ],
   "note": "consistent for the limit of C109, which is the posterior if nothing is saved; from initialize averages of the first value estimate the prior"
  },
  {
   "property": "C111",
   "status": "partial",
   "theorems": [
    "Bayesmix.Hierarchies.c111_distance",
    "Bayesmix.Hierarchies.c111_metric",
    "Bayesmix.Hierarchies.c111_accepted",
    "Bayesmix.Hierarchies.c111_univariate",
    "Bayesmix.Hierarchies.c111_empty_violated"
   ],
   "note": "full for nonempty mixtures of multivariate normal distributions; an empty first mixture is undefined behaviour"
  },
  {
   "property": "C112",
   "status": "proved",
   "theorems": [
    "Bayesmix.Utils.c112_in_range",
    "Bayesmix.Utils.c112_law",
    "Bayesmix.Utils.c112_checked"
   ],
   "note": "for an exact quantile function"
  },
  {
   "property": "C113",
   "status": "partial",
   "theorems": [
    "Bayesmix.Chain.c113_neal2_pitman_yor",
    "Bayesmix.Chain.c113_neal2_nnig",
    "Bayesmix.Chain.c113_neal2_linreg",
    "Bayesmix.Chain.c113_neal2_dirichlet_partial",
    "Bayesmix.Chain.c113_neal2_dirichlet_violated"
   ],
   "note": "full for the Pitman-Yor process; with the Dirichlet process the limit is the posterior for total mass one"
  },
  {
   "property": "C114",
   "status": "partial",
   "theorems": [
    "Bayesmix.Chain.c114_neal2_pitman_yor",
    "Bayesmix.Chain.c114_neal2_nnig",
    "Bayesmix.Chain.c114_neal2_linreg",
    "Bayesmix.Chain.c114_neal2_dirichlet_partial",
    "Bayesmix.Chain.c114_neal2_dirichlet_violated"
   ],
   "note": "full for the Pitman-Yor process; with the Dirichlet process the posterior for total mass one is kept, no other"
  },
  {
   "property": "C115",
   "status": "partial",
   "theorems": [
    "Bayesmix.Chain.c115_neal8_pitman_yor",
    "Bayesmix.Chain.c115_neal8_nnig",
    "Bayesmix.Chain.c115_neal8_linreg",
    "Bayesmix.Chain.c115_neal8_dirichlet_partial",
    "Bayesmix.Chain.c115_neal8_dirichlet_violated"
   ],
   "note": "full for the Pitman-Yor process; with the Dirichlet process the limit is the posterior for total mass one"
  },
  {
   "property": "C116",
   "status": "partial",
   "theorems": [
    "Bayesmix.Chain.c116_neal8_pitman_yor",
    "Bayesmix.Chain.c116_neal8_nnig",
    "Bayesmix.Chain.c116_neal8_linreg",
    "Bayesmix.Chain.c116_neal8_dirichlet_partial",
    "Bayesmix.Chain.c116_neal8_dirichlet_violated"
   ],
   "note": "full for the Pitman-Yor process; with the Dirichlet process the posterior for total mass one is kept, no other"
  },
  {
   "property": "C117",
   "status": "partial",
   "theorems": [
    "Bayesmix.Chain.c117_neal2_pitman_yor",
    "Bayesmix.Chain.c117_neal8_pitman_yor",
    "Bayesmix.Chain.c117_nnig",
    "Bayesmix.Chain.c117_linreg",
    "Bayesmix.Chain.c117_dirichlet_partial",
    "Bayesmix.Chain.c117_dirichlet_violated",
    "Bayesmix.Chain.c117_nnig_dirichlet_violated"
   ],
   "note": "full for the Pitman-Yor process; with the Dirichlet process the limit mixes the posterior for total mass one with weights for the configured mass"
  },
  {
   "property": "C118",
   "status": "partial",
   "theorems": [
    "Bayesmix.Chain.c118_pitman_yor",
    "Bayesmix.Chain.c118_density_pitman_yor",
    "Bayesmix.Chain.c118_nnig",
    "Bayesmix.Chain.c118_linreg",
    "Bayesmix.Chain.c118_dirichlet_partial",
    "Bayesmix.Chain.c118_dirichlet_violated"
   ],
   "note": "full for the Pitman-Yor process; with the Dirichlet process averages converge to posterior means for total mass one"
  },
  {
   "property": "C119",
   "status": "partial",
   "theorems": [
    "Bayesmix.Chain.c119_pitman_yor",
    "Bayesmix.Chain.c119_density_pitman_yor",
    "Bayesmix.Chain.c119_nnig",
    "Bayesmix.Chain.c119_linreg",
    "Bayesmix.Chain.c119_nnw_partial",
    "Bayesmix.Chain.c119_nnw_violated",
    "Bayesmix.Chain.c119_dirichlet_partial",
    "Bayesmix.Chain.c119_dirichlet_violated",
    "Bayesmix.Chain.c119_density_dirichlet_violated"
   ],
   "note": "full for the Pitman-Yor process with the normal and regression hierarchies; for the multivariate hierarchy partition, means and precisions converge but density estimates do not; with the Dirichlet process limits are for total mass one"
  },
  {
   "property": "C120",
   "status": "partial",
   "theorems": [
    "Bayesmix.Program.c120_accepted",
    "Bayesmix.Program.c120_values_partial",
    "Bayesmix.Program.c120_collector_violated",
    "Bayesmix.Program.c120_dangling_violated",
    "Bayesmix.Program.c120_plot_values"
   ],
   "note": "accepted command lines characterised and values right for all of them, except that the collector has no usable default and an option without value at the end is ignored"
  },
  {
   "property": "C121",
   "status": "partial",
   "theorems": [
    "Bayesmix.Program.c121_outputs_partial",
    "Bayesmix.Program.c121_grid_violated",
    "Bayesmix.Program.c121_same_file_violated"
   ],
   "note": "holds if outputs differ from each other and from inputs and a grid is given with densities; otherwise violated"
  },
  {
   "property": "C122",
   "status": "partial",
   "theorems": [
    "Bayesmix.Program.c122_others",
    "Bayesmix.Program.c122_inputs",
    "Bayesmix.Program.c122_earlier_results_partial",
    "Bayesmix.Program.c122_earlier_results_violated"
   ],
   "note": "other files are left alone however the run ends; earlier results survive a refused command line but not a later failure"
  },
  {
   "property": "C123",
   "status": "partial",
   "theorems": [
    "Bayesmix.Program.c123_data_partial",
    "Bayesmix.Program.c123_matrices",
    "Bayesmix.Program.c123_parameters_violated"
   ],
   "note": "holds for all matrices; for parameter files the answer of the parser makes no difference"
  },
  {
   "property": "C124",
   "status": "partial",
   "theorems": [
    "Bayesmix.Program.c124_command_partial",
    "Bayesmix.Program.c124_space_violated",
    "Bayesmix.Program.c124_exe_violated"
   ],
   "note": "holds for paths and names without white space; violated otherwise"
  },
  {
   "property": "C125",
   "status": "partial",
   "theorems": [
    "Bayesmix.c125_masses_partial",
    "Bayesmix.c125_truncation_violated"
   ],
   "note": "within 1e-8 for Poisson means up to 1/4; violated for large means, where the loop stops too early"
  },
  {
   "property": "C126",
   "status": "proved",
   "theorems": [
    "Bayesmix.Example.c126_initialize_iff",
    "Bayesmix.Example.c126_cluster_bayes",
    "Bayesmix.Example.c126_messages",
    "Bayesmix.Example.c126_neal8_converges",
    "Bayesmix.Example.c126_start_refused",
    "Bayesmix.Example.c126_averages",
    "Bayesmix.Example.c126_neal2_throws"
   ],
   "note": "includes the fact that Neal2 accepts the hierarchy and then throws (marg_lpdf is not implemented)"
  },
  {
   "property": "C127",
   "status": "partial",
   "theorems": [
    "Bayesmix.c127_dirichlet_partial",
    "Bayesmix.c127_dirichlet_violated",
    "Bayesmix.c127_pitman_yor",
    "Bayesmix.c127_finite_mixture_partial",
    "Bayesmix.c127_finite_mixture_violated",
    "Bayesmix.c127_truncated_sb",
    "Bayesmix.c127_logit_sb_partial",
    "Bayesmix.c127_logit_sb_violated",
    "Bayesmix.Hierarchies.c127_nig",
    "Bayesmix.Hierarchies.c127_nxig",
    "Bayesmix.Hierarchies.c127_normal_wishart",
    "Bayesmix.Hierarchies.c127_lin_reg_partial",
    "Bayesmix.Hierarchies.c127_lin_reg_violated",
    "Bayesmix.Hierarchies.c127_fa_partial",
    "Bayesmix.Hierarchies.c127_fa_violated"
   ],
   "note": "full for the Pitman-Yor and truncated stick-breaking mixings and the normal priors; the others leave a cached value of the target behind"
  },
  {
   "property": "C128",
   "status": "partial",
   "theorems": [
    "Bayesmix.Hierarchies.c128_values_partial",
    "Bayesmix.Hierarchies.c128_draws_violated",
    "Bayesmix.Hierarchies.c128_run_violated",
    "Bayesmix.Hierarchies.c128_initialized",
    "Bayesmix.Hierarchies.c128_scales_violated",
    "Bayesmix.Hierarchies.c128_no_data_is_ub"
   ],
   "note": "the values are those claimed, but neither prior draws nor runs use them"
  },
  {
   "property": "C129",
   "status": "partial",
   "theorems": [
    "Bayesmix.Chain.c129_pitman_yor_partial",
    "Bayesmix.Chain.c129_nnig_partial",
    "Bayesmix.Chain.c129_dirichlet_partial",
    "Bayesmix.Chain.c129_dirichlet_violated",
    "Bayesmix.Chain.c129_discount_violated",
    "Bayesmix.Chain.c129_no_full_scan_violated",
    "Bayesmix.Chain.c129_two_rows_partial",
    "Bayesmix.Chain.c129_three_rows_violated"
   ],
   "note": "proved for discount zero with at least one full scan, and for two rows with at least one full scan; refuted for the Dirichlet process with total mass other than one, for two rows without full scans and a positive discount, for two rows without full scans at a certain strength, and for three rows with a positive discount and any numbers of scans, for all strengths except at most three; open: positive discount together with full scans and four rows or more"
  },
  {
   "property": "C130",
   "status": "proved",
   "theorems": [
    "Bayesmix.Wrappers.c130_python",
    "Bayesmix.Wrappers.c130_r",
    "Bayesmix.Wrappers.c130_taken_violated"
   ],
   "note": "proved for all arguments that name none of the other files written in the working directory; the third theorem shows that the condition is needed"
  },
  {
   "property": "C131",
   "status": "partial",
   "theorems": [
    "Bayesmix.Chain.c131_pitman_yor_partial",
    "Bayesmix.Chain.c131_nnig_partial",
    "Bayesmix.Chain.c131_coclustering_partial",
    "Bayesmix.Chain.c131_dirichlet_partial",
    "Bayesmix.Chain.c131_dirichlet_violated",
    "Bayesmix.Chain.c131_two_rows_partial",
    "Bayesmix.Chain.c131_three_rows_violated"
   ],
   "note": "proved for discount zero with at least one full scan, and for two rows with at least one full scan; with a Dirichlet process averages estimate the posterior with total mass one; refuted for three rows with a positive discount, for all strengths except at most three"
  },
  {
   "property": "C132",
   "status": "partial",
   "theorems": [
    "Bayesmix.Density.c132_dirichlet",
    "Bayesmix.Density.c132_pitman_yor",
    "Bayesmix.Density.c132_neal8",
    "Bayesmix.Density.c132_finite_mixture_partial",
    "Bayesmix.Density.c132_finite_mixture_violated",
    "Bayesmix.Density.c132_finite_mixture_two_rows_violated",
    "Bayesmix.Density.c132_finite_mixture_neal8_violated"
   ],
   "note": "holds for the Dirichlet and Pitman-Yor processes; refuted for the mixture of finite mixtures, for every state with two rows or more, and proved there as long as the other rows are not all alone"
  },
  {
   "property": "C133",
   "status": "partial",
   "theorems": [
    "Bayesmix.SemiHdp.c133_full",
    "Bayesmix.SemiHdp.c133_metro_base",
    "Bayesmix.SemiHdp.c133_metro_dist_partial",
    "Bayesmix.SemiHdp.c133_metro_dist_two_partial",
    "Bayesmix.SemiHdp.c133_metro_dist_violated",
    "Bayesmix.SemiHdp.c133_move",
    "Bayesmix.SemiHdp.c133_unknown_name_violated"
   ],
   "note": "holds for full and metro_base; metro_dist is refuted with three restaurants and proved where the normalizing sums agree, in particular for two restaurants"
  },
  {
   "property": "C134",
   "status": "partial",
   "theorems": [
    "Bayesmix.SemiHdp.c134_pseudo_prior",
    "Bayesmix.SemiHdp.c134_probabilities",
    "Bayesmix.SemiHdp.c134_weight_violated",
    "Bayesmix.SemiHdp.c134_collectors_violated",
    "Bayesmix.SemiHdp.c134_perturb_partial",
    "Bayesmix.SemiHdp.c134_perturb_violated"
   ],
   "note": "proved for weights in [0,1] and collectors of one length, without the perturbation, which the code leaves out"
  },
  {
   "property": "C135",
   "status": "partial",
   "theorems": [
    "Bayesmix.SemiHdp.c135_save_violated",
    "Bayesmix.SemiHdp.c135_run_violated",
    "Bayesmix.SemiHdp.c135_nothing_collected_partial"
   ],
   "note": "refuted for every run that collects a state; a run that collects nothing ends normally"
  },
  {
   "property": "C136",
   "status": "partial",
   "theorems": [
    "Bayesmix.c136_r_agrees_partial",
    "Bayesmix.c136_last_empty_violated",
    "Bayesmix.c136_empty_inside_violated",
    "Bayesmix.c136_cut_body_violated"
   ],
   "note": "proved for complete files of nonempty messages; refuted for empty messages and cut files"
  },
  {
   "property": "C137",
   "status": "partial",
   "theorems": [
    "Bayesmix.Program.c137_figures_partial",
    "Bayesmix.Program.c137_contour_partial",
    "Bayesmix.Program.c137_rectangle_violated",
    "Bayesmix.Program.c137_dimension_violated",
    "Bayesmix.Program.c137_name_violated"
   ],
   "note": "proved for one-dimensional and square two-dimensional grids and distinct file names; refuted otherwise"
  },
  {
   "property": "C138",
   "status": "partial",
   "theorems": [
    "Bayesmix.Chain.c138_neal2_pitman_yor",
    "Bayesmix.Chain.c138_neal8_pitman_yor",
    "Bayesmix.Chain.c138_dirichlet_partial",
    "Bayesmix.Chain.c138_dirichlet_violated"
   ],
   "note": "proved for the Pitman-Yor process with Neal2 and Neal8; for the Dirichlet process the kept law is the one for total mass one, and with any other configured total mass the configured joint posterior is not kept"
  },
  {
   "property": "C139",
   "status": "partial",
   "theorems": [
    "Bayesmix.Chain.c139_total_mass_partial",
    "Bayesmix.Chain.c139_total_mass_violated",
    "Bayesmix.Chain.c139_run_violated"
   ],
   "note": "refuted for every prior and all labels; the partial theorem shows that with a Beta auxiliary variable the rest of the update is right"
  },
  {
   "property": "C140",
   "status": "partial",
   "theorems": [
    "Bayesmix.Cond.c140_blocked_density_partial",
    "Bayesmix.Cond.c140_initialize_partial",
    "Bayesmix.Cond.c140_single_violated",
    "Bayesmix.Cond.c140_share_violated",
    "Bayesmix.Cond.c140_nnig_violated"
   ],
   "note": "Means of the density estimates converge geometrically, for every conjugate hierarchy, every truncated stick-breaking prior and every grid point; the limit is the posterior predictive density if nothing is saved. From initialize the first object keeps the hyperparameters of the prior: with one component the mean is the prior predictive density at every iteration; with more components it is at least a fixed share of it; for the normal hierarchy with two components the limit differs from the posterior predictive density."
  },
  {
   "property": "C141",
   "status": "partial",
   "theorems": [
    "Bayesmix.Cond.c141_blocked_average_partial",
    "Bayesmix.Cond.c141_initialize_partial",
    "Bayesmix.Cond.c141_single_violated",
    "Bayesmix.Cond.c141_nnig_violated"
   ],
   "note": "Averages of density estimates over the stored states converge in probability, uniformly in the starting state and the burn-in, for every conjugate hierarchy and every truncated stick-breaking prior; the limit is the posterior predictive density if nothing is saved. From initialize the first object keeps the hyperparameters of the prior and the limit is another one"
  },
  {
   "property": "C142",
   "status": "partial",
   "theorems": [
    "Bayesmix.SplitMerge.c142_dirichlet",
    "Bayesmix.SplitMerge.c142_pitman_yor",
    "Bayesmix.SplitMerge.c142_finite_mixture_move_violated",
    "Bayesmix.SplitMerge.c142_finite_mixture_scan_violated",
    "Bayesmix.SplitMerge.c142_finite_mixture_coefficients",
    "Bayesmix.SplitMerge.c142_finite_mixture_partial"
   ],
   "note": "holds for the Dirichlet and Pitman-Yor processes; refuted for the mixture of finite mixtures when the clusters of the first pair hold three rows or there are two rows of data, and, with full scans, unless both rows of the first pair are alone; proved there in that last case"
  },
  {
   "property": "C143",
   "status": "partial",
   "theorems": [
    "Bayesmix.Slice.c143_last_used_partial",
    "Bayesmix.Slice.c143_violated"
   ],
   "note": "holds for an iteration that starts with a row in the last component; otherwise every number of components above the labels in use can be the result, with weights that sum to less than one and rows in components beyond the configured ones"
  },
  {
   "property": "C144",
   "status": "partial",
   "theorems": [
    "Bayesmix.c144_dirichlet",
    "Bayesmix.c144_dirichlet_gamma",
    "Bayesmix.c144_pitman_yor",
    "Bayesmix.c144_finite_mixture",
    "Bayesmix.c144_truncated_partial",
    "Bayesmix.c144_truncated_violated",
    "Bayesmix.c144_logit_partial",
    "Bayesmix.c144_logit_violated"
   ],
   "note": "proved for the Dirichlet and Pitman-Yor processes and the mixture of finite mixtures; truncated stick-breaking accepts all valid priors and others too, with which updates throw; logit stick-breaking decides correctly with one component or more and does not reject a prior with none"
  },
  {
   "property": "C145",
   "status": "partial",
   "theorems": [
    "Bayesmix.Hierarchies.c145_nig",
    "Bayesmix.Hierarchies.c145_nxig_violated"
   ],
   "note": "proved for the normal-inverse-Gamma prior; the prior of the Laplace hierarchy throws"
  },
  {
   "property": "C146",
   "status": "partial",
   "theorems": [
    "Bayesmix.Chain.c146_laplace_runs_violated",
    "Bayesmix.Chain.c146_random_walk_partial",
    "Bayesmix.Chain.c146_random_walk_slice_partial"
   ],
   "note": "refuted for the Langevin updater with every step size; with a random walk updater, runs of Neal8 and blocked Gibbs complete, and the slice sampler fails only as it does with other hierarchies"
  },
  {
   "property": "C147",
   "status": "partial",
   "theorems": [
    "Bayesmix.Hierarchies.c147_fixed",
    "Bayesmix.Hierarchies.c147_ngg",
    "Bayesmix.Hierarchies.c147_fa",
    "Bayesmix.Hierarchies.c147_multivariate",
    "Bayesmix.Hierarchies.c147_normal_mean_partial",
    "Bayesmix.Hierarchies.c147_normal_mean_violated",
    "Bayesmix.Hierarchies.c147_ngiw_partial",
    "Bayesmix.Hierarchies.c147_ngiw_violated"
   ],
   "note": "proved for all fixed priors and all others but two: the variance of the prior on the mean of a normal-inverse-Gamma prior is not checked, and an inverse Wishart prior with too few degrees of freedom is accepted"
  },
  {
   "property": "C148",
   "status": "partial",
   "theorems": [
    "Bayesmix.Program.c148_r_runs",
    "Bayesmix.Program.c148_r_failed_build",
    "Bayesmix.Program.c148_r_no_build",
    "Bayesmix.Program.c148_python_new_process_partial",
    "Bayesmix.Program.c148_python_failed_build_violated",
    "Bayesmix.Program.c148_python_same_process_violated"
   ],
   "note": "full for R; Python drops the exit status of the build and does not override variables of the process"
  },
  {
   "property": "C149",
   "status": "partial",
   "theorems": [
    "Bayesmix.Mixing.c149_never_fails",
    "Bayesmix.Mixing.c149_empty_column",
    "Bayesmix.Mixing.c149_update_violated"
   ],
   "note": "the update always completes; with independent normal priors of one variance, a column without rows keeps its distribution exactly if the step is this variance; columns with rows and other prior covariances are not treated"
  },
  {
   "property": "C150",
   "status": "partial",
   "theorems": [
    "Bayesmix.Chain.c150_fixed",
    "Bayesmix.Chain.c150_normal_mean",
    "Bayesmix.Chain.c150_ngg_violated"
   ],
   "note": "holds with fixed values and with a Normal prior on the mean; with the Normal-Gamma-Gamma prior the joint law is never kept: the standard deviation of the new mean is the inverse of the precision instead of its root"
  },
  {
   "property": "C151",
   "status": "partial",
   "theorems": [
    "Bayesmix.Chain.c151_violated",
    "Bayesmix.Chain.c151_product_law",
    "Bayesmix.Chain.c151_unique_law",
    "Bayesmix.Chain.c151_empty_partial"
   ],
   "note": "never kept for a cluster with rows; the draw keeps the product of the posterior marginals and, up to its mass, no other finite law; holds for clusters without rows"
  },
  {
   "property": "C152",
   "status": "partial",
   "theorems": [
    "Bayesmix.Chain.c152_violated"
   ],
   "note": "never stationary, whatever the data, the prior and the numbers of rows and components; label and stick steps are those of C100, hyperparameters fixed; what is stationary instead is not determined"
  },
  {
   "property": "C153",
   "status": "partial",
   "theorems": [
    "Bayesmix.Chain.c153_row_updates",
    "Bayesmix.Chain.c153_violated",
    "Bayesmix.Chain.c153_dirichlet_violated"
   ],
   "note": "never stationary, whatever the data, the prior and the numbers of rows and auxiliary blocks; the row updates are derived from the code, the values step is composed with them as an operator; hyperparameters fixed"
  },
  {
   "property": "C154",
   "status": "partial",
   "theorems": [
    "Bayesmix.Chain.c154_pitman_yor_violated",
    "Bayesmix.Chain.c154_dirichlet_violated"
   ],
   "note": "never stationary, whatever the data, the prior and the numbers of rows and auxiliary blocks, from states without saved hyperparameters; the mixing is not updated; what is stationary instead is not determined"
  },
  {
   "property": "C155",
   "status": "partial",
   "theorems": [
    "Bayesmix.Chain.c155_violated"
   ],
   "note": "never stationary, whatever the data, the prior and the numbers of rows and components; the theorem also says what an iteration from a state without saved hyperparameters does; what is stationary instead is not determined"
  },
  {
   "property": "C156",
   "status": "partial",
   "theorems": [
    "Bayesmix.Chain.c156_pitman_yor_partial",
    "Bayesmix.Chain.c156_dirichlet_partial",
    "Bayesmix.Chain.c156_violated"
   ],
   "note": "one iteration, from states in which all clusters hold the posterior hyperparameters for the current mean; the states after it are almost surely not of this kind, and what later iterations do is not determined; Dirichlet process with total mass one; the mixing is not updated"
  }
 ]
}

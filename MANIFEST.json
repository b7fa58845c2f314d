{
 "claims": [
  {
   "property": "C01",
   "status": "proved",
   "theorems": [
    "ZhuSuan.Backward.C01_backward_ops_exact"
   ],
   "note": ""
  },
  {
   "property": "C02",
   "status": "proved",
   "theorems": [
    "ZhuSuan.Backward.C02_backward_ops_topological",
    "ZhuSuan.Backward.C02_needs_acyclic"
   ],
   "note": ""
  },
  {
   "property": "C03",
   "status": "proved",
   "theorems": [
    "ZhuSuan.Backward.C03_backward_ops_terminates"
   ],
   "note": ""
  },
  {
   "property": "C04",
   "status": "proved",
   "theorems": [
    "ZhuSuan.Context.C04_stack_restored",
    "ZhuSuan.Context.C04_lexical",
    "ZhuSuan.Context.C04_needs_separate"
   ],
   "note": "Holds when no block uses the base class Context itself; C04_needs_separate shows the two library stacks would merge otherwise."
  },
  {
   "property": "C05",
   "status": "proved",
   "theorems": [
    "ZhuSuan.Observe.C05_lexical",
    "ZhuSuan.Observe.C05_restored",
    "ZhuSuan.Observe.C05_no_leak",
    "ZhuSuan.Observe.C05_sees_own",
    "ZhuSuan.Observe.C05_direct_construction_fails"
   ],
   "note": ""
  },
  {
   "property": "C06",
   "status": "proved",
   "theorems": [
    "ZhuSuan.BN.C06_duplicate_rejected",
    "ZhuSuan.BN.C06_failed_add_harmless",
    "ZhuSuan.BN.C06_add",
    "ZhuSuan.BN.C06_name_stable",
    "ZhuSuan.BN.C06_injective",
    "ZhuSuan.BN.C06_deterministic_overwrites",
    "ZhuSuan.BN.C06_legacy_overwrites"
   ],
   "note": "Also records that deterministic() and the deprecated constructors do overwrite."
  },
  {
   "property": "C07",
   "status": "proved",
   "theorems": [
    "ZhuSuan.BN.C07_precedence",
    "ZhuSuan.BN.C07_explicit_wins",
    "ZhuSuan.BN.C07_fixed",
    "ZhuSuan.BN.C07_observed_value"
   ],
   "note": ""
  },
  {
   "property": "C08",
   "status": "proved",
   "theorems": [
    "ZhuSuan.BN.C08_at_most_once",
    "ZhuSuan.BN.C08_observed_never_draws",
    "ZhuSuan.BN.C08_same_draw",
    "ZhuSuan.BN.C08_cond_uses_draw"
   ],
   "note": ""
  },
  {
   "property": "C09",
   "status": "partial",
   "theorems": [
    "ZhuSuan.BN.C09_log_joint_current_partial",
    "ZhuSuan.BN.C09_after_stochastic",
    "ZhuSuan.BN.C09_sum_ranges_over_nodes",
    "ZhuSuan.BN.C09_stale_after_deterministic",
    "ZhuSuan.BN.C09_stale_after_set",
    "ZhuSuan.BN.C09_stale_after_legacy"
   ],
   "note": "Proved for tame histories and after every successful stochastic(); the unrestricted statement is false of the code: C09_stale_* give histories with a stale cached value."
  },
  {
   "property": "C10",
   "status": "proved",
   "theorems": [
    "ZhuSuan.BN.C10_get_list",
    "ZhuSuan.BN.C10_get_list_error",
    "ZhuSuan.BN.C10_get_one",
    "ZhuSuan.BN.C10_get_one_error",
    "ZhuSuan.BN.C10_cond_log_prob_bad",
    "ZhuSuan.BN.C10_cond_log_prob_list",
    "ZhuSuan.BN.C10_cond_log_prob_one",
    "ZhuSuan.BN.C10_shape",
    "ZhuSuan.BN.C10_queries_keep_nodes",
    "ZhuSuan.BN.C10_outputs_list",
    "ZhuSuan.BN.C10_query_list",
    "ZhuSuan.BN.C10_query_one",
    "ZhuSuan.BN.C10_query_nothing",
    "ZhuSuan.BN.C10_outputs_deterministic"
   ],
   "note": "C10_outputs_deterministic records that deprecated outputs() raises AttributeError on deterministic names."
  },
  {
   "property": "C11",
   "status": "proved",
   "theorems": [
    "ZhuSuan.Shape.C11_refused_only_if_incompatible",
    "ZhuSuan.Shape.C11_exact_when_known",
    "ZhuSuan.Shape.C11_given_refused_only_if_incompatible",
    "ZhuSuan.Shape.C11_given_exact_when_known"
   ],
   "note": ""
  },
  {
   "property": "C12",
   "status": "proved",
   "theorems": [
    "ZhuSuan.Shape.C12_least_upper_bound",
    "ZhuSuan.Shape.C12_fails_iff",
    "ZhuSuan.Shape.C12_comm",
    "ZhuSuan.Shape.C12_assoc",
    "ZhuSuan.Shape.C12_idem",
    "ZhuSuan.Shape.C12_unit",
    "ZhuSuan.Shape.C12_static_sound",
    "ZhuSuan.Shape.C12_static_exact"
   ],
   "note": ""
  },
  {
   "property": "C13",
   "status": "proved",
   "theorems": [
    "ZhuSuan.Shape.C13_explicit",
    "ZhuSuan.Shape.C13_explicit_valueError",
    "ZhuSuan.Shape.C13_explicit_succeeds",
    "ZhuSuan.Shape.C13_maybe_same",
    "ZhuSuan.Shape.C13_is_same_dynamic_shape"
   ],
   "note": ""
  },
  {
   "property": "C14",
   "status": "proved",
   "theorems": [
    "ZhuSuan.Shape.Dist.C14_batch_value_shape",
    "ZhuSuan.Shape.Dist.C14_sampleN",
    "ZhuSuan.Shape.Dist.C14_sample_n",
    "ZhuSuan.Shape.Dist.C14_sample_none",
    "ZhuSuan.Shape.Dist.C14_nonscalar_refused",
    "ZhuSuan.Shape.Dist.C14_not_samplable",
    "ZhuSuan.Shape.Dist.C14_static_sample_shape"
   ],
   "note": ""
  },
  {
   "property": "C15",
   "status": "proved",
   "theorems": [
    "ZhuSuan.Shape.Dist.C15_multivariate_shape",
    "ZhuSuan.Uni.UDist.C15_univariate",
    "ZhuSuan.Uni.UDist.C15_univariate_incompatible",
    "ZhuSuan.Uni.UDist.C15_group",
    "ZhuSuan.Uni.UDist.C15_prob_exp_log_prob"
   ],
   "note": ""
  },
  {
   "property": "C16",
   "status": "proved",
   "theorems": [
    "ZhuSuan.Shape.Dist.C16_get_batch_shape",
    "ZhuSuan.Shape.C16_get_shape_list",
    "ZhuSuan.Shape.C16_get_shape_list_ints",
    "ZhuSuan.Shape.C16_get_shape_at",
    "ZhuSuan.Shape.C16_report_shape",
    "ZhuSuan.Shape.C16_rank_at_least",
    "ZhuSuan.Shape.C16_rank_at_least_early",
    "ZhuSuan.Shape.C16_scalar"
   ],
   "note": ""
  },
  {
   "property": "C17",
   "status": "proved",
   "theorems": [
    "ZhuSuan.Guards.C17_same_dtype",
    "ZhuSuan.Guards.C17_same_dtype_any",
    "ZhuSuan.Guards.C17_same_dtype_error",
    "ZhuSuan.Guards.C17_same_float_dtype",
    "ZhuSuan.Guards.C17_positive_int32_scalar",
    "ZhuSuan.Guards.C17_positive_int32_scalar_value",
    "ZhuSuan.Guards.C17_positive_int32_scalar_errors",
    "ZhuSuan.Guards.C17_group_ndims",
    "ZhuSuan.Guards.C17_n_experiments",
    "ZhuSuan.Guards.C17_std_xor_logstd"
   ],
   "note": ""
  },
  {
   "property": "C18",
   "status": "proved",
   "theorems": [
    "ZhuSuan.Uni.C18_density",
    "ZhuSuan.Uni.C18_std_logstd",
    "ZhuSuan.Uni.C18_total",
    "ZhuSuan.Uni.C18_sampler"
   ],
   "note": ""
  },
  {
   "property": "C19",
   "status": "partial",
   "theorems": [
    "ZhuSuan.Uni.C19_density",
    "ZhuSuan.Uni.C19_sampler_partial",
    "ZhuSuan.Uni.C19_samples_not_folded"
   ],
   "note": "Density proved; the sampler draws an unfolded normal, so 'samples follow it' is false of the code: C19_samples_not_folded. C19_sampler_partial: the absolute value of the draw has the density."
  },
  {
   "property": "C20",
   "status": "proved",
   "theorems": [
    "ZhuSuan.Uni.C20_mass",
    "ZhuSuan.Uni.C20_sampler"
   ],
   "note": ""
  },
  {
   "property": "C21",
   "status": "proved",
   "theorems": [
    "ZhuSuan.Num.C21_mass",
    "ZhuSuan.Num.C21_total",
    "ZhuSuan.Num.C21_shift",
    "ZhuSuan.Num.C21_onehot",
    "ZhuSuan.Num.C21_onehot_sample",
    "ZhuSuan.Num.C21_onehot_law"
   ],
   "note": ""
  },
  {
   "property": "C22",
   "status": "proved",
   "theorems": [
    "ZhuSuan.Uni.C22_prob",
    "ZhuSuan.Uni.C22_sampler"
   ],
   "note": ""
  },
  {
   "property": "C23",
   "status": "proved",
   "theorems": [
    "ZhuSuan.Uni.C23_density",
    "ZhuSuan.Uni.C23_total",
    "ZhuSuan.Uni.C23_sampler"
   ],
   "note": ""
  },
  {
   "property": "C24",
   "status": "proved",
   "theorems": [
    "ZhuSuan.Uni.C24_density",
    "ZhuSuan.Uni.C24_total",
    "ZhuSuan.Uni.C24_sampler",
    "ZhuSuan.Uni.C24_law",
    "ZhuSuan.Uni.C24_sample_range"
   ],
   "note": ""
  },
  {
   "property": "C25",
   "status": "proved",
   "theorems": [
    "ZhuSuan.Uni.C25_mass",
    "ZhuSuan.Uni.C25_total"
   ],
   "note": ""
  },
  {
   "property": "C26",
   "status": "proved",
   "theorems": [
    "ZhuSuan.Uni.C26_mass",
    "ZhuSuan.Uni.C26_total",
    "ZhuSuan.Uni.C26_draw",
    "ZhuSuan.Uni.C26_sampler"
   ],
   "note": ""
  },
  {
   "property": "C27",
   "status": "proved",
   "theorems": [
    "ZhuSuan.Uni.C27_sampler",
    "ZhuSuan.Uni.C27_total"
   ],
   "note": ""
  },
  {
   "property": "C28",
   "status": "proved",
   "theorems": [
    "ZhuSuan.Uni.C28_sampler",
    "ZhuSuan.Uni.C28_total"
   ],
   "note": ""
  },
  {
   "property": "C29",
   "status": "proved",
   "theorems": [
    "ZhuSuan.Uni.C29_sampler",
    "ZhuSuan.Uni.C29_total"
   ],
   "note": ""
  },
  {
   "property": "C30",
   "status": "proved",
   "theorems": [
    "ZhuSuan.Num.C30_density",
    "ZhuSuan.Num.C30_sampler",
    "ZhuSuan.Num.C30_gaussian",
    "ZhuSuan.Num.C30_total"
   ],
   "note": ""
  },
  {
   "property": "C31",
   "status": "partial",
   "theorems": [
    "ZhuSuan.Num.C31_mass",
    "ZhuSuan.Num.C31_total",
    "ZhuSuan.Num.C31_nonzero_elsewhere",
    "ZhuSuan.Num.C31_total_exceeded",
    "ZhuSuan.Num.C31_unnormalized",
    "ZhuSuan.Num.C31_unnormalized_mass",
    "ZhuSuan.Num.C31_sampler",
    "ZhuSuan.Num.C31_sample_total",
    "ZhuSuan.Num.C31_mass_function_partial"
   ],
   "note": "Everything but 'zero elsewhere': with n_experiments given, the code never compares it with the counts and every count vector gets a positive probability (C31_nonzero_elsewhere, C31_total_exceeded)."
  },
  {
   "property": "C32",
   "status": "proved",
   "theorems": [
    "ZhuSuan.Num.C32_sample_simplex",
    "ZhuSuan.Num.C32_sampler",
    "ZhuSuan.Num.C32_total",
    "ZhuSuan.Num.C32_density"
   ],
   "note": ""
  },
  {
   "property": "C33",
   "status": "proved",
   "theorems": [
    "ZhuSuan.Num.C33_sample_simplex",
    "ZhuSuan.Num.C33_sample_log",
    "ZhuSuan.Num.C33_change_of_variables",
    "ZhuSuan.Num.C33_shift",
    "ZhuSuan.Num.C33_sampler",
    "ZhuSuan.Num.C33_total",
    "ZhuSuan.Num.C33_exp_sampler",
    "ZhuSuan.Num.C33_exp_total",
    "ZhuSuan.Num.C33_exp_lebesgue"
   ],
   "note": "ExpConcrete densities are with respect to the surface measure dy/x_last on the log-simplex; C33_exp_lebesgue shows the total is below one with respect to plain Lebesgue measure."
  },
  {
   "property": "C34",
   "status": "proved",
   "theorems": [
    "ZhuSuan.Num.C34_density",
    "ZhuSuan.Num.C34_density_trace",
    "ZhuSuan.Num.C34_sampler",
    "ZhuSuan.Num.C34_sample_formula",
    "ZhuSuan.Num.C34_gaussian",
    "ZhuSuan.Num.C34_total"
   ],
   "note": ""
  },
  {
   "property": "C35",
   "status": "proved",
   "theorems": [
    "ZhuSuan.LogExp.C35_log_sum_exp",
    "ZhuSuan.LogExp.C35_log_mean_exp",
    "ZhuSuan.LogExp.C35_all_axes",
    "ZhuSuan.LogExp.C35_exp_arguments",
    "ZhuSuan.LogExp.C35_log_argument_sum",
    "ZhuSuan.LogExp.C35_log_argument_mean",
    "ZhuSuan.LogExp.C35_between",
    "ZhuSuan.LogExp.C35_shift",
    "ZhuSuan.LogExp.C35_perm"
   ],
   "note": ""
  },
  {
   "property": "C36",
   "status": "proved",
   "theorems": [
    "ZhuSuan.Dict.C36_last_wins",
    "ZhuSuan.Dict.C36_wf",
    "ZhuSuan.Dict.C36_keys",
    "ZhuSuan.Dict.C36_assoc"
   ],
   "note": ""
  },
  {
   "property": "C37",
   "status": "proved",
   "theorems": [
    "ZhuSuan.Arith.C37_delegates",
    "ZhuSuan.Arith.C37_operand_order",
    "ZhuSuan.Arith.C37_identity"
   ],
   "note": ""
  },
  {
   "property": "C38",
   "status": "partial",
   "theorems": [
    "ZhuSuan.VObj.C38_latents",
    "ZhuSuan.VObj.C38_latents_sampled",
    "ZhuSuan.VObj.C38_log_probs",
    "ZhuSuan.VObj.C38_observed_wins",
    "ZhuSuan.VObj.C38_model_observes_partial",
    "ZhuSuan.VObj.C38_construct_ok",
    "ZhuSuan.VObj.C38_exactly_one",
    "ZhuSuan.VObj.C38_latent_dict",
    "ZhuSuan.VObj.C38_missing_posterior_accepted",
    "ZhuSuan.VObj.C38_bn_cached",
    "ZhuSuan.VObj.C38_elbo_value"
   ],
   "note": "Everything but the refusal of model nodes without posterior, which the code never raises: C38_missing_posterior_accepted."
  },
  {
   "property": "C39",
   "status": "proved",
   "theorems": [
    "ZhuSuan.Grad.C39_elbo_gap",
    "ZhuSuan.Grad.C39_elbo_le",
    "ZhuSuan.Grad.C39_elbo_eq_iff",
    "ZhuSuan.Grad.C39_finite"
   ],
   "note": ""
  },
  {
   "property": "C40",
   "status": "proved",
   "theorems": [
    "ZhuSuan.Grad.C40_above_elbo",
    "ZhuSuan.Grad.C40_le_evidence",
    "ZhuSuan.Grad.C40_monotone_step",
    "ZhuSuan.Grad.C40_monotone",
    "ZhuSuan.Grad.C40_one_sample",
    "ZhuSuan.Grad.C40_tight"
   ],
   "note": ""
  },
  {
   "property": "C41",
   "status": "proved",
   "theorems": [
    "ZhuSuan.Grad.C41_elbo_pathwise",
    "ZhuSuan.Grad.C41_iw_pathwise",
    "ZhuSuan.Grad.C41_elbo_unbiased",
    "ZhuSuan.Grad.C41_iw_unbiased"
   ],
   "note": ""
  },
  {
   "property": "C42",
   "status": "proved",
   "theorems": [
    "ZhuSuan.Grad.C42_unbiased",
    "ZhuSuan.Grad.C42_unbiased_finite",
    "ZhuSuan.Grad.C42_baseline_cost"
   ],
   "note": ""
  },
  {
   "property": "C43",
   "status": "partial",
   "theorems": [
    "ZhuSuan.Grad.C43_state_order_free",
    "ZhuSuan.Grad.C43_read_first_partial",
    "ZhuSuan.Grad.C43_update_first_reads_present",
    "ZhuSuan.Grad.C43_update_first_at_start",
    "ZhuSuan.Grad.C43_update_first_biased",
    "ZhuSuan.Grad.C43_moving_mean_bounds",
    "ZhuSuan.Grad.C43_bias_witness"
   ],
   "note": "Refuted for the order in which the update runs before the read (C43_update_first_reads_present, C43_bias_witness); proved for the other order (C43_read_first_partial)."
  },
  {
   "property": "C44",
   "status": "proved",
   "theorems": [
    "ZhuSuan.Grad.C44_control_variate",
    "ZhuSuan.Grad.C44_control_variate_indep",
    "ZhuSuan.Grad.C44_unbiased",
    "ZhuSuan.Grad.C44_unbiased_finite",
    "ZhuSuan.Grad.C44_refused",
    "ZhuSuan.Grad.C44_perm"
   ],
   "note": ""
  },
  {
   "property": "C45",
   "status": "proved",
   "theorems": [
    "ZhuSuan.Grad.C45_self_normalised",
    "ZhuSuan.Grad.C45_weights",
    "ZhuSuan.Grad.C45_shift",
    "ZhuSuan.Grad.C45_gradient",
    "ZhuSuan.Grad.C45_exhaustive",
    "ZhuSuan.Grad.C45_consistent"
   ],
   "note": ""
  },
  {
   "property": "C46",
   "status": "partial",
   "theorems": [
    "ZhuSuan.Num.C46_sample_no_gradient_partial",
    "ZhuSuan.Num.C46_path_no_direct_gradient_partial",
    "ZhuSuan.Num.C46_values",
    "ZhuSuan.Num.C46_values_on_support",
    "ZhuSuan.Num.C46_full_is_path_plus_direct",
    "ZhuSuan.Num.C46_path_unbiased",
    "ZhuSuan.Num.C46_gamma_sample_leaks",
    "ZhuSuan.Num.C46_inverseGamma_sample_leaks",
    "ZhuSuan.Num.C46_gamma_path_ignored",
    "ZhuSuan.Num.C46_uniform_path_ignored",
    "ZhuSuan.Num.C46_dirichlet_path_ignored"
   ],
   "note": "Holds for the distributions with the switches (Normal, FoldNormal, Uniform samples, Laplace, BinConcrete, MVN, matrix normal, Concrete, ExpConcrete). False of the code elsewhere: Gamma-based samples leak a gradient (C46_*_leaks) and use_path_derivative is accepted and ignored by distributions without path_param (C46_*_ignored). C46_path_unbiased: equal expectations."
  },
  {
   "property": "C47",
   "status": "proved",
   "theorems": [
    "ZhuSuan.Ais.C47_schedule",
    "ZhuSuan.Ais.C47_range"
   ],
   "note": ""
  },
  {
   "property": "C48",
   "status": "proved",
   "theorems": [
    "ZhuSuan.Ais.C48_unbiased",
    "ZhuSuan.Ais.C48_hmc"
   ],
   "note": ""
  },
  {
   "property": "C49",
   "status": "proved",
   "theorems": [
    "ZhuSuan.Ais.C49_exact",
    "ZhuSuan.Ais.C49_lower_bound",
    "ZhuSuan.Ais.C49_above",
    "ZhuSuan.Ais.C49_tail",
    "ZhuSuan.Ais.C49_hmc",
    "ZhuSuan.Ais.C49_consistent",
    "ZhuSuan.Ais.C49_tight",
    "ZhuSuan.Ais.C49_range",
    "ZhuSuan.Ais.C49_result_range",
    "ZhuSuan.Ais.C49_tight_bounded"
   ],
   "note": ""
  },
  {
   "property": "C50",
   "status": "proved",
   "theorems": [
    "ZhuSuan.Hmc.C50_reversible",
    "ZhuSuan.Hmc.C50_volume",
    "ZhuSuan.Hmc.C50_scheme"
   ],
   "note": ""
  },
  {
   "property": "C51",
   "status": "proved",
   "theorems": [
    "ZhuSuan.Hmc.C51_range",
    "ZhuSuan.Hmc.C51_formula",
    "ZhuSuan.Hmc.C51_bad_proposal",
    "ZhuSuan.Hmc.C51_never_accepted",
    "ZhuSuan.Hmc.C51_bad_start"
   ],
   "note": ""
  },
  {
   "property": "C52",
   "status": "proved",
   "theorems": [
    "ZhuSuan.Hmc.C52_invariant",
    "ZhuSuan.Hmc.C52_sample",
    "ZhuSuan.Hmc.C52_after_burn_in",
    "ZhuSuan.Hmc.C52_reversible",
    "ZhuSuan.Hmc.C52_runs",
    "ZhuSuan.Hmc.C52_runs_after_burn_in"
   ],
   "note": ""
  },
  {
   "property": "C53",
   "status": "proved",
   "theorems": [
    "ZhuSuan.Hmc.C53_chain_local",
    "ZhuSuan.Hmc.C53_accept",
    "ZhuSuan.Hmc.C53_outputs",
    "ZhuSuan.Hmc.C53_hamiltonian_of_proposal",
    "ZhuSuan.Hmc.C53_fixed"
   ],
   "note": "C53_hamiltonian_of_proposal records that HMCInfo.hamiltonian is the proposal's, contrary to its documentation."
  },
  {
   "property": "C54",
   "status": "partial",
   "theorems": [
    "ZhuSuan.Hmc.C54_dual_averaging",
    "ZhuSuan.Hmc.C54_sample",
    "ZhuSuan.Hmc.C54_none",
    "ZhuSuan.Hmc.C54_positive",
    "ZhuSuan.Hmc.C54_off_partial",
    "ZhuSuan.Hmc.C54_off_overwrites",
    "ZhuSuan.Hmc.C54_shrinkage_point"
   ],
   "note": "The recursion and positivity are proved. 'With adaptation off the step size does not change' is false of the code at the first such iteration (C54_off_overwrites); C54_off_partial proves it from then on. C54_shrinkage_point: mu is not the logarithm of ten times the step size."
  },
  {
   "property": "C55",
   "status": "proved",
   "theorems": [
    "ZhuSuan.Hmc.C55_moments",
    "ZhuSuan.Hmc.C55_variance_pos",
    "ZhuSuan.Hmc.C55_shift",
    "ZhuSuan.Hmc.C55_momentum",
    "ZhuSuan.Hmc.C55_none",
    "ZhuSuan.Hmc.C55_zero_variance_freezes",
    "ZhuSuan.Hmc.C55_off_freezes"
   ],
   "note": "Also the findings C55_zero_variance_freezes and C55_off_freezes."
  },
  {
   "property": "C56",
   "status": "proved",
   "theorems": [
    "ZhuSuan.Hmc.C56_trial_rate",
    "ZhuSuan.Hmc.C56_result",
    "ZhuSuan.Hmc.C56_terminates_iff",
    "ZhuSuan.Hmc.C56_form",
    "ZhuSuan.Hmc.C56_no_search_down",
    "ZhuSuan.Hmc.C56_target_above_one"
   ],
   "note": "C56_no_search_down and C56_target_above_one record that the search never goes down by more than one factor and never ends for a target above one."
  },
  {
   "property": "C57",
   "status": "proved",
   "theorems": [
    "ZhuSuan.Hmc.C57_init",
    "ZhuSuan.Hmc.C57_not_variable",
    "ZhuSuan.Hmc.C57_accepts",
    "ZhuSuan.Hmc.C57_joint",
    "ZhuSuan.Hmc.C57_counter",
    "ZhuSuan.Hmc.C57_counter_stuck",
    "ZhuSuan.Hmc.C57_search_window"
   ],
   "note": "C57_counter_stuck: without adaptation the counter is not incremented (nothing depends on it)."
  },
  {
   "property": "C58",
   "status": "proved",
   "theorems": [
    "ZhuSuan.Sgmcmc.C58_sgld_law",
    "ZhuSuan.Sgmcmc.C58_sgld_fixed",
    "ZhuSuan.Sgmcmc.C58_psgld",
    "ZhuSuan.Sgmcmc.C58_preconditioner",
    "ZhuSuan.Sgmcmc.C58_psgld_fixed"
   ],
   "note": ""
  },
  {
   "property": "C59",
   "status": "proved",
   "theorems": [
    "ZhuSuan.Sgmcmc.C59_first_order",
    "ZhuSuan.Sgmcmc.C59_second_order",
    "ZhuSuan.Sgmcmc.C59_second_order_law",
    "ZhuSuan.Sgmcmc.C59_reversible",
    "ZhuSuan.Sgmcmc.C59_volume",
    "ZhuSuan.Sgmcmc.C59_resample_law"
   ],
   "note": ""
  },
  {
   "property": "C60",
   "status": "proved",
   "theorems": [
    "ZhuSuan.Sgmcmc.C60_alpha_first",
    "ZhuSuan.Sgmcmc.C60_alpha_second",
    "ZhuSuan.Sgmcmc.C60_direction",
    "ZhuSuan.Sgmcmc.C60_sghmc"
   ],
   "note": ""
  },
  {
   "property": "C61",
   "status": "partial",
   "theorems": [
    "ZhuSuan.SgGraph.C61_graph_refuted",
    "ZhuSuan.Sgmcmc.C61_shared",
    "ZhuSuan.Sgmcmc.C61_shared_refuted",
    "ZhuSuan.Sgmcmc.C61_early_partial",
    "ZhuSuan.Sgmcmc.C61_late_partial",
    "ZhuSuan.Sgmcmc.C61_once_partial",
    "ZhuSuan.Sgmcmc.C61_trivial",
    "ZhuSuan.Sgmcmc.C61_twice",
    "ZhuSuan.Sgmcmc.C61_skipped",
    "ZhuSuan.Sgmcmc.C61_disagree"
   ],
   "note": "Proved if the counter is always read on the same side of its increment (C61_early_partial, C61_late_partial, C61_once_partial) and for n = 0, 1 (C61_trivial). The graph orders neither, so the full claim is false: C61_twice, C61_skipped, C61_disagree. From the graphs: C61_graph_refuted."
  },
  {
   "property": "C62",
   "status": "partial",
   "theorems": [
    "ZhuSuan.SgGraph.C62_graph_reads_partial",
    "ZhuSuan.SgGraph.C62_graph_order_partial",
    "ZhuSuan.SgGraph.C62_graph_refuted",
    "ZhuSuan.SgGraph.C62_refines_partial",
    "ZhuSuan.SgGraph.C62_graph_runs",
    "ZhuSuan.Sgmcmc.C62_simultaneous",
    "ZhuSuan.Sgmcmc.C62_single_partial",
    "ZhuSuan.Sgmcmc.C62_race",
    "ZhuSuan.Sgmcmc.C62_joint",
    "ZhuSuan.Sgmcmc.C62_info",
    "ZhuSuan.Sgmcmc.C62_sghmc"
   ],
   "note": "Proved for SGHMC and SGNHT, and for SGLD/PSGLD with one latent variable (C62_single_partial). False for SGLD/PSGLD with several latent variables: C62_race. The order of reads and assignments is derived from the graphs in C62_graph_reads_partial, C62_graph_order_partial and C62_graph_refuted. The graphs compute Resume.step, made of the updates of C58–C60, in every order that reads the counter first (C62_refines_partial; such orders exist, C62_graph_runs)."
  },
  {
   "property": "C63",
   "status": "partial",
   "theorems": [
    "ZhuSuan.Diagnostics.C63_estimator_partial",
    "ZhuSuan.Diagnostics.C63_lag_zero",
    "ZhuSuan.Diagnostics.C63_bounds",
    "ZhuSuan.Diagnostics.C63_affine",
    "ZhuSuan.Diagnostics.C63_minimum",
    "ZhuSuan.Diagnostics.C63_too_few",
    "ZhuSuan.Diagnostics.C63_constant",
    "ZhuSuan.Diagnostics.C63_one_sample"
   ],
   "note": "Not Stan's estimator: lag 0 is included in the sum (C63_lag_zero), so the value never exceeds about n/3 (C63_bounds). C63_too_few, C63_constant and C63_one_sample record the degenerate inputs."
  },
  {
   "property": "C64",
   "status": "proved",
   "theorems": [
    "ZhuSuan.Transform.C64_constraint",
    "ZhuSuan.Transform.C64_step_bijective",
    "ZhuSuan.Transform.C64_step_jacobian",
    "ZhuSuan.Transform.C64_bijective",
    "ZhuSuan.Transform.C64_log_density",
    "ZhuSuan.Transform.C64_log_density_exists",
    "ZhuSuan.Transform.C64_guard",
    "ZhuSuan.Transform.C64_planar_guard"
   ],
   "note": "For w ≠ 0 in every iteration; w = 0 divides by zero (0/0). C64_guard is the argument check shared with inv_autoregressive_flow."
  },
  {
   "property": "C65",
   "status": "partial",
   "theorems": [
    "ZhuSuan.Transform.C65_linear_ar",
    "ZhuSuan.Transform.C65_update",
    "ZhuSuan.Transform.C65_jacobian",
    "ZhuSuan.Transform.C65_bijective",
    "ZhuSuan.Transform.C65_log_density",
    "ZhuSuan.Transform.C65_log_density_exists",
    "ZhuSuan.Transform.C65_linear_ar_good",
    "ZhuSuan.Transform.C65_linear_ar_flow_partial",
    "ZhuSuan.Transform.C65_unknown_update"
   ],
   "note": "All but the refusal of unknown update rules, which is false: C65_unknown_update."
  },
  {
   "property": "C66",
   "status": "partial",
   "theorems": [
    "ZhuSuan.Special.C66_empirical",
    "ZhuSuan.Special.C66_empirical_shape",
    "ZhuSuan.Special.C66_implicit_sample",
    "ZhuSuan.Special.C66_implicit_continuous_partial",
    "ZhuSuan.Special.C66_implicit_discrete",
    "ZhuSuan.Special.C66_grouped_prob",
    "ZhuSuan.Special.C66_grouped_twice"
   ],
   "note": "Empirical and Implicit sampling are proved, and Implicit's scores without grouping. The log-probability of a continuous Implicit away from its sample is NaN instead of -inf (C66_implicit_continuous_partial). With grouping, prob is +inf at values differing in an even number of entries (C66_grouped_prob), and log_prob reduces twice (C66_grouped_twice)."
  },
  {
   "property": "C67",
   "status": "proved",
   "theorems": [
    "ZhuSuan.ExUtils.C67_standardize",
    "ZhuSuan.ExUtils.C67_one_hot",
    "ZhuSuan.ExUtils.C67_one_hot_error",
    "ZhuSuan.ExUtils.C67_one_hot_negative",
    "ZhuSuan.ExUtils.C67_average_gradients",
    "ZhuSuan.ExUtils.C67_missing_gradient",
    "ZhuSuan.ExUtils.C67_average_losses",
    "ZhuSuan.ExUtils.C67_rmse",
    "ZhuSuan.ExUtils.C67_tiles"
   ],
   "note": "Exact arithmetic. C67_one_hot_negative and C67_missing_gradient describe out-of-range inputs; C67_tiles is save_image_collections."
  },
  {
   "property": "C68",
   "status": "proved",
   "theorems": [
    "ZhuSuan.GP.C68_kernel_values",
    "ZhuSuan.GP.C68_kdiag",
    "ZhuSuan.GP.C68_kernel_psd",
    "ZhuSuan.GP.C68_kernel_singular",
    "ZhuSuan.GP.C68_kdiag_shape",
    "ZhuSuan.GP.C68_conditional",
    "ZhuSuan.GP.C68_cholesky_exists",
    "ZhuSuan.GP.C68_interpolates",
    "ZhuSuan.GP.C68_chain_rule",
    "ZhuSuan.GP.C68_kernel_batched",
    "ZhuSuan.GP.C68_kernel_ranks"
   ],
   "note": "On matrices of points. C68_kdiag_shape: Kdiag has the wrong shape for two or more batch axes. tf.cholesky is represented by the relation 'lower triangular with positive diagonal and L L^T = K'."
  },
  {
   "property": "C69",
   "status": "proved",
   "theorems": [
    "ZhuSuan.BN.C69_log_joint_product",
    "ZhuSuan.BN.C69_draws",
    "ZhuSuan.BN.C69_sampling",
    "ZhuSuan.BN.C69_law",
    "ZhuSuan.BN.C69_normalised",
    "ZhuSuan.BN.C69_program",
    "ZhuSuan.BN.C69_program_law",
    "ZhuSuan.BN.C69_program_normalised"
   ],
   "note": "Distributions are densities with respect to arbitrary sigma-finite measures; observations have the right type and shape (C11 is the check), every distribution can be sampled. Log probabilities are extended reals."
  },
  {
   "property": "C70",
   "status": "proved",
   "theorems": [
    "ZhuSuan.VObj.C70_runs",
    "ZhuSuan.VObj.C70_terms",
    "ZhuSuan.VObj.C70_elbo_value",
    "ZhuSuan.VObj.C70_samples",
    "ZhuSuan.VObj.C70_weight",
    "ZhuSuan.VObj.C70_elbo_bound",
    "ZhuSuan.VObj.C70_posterior_exact"
   ],
   "note": "One particle (axis=None); several particles are C39 and C40. The variational net is built without observations. Log probabilities are extended reals; the expectation of the value is taken when the value is integrable and never minus infinity."
  },
  {
   "property": "C71",
   "status": "proved",
   "theorems": [
    "ZhuSuan.Grad.C71_unbiased_likelihood",
    "ZhuSuan.Grad.C71_stochastic_lower_bound",
    "ZhuSuan.Grad.C71_consistent"
   ],
   "note": "log p and log q are real log densities on the common support of joint and proposal; exact reals."
  },
  {
   "property": "C72",
   "status": "partial",
   "theorems": [
    "ZhuSuan.Calls.C72_methods",
    "ZhuSuan.Calls.C72_methods_accept",
    "ZhuSuan.Calls.C72_legacy_partial",
    "ZhuSuan.Calls.C72_empirical_drops_is_continuous",
    "ZhuSuan.Calls.C72_empirical_call",
    "ZhuSuan.Calls.C72_unknown_keyword",
    "ZhuSuan.Calls.C72_normal_order",
    "ZhuSuan.Calls.C72_order",
    "ZhuSuan.Calls.C72_constructors"
   ],
   "note": "Proved for all 20 BayesianNet methods and all legacy classes but Empirical, which drops is_continuous (C72_empirical_drops_is_continuous). Unknown keywords are accepted silently (C72_unknown_keyword). The rows transcribe the signatures and calls."
  },
  {
   "property": "C73",
   "status": "proved",
   "theorems": [
    "ZhuSuan.Ctors.C73_exactly",
    "ZhuSuan.Ctors.C73_pairs",
    "ZhuSuan.Ctors.C73_never_refused",
    "ZhuSuan.Ctors.C73_pairs_late",
    "ZhuSuan.Ctors.C73_static_irrelevant",
    "ZhuSuan.Ctors.C73_usable",
    "ZhuSuan.Ctors.C73_build_time",
    "ZhuSuan.Ctors.C73_pairs_known",
    "ZhuSuan.Ctors.C73_dtype_error"
   ],
   "note": "C73_exactly is the full equivalence for the 13 classes whose checks reach run time; for the 7 two-parameter families C73_pairs, C73_pairs_known and C73_pairs_late say what is refused and when. TensorFlow may report a certainly failing assertion already while building; the model reports it at run time at the latest."
  },
  {
   "property": "C74",
   "status": "proved",
   "theorems": [
    "ZhuSuan.Vars.C74_same_variables",
    "ZhuSuan.Vars.C74_separate",
    "ZhuSuan.Vars.C74_nothing_new",
    "ZhuSuan.Vars.C74_new_name",
    "ZhuSuan.Vars.C74_scope_without_reuse",
    "ZhuSuan.Vars.C74_requires_scope",
    "ZhuSuan.Vars.C74_failed_first_call"
   ],
   "note": "Scripts call nets at the root scope; the model functions observe no other net and open no scope with reuse=True, and a net with reuse_variables does the same in all its calls. C74_nothing_new holds without these restrictions. TensorFlow's variable store is modelled from its documented behaviour (trusted base)."
  },
  {
   "property": "C75",
   "status": "proved",
   "theorems": [
    "ZhuSuan.Uni.BDist.C75_shape",
    "ZhuSuan.Uni.BDist.C75_groups",
    "ZhuSuan.Uni.BDist.C75_one"
   ],
   "note": "FoldNormal is left out because its sampler and density disagree (C19). Categorical and Binomial flatten their batch and are not covered here. The sources are modelled as independent per entry (trusted base)."
  },
  {
   "property": "C76",
   "status": "proved",
   "theorems": [
    "ZhuSuan.Batch.C76_dirichlet",
    "ZhuSuan.Batch.C76_concrete",
    "ZhuSuan.Batch.C76_exp_concrete",
    "ZhuSuan.Batch.C76_unnormalized_multinomial",
    "ZhuSuan.Batch.C76_multinomial",
    "ZhuSuan.Batch.C76_onehot",
    "ZhuSuan.Batch.C76_categorical",
    "ZhuSuan.Batch.C76_categorical_range",
    "ZhuSuan.Batch.C76_mvn",
    "ZhuSuan.Batch.C76_matrix_normal",
    "ZhuSuan.Batch.C76_group"
   ],
   "note": "The row formulas are those of Model/Num.lean, whose meaning (normalisation, agreement with the samplers, gradients) is C21, C26 and C30-C34. Failures are one value (none); ValueError against run-time error is C13's subject. What TensorFlow knows statically of the two tf.ones helpers of MatrixVariateNormalCholesky is arbitrary as long as it is true."
  },
  {
   "property": "C77",
   "status": "proved",
   "theorems": [
    "ZhuSuan.Batch.C77_categorical",
    "ZhuSuan.Batch.C77_onehot",
    "ZhuSuan.Batch.C77_multinomial",
    "ZhuSuan.Batch.C77_binomial",
    "ZhuSuan.Batch.C77_dirichlet",
    "ZhuSuan.Batch.C77_concrete",
    "ZhuSuan.Batch.C77_exp_concrete",
    "ZhuSuan.Batch.C77_mvn",
    "ZhuSuan.Batch.C77_matrix_normal"
   ],
   "note": "Densities are with respect to counting measures (the discrete classes), Lebesgue measure (the normals) and the simplex measures of Spec/BatchSampleMv.lean. Multinomial without normalize_logits needs logits that are logarithms of probabilities (C31 says why); with UnnormalizedMultinomial there is no sampler. The laws of tf.random.normal, uniform, gamma and categorical are trusted. The temperature of the relaxed classes is a scalar, as their constructors demand (C72, C74)."
  },
  {
   "property": "C78",
   "status": "proved",
   "theorems": [
    "ZhuSuan.BN.C78_log_posterior",
    "ZhuSuan.BN.C78_posterior_invariant",
    "ZhuSuan.BN.C78_after_burn_in",
    "ZhuSuan.BN.C78_fresh_draws"
   ],
   "note": "The gradient is any measurable function of the chain's own values. Densities of the nodes are measurable and, at the visited values, positive and finite (the log posterior is a real number), and the evidence is finite. A node that is neither observed nor latent is sampled anew in every evaluation (C78_log_posterior covers it, C78_fresh_draws shows the consequence); the invariance theorems exclude it. Variable scopes are left out."
  },
  {
   "property": "C79",
   "status": "proved",
   "theorems": [
    "ZhuSuan.BN.C79_prior_samples",
    "ZhuSuan.BN.C79_proposal_law",
    "ZhuSuan.BN.C79_evidence",
    "ZhuSuan.BN.C79_weight",
    "ZhuSuan.BN.C79_lower_bound",
    "ZhuSuan.BN.C79_overlap",
    "ZhuSuan.BN.C79_consistent"
   ],
   "note": "HMC without adaptation (as in C48). The proposal's nodes are the latent variables and its densities are normalised; every node of the model is observed or latent; log densities are finite; the gradient is any measurable function of the chain's own values. The latent nodes' densities are with respect to the volume of the numbers in them (OnNumbers). C79_overlap shows what happens when a name is both observed and latent."
  },
  {
   "property": "C80",
   "status": "proved",
   "theorems": [
    "ZhuSuan.VObj.C80_value",
    "ZhuSuan.VObj.C80_no_latent",
    "ZhuSuan.VObj.C80_axis_required",
    "ZhuSuan.VObj.C80_likelihood",
    "ZhuSuan.VObj.C80_bounds",
    "ZhuSuan.VObj.C80_elbo_axis",
    "ZhuSuan.VObj.C80_overestimate",
    "ZhuSuan.VObj.C80_consistent",
    "ZhuSuan.VObj.C80_tight",
    "ZhuSuan.VObj.C80_posterior_exact"
   ],
   "note": "Every node of the proposal is drawn along the sample axis, so that the indices of that axis are independent copies. The proposal has a node for each latent variable of the model and normalised densities; the evidence is finite and the log weight is almost surely not -infinity; the bounds on the expectation need it to exist. C80_no_latent shows that a model without latent variables is refused."
  },
  {
   "property": "C81",
   "status": "proved",
   "theorems": [
    "ZhuSuan.VObj.C81_reinforce",
    "ZhuSuan.VObj.C81_vimco",
    "ZhuSuan.VObj.C81_importance",
    "ZhuSuan.VObj.C81_sgvb",
    "ZhuSuan.VObj.C81_sgvb_iw",
    "ZhuSuan.VObj.C81_reinforce_finite",
    "ZhuSuan.VObj.C81_vimco_finite",
    "ZhuSuan.VObj.C81_importance_finite",
    "ZhuSuan.VObj.C81_refused"
   ],
   "note": "One direction of the parameter at a time. `Training` says that the code built the objective for each parameter value and that the graph holds the value and derivative of the log joint and of each variational log probability along the samples. Densities are positive and finite. The general theorems assume the interchange of derivative and expectation (ElboFamily, IwFamily, Reparam); the finite ones need no such condition. The value read from the moving mean is an argument, as in C42; C43 is about when it is read."
  },
  {
   "property": "C82",
   "status": "proved",
   "theorems": [
    "ZhuSuan.Checked.C82_off",
    "ZhuSuan.Checked.C82_same",
    "ZhuSuan.Checked.C82_complaints",
    "ZhuSuan.Checked.C82_value",
    "ZhuSuan.Checked.C82_finite",
    "ZhuSuan.Checked.C82_in_domain",
    "ZhuSuan.Checked.C82_prob",
    "ZhuSuan.Checked.C82_sample",
    "ZhuSuan.Checked.C82_sample_value",
    "ZhuSuan.Checked.C82_sample_std_unchecked",
    "ZhuSuan.Checked.C82_shape_unchecked"
   ],
   "note": "Reals with inf, -inf and NaN, no rounding, overflow or underflow. One batch entry; TensorFlow checks all entries of a tensor at once. Of `sample` only the checked part is modelled."
  },
  {
   "property": "C83",
   "status": "partial",
   "theorems": [
    "ZhuSuan.Hmc.C83_hmc_runs",
    "ZhuSuan.Checked.C83_finite_partial",
    "ZhuSuan.Checked.C83_outside",
    "ZhuSuan.Checked.C83_prob",
    "ZhuSuan.Checked.C83_excluded",
    "ZhuSuan.Checked.C83_hmc",
    "ZhuSuan.Checked.C83_unrecognised",
    "ZhuSuan.Checked.C83_boundary",
    "ZhuSuan.Checked.C83_inverse_gamma_zero"
   ],
   "note": "Full claim: see properties.jsonl; it is false of the code (C83_unrecognised, C83_boundary). Proved: a finite log_prob implies that the value is finite and in the interior of the support, except that integrality and normalisation are not checked; outside, log_prob is -inf for FoldNormal, Uniform, Poisson and Binomial and NaN for the others; HMC stays where log_prob is finite. No overflow or rounding."
  },
  {
   "property": "C84",
   "status": "proved",
   "theorems": [
    "ZhuSuan.VObj.C84_tensor_fixed",
    "ZhuSuan.VObj.C84_model_run_once",
    "ZhuSuan.VObj.C84_bn_same",
    "ZhuSuan.VObj.C84_arguments",
    "ZhuSuan.VObj.C84_one_log_joint",
    "ZhuSuan.VObj.C84_first_use",
    "ZhuSuan.VObj.C84_klpq",
    "ZhuSuan.VObj.C84_retry",
    "ZhuSuan.VObj.C84_reinforce_twice",
    "ZhuSuan.VObj.C84_stale_tensor"
   ],
   "note": "All histories of uses and of changes by the caller. C84_one_log_joint assumes that the caller does nothing to the model net, which is needed (C84_stale_tensor). Tensors are values; what an estimator computes from the terms is a function argument."
  },
  {
   "property": "C85",
   "status": "proved",
   "theorems": [
    "ZhuSuan.Sgmcmc.C85_sgld_law",
    "ZhuSuan.Sgmcmc.C85_sgld_stationary",
    "ZhuSuan.Sgmcmc.C85_sgld_limit",
    "ZhuSuan.Sgmcmc.C85_sgld_bias",
    "ZhuSuan.Sgmcmc.C85_sgld_diverges",
    "ZhuSuan.Sgmcmc.C85_sghmc_stationary",
    "ZhuSuan.Sgmcmc.C85_sghmc_limit",
    "ZhuSuan.Sgmcmc.C85_sghmc2_positions",
    "ZhuSuan.Sgmcmc.C85_sghmc1_middle",
    "ZhuSuan.Sgmcmc.C85_variance_estimate",
    "ZhuSuan.Sgmcmc.C85_friction_factor",
    "ZhuSuan.Sgmcmc.C85_more_friction",
    "ZhuSuan.Sgmcmc.C85_gradient",
    "ZhuSuan.Sgmcmc.C85_sgld_runs",
    "ZhuSuan.Sgmcmc.C85_sghmc_runs",
    "ZhuSuan.Sgmcmc.C85_sghmc_stationary_runs",
    "ZhuSuan.Sgmcmc.C85_sgld_stationary_runs"
   ],
   "note": "Normal posteriors; draws are exact reals; one call computes all gradients at the state before it, which for several variables is one of the orders the graph allows (C62); the momenta are not resampled. The limits are for expectations of every bounded continuous function. Runs exist from every normal start (C85_sgld_runs, C85_sghmc_runs)."
  },
  {
   "property": "C86",
   "status": "proved",
   "theorems": [
    "ZhuSuan.Hmc.C86_converges",
    "ZhuSuan.Hmc.C86_after_burn_in",
    "ZhuSuan.Hmc.C86_unique",
    "ZhuSuan.Hmc.C86_resonance"
   ],
   "note": "Real arithmetic and exact random draws. The gradient fed to HMC need not be the gradient of the log density (the accept step corrects it), only Lipschitz. C86_resonance is the counterexample without the condition."
  },
  {
   "property": "C87",
   "status": "proved",
   "theorems": [
    "ZhuSuan.Hmc.C87_averages",
    "ZhuSuan.Hmc.C87_after_burn_in"
   ],
   "note": "Real arithmetic and exact random draws; convergence in probability. The positions counted are those after each of the n iterations."
  },
  {
   "property": "C88",
   "status": "proved",
   "theorems": [
    "ZhuSuan.Hmc.C88_gap",
    "ZhuSuan.Hmc.C88_target",
    "ZhuSuan.Hmc.C88_self_regulating",
    "ZhuSuan.Hmc.C88_final_step",
    "ZhuSuan.Hmc.C88_limit"
   ],
   "note": "Real arithmetic. The response of the rates to the step sizes in C88_self_regulating is a hypothesis about the run."
  },
  {
   "property": "C89",
   "status": "proved",
   "theorems": [
    "ZhuSuan.BN.C89_converges",
    "ZhuSuan.BN.C89_after_burn_in",
    "ZhuSuan.BN.C89_averages",
    "ZhuSuan.BN.C89_averages_after_burn_in"
   ],
   "note": "Real arithmetic. Every node is observed or a latent variable of the state, and the log joint is finite everywhere. Short trajectories as in C86."
  },
  {
   "property": "C90",
   "status": "proved",
   "theorems": [
    "ZhuSuan.Sgmcmc.C90_sgld_from",
    "ZhuSuan.Sgmcmc.C90_sgld",
    "ZhuSuan.Sgmcmc.C90_sgld_only",
    "ZhuSuan.Sgmcmc.C90_sghmc1_variance",
    "ZhuSuan.Sgmcmc.C90_sghmc1",
    "ZhuSuan.Sgmcmc.C90_sghmc2_variance",
    "ZhuSuan.Sgmcmc.C90_sghmc2",
    "ZhuSuan.Sgmcmc.C90_sgnht1",
    "ZhuSuan.Sgmcmc.C90_sgnht1_scalar",
    "ZhuSuan.Sgmcmc.C90_sgnht2",
    "ZhuSuan.Sgmcmc.C90_sgnht2_scalar"
   ],
   "note": "Real arithmetic. The second order samplers need gradient estimates that are Lipschitz, SGNHT gradient estimates with a finite variance. The theorems are about one iteration from the target distribution; they do not bound the distance of a long run from the posterior."
  },
  {
   "property": "C91",
   "status": "partial",
   "theorems": [
    "ZhuSuan.Sgmcmc.C91_psgld_rate",
    "ZhuSuan.Sgmcmc.C91_psgld_divergence",
    "ZhuSuan.Sgmcmc.C91_psgld_frozen_partial",
    "ZhuSuan.Sgmcmc.C91_aux",
    "ZhuSuan.Sgmcmc.C91_psgld_biased"
   ],
   "note": "The property is false: C91_psgld_biased is a witness for every decay and epsilon. C91_psgld_frozen_partial proves it for decay 1 and a preconditioner that is independent of the latent variables. C91_psgld_rate and C91_psgld_divergence give the first order term in general."
  },
  {
   "property": "C92",
   "status": "proved",
   "theorems": [
    "ZhuSuan.Minibatch.C92_iters_up",
    "ZhuSuan.Minibatch.C92_iters_down",
    "ZhuSuan.Minibatch.C92_cover",
    "ZhuSuan.Minibatch.C92_cover_down",
    "ZhuSuan.Minibatch.C92_pairs",
    "ZhuSuan.Minibatch.C92_unbiased_mean",
    "ZhuSuan.Minibatch.C92_unbiased",
    "ZhuSuan.Minibatch.C92_mean_of_means",
    "ZhuSuan.Minibatch.C92_ragged",
    "ZhuSuan.Minibatch.C92_sgld",
    "ZhuSuan.Minibatch.C92_sghmc"
   ],
   "note": "One particle. The samplers' theorems are about smooth likelihoods; the networks of the examples have rectified linear units, which are not differentiable everywhere."
  },
  {
   "property": "C93",
   "status": "proved",
   "theorems": [
    "ZhuSuan.SgWeak.C93_distance",
    "ZhuSuan.SgWeak.C93_means",
    "ZhuSuan.SgWeak.C93_distribution",
    "ZhuSuan.SgWeak.C93_constant",
    "ZhuSuan.SgldLoop.C93_minibatch_means",
    "ZhuSuan.SgldLoop.C93_minibatch_distribution",
    "ZhuSuan.SgldLoop.C93_minibatch_constant"
   ],
   "note": "Strongly concave models with Lipschitz gradients; the example of logistic regression with a normal prior meets the conditions. The learning rate is constant within an epoch. Real arithmetic; the update of the prior's scales between epochs is not part of the loop."
  },
  {
   "property": "C94",
   "status": "proved",
   "theorems": [
    "ZhuSuan.Pmf.C94_select_users",
    "ZhuSuan.Pmf.C94_select_movies",
    "ZhuSuan.Pmf.C94_density",
    "ZhuSuan.Pmf.C94_log_joint_users",
    "ZhuSuan.Pmf.C94_log_joint_movies",
    "ZhuSuan.Pmf.C94_invariant",
    "ZhuSuan.Pmf.C94_chunks",
    "ZhuSuan.Pmf.C94_error"
   ],
   "note": "Real arithmetic. The gathers of `model.observe` and of the targets are modelled with bounds checks. The samplers do not adapt, as in the script. The initial values are arbitrary for the claim that training does not fail; the claim about the distribution is invariance, not convergence."
  },
  {
   "property": "C95",
   "status": "proved",
   "theorems": [
    "ZhuSuan.Minibatch.C95_elbo",
    "ZhuSuan.Minibatch.C95_le",
    "ZhuSuan.Minibatch.C95_gradient",
    "ZhuSuan.Minibatch.C95_bnn"
   ],
   "note": "Real arithmetic. The gradient theorem is for one parameter and for fixed noise of the particles; the parameters are fixed within the expectation, as the optimizer is not part of the model."
  },
  {
   "property": "C96",
   "status": "proved",
   "theorems": [
    "ZhuSuan.Svgp.C96_elbo",
    "ZhuSuan.Svgp.C96_marginal_likelihood",
    "ZhuSuan.Svgp.C96_le",
    "ZhuSuan.Svgp.C96_variational",
    "ZhuSuan.Svgp.C96_family",
    "ZhuSuan.Svgp.C96_tight"
   ],
   "note": "Real arithmetic. tf.cholesky is given by its specification (lower triangular, positive diagonal, product equal to the kernel matrix). The optimizer and the evaluation on test data are not modelled."
  },
  {
   "property": "C97",
   "status": "proved",
   "theorems": [
    "ZhuSuan.Lntm.C97_log_joint",
    "ZhuSuan.Lntm.C97_padding",
    "ZhuSuan.Lntm.C97_e_step",
    "ZhuSuan.Lntm.C97_e_steps",
    "ZhuSuan.Lntm.C97_m_step",
    "ZhuSuan.Lntm.C97_epoch_prior",
    "ZhuSuan.Lntm.C97_em",
    "ZhuSuan.Lntm.C97_hyper",
    "ZhuSuan.Lntm.C97_documents",
    "ZhuSuan.Lntm.C97_runs",
    "ZhuSuan.Lntm.C97_update",
    "ZhuSuan.Lntm.C97_epoch_best",
    "ZhuSuan.Lntm.C97_learning_rate",
    "ZhuSuan.Lntm.C97_perplexity",
    "ZhuSuan.Lntm.C97_perplexity_range"
   ],
   "note": "Real arithmetic. Loading of the data and the output of the topics are not modelled; the optimizer is an arbitrary function. The E step is invariant for one run with an adapted step size and for all runs with a fixed one; the expectation claims of the evaluation are for a fixed step size."
  },
  {
   "property": "C98",
   "status": "proved",
   "theorems": [
    "ZhuSuan.Vae.C98_drawn",
    "ZhuSuan.Vae.C98_elbo",
    "ZhuSuan.Vae.C98_iw",
    "ZhuSuan.Vae.C98_is",
    "ZhuSuan.Vae.C98_is_limit",
    "ZhuSuan.Vae.C98_model",
    "ZhuSuan.Vae.C98_generate",
    "ZhuSuan.Vae.C98_binarize",
    "ZhuSuan.Vae.C98_train",
    "ZhuSuan.Vae.C98_train_le",
    "ZhuSuan.Vae.C98_train_iw",
    "ZhuSuan.Vae.C98_test"
   ],
   "note": "Real arithmetic. Flow vectors w are assumed non-zero (they are drawn from a continuous distribution at initialization). The optimizer, images and printing are not modelled; vae_conv.py differs in the networks only and its convolutional networks are not modelled."
  },
  {
   "property": "C99",
   "status": "partial",
   "theorems": [
    "ZhuSuan.Ssl.C99_model",
    "ZhuSuan.Ssl.C99_labeled",
    "ZhuSuan.Ssl.C99_classes",
    "ZhuSuan.Ssl.C99_rows",
    "ZhuSuan.Ssl.C99_unlabeled_value",
    "ZhuSuan.Ssl.C99_unlabeled_partial",
    "ZhuSuan.Ssl.C99_shape_error",
    "ZhuSuan.Ssl.C99_cost"
   ],
   "note": "False of the code for batches of two or more unlabeled images, where the shapes do not fit (C99_shape_error). Proved: labeled bound for all batches, unlabeled bound for one image and for all batches if the rows fit, class probabilities, row layout and expected cost. Real arithmetic; the optimizer and the accuracy are not modelled."
  },
  {
   "property": "C100",
   "status": "proved",
   "theorems": [
    "ZhuSuan.Adamax.C100_divisor",
    "ZhuSuan.Adamax.C100_mean",
    "ZhuSuan.Adamax.C100_norm",
    "ZhuSuan.Adamax.C100_step",
    "ZhuSuan.Adamax.C100_step_bound",
    "ZhuSuan.Adamax.C100_default_bound",
    "ZhuSuan.Adamax.C100_descent",
    "ZhuSuan.Adamax.C100_constant",
    "ZhuSuan.Adamax.C100_sparse"
   ],
   "note": "Real arithmetic; one scalar entry of a variable (the updates are elementwise). Slots and creation of variables by TensorFlow are modelled as state. The minus sign, the order of the updates and eps per precision are as in the code."
  },
  {
   "property": "C101",
   "status": "proved",
   "theorems": [
    "ZhuSuan.Sbn.C101_model",
    "ZhuSuan.Sbn.C101_draw",
    "ZhuSuan.Sbn.C101_bound",
    "ZhuSuan.Sbn.C101_derivative",
    "ZhuSuan.Sbn.C101_vimco",
    "ZhuSuan.Sbn.C101_model_gradient",
    "ZhuSuan.Sbn.C101_proposal",
    "ZhuSuan.Sbn.C101_train_vimco",
    "ZhuSuan.Sbn.C101_train_model",
    "ZhuSuan.Sbn.C101_test"
   ],
   "note": "Real arithmetic. Gradients are directional derivatives in any direction of all variables; the derivative of the sigmoid cross entropy is TensorFlow's (proved to be the derivative). Optimizer steps are not modelled. Adapting the proposal is consistent, not unbiased, for a fixed number of particles."
  },
  {
   "property": "C102",
   "status": "proved",
   "theorems": [
    "ZhuSuan.Dropout.C102_noise",
    "ZhuSuan.Dropout.C102_kl",
    "ZhuSuan.Dropout.C102_training",
    "ZhuSuan.Dropout.C102_eval",
    "ZhuSuan.Dropout.C102_evidence",
    "ZhuSuan.Dropout.C102_le",
    "ZhuSuan.Dropout.C102_predict",
    "ZhuSuan.Dropout.C102_logits",
    "ZhuSuan.Dropout.C102_coupled",
    "ZhuSuan.Dropout.C102_moving",
    "ZhuSuan.Dropout.C102_update"
   ],
   "note": "Real arithmetic. The defaults of tf.contrib.layers (rectifier, no scale, epsilon 0.001, decay 0.999, biased batch variance) are part of the model. Optimizer steps are not modelled; the moving averages are, with any changes of the variables in between."
  },
  {
   "property": "C103",
   "status": "proved",
   "theorems": [
    "ZhuSuan.Gan.C103_jsd",
    "ZhuSuan.Gan.C103_discriminator",
    "ZhuSuan.Gan.C103_optimal",
    "ZhuSuan.Gan.C103_critic",
    "ZhuSuan.Gan.C103_towers",
    "ZhuSuan.Gan.C103_batches",
    "ZhuSuan.Gan.C103_losses",
    "ZhuSuan.Gan.C103_gradients",
    "ZhuSuan.Gan.C103_latent",
    "ZhuSuan.Gan.C103_expected",
    "ZhuSuan.Gan.C103_wgan_expected",
    "ZhuSuan.Gan.C103_clip"
   ],
   "note": "Real arithmetic. The equality of averaged and whole-batch losses, and the expected losses, are for networks that treat the rows separately, as with is_training=False; with batch normalization in training the networks are functions of all rows of a tower. The optimizers are not modelled: the moves of the variables before clipping are arbitrary. That clipping makes the critic Lipschitz is not claimed."
  },
  {
   "property": "C104",
   "status": "proved",
   "theorems": [
    "ZhuSuan.Toy.C104_mixture",
    "ZhuSuan.Toy.C104_mixture_grad",
    "ZhuSuan.Toy.C104_mixture_moments",
    "ZhuSuan.Toy.C104_mixture_kept",
    "ZhuSuan.Toy.C104_kde",
    "ZhuSuan.Toy.C104_kde_density",
    "ZhuSuan.Toy.C104_kde_expected",
    "ZhuSuan.Toy.C104_gaussian",
    "ZhuSuan.Toy.C104_gaussian_schedule",
    "ZhuSuan.Toy.C104_gaussian_stationary",
    "ZhuSuan.Toy.C104_gaussian_averages",
    "ZhuSuan.Toy.C104_variational",
    "ZhuSuan.Toy.C104_funnel",
    "ZhuSuan.Toy.C104_toy2d",
    "ZhuSuan.Toy.C104_toy2d_best",
    "ZhuSuan.Toy.C104_model_contour",
    "ZhuSuan.Toy.C104_variational_contour",
    "ZhuSuan.Toy.C104_contours_differ"
   ],
   "note": "Real arithmetic. For mixture_sgnht.py no claim is made on the distribution of SGNHT samples beyond C60 and C90; the averages of gaussian.py need short trajectories and positive variance estimates at the end of the adaptation."
  },
  {
   "property": "C105",
   "status": "partial",
   "theorems": [
    "ZhuSuan.BernVae.C105_draw",
    "ZhuSuan.BernVae.C105_joint",
    "ZhuSuan.BernVae.C105_bound",
    "ZhuSuan.BernVae.C105_gradient",
    "ZhuSuan.BernVae.C105_unbiased_partial",
    "ZhuSuan.BernVae.C105_evaluation",
    "ZhuSuan.BernVae.C105_test",
    "ZhuSuan.BernVae.C105_one_row_partial",
    "ZhuSuan.BernVae.C105_biased"
   ],
   "note": "The gradient claim is false in training because batch normalization mixes the images of a batch (C105_biased). Proved: the exact error term for all networks (C105_gradient), and the claim when the pixels of an image depend on its own states only (C105_unbiased_partial) or for one image and one particle (C105_one_row_partial). The moving mean of reinforce is a given number; C43 is about when it is read."
  },
  {
   "property": "C106",
   "status": "proved",
   "theorems": [
    "ZhuSuan.ConvVae.C106_rows",
    "ZhuSuan.ConvVae.C106_transpose",
    "ZhuSuan.ConvVae.C106_window",
    "ZhuSuan.ConvVae.C106_window_down",
    "ZhuSuan.ConvVae.C106_window_transpose",
    "ZhuSuan.ConvVae.C106_window_up",
    "ZhuSuan.ConvVae.C106_residual",
    "ZhuSuan.ConvVae.C106_rectified",
    "ZhuSuan.ConvVae.C106_rectified_conv",
    "ZhuSuan.ConvVae.C106_elbo",
    "ZhuSuan.ConvVae.C106_binarize",
    "ZhuSuan.ConvVae.C106_train",
    "ZhuSuan.ConvVae.C106_test",
    "ZhuSuan.ConvVae.C106_generate"
   ],
   "note": "The definition of the convolutions of TensorFlow is taken from its documentation; C106_transpose, C106_window* relate them. normalizer_fn of conv2d_transpose is not used here and not modelled."
  },
  {
   "property": "C107",
   "status": "partial",
   "theorems": [
    "ZhuSuan.SslIs.C107_labeled",
    "ZhuSuan.SslIs.C107_unlabeled_partial",
    "ZhuSuan.SslIs.C107_unlabeled_gap",
    "ZhuSuan.SslIs.C107_unlabeled_gap_exists",
    "ZhuSuan.SslIs.C107_batch",
    "ZhuSuan.SslIs.C107_adapt",
    "ZhuSuan.SslIs.C107_classifier",
    "ZhuSuan.SslIs.C107_cost",
    "ZhuSuan.SslIs.C107_training",
    "ZhuSuan.SslIs.C107_encoder"
   ],
   "note": "Two parts are false. The bound of an unlabeled image does not tend to its log probability (C107_unlabeled_gap), and unlabeled images do not adapt the classifier (C107_classifier), because all particles of an image have the same class. The rest is proved."
  },
  {
   "property": "C108",
   "status": "partial",
   "theorems": [
    "ZhuSuan.Dataset.C108_labeled_partial",
    "ZhuSuan.Dataset.C108_overlap",
    "ZhuSuan.Dataset.C108_chance",
    "ZhuSuan.Dataset.C108_mnist",
    "ZhuSuan.Dataset.C108_cifar",
    "ZhuSuan.Dataset.C108_images",
    "ZhuSuan.Dataset.C108_images_place",
    "ZhuSuan.Dataset.C108_german",
    "ZhuSuan.Dataset.C108_round",
    "ZhuSuan.Dataset.C108_sizes",
    "ZhuSuan.Dataset.C108_split",
    "ZhuSuan.Dataset.C108_columns",
    "ZhuSuan.Dataset.C108_bow",
    "ZhuSuan.Dataset.C108_bow_sparse",
    "ZhuSuan.Dataset.C108_bow_zero",
    "ZhuSuan.Dataset.C108_corpus",
    "ZhuSuan.Dataset.C108_movielens",
    "ZhuSuan.Dataset.C108_untrained",
    "ZhuSuan.Dataset.C108_mapped",
    "ZhuSuan.Dataset.C108_pipeline"
   ],
   "note": "False as documented: the unlabeled rows are all rows, not the others (C108_overlap). The rest is proved, from the contents of the files on; downloads and file formats are not modelled."
  },
  {
   "property": "C109",
   "status": "partial",
   "theorems": [
    "ZhuSuan.Dtypes.C109_sample",
    "ZhuSuan.Dtypes.C109_log_prob_partial",
    "ZhuSuan.Dtypes.C109_no_solver",
    "ZhuSuan.Dtypes.C109_refused",
    "ZhuSuan.Dtypes.C109_truncated",
    "ZhuSuan.Dtypes.C109_whole",
    "ZhuSuan.Dtypes.C109_log_joint"
   ],
   "note": "False in one clause: numpy arrays are cut off to integers (C109_truncated), and the Cholesky normals need a triangular solver for the dtype (C109_no_solver). Everything else is proved for all distributions; TensorFlow's dtype checks are trusted as listed in DESIGN.md."
  },
  {
   "property": "C110",
   "status": "partial",
   "theorems": [
    "ZhuSuan.MetaArgs.C110_decorated",
    "ZhuSuan.MetaArgs.C110_direct_partial",
    "ZhuSuan.MetaArgs.C110_untouched",
    "ZhuSuan.MetaArgs.C110_defaults"
   ],
   "note": "Proved for decorated functions and for direct construction with both containers. False for the documented defaults None, with which observe always fails (C110_defaults)."
  },
  {
   "property": "C111",
   "status": "partial",
   "theorems": [
    "ZhuSuan.MetaArgs.C111_instance",
    "ZhuSuan.MetaArgs.C111_subclass",
    "ZhuSuan.MetaArgs.C111_class_partial",
    "ZhuSuan.MetaArgs.C111_self_partial"
   ],
   "note": "Proved on classes. On instances it holds only if the nearest ancestor does not decorate the method too (C111_instance, C111_subclass) and the instance counts as true (C111_self_partial)."
  },
  {
   "property": "C112",
   "status": "partial",
   "theorems": [
    "ZhuSuan.BnnSg.C112_gradient",
    "ZhuSuan.BnnSg.C112_particles",
    "ZhuSuan.BnnSg.C112_m_step_partial",
    "ZhuSuan.BnnSg.C112_epoch_partial",
    "ZhuSuan.BnnSg.C112_zero",
    "ZhuSuan.BnnSg.C112_reported",
    "ZhuSuan.BnnSg.C112_target",
    "ZhuSuan.BnnSg.C112_prediction",
    "ZhuSuan.BnnSg.C112_average",
    "ZhuSuan.BnnSg.C112_average_zero",
    "ZhuSuan.BnnSg.C112_rmse"
   ],
   "note": "Proved for all inputs; the M step for weights none of whose entries is zero in all particles, as otherwise there is no maximum (C112_zero). Gradients at the kink of relu are not modelled."
  },
  {
   "property": "C113",
   "status": "partial",
   "theorems": [
    "ZhuSuan.FloatDraw.C113_open_interval",
    "ZhuSuan.FloatDraw.C113_logistic",
    "ZhuSuan.FloatDraw.C113_gumbel",
    "ZhuSuan.FloatDraw.C113_laplace",
    "ZhuSuan.FloatDraw.C113_uniform_closed",
    "ZhuSuan.FloatDraw.C113_uniform_partial",
    "ZhuSuan.FloatDraw.C113_uniform_refuted",
    "ZhuSuan.FloatDraw.C113_below"
   ],
   "note": "Proved for all random bits, roundings and dtypes; that Uniform excludes maxval holds for minval <= 0 < maxval with an exact difference (C113_uniform_partial) and fails in general (C113_uniform_refuted). Overflow and flushing of subnormal numbers are not modelled."
  },
  {
   "property": "C114",
   "status": "proved",
   "theorems": [
    "ZhuSuan.BN.C114_run",
    "ZhuSuan.BN.C114_feed_is_observe",
    "ZhuSuan.BN.C114_feed_observed"
   ],
   "note": "For all feeds of stochastic and external tensors; that feeding is observing for unobserved nodes. Feeding an observed node feeds the tensor it is observed with, so also every other node observed with it (C114_feed_observed). Fetches are a flat list; the sampler of a node is any function of the values of its parents and of the noise of its op."
  },
  {
   "property": "C115",
   "status": "proved",
   "theorems": [
    "ZhuSuan.FloatDraw.C115_log_sum_exp",
    "ZhuSuan.FloatDraw.C115_log_mean_exp",
    "ZhuSuan.FloatDraw.C115_max"
   ],
   "note": "For finite entries along one axis. C35 has the tensors with any axes, in exact arithmetic."
  },
  {
   "property": "C116",
   "status": "partial",
   "theorems": [
    "ZhuSuan.AisRun.C116_ais_refuted",
    "ZhuSuan.ZeroDensity.C116_log_sum_exp_partial",
    "ZhuSuan.ZeroDensity.C116_log_mean_exp_partial",
    "ZhuSuan.ZeroDensity.C116_objective_partial",
    "ZhuSuan.ZeroDensity.C116_all_zero_refuted",
    "ZhuSuan.ZeroDensity.C116_reduce_logsumexp",
    "ZhuSuan.ZeroDensity.C116_batch",
    "ZhuSuan.ZeroDensity.C116_vimco",
    "ZhuSuan.ZeroDensity.C116_importance_partial"
   ],
   "note": "Proved when one sample has a positive density, except for vimco and AIS. False otherwise: NaN, or an error in AIS (C116_all_zero_refuted, C116_batch, C116_vimco, C116_ais_refuted). Values only, not gradients; one latent variable and one sample axis."
  },
  {
   "property": "C117",
   "status": "proved",
   "theorems": [
    "ZhuSuan.FloatDraw.C117_nonpos",
    "ZhuSuan.FloatDraw.C117_log_prob",
    "ZhuSuan.FloatDraw.C117_group"
   ],
   "note": "For finite logits and labels 0 and 1. The formula of the TensorFlow op is trusted (DESIGN.md); overflow is not modelled."
  },
  {
   "property": "C118",
   "status": "partial",
   "theorems": [
    "ZhuSuan.Threads.C118_restored",
    "ZhuSuan.Threads.C118_turns_partial",
    "ZhuSuan.Threads.C118_overlap_refuted",
    "ZhuSuan.Threads.C118_outside_refuted"
   ],
   "note": "The second sentence is proved (C118_restored). The first is false (C118_overlap_refuted, C118_outside_refuted) and proved for threads that take turns (C118_turns_partial). TensorFlow's own graph and name stacks are not modelled."
  },
  {
   "property": "C119",
   "status": "partial",
   "theorems": [
    "ZhuSuan.Hmc.C119_fetched",
    "ZhuSuan.Hmc.C119_same",
    "ZhuSuan.Hmc.C119_raises_partial",
    "ZhuSuan.Hmc.C119_silent_refuted",
    "ZhuSuan.Hmc.C119_stuck",
    "ZhuSuan.Hmc.C119_escapes"
   ],
   "note": "The second sentence is proved (C119_same). The first is proved for runs that fetch orig_log_prob or log_prob (C119_raises_partial) and false for all others (C119_silent_refuted, C119_stuck)."
  },
  {
   "property": "C120",
   "status": "proved",
   "theorems": [
    "ZhuSuan.Resume.C120_all",
    "ZhuSuan.Resume.C120_trainable",
    "ZhuSuan.Resume.C120_latent",
    "ZhuSuan.Resume.C120_trainable_needed",
    "ZhuSuan.Resume.C120_latent_sghmc_needed",
    "ZhuSuan.Resume.C120_latent_psgld_needed",
    "ZhuSuan.Resume.C120_latent_sgnht_needed",
    "ZhuSuan.Hmc.C120_hmc_all",
    "ZhuSuan.Hmc.C120_hmc_latent"
   ],
   "note": "Resuming with the same draws; the state of TensorFlow's random generators is not part of a checkpoint. The counter is read before it is incremented, as in C61."
  },
  {
   "property": "C121",
   "status": "partial",
   "theorems": [
    "ZhuSuan.HmcGraph.C121_order_partial",
    "ZhuSuan.HmcGraph.C121_reads_partial",
    "ZhuSuan.HmcGraph.C121_off_step_size",
    "ZhuSuan.HmcGraph.C121_off_order_partial",
    "ZhuSuan.HmcGraph.C121_settles",
    "ZhuSuan.HmcGraph.C121_order_refuted",
    "ZhuSuan.HmcGraph.C121_sample_refuted",
    "ZhuSuan.HmcGraph.C121_refines",
    "ZhuSuan.HmcGraph.C121_runs"
   ],
   "note": "Proved if the step size is adapted in the run or adapt_step_size was not given (C121_order_partial, C121_reads_partial), and with adaptation switched off from the second run on (C121_off_order_partial, C121_settles). False for the first run after adaptation was switched off: C121_order_refuted, C121_sample_refuted. The graph computes Hmc.iteration, which the other HMC properties are about, in every order that reads the step size before assigning it (C121_refines)."
  },
  {
   "property": "C122",
   "status": "partial",
   "theorems": [
    "ZhuSuan.AisRun.C122_finite",
    "ZhuSuan.AisRun.C122_value",
    "ZhuSuan.AisRun.C122_returns_partial",
    "ZhuSuan.AisRun.C122_draw_refuted",
    "ZhuSuan.AisRun.C122_no_temperatures"
   ],
   "note": "A run that returns, returns a finite number (C122_finite), the mean over the data of the log of the mean annealed importance weight (C122_value). It returns if both log densities are finite at the draws that the annealing starts from, unless the search for a step size goes on for ever (C122_returns_partial). False for other draws and for no temperatures: C122_draw_refuted, C122_no_temperatures. Temperatures are exact numbers."
  },
  {
   "property": "C123",
   "status": "partial",
   "theorems": [
    "ZhuSuan.Hmc.C123_fixed_partial",
    "ZhuSuan.Hmc.C123_counter",
    "ZhuSuan.Hmc.C123_search_refuted",
    "ZhuSuan.Hmc.C123_passed_on",
    "ZhuSuan.Hmc.C123_untouched_partial",
    "ZhuSuan.Hmc.C123_frozen_refuted"
   ],
   "note": "Proved without adaptation (C123_fixed_partial); in every configuration runs of other operations leave the samples and the variances of an operation (C123_untouched_partial). False with adaptation: C123_search_refuted, C123_frozen_refuted, and C123_passed_on says what one operation passes on to the others. All operations have chains and coordinates of the same types; their models do not share latent variables."
  }
 ]
}
{
 "C04": {
  "note": "Holds when no block uses the base class Context itself; C04_needs_separate shows the two library stacks would merge otherwise."
 },
 "C06": {
  "note": "Also records that deterministic() and the deprecated constructors do overwrite."
 },
 "C09": {
  "status": "partial",
  "note": "Proved for tame histories and after every successful stochastic(); the unrestricted statement is false of the code: C09_stale_* give histories with a stale cached value."
 },
 "C10": {
  "note": "C10_outputs_deterministic records that deprecated outputs() raises AttributeError on deterministic names."
 },
 "C19": {
  "status": "partial",
  "note": "Density proved; the sampler draws an unfolded normal, so 'samples follow it' is false of the code: C19_samples_not_folded. C19_sampler_partial: the absolute value of the draw has the density."
 },
 "C38": {
  "status": "partial",
  "note": "Everything but the refusal of model nodes without posterior, which the code never raises: C38_missing_posterior_accepted."
 },
 "C43": {
  "status": "partial",
  "note": "Refuted for the order in which the update runs before the read (C43_update_first_reads_present, C43_bias_witness); proved for the other order (C43_read_first_partial)."
 },
 "C46": {
  "status": "partial",
  "note": "Holds for the distributions with the switches (Normal, FoldNormal, Uniform samples, Laplace, BinConcrete, MVN, matrix normal, Concrete, ExpConcrete). False of the code elsewhere: Gamma-based samples leak a gradient (C46_*_leaks) and use_path_derivative is accepted and ignored by distributions without path_param (C46_*_ignored). C46_path_unbiased: equal expectations."
 },
 "C31": {
  "status": "partial",
  "note": "Everything but 'zero elsewhere': with n_experiments given, the code never compares it with the counts and every count vector gets a positive probability (C31_nonzero_elsewhere, C31_total_exceeded)."
 },
 "C33": {
  "note": "ExpConcrete densities are with respect to the surface measure dy/x_last on the log-simplex; C33_exp_lebesgue shows the total is below one with respect to plain Lebesgue measure."
 },
 "C53": {
  "note": "C53_hamiltonian_of_proposal records that HMCInfo.hamiltonian is the proposal's, contrary to its documentation."
 },
 "C54": {
  "status": "partial",
  "note": "The recursion and positivity are proved. 'With adaptation off the step size does not change' is false of the code at the first such iteration (C54_off_overwrites); C54_off_partial proves it from then on. C54_shrinkage_point: mu is not the logarithm of ten times the step size."
 },
 "C55": {
  "note": "Also the findings C55_zero_variance_freezes and C55_off_freezes."
 },
 "C56": {
  "note": "C56_no_search_down and C56_target_above_one record that the search never goes down by more than one factor and never ends for a target above one."
 },
 "C57": {
  "note": "C57_counter_stuck: without adaptation the counter is not incremented (nothing depends on it)."
 },
 "C61": {
  "status": "partial",
  "note": "Proved if the counter is always read on the same side of its increment (C61_early_partial, C61_late_partial, C61_once_partial) and for n = 0, 1 (C61_trivial). The graph orders neither, so the full claim is false: C61_twice, C61_skipped, C61_disagree. From the graphs: C61_graph_refuted."
 },
 "C62": {
  "status": "partial",
  "note": "Proved for SGHMC and SGNHT, and for SGLD/PSGLD with one latent variable (C62_single_partial). False for SGLD/PSGLD with several latent variables: C62_race. The order of reads and assignments is derived from the graphs in C62_graph_reads_partial, C62_graph_order_partial and C62_graph_refuted. The graphs compute Resume.step, made of the updates of C58–C60, in every order that reads the counter first (C62_refines_partial; such orders exist, C62_graph_runs)."
 },
 "C63": {
  "status": "partial",
  "note": "Not Stan's estimator: lag 0 is included in the sum (C63_lag_zero), so the value never exceeds about n/3 (C63_bounds). C63_too_few, C63_constant and C63_one_sample record the degenerate inputs."
 },
 "C64": {
  "note": "For w ≠ 0 in every iteration; w = 0 divides by zero (0/0). C64_guard is the argument check shared with inv_autoregressive_flow."
 },
 "C65": {
  "status": "partial",
  "note": "All but the refusal of unknown update rules, which is false: C65_unknown_update."
 },
 "C66": {
  "status": "partial",
  "note": "Empirical and Implicit sampling are proved, and Implicit's scores without grouping. The log-probability of a continuous Implicit away from its sample is NaN instead of -inf (C66_implicit_continuous_partial). With grouping, prob is +inf at values differing in an even number of entries (C66_grouped_prob), and log_prob reduces twice (C66_grouped_twice)."
 },
 "C67": {
  "note": "Exact arithmetic. C67_one_hot_negative and C67_missing_gradient describe out-of-range inputs; C67_tiles is save_image_collections."
 },
 "C68": {
  "note": "On matrices of points. C68_kdiag_shape: Kdiag has the wrong shape for two or more batch axes. tf.cholesky is represented by the relation 'lower triangular with positive diagonal and L L^T = K'."
 },
 "C69": {
  "note": "Distributions are densities with respect to arbitrary sigma-finite measures; observations have the right type and shape (C11 is the check), every distribution can be sampled. Log probabilities are extended reals."
 },
 "C70": {
  "note": "One particle (axis=None); several particles are C39 and C40. The variational net is built without observations. Log probabilities are extended reals; the expectation of the value is taken when the value is integrable and never minus infinity."
 },
 "C71": {
  "note": "log p and log q are real log densities on the common support of joint and proposal; exact reals."
 },
 "C72": {
  "status": "partial",
  "note": "Proved for all 20 BayesianNet methods and all legacy classes but Empirical, which drops is_continuous (C72_empirical_drops_is_continuous). Unknown keywords are accepted silently (C72_unknown_keyword). The rows transcribe the signatures and calls."
 },
 "C73": {
  "note": "C73_exactly is the full equivalence for the 13 classes whose checks reach run time; for the 7 two-parameter families C73_pairs, C73_pairs_known and C73_pairs_late say what is refused and when. TensorFlow may report a certainly failing assertion already while building; the model reports it at run time at the latest."
 },
 "C74": {
  "note": "Scripts call nets at the root scope; the model functions observe no other net and open no scope with reuse=True, and a net with reuse_variables does the same in all its calls. C74_nothing_new holds without these restrictions. TensorFlow's variable store is modelled from its documented behaviour (trusted base)."
 },
 "C75": {
  "note": "FoldNormal is left out because its sampler and density disagree (C19). Categorical and Binomial flatten their batch and are not covered here. The sources are modelled as independent per entry (trusted base)."
 },
 "C76": {
  "note": "The row formulas are those of Model/Num.lean, whose meaning (normalisation, agreement with the samplers, gradients) is C21, C26 and C30-C34. Failures are one value (none); ValueError against run-time error is C13's subject. What TensorFlow knows statically of the two tf.ones helpers of MatrixVariateNormalCholesky is arbitrary as long as it is true."
 },
 "C77": {
  "note": "Densities are with respect to counting measures (the discrete classes), Lebesgue measure (the normals) and the simplex measures of Spec/BatchSampleMv.lean. Multinomial without normalize_logits needs logits that are logarithms of probabilities (C31 says why); with UnnormalizedMultinomial there is no sampler. The laws of tf.random.normal, uniform, gamma and categorical are trusted. The temperature of the relaxed classes is a scalar, as their constructors demand (C72, C74)."
 },
 "C78": {
  "note": "The gradient is any measurable function of the chain's own values. Densities of the nodes are measurable and, at the visited values, positive and finite (the log posterior is a real number), and the evidence is finite. A node that is neither observed nor latent is sampled anew in every evaluation (C78_log_posterior covers it, C78_fresh_draws shows the consequence); the invariance theorems exclude it. Variable scopes are left out."
 },
 "C79": {
  "note": "HMC without adaptation (as in C48). The proposal's nodes are the latent variables and its densities are normalised; every node of the model is observed or latent; log densities are finite; the gradient is any measurable function of the chain's own values. The latent nodes' densities are with respect to the volume of the numbers in them (OnNumbers). C79_overlap shows what happens when a name is both observed and latent."
 },
 "C80": {
  "note": "Every node of the proposal is drawn along the sample axis, so that the indices of that axis are independent copies. The proposal has a node for each latent variable of the model and normalised densities; the evidence is finite and the log weight is almost surely not -infinity; the bounds on the expectation need it to exist. C80_no_latent shows that a model without latent variables is refused."
 },
 "C81": {
  "note": "One direction of the parameter at a time. `Training` says that the code built the objective for each parameter value and that the graph holds the value and derivative of the log joint and of each variational log probability along the samples. Densities are positive and finite. The general theorems assume the interchange of derivative and expectation (ElboFamily, IwFamily, Reparam); the finite ones need no such condition. The value read from the moving mean is an argument, as in C42; C43 is about when it is read."
 },
 "C82": {
  "note": "Reals with inf, -inf and NaN, no rounding, overflow or underflow. One batch entry; TensorFlow checks all entries of a tensor at once. Of `sample` only the checked part is modelled."
 },
 "C83": {
  "status": "partial",
  "note": "Full claim: see properties.jsonl; it is false of the code (C83_unrecognised, C83_boundary). Proved: a finite log_prob implies that the value is finite and in the interior of the support, except that integrality and normalisation are not checked; outside, log_prob is -inf for FoldNormal, Uniform, Poisson and Binomial and NaN for the others; HMC stays where log_prob is finite. No overflow or rounding."
 },
 "C84": {
  "status": "proved",
  "note": "All histories of uses and of changes by the caller. C84_one_log_joint assumes that the caller does nothing to the model net, which is needed (C84_stale_tensor). Tensors are values; what an estimator computes from the terms is a function argument."
 },
 "C85": {
  "status": "proved",
  "note": "Normal posteriors; draws are exact reals; one call computes all gradients at the state before it, which for several variables is one of the orders the graph allows (C62); the momenta are not resampled. The limits are for expectations of every bounded continuous function. Runs exist from every normal start (C85_sgld_runs, C85_sghmc_runs)."
 },
 "C86": {
  "status": "proved",
  "note": "Real arithmetic and exact random draws. The gradient fed to HMC need not be the gradient of the log density (the accept step corrects it), only Lipschitz. C86_resonance is the counterexample without the condition."
 },
 "C87": {
  "status": "proved",
  "note": "Real arithmetic and exact random draws; convergence in probability. The positions counted are those after each of the n iterations."
 },
 "C88": {
  "status": "proved",
  "note": "Real arithmetic. The response of the rates to the step sizes in C88_self_regulating is a hypothesis about the run."
 },
 "C89": {
  "status": "proved",
  "note": "Real arithmetic. Every node is observed or a latent variable of the state, and the log joint is finite everywhere. Short trajectories as in C86."
 },
 "C90": {
  "status": "proved",
  "note": "Real arithmetic. The second order samplers need gradient estimates that are Lipschitz, SGNHT gradient estimates with a finite variance. The theorems are about one iteration from the target distribution; they do not bound the distance of a long run from the posterior."
 },
 "C91": {
  "status": "partial",
  "note": "The property is false: C91_psgld_biased is a witness for every decay and epsilon. C91_psgld_frozen_partial proves it for decay 1 and a preconditioner that is independent of the latent variables. C91_psgld_rate and C91_psgld_divergence give the first order term in general."
 },
 "C92": {
  "status": "proved",
  "note": "One particle. The samplers' theorems are about smooth likelihoods; the networks of the examples have rectified linear units, which are not differentiable everywhere."
 },
 "C93": {
  "status": "proved",
  "note": "Strongly concave models with Lipschitz gradients; the example of logistic regression with a normal prior meets the conditions. The learning rate is constant within an epoch. Real arithmetic; the update of the prior's scales between epochs is not part of the loop."
 },
 "C94": {
  "status": "proved",
  "note": "Real arithmetic. The gathers of `model.observe` and of the targets are modelled with bounds checks. The samplers do not adapt, as in the script. The initial values are arbitrary for the claim that training does not fail; the claim about the distribution is invariance, not convergence."
 },
 "C95": {
  "status": "proved",
  "note": "Real arithmetic. The gradient theorem is for one parameter and for fixed noise of the particles; the parameters are fixed within the expectation, as the optimizer is not part of the model."
 },
 "C96": {
  "status": "proved",
  "note": "Real arithmetic. tf.cholesky is given by its specification (lower triangular, positive diagonal, product equal to the kernel matrix). The optimizer and the evaluation on test data are not modelled."
 },
 "C97": {
  "status": "proved",
  "note": "Real arithmetic. Loading of the data and the output of the topics are not modelled; the optimizer is an arbitrary function. The E step is invariant for one run with an adapted step size and for all runs with a fixed one; the expectation claims of the evaluation are for a fixed step size."
 },
 "C98": {
  "status": "proved",
  "note": "Real arithmetic. Flow vectors w are assumed non-zero (they are drawn from a continuous distribution at initialization). The optimizer, images and printing are not modelled; vae_conv.py differs in the networks only and its convolutional networks are not modelled."
 },
 "C99": {
  "status": "partial",
  "note": "False of the code for batches of two or more unlabeled images, where the shapes do not fit (C99_shape_error). Proved: labeled bound for all batches, unlabeled bound for one image and for all batches if the rows fit, class probabilities, row layout and expected cost. Real arithmetic; the optimizer and the accuracy are not modelled."
 },
 "C100": {
  "status": "proved",
  "note": "Real arithmetic; one scalar entry of a variable (the updates are elementwise). Slots and creation of variables by TensorFlow are modelled as state. The minus sign, the order of the updates and eps per precision are as in the code."
 },
 "C101": {
  "status": "proved",
  "note": "Real arithmetic. Gradients are directional derivatives in any direction of all variables; the derivative of the sigmoid cross entropy is TensorFlow's (proved to be the derivative). Optimizer steps are not modelled. Adapting the proposal is consistent, not unbiased, for a fixed number of particles."
 },
 "C102": {
  "status": "proved",
  "note": "Real arithmetic. The defaults of tf.contrib.layers (rectifier, no scale, epsilon 0.001, decay 0.999, biased batch variance) are part of the model. Optimizer steps are not modelled; the moving averages are, with any changes of the variables in between."
 },
 "C103": {
  "status": "proved",
  "note": "Real arithmetic. The equality of averaged and whole-batch losses, and the expected losses, are for networks that treat the rows separately, as with is_training=False; with batch normalization in training the networks are functions of all rows of a tower. The optimizers are not modelled: the moves of the variables before clipping are arbitrary. That clipping makes the critic Lipschitz is not claimed."
 },
 "C104": {
  "status": "proved",
  "note": "Real arithmetic. For mixture_sgnht.py no claim is made on the distribution of SGNHT samples beyond C60 and C90; the averages of gaussian.py need short trajectories and positive variance estimates at the end of the adaptation."
 },
 "C105": {
  "status": "partial",
  "note": "The gradient claim is false in training because batch normalization mixes the images of a batch (C105_biased). Proved: the exact error term for all networks (C105_gradient), and the claim when the pixels of an image depend on its own states only (C105_unbiased_partial) or for one image and one particle (C105_one_row_partial). The moving mean of reinforce is a given number; C43 is about when it is read."
 },
 "C106": {
  "status": "proved",
  "note": "The definition of the convolutions of TensorFlow is taken from its documentation; C106_transpose, C106_window* relate them. normalizer_fn of conv2d_transpose is not used here and not modelled."
 },
 "C107": {
  "status": "partial",
  "note": "Two parts are false. The bound of an unlabeled image does not tend to its log probability (C107_unlabeled_gap), and unlabeled images do not adapt the classifier (C107_classifier), because all particles of an image have the same class. The rest is proved."
 },
 "C108": {
  "status": "partial",
  "note": "False as documented: the unlabeled rows are all rows, not the others (C108_overlap). The rest is proved, from the contents of the files on; downloads and file formats are not modelled."
 },
 "C109": {
  "status": "partial",
  "note": "False in one clause: numpy arrays are cut off to integers (C109_truncated), and the Cholesky normals need a triangular solver for the dtype (C109_no_solver). Everything else is proved for all distributions; TensorFlow's dtype checks are trusted as listed in DESIGN.md."
 },
 "C110": {
  "status": "partial",
  "note": "Proved for decorated functions and for direct construction with both containers. False for the documented defaults None, with which observe always fails (C110_defaults)."
 },
 "C111": {
  "status": "partial",
  "note": "Proved on classes. On instances it holds only if the nearest ancestor does not decorate the method too (C111_instance, C111_subclass) and the instance counts as true (C111_self_partial)."
 },
 "C112": {
  "status": "partial",
  "note": "Proved for all inputs; the M step for weights none of whose entries is zero in all particles, as otherwise there is no maximum (C112_zero). Gradients at the kink of relu are not modelled."
 },
 "C113": {
  "status": "partial",
  "note": "Proved for all random bits, roundings and dtypes; that Uniform excludes maxval holds for minval <= 0 < maxval with an exact difference (C113_uniform_partial) and fails in general (C113_uniform_refuted). Overflow and flushing of subnormal numbers are not modelled."
 },
 "C114": {
  "status": "proved",
  "note": "For all feeds of stochastic and external tensors; that feeding is observing for unobserved nodes. Feeding an observed node feeds the tensor it is observed with, so also every other node observed with it (C114_feed_observed). Fetches are a flat list; the sampler of a node is any function of the values of its parents and of the noise of its op."
 },
 "C115": {
  "status": "proved",
  "note": "For finite entries along one axis. C35 has the tensors with any axes, in exact arithmetic."
 },
 "C116": {
  "status": "partial",
  "note": "Proved when one sample has a positive density, except for vimco and AIS. False otherwise: NaN, or an error in AIS (C116_all_zero_refuted, C116_batch, C116_vimco, C116_ais_refuted). Values only, not gradients; one latent variable and one sample axis."
 },
 "C117": {
  "status": "proved",
  "note": "For finite logits and labels 0 and 1. The formula of the TensorFlow op is trusted (DESIGN.md); overflow is not modelled."
 },
 "C118": {
  "status": "partial",
  "note": "The second sentence is proved (C118_restored). The first is false (C118_overlap_refuted, C118_outside_refuted) and proved for threads that take turns (C118_turns_partial). TensorFlow's own graph and name stacks are not modelled."
 },
 "C119": {
  "status": "partial",
  "note": "The second sentence is proved (C119_same). The first is proved for runs that fetch orig_log_prob or log_prob (C119_raises_partial) and false for all others (C119_silent_refuted, C119_stuck)."
 },
 "C120": {
  "status": "proved",
  "note": "Resuming with the same draws; the state of TensorFlow's random generators is not part of a checkpoint. The counter is read before it is incremented, as in C61."
 },
 "C121": {
  "status": "partial",
  "note": "Proved if the step size is adapted in the run or adapt_step_size was not given (C121_order_partial, C121_reads_partial), and with adaptation switched off from the second run on (C121_off_order_partial, C121_settles). False for the first run after adaptation was switched off: C121_order_refuted, C121_sample_refuted. The graph computes Hmc.iteration, which the other HMC properties are about, in every order that reads the step size before assigning it (C121_refines)."
 },
 "C122": {
  "status": "partial",
  "note": "A run that returns, returns a finite number (C122_finite), the mean over the data of the log of the mean annealed importance weight (C122_value). It returns if both log densities are finite at the draws that the annealing starts from, unless the search for a step size goes on for ever (C122_returns_partial). False for other draws and for no temperatures: C122_draw_refuted, C122_no_temperatures. Temperatures are exact numbers."
 },
 "C123": {
  "status": "partial",
  "note": "Proved without adaptation (C123_fixed_partial); in every configuration runs of other operations leave the samples and the variances of an operation (C123_untouched_partial). False with adaptation: C123_search_refuted, C123_frozen_refuted, and C123_passed_on says what one operation passes on to the others. All operations have chains and coordinates of the same types; their models do not share latent variables."
 }
}
{"id": "C01", "title": "Backward op collection returns exactly the dependencies", "statement": "get_backward_ops(seed_tensors, treat_as_inputs) returns a list without repetitions whose members are exactly the ops from which some non-excluded seed can be computed: the ops of the seeds not in treat_as_inputs, closed under 'op of an input tensor that is not in treat_as_inputs' and 'control input'.", "quantifier": "every finite op graph (also cyclic ones, as made by while loops), every seed list (with repetitions), every treat_as_inputs collection", "why_tests_cant": "a test fixes one graph; missing or extra ops show up only on particular sharing / cut patterns", "anchors": ["zhusuan/framework/utils.py:get_backward_ops"]}
{"id": "C02", "title": "Backward op collection is in dependency order", "statement": "On an acyclic dependency graph every op in the result of get_backward_ops comes after all the (not cut) ops it depends on, through data and control inputs alike.", "quantifier": "every acyclic op graph, seeds, treat_as_inputs", "why_tests_cant": "order bugs depend on the exact diamond shape of the graph", "anchors": ["zhusuan/framework/utils.py:get_backward_ops"]}
{"id": "C03", "title": "Backward op collection terminates", "statement": "get_backward_ops terminates on every finite graph, whatever cycles it has.", "quantifier": "every finite op graph, cyclic or not", "why_tests_cant": "termination on all cyclic graphs cannot be sampled", "anchors": ["zhusuan/framework/utils.py:get_backward_ops"]}
{"id": "C04", "title": "Context managers nest and unwind", "statement": "For every well-bracketed program of nested `with` blocks of a context class, get_context() returns the innermost open context, raises RuntimeError when none is open, and when the program ends, normally or by an exception at any point, the stack of open contexts is what it was before; contexts of independent classes do not interfere.", "quantifier": "every program (sequence / nesting / exception / handler), every starting stack", "why_tests_cant": "crash points and nesting depths are unbounded", "anchors": ["zhusuan/framework/utils.py:Context"]}
{"id": "C05", "title": "observe() scopes observations to the model function", "statement": "Every BayesianNet created while a model function runs under meta_bn.observe(**obs) sees exactly obs of the innermost running observe; after observe returns or raises, BayesianNets created outside see the observations that were visible before; observations of one call never leak to another.", "quantifier": "every program of nested observe calls, BayesianNet constructions, exceptions and handlers", "why_tests_cant": "leaks need particular nesting and exception histories", "anchors": ["zhusuan/framework/meta_bn.py:Local", "zhusuan/framework/meta_bn.py:MetaBayesianNet.observe", "zhusuan/framework/bn.py:_BayesianNet.__init__"]}
{"id": "C06", "title": "Stochastic node names are unique and failed additions leave no node", "statement": "In every history of BayesianNet calls, a stochastic node is never replaced by adding another stochastic node: adding a name that exists raises ValueError and changes no node; an addition rejected because of its observation changes no node.", "quantifier": "every finite sequence of API calls on a BayesianNet", "why_tests_cant": "histories are unbounded; failure paths are rarely combined in tests", "anchors": ["zhusuan/framework/bn.py:_BayesianNet.stochastic", "zhusuan/framework/bn.py:_BayesianNet.deterministic"]}
{"id": "C07", "title": "Observation precedence and fixity", "statement": "A stochastic node's value is the explicit observation if one is passed, else the observation given under its name to the enclosing observe (or deprecated `observed` dict), else a sample; once the node exists its observed status and value never change.", "quantifier": "every history of API calls, every observation dictionary, names and values", "why_tests_cant": "combinations of the three sources with later calls are unbounded", "anchors": ["zhusuan/framework/bn.py:StochasticTensor.__init__", "zhusuan/framework/bn.py:_BayesianNet._get_observation", "zhusuan/framework/bn.py:StochasticTensor.tensor"]}
{"id": "C08", "title": "A latent node is sampled at most once", "statement": "In every history, an unobserved stochastic node draws its sample at the first use and every later use (its value, its conditional log probability, the log joint) refers to this same draw; an observed node never draws.", "quantifier": "every finite sequence of API calls", "why_tests_cant": "a double draw is visible only statistically and for specific call orders", "anchors": ["zhusuan/framework/bn.py:StochasticTensor.tensor", "zhusuan/framework/bn.py:StochasticTensor.cond_log_p"]}
{"id": "C09", "title": "log_joint is the sum of the current conditionals", "statement": "In every history, bn.log_joint() equals the sum over the stochastic nodes now in the net of their conditional log probabilities at their current values (or the user's log_joint function applied to the net now), also when it was called and cached before.", "quantifier": "every finite sequence of API calls including setting meta_bn.log_joint and deterministic()", "why_tests_cant": "stale caches need particular call orders", "anchors": ["zhusuan/framework/bn.py:_BayesianNet.log_joint", "zhusuan/framework/bn.py:_BayesianNet._log_joint", "zhusuan/framework/bn.py:_BayesianNet.stochastic", "zhusuan/framework/bn.py:_BayesianNet.deterministic"]}
{"id": "C10", "title": "Named queries answer per name, in order, or raise", "statement": "get / [] / cond_log_prob (and the deprecated outputs, local_log_prob, query) on a name list return one answer per name in the same order, a scalar name returns a single answer; they raise TypeError on non-string names, ValueError on unknown names, and cond_log_prob raises ValueError on deterministic names; queries never change the set of nodes.", "quantifier": "every net state and every name list", "why_tests_cant": "the branch logic must agree for every list", "anchors": ["zhusuan/framework/bn.py:_BayesianNet._check_names_exist", "zhusuan/framework/bn.py:_BayesianNet.get", "zhusuan/framework/bn.py:_BayesianNet.cond_log_prob", "zhusuan/framework/bn.py:BayesianNet.query"]}
{"id": "C11", "title": "Observation shape check is sound", "statement": "An observation is refused at construction only if its run-time shape could not broadcast with the node's batch_shape + value_shape; when both shapes are statically known it is accepted exactly when they broadcast.", "quantifier": "every pair of partially known static shapes and every run-time shapes consistent with them", "why_tests_cant": "ranks and unknown-dimension patterns are unbounded", "anchors": ["zhusuan/framework/bn.py:StochasticTensor._check_observation"]}
{"id": "C12", "title": "Broadcasting is a commutative, associative, idempotent partial operation", "statement": "Shape broadcasting used throughout is commutative, associative, idempotent, has [] as unit, and static broadcasting over-approximates run-time broadcasting (the run-time result is always consistent with the static result).", "quantifier": "all shapes of all ranks, known or partially known", "why_tests_cant": "all-rank statement", "anchors": ["zhusuan/distributions/base.py:Distribution._check_input_shape", "zhusuan/distributions/univariate.py:Normal._get_batch_shape", "zhusuan/framework/bn.py:StochasticTensor._check_observation"]}
{"id": "C13", "title": "explicit_broadcast aligns two tensors without changing values", "statement": "explicit_broadcast(x, y) returns x', y' of one common shape (the broadcast shape) whose entries are the entries of x and y they broadcast from, and raises ValueError when statically incompatible; maybe_explicit_broadcast returns the same result whichever branch static information selects.", "quantifier": "all tensors of all shapes, all static-information levels", "why_tests_cant": "branches depend on static knowledge, shapes unbounded", "anchors": ["zhusuan/distributions/utils.py:explicit_broadcast", "zhusuan/distributions/utils.py:maybe_explicit_broadcast", "zhusuan/distributions/utils.py:is_same_dynamic_shape"]}
{"id": "C14", "title": "Sample shapes", "statement": "For every distribution, sample(n) has shape [n] + batch_shape + value_shape, and sample() has shape batch_shape + value_shape; a non-scalar n_samples tensor is refused.", "quantifier": "all parameter shapes that the constructor accepts, all n, all distributions", "why_tests_cant": "all ranks and parameter broadcasts", "anchors": ["zhusuan/distributions/base.py:Distribution.sample", "zhusuan/distributions/univariate.py:_sample", "zhusuan/distributions/multivariate.py:_sample"]}
{"id": "C15", "title": "log_prob shapes and group_ndims", "statement": "For every given value that broadcasts against batch_shape + value_shape, log_prob has shape broadcast(given batch, batch_shape) without the last group_ndims axes, and each entry is the sum, over the grouped axes, of the entries obtained with group_ndims=0; prob is exp of log_prob.", "quantifier": "all shapes, all group_ndims up to the batch rank, all values", "why_tests_cant": "all ranks", "anchors": ["zhusuan/distributions/base.py:Distribution.log_prob", "zhusuan/distributions/base.py:Distribution.prob"]}
{"id": "C16", "title": "Static shape helpers agree with run time", "statement": "get_shape_list, get_shape_at, batch_shape / value_shape report the run-time shape whatever was known statically; assert_rank_at_least and assert_scalar reject exactly the tensors whose run-time rank violates them (at construction or at run time); get_batch_shape over-approximates.", "quantifier": "all static shapes and consistent run-time shapes", "why_tests_cant": "combinations unbounded", "anchors": ["zhusuan/distributions/utils.py:get_shape_list", "zhusuan/distributions/utils.py:get_shape_at", "zhusuan/distributions/utils.py:assert_rank_at_least", "zhusuan/distributions/utils.py:assert_scalar", "zhusuan/distributions/base.py:Distribution.batch_shape"]}
{"id": "C17", "title": "Argument guards decide exactly the documented condition", "statement": "assert_same_dtype_in accepts exactly the lists whose dtypes are all equal and allowed; assert_positive_int32_scalar accepts exactly positive ints or int32 scalars; group_ndims must be non-negative; Normal/FoldNormal accept exactly one of std / logstd.", "quantifier": "all argument lists", "why_tests_cant": "decision logic over all lists and values", "anchors": ["zhusuan/distributions/utils.py:assert_same_dtype_in", "zhusuan/distributions/utils.py:assert_positive_int32_scalar", "zhusuan/distributions/base.py:Distribution.__init__", "zhusuan/distributions/univariate.py:Normal.__init__"]}
{"id": "C18", "title": "Normal: density and sampler agree", "statement": "Normal.prob is the density of N(mean, std^2), integrates to 1, is the same through std or logstd, and the law of sample() (from a standard normal source) has exactly this density; log_prob = log prob.", "quantifier": "all admissible real parameters, all values, all measurable sets", "why_tests_cant": "sampling tests compare a few points / moments; normalisation and sample-law agreement quantify over all parameters and all measurable sets", "anchors": ["zhusuan/distributions/univariate.py:Normal"]}
{"id": "C19", "title": "FoldNormal: density and sampler agree", "statement": "FoldNormal.prob is the density of |N(mean, std^2)| on [0, inf) and samples follow it.", "quantifier": "all admissible real parameters, all values, all measurable sets", "why_tests_cant": "sampling tests compare a few points / moments; normalisation and sample-law agreement quantify over all parameters and all measurable sets", "anchors": ["zhusuan/distributions/univariate.py:FoldNormal"]}
{"id": "C20", "title": "Bernoulli: mass function and sampler agree", "statement": "Bernoulli.prob sums to 1 over {0,1}, prob(1)=sigmoid(logits), and the thresholded-uniform sampler returns 1 with exactly this probability.", "quantifier": "all admissible real parameters, all values, all measurable sets", "why_tests_cant": "sampling tests compare a few points / moments; normalisation and sample-law agreement quantify over all parameters and all measurable sets", "anchors": ["zhusuan/distributions/univariate.py:Bernoulli"]}
{"id": "C21", "title": "Categorical and OnehotCategorical mass functions", "statement": "prob sums to 1 over the categories, equals softmax(logits), is invariant under adding a constant to logits; OnehotCategorical at the one-hot vector of k equals Categorical at k; one-hot samples are one-hot.", "quantifier": "all admissible real parameters, all values, all measurable sets", "why_tests_cant": "sampling tests compare a few points / moments; normalisation and sample-law agreement quantify over all parameters and all measurable sets", "anchors": ["zhusuan/distributions/univariate.py:Categorical", "zhusuan/distributions/multivariate.py:OnehotCategorical"]}
{"id": "C22", "title": "Uniform: density and sampler agree", "statement": "Uniform.prob integrates to 1, is 1/(maxval-minval) on [minval, maxval) and 0 outside; samples lie in [minval, maxval) and follow it.", "quantifier": "all admissible real parameters, all values, all measurable sets", "why_tests_cant": "sampling tests compare a few points / moments; normalisation and sample-law agreement quantify over all parameters and all measurable sets", "anchors": ["zhusuan/distributions/univariate.py:Uniform"]}
{"id": "C23", "title": "Gamma density", "statement": "Gamma.prob is the Gamma(alpha, rate beta) density and integrates to 1; scaling a rate-1 sample by 1/beta has this law.", "quantifier": "all admissible real parameters, all values, all measurable sets", "why_tests_cant": "sampling tests compare a few points / moments; normalisation and sample-law agreement quantify over all parameters and all measurable sets", "anchors": ["zhusuan/distributions/univariate.py:Gamma"]}
{"id": "C24", "title": "Beta density and sampler", "statement": "Beta.prob is the Beta(alpha, beta) density, integrates to 1 over (0,1); the sampler x/(x+y) lies in (0,1) and has this law.", "quantifier": "all admissible real parameters, all values, all measurable sets", "why_tests_cant": "sampling tests compare a few points / moments; normalisation and sample-law agreement quantify over all parameters and all measurable sets", "anchors": ["zhusuan/distributions/univariate.py:Beta"]}
{"id": "C25", "title": "Poisson mass function", "statement": "Poisson.prob sums to 1 over the naturals and equals rate^k e^-rate / k!.", "quantifier": "all admissible real parameters, all values, all measurable sets", "why_tests_cant": "sampling tests compare a few points / moments; normalisation and sample-law agreement quantify over all parameters and all measurable sets", "anchors": ["zhusuan/distributions/univariate.py:Poisson"]}
{"id": "C26", "title": "Binomial mass function and sampler", "statement": "Binomial.prob sums to 1 over 0..n, equals C(n,k) p^k (1-p)^(n-k) with p=sigmoid(logits), and the sum of n Bernoulli draws has this law.", "quantifier": "all admissible real parameters, all values, all measurable sets", "why_tests_cant": "sampling tests compare a few points / moments; normalisation and sample-law agreement quantify over all parameters and all measurable sets", "anchors": ["zhusuan/distributions/univariate.py:Binomial"]}
{"id": "C27", "title": "InverseGamma density and sampler", "statement": "InverseGamma.prob integrates to 1 over (0,inf) and is the density of 1/G with G Gamma(alpha, beta), as sampled.", "quantifier": "all admissible real parameters, all values, all measurable sets", "why_tests_cant": "sampling tests compare a few points / moments; normalisation and sample-law agreement quantify over all parameters and all measurable sets", "anchors": ["zhusuan/distributions/univariate.py:InverseGamma"]}
{"id": "C28", "title": "Laplace density and sampler", "statement": "Laplace.prob integrates to 1 and is the density of the inverse-CDF sampler applied to a uniform on (-1,1).", "quantifier": "all admissible real parameters, all values, all measurable sets", "why_tests_cant": "sampling tests compare a few points / moments; normalisation and sample-law agreement quantify over all parameters and all measurable sets", "anchors": ["zhusuan/distributions/univariate.py:Laplace"]}
{"id": "C29", "title": "BinConcrete density and sampler", "statement": "BinConcrete.prob integrates to 1 over (0,1) and is the density of sigmoid((logits + logistic noise)/temperature).", "quantifier": "all admissible real parameters, all values, all measurable sets", "why_tests_cant": "sampling tests compare a few points / moments; normalisation and sample-law agreement quantify over all parameters and all measurable sets", "anchors": ["zhusuan/distributions/univariate.py:BinConcrete"]}
{"id": "C30", "title": "MultivariateNormalCholesky density and sampler", "statement": "prob is the density of N(mean, L L^T), integrates to 1, and mean + L*noise has this law, for every lower triangular L with positive diagonal.", "quantifier": "all admissible real parameters, all values, all measurable sets", "why_tests_cant": "sampling tests compare a few points / moments; normalisation and sample-law agreement quantify over all parameters and all measurable sets", "anchors": ["zhusuan/distributions/multivariate.py:MultivariateNormalCholesky"]}
{"id": "C31", "title": "Multinomial mass function", "statement": "Multinomial.prob sums to 1 over the count vectors with total n_experiments, and is 0 elsewhere; UnnormalizedMultinomial differs from it only by the log multinomial coefficient; sampling n categorical draws and counting has this law.", "quantifier": "all admissible real parameters, all values, all measurable sets", "why_tests_cant": "sampling tests compare a few points / moments; normalisation and sample-law agreement quantify over all parameters and all measurable sets", "anchors": ["zhusuan/distributions/multivariate.py:Multinomial", "zhusuan/distributions/multivariate.py:UnnormalizedMultinomial"]}
{"id": "C32", "title": "Dirichlet density and sampler", "statement": "Dirichlet.prob integrates to 1 over the simplex; samples are on the simplex.", "quantifier": "all admissible real parameters, all values, all measurable sets", "why_tests_cant": "sampling tests compare a few points / moments; normalisation and sample-law agreement quantify over all parameters and all measurable sets", "anchors": ["zhusuan/distributions/multivariate.py:Dirichlet"]}
{"id": "C33", "title": "Concrete and ExpConcrete densities", "statement": "Samples of Concrete lie in the open simplex and samples of ExpConcrete are their logarithms; the two densities are related by the change of variables; both densities are invariant to adding a constant to logits and integrate to 1.", "quantifier": "all admissible real parameters, all values, all measurable sets", "why_tests_cant": "sampling tests compare a few points / moments; normalisation and sample-law agreement quantify over all parameters and all measurable sets", "anchors": ["zhusuan/distributions/multivariate.py:ExpConcrete", "zhusuan/distributions/multivariate.py:Concrete"]}
{"id": "C34", "title": "MatrixVariateNormalCholesky density and sampler", "statement": "prob is the density of the matrix normal with row covariance U U^T and column covariance V V^T, integrates to 1, and mean + U*noise*V^T has this law.", "quantifier": "all admissible real parameters, all values, all measurable sets", "why_tests_cant": "sampling tests compare a few points / moments; normalisation and sample-law agreement quantify over all parameters and all measurable sets", "anchors": ["zhusuan/distributions/multivariate.py:MatrixVariateNormalCholesky"]}
{"id": "C35", "title": "log_sum_exp and log_mean_exp are exact and stable", "statement": "log_sum_exp(x) = log sum exp x and log_mean_exp(x) = log mean exp x along the axes; every exponential they evaluate has a non-positive argument with at least one equal to 0 (no overflow, log never sees 0); results lie between min and max (log_mean_exp), shift-equivariant and permutation-invariant.", "quantifier": "all non-empty finite real vectors", "why_tests_cant": "stability holds for all magnitudes, not samples", "anchors": ["zhusuan/utils.py:log_sum_exp", "zhusuan/utils.py:log_mean_exp"]}
{"id": "C36", "title": "merge_dicts: later wins", "statement": "merge_dicts(d1,...,dn)[k] is the value of the last dict that has k, its key set is the union, and it is associative; used so that user observations override variational samples.", "quantifier": "all lists of dictionaries", "why_tests_cant": "all overlaps", "anchors": ["zhusuan/utils.py:merge_dicts", "zhusuan/variational/base.py:VariationalObjective.bn", "zhusuan/hmc.py:HMC.sample", "zhusuan/evaluation.py:AIS"]}
{"id": "C37", "title": "Tensor-like arithmetic delegates to the value", "statement": "For every arithmetic expression mixing StochasticTensors / objectives and tensors, evaluating with the mixin operators gives the same result as replacing each of them by its tensor, in the same operand order.", "quantifier": "all expressions", "why_tests_cant": "all operator/operand-side combinations nested arbitrarily", "anchors": ["zhusuan/utils.py:TensorArithmeticMixin"]}
{"id": "C38", "title": "Variational objectives use exactly the right latent values", "statement": "A variational objective built from `variational` observes the model at the samples of exactly the unobserved stochastic nodes of the variational net, overridden by the user's observed values; exactly one of latent/variational must be given; a model node that is neither observed nor given a posterior is rejected with ValueError (documented).", "quantifier": "all models, variational nets, observed dictionaries", "why_tests_cant": "all overlaps", "anchors": ["zhusuan/variational/base.py:VariationalObjective"]}
{"id": "C39", "title": "ELBO is a lower bound with gap KL(q||p)", "statement": "The expectation of the elbo objective under q is log p(x) - KL(q||posterior), hence at most log p(x), with equality iff q is the posterior.", "quantifier": "all finite-support latent spaces, all positive joint densities and all q", "why_tests_cant": "an inequality over all models", "anchors": ["zhusuan/variational/exclusive_kl.py:EvidenceLowerBoundObjective._objective"]}
{"id": "C40", "title": "Importance weighted objective brackets", "statement": "On the same samples the importance weighted objective is at least the elbo; its expectation is at most log p(x) and is non-decreasing in the number of samples; it converges to log p(x) as the number of samples grows, if q covers the latent values of the model and the elbo is finite.", "quantifier": "all weight vectors; all latent spaces, q and p; all K", "why_tests_cant": "inequality over all models and K", "anchors": ["zhusuan/variational/monte_carlo.py:ImportanceWeightedObjective._objective", "zhusuan/evaluation.py:is_loglikelihood"]}
{"id": "C41", "title": "sgvb surrogate gradient", "statement": "The gradient of the sgvb cost is the negative gradient of the objective through reparameterised samples; its expectation is the gradient of the negative expected objective.", "quantifier": "all differentiable models, reparameterisations and noise laws of finite support", "why_tests_cant": "gradient identity for all models", "anchors": ["zhusuan/variational/exclusive_kl.py:EvidenceLowerBoundObjective.sgvb", "zhusuan/variational/monte_carlo.py:ImportanceWeightedObjective.sgvb"]}
{"id": "C42", "title": "reinforce surrogate gradient is unbiased", "statement": "With non-reparameterised samples, the expectation of the gradient of the reinforce cost equals the gradient of the negative expected elbo, with or without variance reduction, for any baseline that does not depend on the current sample.", "quantifier": "all finite latent spaces, differentiable q and p families, baselines, running-mean states", "why_tests_cant": "bias is a statement about an expectation, for all models", "anchors": ["zhusuan/variational/exclusive_kl.py:EvidenceLowerBoundObjective.reinforce"]}
{"id": "C43", "title": "reinforce running mean uses only the past", "statement": "The moving average used as baseline by reinforce at a step depends only on previous steps' samples, in every execution order that the session may choose.", "quantifier": "all schedules of the update and the read in one session step", "why_tests_cant": "schedules cannot be enumerated by tests", "anchors": ["zhusuan/variational/exclusive_kl.py:EvidenceLowerBoundObjective.reinforce"]}
{"id": "C44", "title": "vimco surrogate gradient is unbiased", "statement": "With non-reparameterised samples, the expectation of the gradient of the vimco cost over K >= 2 independent samples equals the gradient of the negative expected importance weighted objective; for each sample the control variate does not depend on that sample; K < 2 is refused.", "quantifier": "all K>=2, finite latent spaces, differentiable families", "why_tests_cant": "bias is a statement about an expectation", "anchors": ["zhusuan/variational/monte_carlo.py:ImportanceWeightedObjective.vimco"]}
{"id": "C45", "title": "klpq importance estimator uses self-normalised weights", "statement": "importance() weights every sample's -log q by its normalised importance weight: weights are non-negative, sum to 1, do not change when the log joint is shifted by a constant, are not differentiated through, and with exhaustive sampling the gradient is that of KL(p||q).", "quantifier": "all finite sample sets and log weights", "why_tests_cant": "all inputs", "anchors": ["zhusuan/variational/inclusive_kl.py:InclusiveKLObjective.importance"]}
{"id": "C46", "title": "is_reparameterized and use_path_derivative control gradients", "statement": "With is_reparameterized=False no gradient reaches the parameters through samples; with use_path_derivative=True the log density contributes no direct parameter gradient, while its value is unchanged, and the expected path-derivative gradient equals the full one.", "quantifier": "all parameters and values", "why_tests_cant": "gradient semantics for all inputs", "anchors": ["zhusuan/distributions/base.py:Distribution.path_param", "zhusuan/distributions/univariate.py:Normal._sample", "zhusuan/distributions/univariate.py:Normal._log_prob"]}
{"id": "C47", "title": "AIS temperature schedule", "statement": "The AIS schedule starts at exactly 0, ends at exactly 1 and is strictly increasing for every number of temperatures >= 1.", "quantifier": "all n_temperatures", "why_tests_cant": "all n", "anchors": ["zhusuan/evaluation.py:AIS._map_t", "zhusuan/evaluation.py:AIS._get_schedule_t"]}
{"id": "C48", "title": "AIS weights are unbiased", "statement": "If every transition leaves its annealed density invariant, the expectation of exp(log weight) accumulated by run() is the ratio of normalising constants, i.e. the marginal likelihood when the proposal is normalised.", "quantifier": "all schedules lengths, state spaces, densities and invariant transition kernels", "why_tests_cant": "an expectation identity for all models", "anchors": ["zhusuan/evaluation.py:AIS.run", "zhusuan/evaluation.py:AIS.__init__"]}
{"id": "C49", "title": "AIS reports a lower bound", "statement": "The value returned by AIS, log-mean-exp over chains of the log weights averaged over data, has expectation at most the true log marginal likelihood and is exact when all weights equal it. As the number of chains grows it converges in probability to the true mean log marginal likelihood, and its expectation is non-decreasing and converges to it if the log weights have an expectation. If the log likelihood of a data point lies between two bounds for all latent values, so does every log weight, with or without adaptation.", "quantifier": "all numbers of chains, weights", "why_tests_cant": "all inputs", "anchors": ["zhusuan/evaluation.py:AIS._get_lower_bound"]}
{"id": "C50", "title": "HMC leapfrog is reversible and volume preserving", "statement": "For every force field, step size, mass and number of leapfrog steps, running the integrator, flipping the momentum, running it again and flipping returns exactly to the start, and the integrator preserves volume in phase space.", "quantifier": "all dimensions, log densities, step sizes, masses, n_leapfrogs", "why_tests_cant": "all inputs", "anchors": ["zhusuan/hmc.py:leapfrog_integrator", "zhusuan/hmc.py:HMC._leapfrog"]}
{"id": "C51", "title": "HMC acceptance probability is valid", "statement": "The acceptance rate is always in [0,1]; it is min(1, exp(H_old - H_new)) when finite; a proposal whose log density or energy is NaN or infinite has rate 0 and is never accepted.", "quantifier": "all float-like values including NaN and infinities", "why_tests_cant": "special value combinations", "anchors": ["zhusuan/hmc.py:get_acceptance_rate"]}
{"id": "C52", "title": "HMC leaves the target invariant", "statement": "One HMC transition with fixed step size and mass (momentum refreshment, leapfrog, accept/reject) leaves the distribution proportional to exp(log joint) invariant.", "quantifier": "all dimensions, integrable log densities, step sizes, masses, n_leapfrogs", "why_tests_cant": "a distributional statement", "anchors": ["zhusuan/hmc.py:HMC.sample"]}
{"id": "C53", "title": "HMC chains are independent and outputs consistent", "statement": "The next state of a chain depends only on its own state, noise and the shared step size / mass; a chain's new state is the proposal iff accepted else the old state; the reported log_prob is that of the new state; samples reported equal the variables after the update.", "quantifier": "all numbers of chains and all states", "why_tests_cant": "all inputs", "anchors": ["zhusuan/hmc.py:HMC.sample"]}
{"id": "C54", "title": "HMC step size adaptation", "statement": "With adaptation on, the step size follows the dual averaging recursion of the acceptance rates; with adaptation off the step size does not change (documented), and it always stays positive.", "quantifier": "all acceptance histories and adaptation flags", "why_tests_cant": "histories unbounded", "anchors": ["zhusuan/hmc.py:StepsizeTuner", "zhusuan/hmc.py:HMC.sample"]}
{"id": "C55", "title": "HMC mass estimation is the exponentially weighted variance", "statement": "After any sequence of chain states, the variance estimator holds exactly the exponentially weighted mean and variance of everything it has been fed; the variance is non-negative and invariant to shifting all states; the mass is its inverse, and ones during the collection window.", "quantifier": "all histories of batches, decays", "why_tests_cant": "histories unbounded", "anchors": ["zhusuan/hmc.py:ExponentialWeightedMovingVariance", "zhusuan/hmc.py:HMC._adapt_mass"]}
{"id": "C56", "title": "HMC initial step size search", "statement": "The initial step-size search multiplies or divides the step size by 1.5 until the acceptance rate crosses the target, returns a positive step size of the form initial * 1.5^k, and terminates whenever the acceptance rate eventually falls below the target.", "quantifier": "all acceptance functions, targets, initial step sizes", "why_tests_cant": "all functions", "anchors": ["zhusuan/hmc.py:HMC._init_step_size"]}
{"id": "C57", "title": "HMC configuration guards and adaptation windows", "statement": "adapt_mass without adapt_step_size is refused; the iteration counter increases by one per transition; step-size initialisation runs only at the first iteration and mass_collect_iters; a non-Variable latent is refused.", "quantifier": "all configurations and iteration numbers", "why_tests_cant": "histories unbounded", "anchors": ["zhusuan/hmc.py:HMC.__init__", "zhusuan/hmc.py:HMC.sample"]}
{"id": "C58", "title": "SGLD and PSGLD updates", "statement": "SGLD adds half the learning rate times the gradient plus noise of variance equal to the learning rate; PSGLD is SGLD with the diagonal preconditioner computed by RMSprop from past gradients, which is positive and bounded; with zero noise the fixed points are the stationary points.", "quantifier": "all states, gradients, histories", "why_tests_cant": "all histories", "anchors": ["zhusuan/sgmcmc.py:SGLD", "zhusuan/sgmcmc.py:PSGLD"]}
{"id": "C59", "title": "SGHMC updates", "statement": "SGHMC momentum and position follow the documented first and second order recursions; with zero friction, noise and no resampling the second-order scheme is time reversible and volume preserving.", "quantifier": "all states, gradients, parameters", "why_tests_cant": "all histories", "anchors": ["zhusuan/sgmcmc.py:SGHMC"]}
{"id": "C60", "title": "SGNHT updates", "statement": "SGNHT adapts the friction towards equipartition: alpha changes by tune_rate * (mean squared velocity - learning rate); with tune_rate 0 it is SGHMC with the same friction.", "quantifier": "all states, gradients, parameters", "why_tests_cant": "all histories", "anchors": ["zhusuan/sgmcmc.py:SGNHT"]}
{"id": "C61", "title": "Momentum resampling happens once every n steps", "statement": "With n_iter_resample_v = n, the momentum is resampled exactly at the steps whose index is a multiple of n, once each, and never if n = 0 or None.", "quantifier": "all step counts, n, and all schedules of the counter update relative to its read", "why_tests_cant": "schedules", "anchors": ["zhusuan/sgmcmc.py:SGHMC._update_single", "zhusuan/sgmcmc.py:SGMCMC._update"]}
{"id": "C62", "title": "SGMCMC sample() updates every latent variable from the joint gradient", "statement": "One run of the sample op updates every latent variable exactly once using gradients of the log joint at the same (pre-update) state, and observed values override latent ones of the same name.", "quantifier": "all latent dictionaries, log joint functions", "why_tests_cant": "all schedules/models", "anchors": ["zhusuan/sgmcmc.py:SGMCMC._apply_updates", "zhusuan/sgmcmc.py:SGMCMC.sample"]}
{"id": "C63", "title": "Effective sample size", "statement": "effective_sample_size is the initial-positive-sequence estimator; it is invariant to shifting and scaling the samples, at most the number of samples, positive; returns the minimum over dimensions.", "quantifier": "all sample arrays", "why_tests_cant": "all inputs", "anchors": ["zhusuan/diagnostics.py:effective_sample_size", "zhusuan/diagnostics.py:effective_sample_size_1d"]}
{"id": "C64", "title": "Planar flow is invertible with the reported log density", "statement": "planar_normalizing_flow's parameterisation makes each step a bijection with positive Jacobian determinant, and the returned log density is the input log density minus the sum of log determinants, for any number of iterations.", "quantifier": "all parameters, inputs, dimensions, iteration counts", "why_tests_cant": "all inputs", "anchors": ["zhusuan/transform.py:planar_normalizing_flow"]}
{"id": "C65", "title": "Inverse autoregressive flow has triangular Jacobian", "statement": "linear_ar is autoregressive (output i depends only on inputs before i); each IAF step is a bijection whose log determinant is the sum of log scales, as accumulated in the returned log density, for any number of iterations; an unknown update rule is refused.", "quantifier": "all parameters, inputs, dimensions, iteration counts, update rules", "why_tests_cant": "all inputs", "anchors": ["zhusuan/transform.py:linear_ar", "zhusuan/transform.py:inv_autoregressive_flow"]}
{"id": "C66", "title": "Legacy Empirical and Implicit distributions", "statement": "Empirical can be neither sampled nor scored; Implicit returns exactly its given sample and scores +inf at it and -inf elsewhere, with log_prob the log of prob.", "quantifier": "all inputs", "why_tests_cant": "all inputs", "anchors": ["zhusuan/legacy/distributions/special.py:Empirical", "zhusuan/legacy/distributions/special.py:Implicit"]}
{"id": "C67", "title": "Data utilities of the examples", "statement": "standardize gives training columns zero mean and unit variance (constant columns become 0) and applies the same affine map to test data; to_one_hot rows are one-hot at the label; tower gradients / losses are arithmetic means; batch rmse averaging equals the rmse of the concatenation.", "quantifier": "all arrays", "why_tests_cant": "all inputs", "anchors": ["examples/utils/dataset.py:standardize", "examples/utils/dataset.py:to_one_hot", "examples/utils/multi_gpu.py:average_gradients", "examples/utils/multi_gpu.py:average_losses", "examples/utils/utils.py:average_rmse_over_batches"]}
{"id": "C68", "title": "Gaussian-process utilities", "statement": "RBFKernel is symmetric, has ones on its diagonal (Kdiag), values in (0,1] and is positive semi-definite; gp_conditional interpolates (mean equals fz at z) and its full covariance is the Schur complement, whose diagonal is the diagonal-mode variance.", "quantifier": "all inputs", "why_tests_cant": "all inputs", "anchors": ["examples/gaussian_process/utils.py:RBFKernel", "examples/gaussian_process/utils.py:gp_conditional"]}
{"id": "C69", "title": "A net defines a probability distribution, its samples follow it and its log joint is its density", "statement": "For every model-building function (distinct names, parameters computed from earlier nodes) and every set of observations, the function runs without exceptions and exp(log_joint()) is the product over all statements of the node's density given its parents, at the observed values for observed nodes and at the samples for the others. The unobserved nodes draw exactly once each; whatever the order in which they draw, the samples of a net without observations have the density exp(log_joint()), which integrates to one when every conditional does; with observations, sampling and weighting with the observed nodes' densities integrates against exp(log_joint()).", "quantifier": "every model-building function, history of calls on the net, observation dictionary, measurable test function and base measures", "why_tests_cant": "it is a statement about the joint law over all programs and all orders of sampling", "anchors": ["zhusuan/framework/bn.py:BayesianNet", "zhusuan/framework/bn.py:_BayesianNet.log_joint", "zhusuan/framework/bn.py:StochasticTensor.tensor"]}
{"id": "C70", "title": "The objective built from a variational program and a model program is a lower bound of the log evidence", "statement": "For every variational program and model program with distinct names and parameters computed from earlier nodes, and all observations: building the variational net, constructing the evidence lower bound from it and asking it for its value raises no exception; the value is log p - log q, where p is the chain-rule density of the model program with every node at its observed value or at the variational sample of its name, and q the chain-rule density of the variational program at its samples. The samples are distributed with density q. If the variational program's names are exactly the model's unobserved names, the expected exp(value) is at most the evidence, and equal to it if q is positive wherever p is; the expected value is at most the log evidence; and if q is the posterior the value is the log evidence for every sample.", "quantifier": "every variational program, model program, observation dictionary, base measure per name and sample", "why_tests_cant": "it quantifies over all pairs of programs and is a statement about expectations; tests check one model with one number", "anchors": ["zhusuan/variational/base.py:VariationalObjective", "zhusuan/variational/exclusive_kl.py:EvidenceLowerBoundObjective", "zhusuan/framework/meta_bn.py:MetaBayesianNet.observe", "zhusuan/framework/bn.py:BayesianNet"]}
{"id": "C71", "title": "is_loglikelihood estimates the marginal likelihood", "statement": "For every model and proposal and every number of samples K >= 1: the expected exponential of the value of is_loglikelihood is the marginal likelihood of the observations, provided the proposal is positive wherever the joint is; for any b the probability that the value exceeds the log likelihood by b is at most exp(-b); and as K grows the value converges almost surely to the log likelihood.", "quantifier": "every joint density with finite positive evidence, every proposal density, every number of samples, every b", "why_tests_cant": "it is about expectations, tail probabilities and limits; a test sees finitely many random values", "anchors": ["zhusuan/evaluation.py:is_loglikelihood", "zhusuan/variational/monte_carlo.py:ImportanceWeightedObjective"]}
{"id": "C72", "title": "The arguments of a node method reach the distribution and the node", "statement": "For every distribution method of BayesianNet and every legacy StochasticTensor class, and for all positional and keyword arguments: the call makes the distribution of that name; every parameter of the distribution has the value the user gave under its name, whether by position or by keyword, and otherwise the default documented for the distribution; the node has the given name and n_samples. The call is accepted exactly when no argument is missing, superfluous, given twice or reserved.", "quantifier": "every method and class, every list of positional arguments and every dictionary of keyword arguments", "why_tests_cant": "there are more than forty wrappers with up to ten parameters each; tests exercise a few combinations and none passes every argument", "anchors": ["zhusuan/framework/bn.py:BayesianNet.normal", "zhusuan/framework/bn.py:BayesianNet.stochastic", "zhusuan/legacy/framework/stochastic.py:Empirical", "zhusuan/distributions/base.py:Distribution.__init__"]}
{"id": "C73", "title": "A distribution is constructed exactly for well-formed parameters, whatever is known statically", "statement": "For each of the twenty distributions and all parameters: arguments with the documented dtypes, run-time shapes, n_experiments and group_ndims are never refused, however much or little of the shapes is known while the graph is built. Outside the families of two broadcast parameters anything else is refused, by an exception of the constructor or by an assertion that fails when the graph runs, and static knowledge does not change the verdict. For the broadcast families incompatible parameters are refused when the shapes are known, and otherwise fail at their first joint use. When all shapes are known (and positive) every refusal is an exception of the constructor. Wrong dtypes are TypeErrors.", "quantifier": "all twenty distributions, all dtypes, all run-time shapes, all static shapes consistent with them, all n_experiments and group_ndims arguments", "why_tests_cant": "the checks differ with every combination of static and dynamic shapes of up to three parameters; tests cover a handful", "anchors": ["zhusuan/distributions/univariate.py:Categorical.__init__", "zhusuan/distributions/multivariate.py:MultivariateNormalCholesky.__init__", "zhusuan/distributions/multivariate.py:MatrixVariateNormalCholesky.__init__", "zhusuan/distributions/multivariate.py:Dirichlet.__init__", "zhusuan/distributions/utils.py:assert_rank_at_least"]}
{"id": "C74", "title": "The variables of a model function are shared by its calls and by nothing else", "statement": "For every script of observe calls of any nets in one graph: once a call of a net made with reuse_variables=True has succeeded, every later call of this net succeeds and its model function gets the same variables, whatever is observed in between; two calls get no variable in common unless they are calls of one net with reuse_variables=True, even when the nets have the same scope; a call after the first success creates no variable (asking for a new name raises); with a scope but without reuse_variables the second call of the same function raises; reuse_variables without a scope is refused.", "quantifier": "all sequences of observe calls of any number of nets, all scope names and clashes of scope names, all model functions that get variables under any nesting of sub-scopes and may raise", "why_tests_cant": "whether variables are shared depends on the history of scopes opened before; tests run one or two nets in a fresh graph", "anchors": ["zhusuan/framework/meta_bn.py:MetaBayesianNet.__init__", "zhusuan/framework/meta_bn.py:MetaBayesianNet.observe", "zhusuan/framework/utils.py:reuse_variables"]}
{"id": "C75", "title": "Sampling a batch and log_prob with group_ndims describe the same joint distribution", "statement": "For every univariate distribution with an elementwise sampler (all but FoldNormal, Categorical and Binomial), parameter tensors of any shapes that broadcast to batch_shape, any n and any group_ndims g up to the number of axes: sample(n) has shape [n] + batch_shape; the groups formed by its last g axes are mutually independent; and the joint law of a group has density exp(log_prob(x)) at the corresponding entry of the log_prob computed with group_ndims=g, which depends only on the entries of x in that group. The same holds for sample() with shape batch_shape.", "quantifier": "all distributions of the list, all parameter shapes and well-formed values, all n, all group_ndims", "why_tests_cant": "tests compare shapes, and moments of a few scalars; equality of a joint law with a density over every grouping is a statement about measures", "anchors": ["zhusuan/distributions/base.py:Distribution.sample", "zhusuan/distributions/base.py:Distribution.log_prob", "zhusuan/distributions/univariate.py:Normal._sample", "zhusuan/distributions/univariate.py:Uniform._sample", "zhusuan/distributions/univariate.py:Beta._sample", "zhusuan/distributions/univariate.py:Laplace._sample", "zhusuan/distributions/univariate.py:BinConcrete._sample"]}
{"id": "C76", "title": "log_prob of a batch of vectors or matrices is the log_prob of each of them", "statement": "For Categorical, OnehotCategorical, Multinomial, UnnormalizedMultinomial, Dirichlet, Concrete, ExpConcrete, MultivariateNormalCholesky and MatrixVariateNormalCholesky: whenever the values and the parameters broadcast to S + value_shape, log_prob succeeds, has shape S (before group_ndims), and its entry at a batch index is the formula of one distribution applied to the vector or matrix of each (broadcast) parameter and value at that index - whatever is known of the shapes while the graph is built, so flattening, explicit broadcasting, transposing and triangular solving never mix batch entries. A label of Categorical that is not a class makes it fail. group_ndims then sums the trailing axes.", "quantifier": "all batch shapes and broadcasts, all numbers of classes or dimensions, all parameter and given values, all consistent static shapes", "why_tests_cant": "the branch taken depends on the static shapes and the layout on every axis size; tests try a few shapes, mostly fully known", "anchors": ["zhusuan/distributions/multivariate.py:MultivariateNormalCholesky._log_prob", "zhusuan/distributions/multivariate.py:Multinomial._log_prob", "zhusuan/distributions/multivariate.py:UnnormalizedMultinomial._log_prob", "zhusuan/distributions/multivariate.py:OnehotCategorical._log_prob", "zhusuan/distributions/multivariate.py:Dirichlet._log_prob", "zhusuan/distributions/multivariate.py:ExpConcrete._log_prob", "zhusuan/distributions/multivariate.py:Concrete._log_prob", "zhusuan/distributions/multivariate.py:MatrixVariateNormalCholesky._log_prob", "zhusuan/distributions/univariate.py:Categorical._log_prob", "zhusuan/distributions/utils.py:maybe_explicit_broadcast"]}
{"id": "C77", "title": "Sampling a batch of vectors, matrices or categories and log_prob with group_ndims agree", "statement": "For Categorical, OnehotCategorical, Multinomial, Binomial, Dirichlet, Concrete, ExpConcrete, MultivariateNormalCholesky and MatrixVariateNormalCholesky with well-formed parameters of any batch shape: sample() and sample(n) succeed and have shape batch + value_shape and [n] + batch + value_shape; and for every group_ndims, exp of log_prob(x, group_ndims) at an outer index depends only on the values of x in that group, is the joint density of the sampled values in that group, and the groups are sampled independently - however the sampler flattens, tiles, transposes and reshapes on the way, and whatever is known of the shapes while the graph is built.", "quantifier": "all batch shapes, all numbers of classes, experiments and dimensions, all n_samples (also None), all well-formed parameters, all group_ndims, all consistent static shapes", "why_tests_cant": "a statement about the joint law of all entries; a sampler that pairs a draw with the wrong row has the right shape and, with equal rows, the right marginals", "anchors": ["zhusuan/distributions/base.py:Distribution.sample", "zhusuan/distributions/base.py:Distribution.log_prob", "zhusuan/distributions/univariate.py:Categorical._sample", "zhusuan/distributions/univariate.py:Binomial._sample", "zhusuan/distributions/multivariate.py:MultivariateNormalCholesky._sample", "zhusuan/distributions/multivariate.py:Multinomial._sample", "zhusuan/distributions/multivariate.py:OnehotCategorical._sample", "zhusuan/distributions/multivariate.py:Dirichlet._sample", "zhusuan/distributions/multivariate.py:ExpConcrete._sample", "zhusuan/distributions/multivariate.py:Concrete._sample", "zhusuan/distributions/multivariate.py:MatrixVariateNormalCholesky._sample"]}
{"id": "C78", "title": "HMC on a net samples the posterior of the model", "statement": "HMC.sample given a MetaBayesianNet, observations and latent variables evaluates, for each chain, the logarithm of the joint density of the model with the observed nodes at the chain's observed values and the latent nodes at the chain's current values; and any number of iterations, without adaptation or after a burn-in with adaptation fed False, leave the posterior distribution of the model given the observations invariant, independently in every chain.", "quantifier": "all model-building functions, all observations and latent variables that together cover the nodes, all numbers of chains, dimensions, iterations, step sizes, leapfrog steps and adapted masses, all current values", "why_tests_cant": "a statement about the law of the samples of an arbitrary model; a wrong merge of the dictionaries or a term of the joint counted twice still gives a sampler that runs", "anchors": ["zhusuan/hmc.py:HMC.sample", "zhusuan/sgmcmc.py:SGMCMC._make_grad_func", "zhusuan/framework/meta_bn.py:MetaBayesianNet.observe", "zhusuan/framework/bn.py:BayesianNet.log_joint"]}
{"id": "C79", "title": "Annealed importance sampling between two nets estimates the evidence of the model", "statement": "AIS given a model net, a proposal net, observations and latent variables starts from the proposal net's samples of the latent variables, and the expectation of exp(log weight) in each chain, over those samples and the noise of HMC, is the evidence of the model: its joint density integrated over the latent variables with the observed nodes at the chain's observed values. The number that run returns has at most the mean log evidence of the data points as its expectation, and the value for a data point exceeds its log evidence by b with probability at most exp(-b). As the number of chains grows the number converges in probability to the mean log evidence.", "quantifier": "all model-building functions for model and proposal, all observations, all numbers of chains, data points, temperatures, adaptation iterations and leapfrog steps, all shapes of the latent variables", "why_tests_cant": "a statement about an expectation over the samples of arbitrary nets; a test can only compare one Monte Carlo estimate with one model whose evidence is known", "anchors": ["zhusuan/evaluation.py:AIS.__init__", "zhusuan/evaluation.py:AIS.run", "zhusuan/framework/meta_bn.py:MetaBayesianNet.observe", "zhusuan/framework/bn.py:BayesianNet.get"]}
{"id": "C80", "title": "is_loglikelihood and the importance weighted objective on two nets estimate the evidence of the model", "statement": "is_loglikelihood (and the importance weighted objective) given a model-building function, a proposal net, observations and a sample axis is the log mean exp over the samples of log p - log q, the chain-rule densities of the two programs. The expectation of its exponential is the evidence p(observed) for every number of samples; the expectation itself is at most log p(observed), at least the elbo, and non-decreasing in the number of samples; it exceeds log p(observed) by b with probability at most exp(-b); it converges almost surely, and its expectation converges, to log p(observed); and it is exact for every sample if the proposal is the posterior. The elbo averaged over a sample axis has the expectation of one sample.", "quantifier": "all model-building functions for model and proposal, all observations, all numbers of samples", "why_tests_cant": "a statement about expectations and limits over the samples of arbitrary nets; a test can only compare one Monte Carlo estimate with one model whose evidence is known", "anchors": ["zhusuan/evaluation.py:is_loglikelihood", "zhusuan/variational/monte_carlo.py:ImportanceWeightedObjective.__init__", "zhusuan/variational/monte_carlo.py:ImportanceWeightedObjective._objective", "zhusuan/variational/exclusive_kl.py:EvidenceLowerBoundObjective._objective", "zhusuan/variational/base.py:VariationalObjective._entropy_term"]}
{"id": "C81", "title": "Gradient estimators on two nets are unbiased for the objective of the nets", "statement": "Build a variational net and a model net whose densities depend on a parameter and hand them to an objective. The expected gradient of reinforce() is the gradient of minus the expected elbo, with or without variance reduction and for any baseline computed from the other samples; the expected gradient of vimco() is the gradient of minus the expected importance weighted objective, for two or more samples; sgvb() has both properties when the samples are reparameterised; and the gradient of importance() converges almost surely to the gradient of the Kullback-Leibler divergence from the posterior given the observations to the variational net. With finitely many values per node nothing but differentiability and positive probabilities is needed. Missing sample axes, a single sample for vimco and models without latent variables are refused.", "quantifier": "all pairs of model-building functions with a parameter, all observations, numbers of samples, baselines and moving means", "why_tests_cant": "unbiasedness is about an expectation over all samples of arbitrary nets; a test compares Monte Carlo averages on one model", "anchors": ["zhusuan/variational/exclusive_kl.py:EvidenceLowerBoundObjective.reinforce", "zhusuan/variational/exclusive_kl.py:EvidenceLowerBoundObjective.sgvb", "zhusuan/variational/monte_carlo.py:ImportanceWeightedObjective.vimco", "zhusuan/variational/monte_carlo.py:ImportanceWeightedObjective.sgvb", "zhusuan/variational/inclusive_kl.py:InclusiveKLObjective.importance", "zhusuan/variational/base.py:VariationalObjective._entropy_term"]}
{"id": "C82", "title": "What check_numerics promises", "statement": "For the 15 classes that take the switch, log_prob and prob with check_numerics=True either return exactly what they return without it, or raise with the messages of exactly those intermediate results that are not finite (for instance log_given when the value is not positive). With finite parameters and value what is returned is the true log density, hence finite, except for FoldNormal below zero where it is -inf. Documented parameters and values in the interior of the support never raise. Without the switch nothing is ever raised. Sampling is checked only for Normal and FoldNormal built from logstd.", "quantifier": "all classes with the switch, all float parameters and values including inf, -inf and NaN, all dimensions", "why_tests_cant": "which of the infinitely many parameters and values make an intermediate result infinite or NaN, and that the checks catch all of them, is not settled by samples", "anchors": ["zhusuan/distributions/univariate.py:Normal._log_prob", "zhusuan/distributions/univariate.py:FoldNormal._log_prob", "zhusuan/distributions/univariate.py:Uniform._prob", "zhusuan/distributions/univariate.py:Gamma._log_prob", "zhusuan/distributions/univariate.py:Beta._log_prob", "zhusuan/distributions/univariate.py:Poisson._log_prob", "zhusuan/distributions/univariate.py:Binomial._log_prob", "zhusuan/distributions/univariate.py:InverseGamma._log_prob", "zhusuan/distributions/univariate.py:Laplace._log_prob", "zhusuan/distributions/univariate.py:BinConcrete._log_prob", "zhusuan/distributions/multivariate.py:MultivariateNormalCholesky._log_prob", "zhusuan/distributions/multivariate.py:Dirichlet._log_prob", "zhusuan/distributions/multivariate.py:ExpConcrete._log_prob", "zhusuan/distributions/multivariate.py:Concrete._log_prob", "zhusuan/distributions/multivariate.py:MatrixVariateNormalCholesky._log_prob"]}
{"id": "C83", "title": "Values outside the support", "statement": "For documented parameters log_prob is -inf and prob is 0 at every value outside the support, a finite log_prob certifies that the value is in the support, and so HMC never leaves the support of a factor of the joint density.", "quantifier": "all classes with real or vector parameters, all documented parameters, all float values including inf and NaN, all HMC iterations", "why_tests_cant": "the values outside the support are infinitely many, and the sampler reaches them by unforeseen leapfrog paths", "anchors": ["zhusuan/distributions/univariate.py:FoldNormal._log_prob", "zhusuan/distributions/univariate.py:Uniform._prob", "zhusuan/distributions/univariate.py:Gamma._log_prob", "zhusuan/distributions/univariate.py:Beta._log_prob", "zhusuan/distributions/univariate.py:Poisson._log_prob", "zhusuan/distributions/univariate.py:Binomial._log_prob", "zhusuan/distributions/univariate.py:InverseGamma._log_prob", "zhusuan/distributions/univariate.py:BinConcrete._log_prob", "zhusuan/distributions/multivariate.py:Dirichlet._log_prob", "zhusuan/distributions/multivariate.py:ExpConcrete._log_prob", "zhusuan/distributions/multivariate.py:Concrete._log_prob", "zhusuan/hmc.py:get_acceptance_rate"]}
{"id": "C84", "title": "One variational objective is one consistent thing over its whole life", "statement": "An objective fixes its latent samples and observations when it is made: later changes to the caller's dictionaries or variational net have no effect on it. It runs the model successfully at most once, bn is always the same net, tensor is the same tensor at every read and sgvb() its negative. All values and surrogate costs that one objective gives are computed from one and the same log joint, the model's log joint at the values fixed at the start.", "quantifier": "all histories of uses (bn, tensor, sgvb, reinforce, vimco, importance) interleaved with any changes to the caller's dictionaries, variational net and model net, and all model functions, also ones that fail or differ from call to call", "why_tests_cant": "the histories are unbounded, and a stale or doubled evaluation shows only under particular interleavings and with models that are not deterministic", "anchors": ["zhusuan/variational/base.py:VariationalObjective", "zhusuan/variational/base.py:VariationalObjective.bn", "zhusuan/variational/base.py:VariationalObjective.tensor", "zhusuan/variational/base.py:VariationalObjective._log_joint_term", "zhusuan/variational/base.py:VariationalObjective._entropy_term", "zhusuan/variational/exclusive_kl.py:EvidenceLowerBoundObjective.reinforce", "zhusuan/variational/monte_carlo.py:ImportanceWeightedObjective.vimco", "zhusuan/variational/inclusive_kl.py:InclusiveKLObjective"]}
{"id": "C85", "title": "What SGLD and SGHMC sample on a normal posterior", "statement": "On a posterior that is normal, with gradients that may carry independent normal errors, the values of SGLD and of SGHMC (first and second order, without resampling of the momenta) are normal at every step. For learning rates below an explicit bound they have one stationary distribution, with the mean of the posterior, and converge to it in distribution from every normal or fixed start. Its covariance is known exactly: for SGLD it exceeds that of the posterior and tends to it with the learning rate; for the first order SGHMC the position half a step back has the posterior's covariance exactly, whatever the learning rate, if variance_estimate is right.", "quantifier": "all numbers and shapes of latent variables, all means and precision matrices, all learning rates below the bound, frictions, variance estimates and variances of the gradient errors, all numbers of steps", "why_tests_cant": "the claim is about distributions after any number of steps; a run gives samples with errors larger than the biases, and only for one posterior", "anchors": ["zhusuan/sgmcmc.py:SGLD._update_single", "zhusuan/sgmcmc.py:SGHMC._update"]}
{"id": "C86", "title": "HMC converges to the posterior from every start when its trajectories are short", "statement": "If the log density is finite everywhere and has a finite total, and n_leapfrogs times the step size is at most one over the root of the Lipschitz constant of the gradient divided by the mass, then the joint distribution of all chains after n iterations of the operation returned by HMC.sample converges in total variation to independent draws from the posteriors, from every starting state, both without adaptation and after a burn-in with the adaptation tensors fed False. The posterior is then the only distribution that an iteration leaves as it is. The condition on the trajectories cannot be dropped: for a standard normal and any number of leapfrog steps above one there is a step size with which every proposal is accepted and the chain only changes its sign for ever.", "quantifier": "all log densities with a Lipschitz gradient and finite total, all numbers of chains and dimensions, all starting states, masses and step sizes that meet the condition, all events", "why_tests_cant": "convergence is about the limit of infinitely many iterations and all events at once; a finite run can look converged, as the counterexample with acceptance rate one shows", "anchors": ["zhusuan/hmc.py:HMC.sample", "zhusuan/hmc.py:HMC._leapfrog", "zhusuan/hmc.py:get_acceptance_rate"]}
{"id": "C87", "title": "Averages of HMC draws converge to posterior expectations", "statement": "Under the conditions of C86, for every function with a finite expectation under the posterior of a chain, the average of the function over the first n positions of that chain is within delta of the expectation with probability at least 1 - epsilon, for every n from some n0 on, whatever the starting state.", "quantifier": "all log densities, chains and dimensions as in C86, all integrable functions, all delta and epsilon above zero, all starting states", "why_tests_cant": "a law of large numbers for dependent draws; no finite number of draws settles it, and it must hold for every integrable function", "anchors": ["zhusuan/hmc.py:HMC.sample", "examples/toy_examples/gaussian.py"]}
{"id": "C88", "title": "Step size adaptation drives the mean acceptance rate to the target", "statement": "While HMC adapts its step size, the mean acceptance rate since the last restart differs from target_acceptance_rate by exactly gamma (n + t0) / n^1.5 times the distance of the log step size from ten times the initial step size. So if the step sizes stay within positive bounds the mean acceptance rate converges to the target, and they do stay within bounds if large steps are accepted at most, and small steps at least, as often as the target asks. The step size used once adaptation is switched off lies between the smallest and largest step size of the adaptation and converges to their limit if they have one.", "quantifier": "all log densities, draws, numbers of chains, tuning parameters and infinite runs", "why_tests_cant": "the claim is about the limit of a run and about every model and every sequence of draws", "anchors": ["zhusuan/hmc.py:StepsizeTuner.tune", "zhusuan/hmc.py:HMC._adapt_step_size"]}
{"id": "C89", "title": "HMC on a net converges to the posterior of the model", "statement": "HMC given a model-building function whose nodes are all observed or latent variables, with the latent variables in HMC's state, no adaptation and short trajectories: from every start the joint law of the latent variables of all chains converges in total variation to independent draws from the posterior p(latent | observed) of the model, given each chain's observations, and averages over the draws of a chain converge in probability to expectations under that posterior. Both hold as well for what is drawn after a burn-in with adaptation of step size and mass, once adaptation is switched off.", "quantifier": "all model-building functions, observations, starts, numbers of chains, gradients and integrable functions", "why_tests_cant": "a limit statement about the law of an infinite run on arbitrary nets; a test sees one finite run on one model", "anchors": ["zhusuan/hmc.py:HMC.sample", "zhusuan/framework/meta_bn.py:MetaBayesianNet.observe", "zhusuan/framework/bn.py:BayesianNet.log_joint"]}
{"id": "C90", "title": "With small learning rates SGLD, SGHMC and SGNHT target the posterior of every smooth model", "statement": "Let the latent variables have the posterior distribution of a continuously differentiable log joint, and let the gradients be unbiased estimates. One iteration of SGLD changes the mean of every smooth test function by a quantity that vanishes faster than the learning rate. With step size h (learning rate h^2, friction of order h) and momentum with variance h^2, the same holds of one iteration of SGHMC, first and second order, with or without resampling of the momentum, for test functions of position and momentum; a nonzero variance estimate beta adds a known term. It holds of SGNHT, first and second order, with one friction for every component or for every variable, when the frictions are normal around the extra variance with variance h^2 times the tuning rate (divided by the number of components that share a friction). For SGLD the posterior is the only such distribution among those that differ from it in a bounded region.", "quantifier": "all finite lists of latent variables of all shapes, all continuously differentiable log joints with a finite normalising constant, all unbiased gradient estimators, frictions, tuning rates, resampling schedules and three times differentiable test functions with compact support", "why_tests_cant": "the claim is about means under the posterior, about the limit of small learning rates, and about every model and every gradient noise", "anchors": ["zhusuan/sgmcmc.py:SGLD._update_single", "zhusuan/sgmcmc.py:SGHMC._update", "zhusuan/sgmcmc.py:SGNHT._update"]}
{"id": "C91", "title": "With small learning rates PSGLD targets the posterior", "statement": "Let the latent variables have the posterior distribution of a smooth log joint and let the gradients be unbiased estimates. One iteration of PSGLD changes the mean of every smooth test function by a quantity that vanishes faster than the learning rate, whatever the decay and the epsilon of the RMSprop preconditioner.", "quantifier": "all finite lists of latent variables of all shapes, all continuously differentiable log joints with a finite normalising constant, all unbiased gradient estimators, decays and positive epsilons and three times differentiable test functions with compact support", "why_tests_cant": "the claim is about means under the posterior, about the limit of small learning rates, and about every model and every gradient noise", "anchors": ["zhusuan/sgmcmc.py:PSGLD._update_single", "zhusuan/sgmcmc.py:PSGLD.RMSPreconditioner"]}
{"id": "C92", "title": "Minibatch loops cover the data and stay unbiased", "statement": "In the training loops of the examples every epoch feeds each row of the inputs together with its row of the labels exactly once, in nonempty batches of at most the batch size, whatever the permutations of earlier epochs; loops that round the number of batches down feed full batches and leave out the remainder. With uniform shuffles the log joint computed from a batch, log prior plus mean log likelihood times the number of rows, is an unbiased estimate of the log joint of all the data, also for a short last batch, and so is its gradient. Therefore SGLD and SGHMC on minibatches target the posterior given all the data when the learning rate is small. The mean of the values of equal batches is the mean over the rows that were fed; for unequal batches it is not.", "quantifier": "all data sets, batch sizes, iterations, histories of permutations, smooth priors and likelihoods and test functions", "why_tests_cant": "the claim is about every size of data and batch, every history of shuffles, and expected values over all permutations", "anchors": ["examples/bayesian_neural_nets/bnn_sgmcmc.py:main", "examples/bayesian_neural_nets/bnn_vi.py:main", "examples/gaussian_process/svgp.py:main", "examples/variational_autoencoders/vae.py:main", "examples/probabilistic_matrix_factorization/pmf_hmc.py:main"]}
{"id": "C93", "title": "SGLD in a training loop converges to the posterior", "statement": "Let the log joint of all the data be strongly concave with Lipschitz gradients and let the gradients of the batches of an epoch be unbiased and Lipschitz; the batches of an epoch come from one shuffle, so they depend on each other. If the learning rates decrease to zero and their sum is infinite, the distribution of the latent variables of SGLD converges to the posterior given all the data: in the Wasserstein distance of order two, in distribution, and in the means of all functions of at most quadratic growth, so also in means and covariances, at every iteration of the epochs. With a constant learning rate that is small enough the distribution gets and stays as close to the posterior as one likes; how small does not depend on the initial values. Both hold for the loop of the Bayesian neural net example with any batch size, whose shuffles are applied on top of each other.", "quantifier": "all finite lists of latent variables of all shapes, all data sets and batch sizes, all smooth strongly concave models with Lipschitz gradients, all initial distributions with second moments, all learning rate schedules that meet the conditions", "why_tests_cant": "the claim is about a limit of infinitely many iterations, about distributions, and about every model, data set and schedule", "anchors": ["zhusuan/sgmcmc.py:SGLD", "zhusuan/sgmcmc.py:SGLD._update_single", "examples/bayesian_neural_nets/bnn_sgmcmc.py:main"]}
{"id": "C94", "title": "Matrix factorization by HMC on chunks keeps the posterior of all users and movies", "statement": "In the matrix factorization example the training table is turned into lists per user and per movie, and each HMC step is fed with one chunk of users (or movies), the movies (or users) that occur in its ratings, and these ratings with positions into both lists. What is fed is exactly the ratings of the chunk, each once, whatever order Python lists a set in. While a chunk moves, the log joint that is evaluated is the log of the density of all users, movies and ratings up to a constant in the chunk. So, for any numbers of users, movies, chunks, particles, epochs and leapfrog steps, training never fails, and if the particles are independent draws from the posterior given the whole training table they remain so. The rating error that the script prints is that of sampled ratings, not of the predictions: its expected square is larger by the variance of a rating divided by the number of particles.", "quantifier": "all training tables, all numbers of users, movies, chunks, particles and dimensions, all step sizes and numbers of leapfrog steps, all numbers of epochs, all orders of sets, all random draws", "why_tests_cant": "the claim is about the distribution of all latent variables after any number of epochs and about every table of ratings", "anchors": ["examples/probabilistic_matrix_factorization/pmf_hmc.py:pmf", "examples/probabilistic_matrix_factorization/pmf_hmc.py:select_from_corpus", "examples/probabilistic_matrix_factorization/pmf_hmc.py:main", "examples/utils/dataset.py:load_movielens1m_mapped", "zhusuan/hmc.py:HMC.sample"]}
{"id": "C95", "title": "The evidence lower bound of a batch is unbiased for that of all the data", "statement": "With the log joint of the examples (log prior plus mean log likelihood of the batch times the number of rows) and uniform shuffles, the expected value of the evidence lower bound of a batch, over the shuffle and the samples of all particles, is the logarithm of the evidence of all the data minus the Kullback-Leibler divergence of the variational distribution from the posterior given all the data. It holds for any batch size, in every iteration of every epoch, also for a short last batch, and for any number of particles. So it is a lower bound of the log evidence on average, and its gradient is an unbiased estimate of the gradient for all the data. The Bayesian neural net of the example meets all conditions, with any layers, weights and data.", "quantifier": "all data sets, batch sizes, iterations, earlier permutations, numbers of particles; all models and variational distributions with the integrals in the statement; for the Bayesian neural net all layer sizes and all values of the variational parameters", "why_tests_cant": "the claim is about expectations over shuffles and samples and about a divergence from a posterior that cannot be computed", "anchors": ["examples/bayesian_neural_nets/bnn_vi.py:build_bnn", "examples/bayesian_neural_nets/bnn_vi.py:build_mean_field_variational", "examples/bayesian_neural_nets/bnn_vi.py:main", "zhusuan/variational/exclusive_kl.py:EvidenceLowerBoundObjective"]}
{"id": "C96", "title": "The sparse Gaussian process example maximizes a bound of the exact marginal likelihood", "statement": "In the sparse variational Gaussian process example, the expected value of the lower bound of a batch, over a uniform shuffle and the noise of the particles, is the logarithm of the marginal likelihood of exact Gaussian process regression on all the labels (normal density with the kernel matrix of all the training inputs plus the noise variance), minus the Kullback-Leibler divergence of the variational distribution of the process from its posterior given all the labels; although the script drops the densities of the values at the training inputs from both nets, draws these values independently given those at the inducing inputs, and looks at one batch only. The divergence is finite. The variational distribution is normal at the inducing inputs, with every mean and every positive definite covariance reachable by the trainable variables, and follows the prior given these values. With the training inputs as inducing inputs the bound is attained.", "quantifier": "all data, batch sizes, iterations, earlier permutations, numbers of particles and of inducing inputs, and all values of the trainable variables for which the kernel matrix of the inducing inputs has a Cholesky factor (that is, pairwise different inducing inputs)", "why_tests_cant": "the claim is about expectations over shuffles and noise and about a divergence between distributions on function values; a run shows single noisy values", "anchors": ["examples/gaussian_process/svgp.py:build_model", "examples/gaussian_process/svgp.py:build_variational", "examples/gaussian_process/svgp.py:main", "examples/gaussian_process/utils.py:gp_conditional", "zhusuan/variational/exclusive_kl.py:EvidenceLowerBoundObjective"]}
{"id": "C97", "title": "The topic model example: E step, M step, documents and evaluation", "statement": "In the Monte Carlo EM example of the logistic-normal topic model: the log joint of the E step on the word counts of a document is the log density of the document's vector and its words (drawn one by one, each from a topic), up to the constant that makes it the posterior; the E step leaves the joint posterior of all chains and documents of a batch invariant. If the sampled vectors follow the posterior, the gradient of the M step is in expectation the gradient of the log prior of the topics plus the log marginal likelihood of the batch's documents, and an increase of the expected log density increases the log marginal likelihood at least as much. The update of the prior's mean and standard deviation maximizes the likelihood of the sampled vectors up to the added 1e-6. Padding adds fewer than a batch of empty documents, which have probability one. Shuffling never mixes up documents: every chain of a document continues from that document's own last vector. The AIS value is in expectation a lower bound of the mean log marginal likelihood of the test documents with that as its limit for many chains, and the printed perplexity bound is in expectation at least the perplexity.", "quantifier": "all documents, vocabularies, numbers of topics and chains, batch sizes, shuffles, optimizers, numbers of epochs and of E steps, parameter values, and numbers of temperatures", "why_tests_cant": "stationarity, unbiasedness and bounds in expectation are statements about distributions; the bookkeeping claim is about every shuffle and every number of epochs", "anchors": ["examples/topic_models/lntm_mcem.py:lntm", "examples/topic_models/lntm_mcem.py:main", "zhusuan/hmc.py:HMC.sample", "zhusuan/evaluation.py:AIS.run", "zhusuan/distributions/multivariate.py:UnnormalizedMultinomial"]}
{"id": "C98", "title": "The variational autoencoder examples: bounds, model, batches and tests", "statement": "In the variational autoencoder examples (plain, importance weighted, and with planar flows), for any values of the variables of the networks: the expected evidence lower bound of an image is the log probability of the image under the model minus the divergence of the distribution of the drawn latent vectors from the posterior. The expected importance weighted objective is a lower bound that does not get worse with more particles and tends to the log probability. The log likelihood estimate of the tests has the probability of the image as the mean of its exponential and converges to the log probability. The model is a probability distribution on images, and the mean of the generated pictures is its pixel marginal. Random binarization makes each pixel one with its intensity, independently. With uniform shuffles the expected training objective of every batch is the mean over all training images and their binarizations of the expected bound of an image; so it is a lower bound of their mean log probability. The value that the tests print has as its mean the mean bound of the images in full test batches.", "quantifier": "all values of the network and flow variables, layer sizes, images, numbers of particles, batch sizes and positions, earlier shuffles", "why_tests_cant": "the claims are about expectations over noise and shuffles and about limits, for every value of the variables", "anchors": ["examples/variational_autoencoders/vae.py:build_gen", "examples/variational_autoencoders/vae.py:build_q_net", "examples/variational_autoencoders/vae.py:main", "examples/variational_autoencoders/iwae.py:main", "examples/normalizing_flows/vae_nf.py:main", "zhusuan/variational/exclusive_kl.py:elbo", "zhusuan/variational/monte_carlo.py:importance_weighted_objective", "zhusuan/evaluation.py:is_loglikelihood"]}
{"id": "C99", "title": "The semi-supervised autoencoder example: labeled bound, unlabeled bound and cost", "statement": "In the semi-supervised variational autoencoder example, for any values of the variables of the networks and any batch size: the expected labeled bound of an image with its label is the log probability of both under the model minus the divergence of the drawn latent vectors from their posterior. The unlabeled bound of a batch is, in expectation over binarization and particles, the mean log probability of its images with class and latent vector summed out, minus the divergences of the classifier and of the drawn vectors from the posteriors; so it is a lower bound. The class probabilities used there are positive, sum to one and are within 1e-8 per class of the softmax. The expected cost over random labeled batches is minus half the sum of the mean labeled bound over all labeled images, the unlabeled bound, and beta times the mean log probability that the classifier gives to the labels.", "quantifier": "all values of the network variables, layer sizes, numbers of classes and particles, images, labels, batch sizes", "why_tests_cant": "expectations over noise and random batches, for all values of the variables; the layout of rows must be right for all batch sizes and numbers of classes", "anchors": ["examples/semi_supervised_vae/vae_ssl.py:build_gen", "examples/semi_supervised_vae/vae_ssl.py:qz_xy", "examples/semi_supervised_vae/vae_ssl.py:qy_x", "examples/semi_supervised_vae/vae_ssl.py:main"]}
{"id": "C100", "title": "The AdaMax optimizer divides by the infinity norm of the gradients and moves by bounded steps", "statement": "For any sequence of gradients, after any number of calls of apply_gradients of the AdaMax optimizer on a variable: the divisor of the update is never zero; the first slot is the exponentially weighted mean of the gradients and the second their exponentially weighted infinity norm, up to an accumulated epsilon of at most eps / (1 - beta2); the step is the learning rate times their ratio (without the correction of the bias that the published algorithm has); no step is longer than a multiple of the learning rate that depends on the betas only, and with the default settings none is longer than 0.00101, the learning rate being 0.001; if all gradients had one sign the step goes against it; sparse gradients are refused.", "quantifier": "all gradient sequences (also chosen in response to the variable), starting values, numbers of steps, learning rates, betas in range, precisions", "why_tests_cant": "a claim about all histories of gradients", "anchors": ["examples/utils/optimizers.py:AdamaxOptimizer"]}
{"id": "C101", "title": "The sigmoid belief net examples follow the gradient of the bound and of the divergence", "statement": "In the sigmoid belief net examples, for any values of the variables of both networks: the states of the layers are drawn with the probabilities whose logarithm enters the objective; the expected bound of an image is at most its log probability under the model, grows with the number of particles and tends to it, so the printed test log likelihood is a lower bound on average. In sbn_vimco.py the expected gradient of a batch, over the shuffle, the binarization and the particles, is the gradient of minus the bound averaged over all training images, with respect to all variables, including its dependence on the probabilities of the draws. In sbn_adaptive_is.py the same holds for the variables of the model, and the gradient for the proposal converges with the number of particles to the gradient of the divergence of the posterior from the proposal.", "quantifier": "all values of the network variables, directions, layer sizes, images, batch sizes, iterations and numbers of particles", "why_tests_cant": "expectations and limits over random draws and shuffles, for all values of the variables", "anchors": ["examples/sigmoid_belief_nets/sbn_vimco.py:build_sbn", "examples/sigmoid_belief_nets/sbn_vimco.py:build_q_net", "examples/sigmoid_belief_nets/sbn_vimco.py:main", "examples/sigmoid_belief_nets/sbn_adaptive_is.py:main"]}
{"id": "C102", "title": "Variational dropout maximizes a lower bound of the evidence of the training labels", "statement": "In variational_dropout.py, for any layer sizes, variables, batch and number of particles: the noise that multiplies the inputs of the layers is normal with mean one and variance sigmoid(logit_alpha) + 1e-10; the expected value of the printed lower bound (minus the cost) is the mean expected log probability of the labels of the batch minus the divergence of the variational noise of one row from its prior, divided by the number of training examples, and that divergence has a closed form. In evaluation mode rows do not affect each other, the expected bound of a batch of shuffled training data is the log evidence of all labels minus the divergence from the posterior, both divided by the number of examples, for the model in which one noise vector is shared by all examples, and the predicted probabilities are unbiased estimates of the class probabilities under the variational noise. The moving variances used in evaluation stay positive through any training.", "quantifier": "all layer sizes, network variables, noise parameters, data, batch sizes, iterations, particles and training histories", "why_tests_cant": "expectations over normal noise and shuffles, for all values of the variables and all histories", "anchors": ["examples/bayesian_neural_nets/variational_dropout.py:var_dropout", "examples/bayesian_neural_nets/variational_dropout.py:q"]}
{"id": "C103", "title": "Adversarial training: what the losses of the towers mean, what the discriminator and critic estimate, and the clipped critic", "statement": "In dcgan.py and wasserstein_gan.py the towers share out the rows of a batch in order, equally in training; for networks that treat rows separately the averages of the losses and gradients over the towers are the losses of the whole batch and their gradients, each network's variables with its own loss. Over shuffles and uniform latent vectors between -1 and 1 the expected discriminator loss of DCGAN is its log loss in telling the data from the generated images; it is at least log 2 minus their Jensen-Shannon divergence, with equality exactly if the sigmoid of the output is the probability of the data (log density ratio as output), and that divergence is zero exactly if the generator reproduces the distribution. The expected w_distance is the difference of the critic's means, which for a Lipschitz critic is at most its constant times the transport cost of every coupling. After every iteration all critic variables are within 0.01 of zero, moved no further than needed, and the generator is not clipped.", "quantifier": "all data, batch sizes, numbers of towers, networks, latent dimensions, distributions, couplings and training histories", "why_tests_cant": "statements about expectations, all discriminators, all couplings and all training histories", "anchors": ["examples/generative_adversarial_nets/dcgan.py:build_tower_graph", "examples/generative_adversarial_nets/wasserstein_gan.py:build_tower_graph", "examples/utils/multi_gpu.py:average_losses"]}
{"id": "C104", "title": "The toy examples: what is sampled, kept, printed and plotted", "statement": "mixture_sgnht.py: the log joint is the log density of the mixture of the two normals up to a constant, computed without overflow, its gradient is the derivative, the printed expected mean and standard deviation are those of the mixture, and one of every 300 iterations is kept, all in the last third. The density estimate of both examples is the mean of normal densities around the samples whatever the batches, a probability density, and in expectation the density of the samples blurred by the kernel. gaussian.py: HMC targets independent normals with standard deviations 1, 1/2, ...; every kept sample is drawn long after adaptation has ended; from then on chains at the target stay there, and from any state the averages of samples and of their squares tend to 0 and the squares of the printed standard deviations if trajectories are short. toy2d_intractable.py: the expected lower bound is minus the divergence of the variational distribution from the funnel; it is at most -log(1 + 2 * 1.35**2) / 2 and reaches this exactly at one mean-field normal. The contours of the model are its density; those of the variational distribution are its density only if both its standard deviations are one.", "quantifier": "all positions, means, widths, sample lists, batch sizes, dimensions, states, chain counts, particle counts and variational variables", "why_tests_cant": "identities of densities at all points, limits of averages, and the optimum over all mean-field normals", "anchors": ["examples/toy_examples/gaussian.py", "examples/toy_examples/mixture_sgnht.py:log_joint", "examples/toy_examples/toy2d_intractable.py:build_toy2d_intractable"]}
{"id": "C105", "title": "The autoencoder with binary latent variables: bound, gradient and test value", "statement": "bernoulli_latent_vae.py: the variational net draws the states with the probabilities it reports; the expected lower bound of a batch in training is the log probability of the batch minus the divergence of the drawn states from their posterior, per image and particle; in evaluation mode it is the mean over the images of log probability minus divergence, hence at most the mean log probability, and so is the printed test value over all complete batches; the expected gradient of the training cost is the gradient of minus the expected lower bound plus half the mean squared error of the baseline.", "quantifier": "all networks and directions of change, images, batch sizes, particle counts, baselines and moving means", "why_tests_cant": "expectations over all random draws and derivatives for all networks", "anchors": ["examples/variational_autoencoders/bernoulli_latent_vae.py:build_gen", "examples/variational_autoencoders/bernoulli_latent_vae.py:build_q_net", "examples/variational_autoencoders/bernoulli_latent_vae.py:main", "zhusuan/variational/exclusive_kl.py:reinforce"]}
{"id": "C106", "title": "The convolutional autoencoder: layers, reshapes, lower bound, test value and generated images", "statement": "vae_conv.py: the transposed convolution of the decoder is the transpose of the convolution with the same filters, reads the stated windows, and residual blocks with a last layer of zeros pass nonnegative images on unchanged; the reshapes between vectors and images keep particles, images and pixels apart, so that log odds and encoder outputs of an image do not depend on the other images and particles of the batch; the expected lower bound of a batch is the mean over its images of log probability minus divergence from the posterior, hence at most the mean log probability; with a uniform shuffle its expected value in training is the mean over all training images and their binary versions; the printed test value has the mean over the images in complete batches as expected value; generated images have on average the pixel probabilities of the model, each pixel in its place.", "quantifier": "all values of the variables of the networks, numbers of filters and latent variables, image sizes and strides of the layers, batches, batch sizes, particle counts, data sets and pixels", "why_tests_cant": "expectations over all random draws for all networks, and index identities for all sizes", "anchors": ["examples/variational_autoencoders/vae_conv.py:deconv_resnet_block", "examples/variational_autoencoders/vae_conv.py:conv_resnet_block", "examples/variational_autoencoders/vae_conv.py:build_gen", "examples/variational_autoencoders/vae_conv.py:build_q_net", "examples/variational_autoencoders/vae_conv.py:main", "examples/utils/utils.py:conv2d_transpose"]}
{"id": "C107", "title": "The semi-supervised autoencoder with adaptive importance sampling: bounds and adaptation of the proposal", "statement": "vae_ssl_adaptive_is.py: the expected lower bound of a labeled image is at most the log probability of image and label, grows with the number of particles and tends to it; the same for an unlabeled image and its log probability; the derivative of the cost of the proposal moves the encoder and the classifier towards the posterior of latent vector and class; the expected bounds of a batch are the means over its images.", "quantifier": "all values of the variables of the networks, all directions of change, images, labels, batches, particle counts and weights of the classification cost", "why_tests_cant": "expectations and almost sure limits over random draws, for all networks", "anchors": ["examples/semi_supervised_vae/vae_ssl_adaptive_is.py:build_gen", "examples/semi_supervised_vae/vae_ssl_adaptive_is.py:labeled_proposal", "examples/semi_supervised_vae/vae_ssl_adaptive_is.py:unlabeled_proposal", "examples/semi_supervised_vae/vae_ssl_adaptive_is.py:main"]}
{"id": "C108", "title": "The dataset loaders of the examples select, split and index rows as documented", "statement": "dataset.py: the semi-supervised loaders return 10 (400) different labeled rows per class, or all if there are fewer, each with its own label, every row of the class with the same chance, and the other rows as unlabeled; dequantified pixels stay in range and keep their level; CIFAR images have their channels last; the UCI loaders split off the target column and divide the rows into 80/10/10 % without losing or repeating one; the bag of words matrix and lists hold the counts of the file; the MovieLens loader splits all ratings, counts untrained ids and indexes the training ratings by user and by movie.", "quantifier": "all files' contents, shuffles, seeds and sizes", "why_tests_cant": "ranges over all data and all shuffles, and one part is a probability", "anchors": ["examples/utils/dataset.py:load_mnist_semi_supervised", "examples/utils/dataset.py:load_cifar10", "examples/utils/dataset.py:load_cifar10_semi_supervised", "examples/utils/dataset.py:load_uci_german_credits", "examples/utils/dataset.py:load_uci_boston_housing", "examples/utils/dataset.py:load_uci_protein_data", "examples/utils/dataset.py:load_uci_bow", "examples/utils/dataset.py:load_uci_bow_sparse", "examples/utils/dataset.py:load_movielens1m", "examples/utils/dataset.py:load_movielens1m_mapped"]}
{"id": "C109", "title": "Dtypes of samples, probabilities and log joints", "statement": "For a distribution whose parameters have the documented dtypes, sample() builds and its result has the dtype `dtype`; log_prob(given) and prob(given) build and have the dtype `param_dtype` for tensors of dtype `dtype`, numpy arrays, Python integers, and Python floats if `dtype` is floating; a tensor of another dtype is refused, and so are Python floats for an integer distribution; no given value is silently changed; the log joint of a model builds if and only if all its nodes have the same param_dtype.", "quantifier": "all distributions, all documented dtypes of parameters, samples and given values, checks on or off, broadcasting or not, all lists of nodes", "why_tests_cant": "ranges over all combinations of dtypes and distributions and all models", "anchors": ["zhusuan/distributions/base.py:Distribution", "zhusuan/distributions/univariate.py", "zhusuan/distributions/multivariate.py", "zhusuan/distributions/utils.py:explicit_broadcast", "zhusuan/framework/bn.py:BayesianNet.log_joint"]}
{"id": "C110", "title": "The model function gets the arguments it was built with", "statement": "Every observe() of a model calls the model function with exactly the arguments of the call that made the model, whatever happens meanwhile to the containers in which the caller passed them, and building the model does not change them; this holds for models of the decorator and for MetaBayesianNet built directly.", "quantifier": "all arguments, all histories of writes to containers between construction and observe", "why_tests_cant": "ranges over all histories of writes", "anchors": ["zhusuan/framework/meta_bn.py:MetaBayesianNet", "zhusuan/framework/meta_bn.py:meta_bayesian_net"]}
{"id": "C111", "title": "doc_inherit gives a method the documentation of the parent class", "statement": "A method decorated with doc_inherit has, on the class and on its instances, the documentation of the nearest ancestor that documents it, and is called on an instance with the instance as first argument.", "quantifier": "all class hierarchies with single inheritance, all instances, all recursion limits", "why_tests_cant": "ranges over all class hierarchies", "anchors": ["zhusuan/utils.py:DocInherit"]}
{"id": "C112", "title": "The Bayesian neural net of bnn_sgmcmc.py: independent particles, exact M step, error in the units of the data", "statement": "bnn_sgmcmc.py: between two updates of the standard deviations every particle is a chain of its own, moved by the gradient of its own log joint, which estimates the log posterior of all the data without bias; after every epoch the standard deviations of the weights become the ones under which the particles are most likely, so that the update does not lower the log joint of the data; the prediction is the mean of the particles, its error is at most theirs on average, and the printed error is the root mean squared error of the predictions scaled back to the units of the data.", "quantifier": "all layer sizes, data, batches, draws, learning rates, numbers of particles and of epochs", "why_tests_cant": "ranges over all weights and all histories of a random run", "anchors": ["examples/bayesian_neural_nets/bnn_sgmcmc.py:build_bnn", "examples/bayesian_neural_nets/bnn_sgmcmc.py:main"]}
{"id": "C113", "title": "Samplers never take the logarithm of zero and never leave their interval because of rounding", "statement": "In float16, float32 and float64, for every value the generator can produce: the noise behind Concrete, ExpConcrete, BinConcrete and Laplace comes from a number strictly inside its open interval, so no logarithm of zero is taken and no sample is infinite or NaN because of the draw; samples of Uniform lie between minval and maxval, with maxval excluded as documented; a Bernoulli draw or a Metropolis-Hastings test with probability zero never succeeds, one with probability one always does, and any other probability is met up to one unit of the generator.", "quantifier": "all random bits, all roundings to nearest, the three floating dtypes, all bounds and probabilities", "why_tests_cant": "the ends of the range are drawn with probability 2^-23 or less, and the bounds range over all numbers of the dtype", "anchors": ["zhusuan/distributions/utils.py:open_interval_standard_uniform", "zhusuan/distributions/univariate.py:Laplace._sample", "zhusuan/distributions/univariate.py:Uniform._sample", "zhusuan/distributions/univariate.py:Uniform._prob", "zhusuan/distributions/univariate.py:BinConcrete._sample", "zhusuan/distributions/univariate.py:Bernoulli._sample", "zhusuan/distributions/multivariate.py:ExpConcrete._sample", "zhusuan/distributions/multivariate.py:Concrete._sample", "zhusuan/hmc.py:HMC.sample"]}
{"id": "C114", "title": "Stochastic tensors can be fetched and fed: feeding a node is observing it", "statement": "session.run accepts the stochastic tensors of a net as fetches and as keys of feed_dict. One run returns one joint sample: every fetched node, and the log joint, see the same value of each node, sampled from its distribution given the values of its parents. A run that feeds values to unobserved stochastic tensors returns, for the same noise, exactly what a run without feeds returns for the model observed at these values.", "quantifier": "all models, observations, sets of fetched and fed nodes, values, samplers and noise", "why_tests_cant": "ranges over all graphs of nodes and all subsets that are fed", "anchors": ["zhusuan/framework/bn.py:register_session_run_conversion_functions", "zhusuan/framework/bn.py:StochasticTensor.tensor", "zhusuan/framework/bn.py:StochasticTensor.cond_log_p", "zhusuan/framework/bn.py:BayesianNet.log_joint"]}
{"id": "C115", "title": "log_sum_exp and log_mean_exp in floating point", "statement": "With every operation rounded to nearest in float16, float32 or float64, and the sum added in any order, log_sum_exp and log_mean_exp differ from the exact logarithm of the sum (mean) of exponentials by at most an explicit bound: in the unit roundoff, the accuracy of the device's exponential and logarithm, the number of entries and the distance between the largest and the smallest entry. The size of the entries enters only through one relative rounding of the result. log_sum_exp is never below the largest entry and log_mean_exp never above it.", "quantifier": "all finite entries, numbers of entries, dtypes, orders of addition, roundings to nearest and device functions within a given accuracy", "why_tests_cant": "ranges over all floating-point vectors and all orders in which a device may add", "anchors": ["zhusuan/utils.py:log_sum_exp", "zhusuan/utils.py:log_mean_exp"]}
{"id": "C116", "title": "Samples of density zero have weight zero in the multi-sample objectives", "statement": "A sample whose density under the model is zero (log_prob is -inf) counts as a sample of weight zero in log_sum_exp, log_mean_exp, the importance weighted objective, is_loglikelihood, the AIS estimate, the vimco cost and the importance cost; if all samples have density zero the objective is -inf.", "quantifier": "all numbers of samples, all model log densities in [-inf, inf), all finite proposal log densities", "why_tests_cant": "ranges over all patterns of samples outside the support", "anchors": ["zhusuan/utils.py:log_sum_exp", "zhusuan/utils.py:log_mean_exp", "zhusuan/variational/monte_carlo.py:ImportanceWeightedObjective", "zhusuan/variational/inclusive_kl.py:InclusiveKLObjective.importance", "zhusuan/evaluation.py:is_loglikelihood", "zhusuan/evaluation.py:AIS.run"]}
{"id": "C117", "title": "Bernoulli.log_prob is accurate in floating point", "statement": "With every operation rounded to nearest in float16, float32 or float64, Bernoulli.log_prob of either outcome differs from the exact log probability by at most a few units of roundoff relative to it (plus an underflow term), for every logit, also where the probability is close to one. The same holds for the sum over a group of entries, added in any order. The result is never positive.", "quantifier": "all finite logits, outcomes, group sizes, orders of addition, dtypes, roundings to nearest and device functions within a given accuracy", "why_tests_cant": "ranges over all floating-point logits", "anchors": ["zhusuan/distributions/univariate.py:Bernoulli._log_prob", "zhusuan/distributions/base.py:Distribution.log_prob"]}
{"id": "C118", "title": "Building models in several threads", "statement": "When several threads build models, every BayesianNet() belongs to the innermost observe of its own thread, and to none if its thread has none open. However the threads are interleaved, leaving an observe never fails, and when all have ended the stack of contexts is what it was at the start.", "quantifier": "all numbers of threads, programs of nested with blocks and interleavings", "why_tests_cant": "ranges over all schedules", "anchors": ["zhusuan/framework/utils.py:Context", "zhusuan/framework/meta_bn.py:MetaBayesianNet._run_with_observations", "zhusuan/framework/bn.py:_BayesianNet.__init__"]}
{"id": "C119", "title": "HMC reports a bad starting point", "statement": "An HMC iteration that starts where the log density of some chain is infinite or NaN raises an error, whichever statistics are fetched with the sampling operation. What is fetched never changes what an iteration does to the variables.", "quantifier": "all log densities, states, draws, fed values, choices of fetched statistics and sequences of runs", "why_tests_cant": "ranges over all subsets of fetches and over histories of runs; a test that fetches the log density sees the error", "anchors": ["zhusuan/hmc.py:get_acceptance_rate", "zhusuan/hmc.py:HMC.sample", "zhusuan/hmc.py:HMCInfo"]}
{"id": "C120", "title": "Resuming a sampler from saved variables", "statement": "A sampler that is interrupted after any number of iterations and resumed in a new program goes on exactly as if it had not been interrupted, for the same data and draws, if all variables were saved. The latent variables are enough for SGLD and for HMC without adaptation. The trainable variables are enough for PSGLD, and for SGHMC and SGNHT if the momenta are never resampled or the interruption falls on a multiple of the resampling period. In the other cases for SGHMC, and with only the latent variables for PSGLD, SGHMC and SGNHT, there are runs that go on differently.", "quantifier": "all samplers and arguments, all points of interruption, all data and draws before and after", "why_tests_cant": "ranges over all crash points and histories", "anchors": ["zhusuan/sgmcmc.py:SGMCMC.__init__", "zhusuan/sgmcmc.py:PSGLD._define_variables", "zhusuan/sgmcmc.py:SGHMC._define_variables", "zhusuan/sgmcmc.py:SGHMC._update", "zhusuan/sgmcmc.py:SGNHT._define_variables", "zhusuan/hmc.py:HMC.sample"]}
{"id": "C121", "title": "An HMC iteration does not depend on the order in which TensorFlow runs it", "statement": "Whatever order TensorFlow chooses for the operations of an HMC iteration, within their inputs and control inputs, the new samples, the statistics and all variables of the sampler are the same, and every operation uses the values that the variables had before the iteration.", "quantifier": "all orders of the operations, all numbers of latent variables, all models and states, adaptation of step size and mass absent, on or off", "why_tests_cant": "ranges over all schedules; a test sees the one the executor happens to choose", "anchors": ["zhusuan/hmc.py:HMC.sample", "zhusuan/hmc.py:HMC._adapt_mass", "zhusuan/hmc.py:HMC._adapt_step_size", "zhusuan/hmc.py:StepsizeTuner.tune", "zhusuan/hmc.py:ExponentialWeightedMovingVariance.update"]}
{"id": "C122", "title": "AIS returns a finite estimate", "statement": "AIS.run returns a finite number for every model, proposal and HMC object: never NaN or an infinity, and without raising an error because of a draw from the proposal whose density under the model is zero.", "quantifier": "all log densities with values in the reals, infinities and NaN, all numbers of temperatures, adaptation runs, chains and data, all random draws", "why_tests_cant": "ranges over all draws and all annealing histories; a test sees a few draws inside the support", "anchors": ["zhusuan/evaluation.py:AIS.run", "zhusuan/evaluation.py:AIS._get_lower_bound", "zhusuan/hmc.py:get_acceptance_rate"]}
{"id": "C123", "title": "Sampling operations of one HMC instance are independent", "statement": "If sample is called several times on one HMC instance, with models that do not share latent variables, then each returned operation behaves as it would with an instance of its own, however the runs of the operations are interleaved.", "quantifier": "all interleavings of runs of the operations, all models, states, fetches, fed flags and draws", "why_tests_cant": "ranges over all interleavings and histories; the tests call sample once per instance", "anchors": ["zhusuan/hmc.py:HMC.__init__", "zhusuan/hmc.py:HMC.sample", "zhusuan/hmc.py:HMC._adapt_mass"]}

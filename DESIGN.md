# Design: a Lean 4 model of ZhuSuan and the properties proved about it

## Layout

* `properties.jsonl` – the English properties (C01 ...).
* `lean/Verif/Model/*.lean` – the model, function by function; each definition cites the file
  and lines of `/repo` it models and says where it simplifies.
* `lean/Verif/Spec/*.lean` – small specifications, independent of the model (reachability in a
  graph, abstract net, run-time shapes, textbook densities, ...). When a specification is only a
  line or two it stands at the head of the `Props` file that uses it, or Mathlib's own notion is
  used directly (`gaussianPDFReal`, `Measure.map`, `MeasurePreserving`, ...).
* `lean/Verif/Lemmas/*.lean` – helper lemmas.
* `lean/Verif/Props/*.lean` – the property theorems, one file per area, each beside an `example`
  showing that a concrete non-trivial case meets its hypotheses.
* `MANIFEST.json` – property → theorems.
* `seeded/LOG.jsonl` – wrong programs tried against the theorems.

## Trusted base

### Lean

* Lean 4.33.0's kernel. No axioms are added; no `sorry`, `admit`, `native_decide`, `bv_decide`.
* Axioms per theorem (from `#print axioms` on every theorem of `lean/Verif/Props`): every theorem
  depends on a subset of `propext`, `Classical.choice`, `Quot.sound`. All property theorems depend on
  all three, except these:
  * only `Quot.sound`, `propext`: C04_lexical, C04_needs_separate, C04_stack_restored, C06_add,
    C06_deterministic_overwrites, C06_legacy_overwrites, C07_explicit_wins, C10_query_nothing,
    C11_exact_when_known, C11_given_exact_when_known, C11_given_refused_only_if_incompatible,
    C11_refused_only_if_incompatible, C12_assoc, C12_comm, C12_fails_iff, C12_idem,
    C12_least_upper_bound, C12_static_exact, C12_static_sound, C12_unit, C13_explicit,
    C13_explicit_succeeds, C13_explicit_valueError, C14_batch_value_shape, C14_static_sample_shape,
    C16_get_batch_shape, C16_get_shape_at, C16_get_shape_list, C16_get_shape_list_ints,
    C16_rank_at_least, C16_report_shape, C16_scalar, C17_positive_int32_scalar_errors,
    C36_last_wins, C37_identity, C38_bn_cached, C38_elbo_value, C38_latent_dict,
    C38_missing_posterior_accepted, C38_observed_wins, C57_init, C57_not_variable, C61_disagree,
    C61_early_partial, C61_late_partial, C61_shared, C61_shared_refuted, C62_info, C62_simultaneous,
    C62_single_partial, C66_empirical_shape, C73_pairs_late, C84_bn_same, C84_first_use, C84_klpq,
    C84_model_run_once, C84_reinforce_twice, C84_retry, C84_tensor_fixed, C108_columns, C108_german,
    C108_mapped, C108_movielens, C109_log_joint, C109_log_prob_partial, C109_sample, C110_untouched,
    C111_class_partial, C118_overlap_refuted.
  * only `propext`: C06_duplicate_rejected, C06_failed_add_harmless, C09_stale_after_deterministic,
    C09_stale_after_legacy, C09_stale_after_set, C10_outputs_deterministic, C10_shape,
    C14_nonscalar_refused, C14_not_samplable, C16_rank_at_least_early,
    C17_positive_int32_scalar_value, C17_same_dtype_error, C37_delegates, C37_operand_order,
    C38_exactly_one, C57_accepts, C66_empirical, C66_implicit_sample, C72_empirical_call, C72_order,
    C74_requires_scope, C84_stale_tensor, C108_images, C108_images_place, C109_no_solver,
    C109_refused, C110_defaults, C118_outside_refuted.
  * none: C72_constructors, C111_instance, C111_subclass.

### The reading of `/repo`

Nothing ties the model to the Python text except the citations on every definition. What is modelled
and what is not is listed in *What is modelled* below.

### Python, numpy and TensorFlow 1 facts relied on

* Numbers. `float` tensors are real numbers with exact arithmetic, except in `Model/Flt.lean` (type
  `XF`: reals, NaN, two infinities; used for C51, C55, C63, C66). Rounding is modelled in
  `Model/FloatDraw.lean` only (C113). Overflow, underflow and
  signed zeros are not modelled (in `XF` all zeros are positive). Float counters are exact.
  `Real.sqrt` and `Real.log` are 0 on negative numbers where the code gives NaN; the theorems carry
  hypotheses that keep the arguments nonnegative (e.g. `β ≤ α` in C59, positive parameters in C18–C34).
  `tf.minimum` propagates NaN.
* Ops. TensorFlow ops have their documented mathematical meaning: `tf.lgamma` = log Γ;
  `sigmoid_cross_entropy_with_logits` = `max(x,0) - x z + log(1+exp(-|x|))`; `tf.matrix_triangular_solve`
  reads only the lower triangle; `tf.matmul` and `triangular_solve` need equal batch axes;
  `tf.cholesky` is the lower triangular factor with positive diagonal; `tf.concat`/`tf.add_n` need equal
  shapes; `reshape [-1, K]` is an error for `K = 0`.
* Random ops are sources with the documented law, independent per call and per element: standard
  normal (`stddev=s` multiplies by `s`), uniform on [0,1), `random_gamma(alpha, beta)` = a rate-one draw
  divided by `beta` (shape `[n] + broadcast(alpha, beta)`), Poisson, `random.categorical` with the
  softmax law (needs at least one category).
* Gradients. `tf.stop_gradient` has value `id` and derivative 0; the other gradients are those of the
  chain rule with TensorFlow's registered gradients: `abs` → `sign`, `softplus` → `sigmoid`,
  `sigmoid` → `s(1-s)`, `lgamma` → `digamma`, `reduce_max` shares the gradient equally among the maxima,
  `reduce_logsumexp` takes out `stop_gradient(max)`, `random_gamma` has an implicit gradient in `alpha`.
* Graphs. A node is evaluated once per `session.run`. The branches of `tf.cond` are Python functions
  called at construction. Reads and writes of a reference variable are unordered unless a control or
  data dependency orders them; each latent's `tf.cond` in SGHMC/SGNHT has its own read of `self.t`.
  `tf.check_numerics` fails the run.
* Variables. A variable's name is its scope path and name; `get_variable` creates or reuses by the scope's reuse
  flag and raises otherwise. A default-name scope takes the first name whose count is 0; leaving a `with` block
  sets the counts below it to 0; a template keeps the scope of its first call, enters it again later (restoring
  the counts afterwards), reuses once a call has succeeded, and then refuses calls that create variables.
* `moving_averages.assign_moving_average` has `zero_debias=True` by default: a biased mean and a step
  count are kept and the variable is set to `biased / (1 - decay ^ step)`.
* Shapes. `bool(TensorShape)` is "rank is known". `tf.broadcast_static_shape`: unknown rank → unknown;
  otherwise per right-aligned dimension; an unknown dimension against a known one > 1 gives the known
  one, otherwise unknown.
* Python 3: operator dispatch (left operand's method first, then the right operand's reflected one),
  dictionaries keep insertion order, `bool` is an `int`, `zip` stops at the shortest argument.
  `tf.Tensor`'s own overloads are those of TensorFlow 1.
* Reductions with rounding (C115). `tf.reduce_sum` is a tree of rounded additions over the entries, each used once; `tf.reduce_mean` divides that sum by the
  number of entries; `tf.reduce_max` is exact. The dtype has no largest number, so overflow of the entries themselves is not modelled.
* Threads (C118). One append, pop or read of a list is one step (Python's global lock); the scheduler may switch threads between any two steps.
* Fetches (C119). `sess.run` evaluates an operation only if a fetched tensor depends on it; `tf.where` evaluates both branches. What a run that raises has already assigned is not modelled.
* Checkpoints (C120). Saving and restoring copies values exactly, and the draws of the resumed program are compared with equal draws (TensorFlow does not save the state of its generators). For HMC
  with adaptation only the checkpoint of all variables is treated.
* Orders (C61, C62, C121). TensorFlow runs each operation once, after its inputs and control inputs; an operation reads a variable when it runs. Where the theorems give one result, each reader comes before the
  assignment, so taking the value earlier would change nothing. Random draws are part of the interpretation.
* Sessions (C114). `session.run` converts the keys of `feed_dict` and the fetches with the registered functions; a fed tensor has the fed value
  and is not computed, every other tensor is computed once from its inputs.
* Rounding (C113). `tf.random_uniform` draws `k / 2 ^ bits` with `bits` the stored bits of the mantissa (10, 23, 52) and computes
  `draw * (maxval - minval) + minval` in the dtype; every operation returns a number of the dtype nearest to the exact result, with any rule for
  ties; subnormal numbers are not flushed to zero; overflow is not modelled.
* Dtypes (C109). A binary op needs two operands of one number dtype; functions such as `tf.log` need a floating dtype; a Python number takes
  the dtype of the other operand; `tf.convert_to_tensor` with a `dtype` refuses a tensor of another dtype, refuses Python floats for an integer
  dtype, and converts numpy arrays with `astype`; the label, index and random ops accept the dtypes written in `Model/Dtypes.lean`.
* numpy: `0/0` is NaN with a warning; `np.squeeze` of a length-one array is 0-dimensional; fancy
  indexing accepts negative indices.

## What is modelled

| file of `/repo` | modelled (Lean module) | not modelled |
|---|---|---|
| `zhusuan/framework/utils.py` | `get_backward_ops` (BackwardOps), `Context` (Context), `reuse_variables` (Vars) | the deprecated alias `reuse` |
| `zhusuan/framework/meta_bn.py` | `Local`, `_run_with_observations`, `observe`, `log_joint` setter (Observe, BayesNet), `scope` and `reuse_variables` (Vars), the arguments and their copies (MetaArgs) | `functools.wraps` |
| `zhusuan/framework/bn.py` | `StochasticTensor` construction, `tensor`, `cond_log_p`, observation check; `_BayesianNet` and `BayesianNet` state and queries, deprecated constructors and `outputs`/`local_log_prob`/`query` (BayesNet, Shape); whole model-building functions (Program); the per-distribution methods and how their arguments travel (Calls); fetches and feeds of stochastic tensors in `session.run` (Session) | name scopes, `partial_run` |
| `zhusuan/utils.py` | `TensorArithmeticMixin` (Arith), `log_sum_exp`, `log_mean_exp` (LogExp, Dual), `merge_dicts` (Dict), `DocInherit` (MetaArgs) | `convert_to_int`, `add_name_scope`, `if_raise` |
| `zhusuan/distributions/base.py` | `sample`, `prob`, `log_prob`, shape reports, `_check_input_shape`, constructor checks (Shape, DistShape, TensorExpr, Guards, Num), dtypes of samples, given values and results (Dtypes) | |
| `zhusuan/distributions/utils.py` | everything except the following | `open_interval_standard_uniform` is a draw from (0,1), except in FloatDraw, where it is rounded arithmetic; the deprecation sentinel |
| `zhusuan/distributions/univariate.py`, `multivariate.py` | `_sample`, `_log_prob`, `_prob`, shape methods of all 20 classes (Univariate, BatchSample, BatchSampleMv, BatchLogProb, Num, DistShape); constructor checks of all 20 classes (Guards, Ctors); `check_numerics` and special values (Checked) | `check_numerics` on overflow |
| `zhusuan/variational/*.py` | `VariationalObjective` (VObjective), elbo, `sgvb`, `reinforce` with its moving mean, importance weighted objective, `vimco`, `importance` and its alias `rws` (Estimators, MovingMean, NetIw, NetGrad); the life of an objective (ObjState) | warnings |
| `zhusuan/evaluation.py` | `is_loglikelihood` (Estimators, NetIw), `AIS` (Ais, AisRun, NetMcmc, NetAis) | printing |
| `zhusuan/hmc.py` | all (Hmc, HmcApi, NetMcmc), what the fetches of a run evaluate (HmcFetch), several operations of an instance (HmcShared), the graph of an iteration (Dataflow, HmcGraph, HmcInterp), convergence of the chains (HmcConv) | name scopes |
| `zhusuan/sgmcmc.py` | all update rules, orders of updates, info tuples (Sgmcmc), the graphs (Dataflow, SgGraph, SgInterp), sharing of the counter (SgShared), saved variables (Resume), the log posterior (NetMcmc), stationary distributions of SGLD and SGHMC for a normal posterior (SgmcmcGauss), the target of SGLD, SGHMC and SGNHT for small learning rates (SgmcmcWeak), the bias of PSGLD (SgmcmcWeakRms), the distribution of SGLD over many epochs (SgldLoop) | exact stationary distributions for models that are not normal |
| `zhusuan/diagnostics.py` | all (Diagnostics) | |
| `zhusuan/transform.py` | both flows, `linear_ar`, shape checks (Transform) | variable creation (the weights are arbitrary) |
| `zhusuan/legacy/distributions/special.py` | `Empirical`, `Implicit` (Special) | |
| `zhusuan/legacy/framework/stochastic.py` | the effect on the net (`legacy` in BayesNet), argument forwarding (Calls) | |
| `examples/utils/*.py` | `standardize`, `to_one_hot`, `average_gradients`, `average_losses`, `average_rmse_over_batches`, the tiling of `save_image_collections` (ExampleUtils), `AdamaxOptimizer` (Adamax), the loaders of `dataset.py` (Dataset), `conv2d_transpose` (ConvVae) | downloads and file formats, image IO |
| `examples/gaussian_process/utils.py` | `RBFKernel` on matrices, `Kdiag`, `gp_conditional` (GaussianProcess), `RBFKernel` on batches (KernelBatch) | batches in `gp_conditional`, which takes matrices |
| `examples/**` scripts | the minibatch loops and the log joint of a batch (Minibatch), the loop with SGLD (SgldLoop), `pmf_hmc.py` (Pmf), `bnn_sgmcmc.py` with its update of the standard deviations (BnnSg), the model and the objective of `bnn_vi.py` (MinibatchVi), of `svgp.py` (Svgp), `lntm_mcem.py` with its training loop (Lntm), the dense variational autoencoders `vae.py`, `iwae.py`, `vae_nf.py` (Vae), `vae_ssl.py` (Ssl), the sigmoid belief nets `sbn_vimco.py` and `sbn_adaptive_is.py` (Sbn), `variational_dropout.py` (Dropout), the adversarial nets `dcgan.py` and `wasserstein_gan.py` (Gan), the toy examples (Toy), `bernoulli_latent_vae.py` (BernVae), `vae_conv.py` with `conv2d_transpose` (ConvVae), and `vae_ssl_adaptive_is.py` (SslIs) | networks, optimizers, sessions, input and output |
| `docs`, `tests`, `setup.py` | | all |

## Plan per property

"Model" says what is modelled; "Proof" says how it is proved.

| id | model | proof |
|----|-------|-------|
| C01–C03 | `get_backward_ops` as a loop on (stack, seen, done, result) over an arbitrary finite op type, total by well-founded recursion (C03) | loop invariant; result set = inductive reachability; topological order for acyclic dependency |
| C04 | class-level stacks, `__enter__`/`__exit__`, `get_context`; programs with blocks, exceptions, handlers | structural induction on programs; trace = lexically innermost context |
| C05 | `Local`, `_run_with_observations`, `observe`, `_BayesianNet.__init__` in the same program language | refinement to lexically scoped environment semantics |
| C06–C10 | `_BayesianNet`/`StochasticTensor` as a state machine with caches and a draw counter | invariants by induction over operation sequences; stale-cache negations as witnesses |
| C11–C13, C16 | static shapes `Option (List (Option Nat))`, run-time shapes `List Nat`, tensors with index functions | algebra of right-aligned broadcasting |
| C14–C15 | sample and log_prob as tensor-valued functions, per distribution shapes | induction over shapes |
| C17 | guards as decision functions | case analysis / list induction |
| C18–C34 | `_log_prob`/`_sample` per element over ℝ, as in the code (with the same sub-expressions) | equality to Mathlib or textbook densities; total mass; law of the sampler (`Measure.map`) |
| C35 | `log_sum_exp`, `log_mean_exp` with the max shift | real analysis |
| C36 | dictionaries as association lists / functions | list induction |
| C37 | expression trees with mixin operands | structural induction |
| C38 | `VariationalObjective.__init__`, `bn`, `_log_joint_term`, `_entropy_term` over the net model | case analysis; the "missing latent is rejected" clause is expected to be false of the code (it iterates over keys): negation |
| C39–C40 | objectives over finite latent spaces | Gibbs / Jensen inequalities, averaging over leave-one-out subsets for monotonicity; the limit in the number of samples from C71's strong law and Fatou's lemma on the gap between the two objectives |
| C41–C46 | surrogate costs written against an abstract derivative with stop_gradient (value, derivative pairs) | chain rule, score-function identity on finite spaces |
| C43 | the two orders of read and update | both schedules; the bad one shown biased |
| C47–C49 | `_map_t`, `_get_schedule_t`, `run`, `_get_lower_bound` | strict monotonicity of the logistic; induction on temperatures with invariant kernels; Jensen; the chains of a data point have independent draws (product measures rearranged), so the strong law and C40 apply in the number of chains; an invariant of the loop bounds the weights |
| C50, C52 | `_leapfrog` on vectors, accept/reject | reversibility by induction; shears are measure preserving; involutive Metropolis invariance |
| C51 | extended floats | case analysis |
| C53, C57 | one `sample` step on many chains | extensional |
| C54–C56 | tuner, variance estimator, search loop as state machines | induction over histories |
| C58–C62 | SGMCMC updates and counter; SgGraph: the graphs of the four samplers with their control dependencies; SgInterp: what their operations compute | algebra; schedules as explicit orders; the order of reads and assignments from the graphs, as in C121; every allowed order computes the updates |
| C63 | `effective_sample_size_1d` loop | algebra, invariance, bounds |
| C64–C65 | flow steps | monotone 1-D reduction, determinant lemma; triangular systems |
| C66 | extended floats | case analysis |
| C67–C68 | utilities | algebra |
| C69 | model-building functions as lists of statements whose densities depend on earlier nodes, run on the net's state machine; worlds = values of the draws | invariant over histories (parameters are drawn before they are used); Tonelli (`lmarginal`) along the order of the draws |
| C70 | C69's programs for the variational net and the model, `VariationalObjective` (C38's model) between them, `observe` running the model program under the objective's dictionary; evidence = joint density integrated over the model's own latent variables | C69 twice and C38; reindexing of `lmarginal` from variational to model nodes; Jensen |
| C71 | `is_loglikelihood` as the log mean exp of `log p - log q` over the proposal's samples (C40's objective) | expectation of the exponential term by term; Markov's inequality; Mathlib's strong law of large numbers |
| C72 | Python's binding of arguments (`bind`), one row per wrapper and constructor with parameters, defaults and the arguments of its calls; `stochastic` and `StochasticTensor.__init__` as calls | a general theorem for rows that forward each argument under its own name, for all arguments; the rows are checked by kernel evaluation; refuted for legacy `Empirical` |
| C73 | every `__init__` as a sequence of checks that raise while building or assert at run time, on dtypes and on static and run-time shapes | each check proved equivalent to a condition on the run-time shape (C16, C17), composed class by class; early reporting by the same composition |
| C74 | TensorFlow's variable store (variables, scope counts, templates) and `observe` on it; model functions as programs of `get_variable`, scopes, default-name scopes, exceptions and nested `observe` | an invariant over scripts: the scopes of templates are distinct, counted forever and their variables are exactly those of the first successful call; a replay lemma for reuse; no new variable and refusals by the end of `Template._call_func` |
| C75 | `_sample` of the elementwise univariate distributions as broadcasting tensor expressions of source tensors (`BatchSample`), with C15's model of `log_prob` | each entry by C18–C29; product measures (`Measure.pi`), regrouped into blocks of coordinates; the density of a block is the product over the group, which is `exp` of the sum |
| C76 | `_log_prob` of the nine classes as tensor programs (`BatchLogProb`): row reductions, `expand_dims`, `matrix_diag_part`, `matrix_transpose`, batched triangular solve, row-major `reshape`, both softmax cross entropies, C13's `maybe_explicit_broadcast` | each operation keeps track of (shape, entry at every index); the composed entry is the formula of `Num`; `reshape` by `unravel ∘ ravel = id` |
| C77 | `_sample` of nine classes as tensor programs (`BatchSampleMv`): `tile`, batched `matmul`, Gumbel noise, flattened logits, the table of categorical draws, `one_hot`, sums over experiments; `sample(None)` squeezes. The random primitives are the trusted base: independent `tf.random.normal`, `uniform` (on (0, 1)), `gamma`, and `tf.random.categorical` (independent draws of softmax of each row) | a bijection between (sample, batch entry, source) and the positions of the sources, so the entries are independent with the laws of C21, C26, C30–C34; then the density of a group is a product, and C76 gives `log_prob` |
| C78 | `meta_bn.observe(**obs).log_joint()` over the symbolic net of C69, with one value per chain in every tensor (`NetMcmc`); `get_log_posterior` merges the latent variables with the observations; `Hmc.runs` iterates `sample` | C69 and the dictionary of C57 give the log posterior; detailed balance and C52 give invariance of one iteration, induction over the noise gives any number; division by the evidence |
| C79 | `prior_samples`, `init_latent`, the two dictionary merges and the log joints of the two nets (`NetAis`), in the loop of C48 | the samples of the proposal net have its chain-rule density (C70), carried to the numbers in the variables by a change of variables; the integral of the model's posterior density over the numbers is the evidence; then C48 and C49, whose limit in the number of chains (`C49_consistent`) carries over because the chains of a data point have the same densities |
| C80 | `axis` check, `log_w`, the reduction over the sample axis (`NetIw`), on the objective of C70; a world of draws for each index of the sample axis | the weights are a latent variable model whose reference measure is the law of the samples, so C40 (with its limit `C40_tight`) and C71 apply; its evidence is the model's by C70 |
| C81 | `_entropy_term` and the five surrogate costs from the tensors of the objective of C70, each with its gradient (`NetGrad`); programs whose densities depend on a real parameter | the terms are `log p` and `log q` of the programs by C70, so C41, C42, C44 and C45 apply; on finitely many values the reference measure is the image of the counting measure, where regularity is free |
| C82 | every `_log_prob` and `_prob` that calls `tf.check_numerics`, over reals extended by inf, -inf and NaN, in a monad that collects the failed messages (`Checked`) | case analysis per class: the failed checks are exactly those the specification `Complains` lists; when none fails the value is that of the real model of C14–C30 |
| C83 | the model of C82 with the switch off; `Support` and the part of its complement that `log_prob` recognises (`Outside`); HMC over floats as in C51 | NaN and infinities propagate through the sums; a finite sum has finite terms, so finite `log_prob` bounds the value; HMC rejects whatever is not finite. The full claim is false: NaN instead of `-inf`, fractions and unnormalised vectors get finite densities |
| C84 | the objective as a state machine: the attributes it fills, the caller's dictionaries on a heap, the variational net and the model net as the states of C01–C08, the model function with a call counter (`ObjState`) | a preorder that every action respects (caches only grow, calls stop once the model ran), a proof that each method sees the caller's objects only through the values fixed at the start, and an invariant that ties every cached value to one log joint |
| C85 | the updates of C58 and C59 run for ever on a normal posterior, with draws and gradient errors as normal random vectors (`Spec/GaussVec`) | each update is an affine map of state and noise; laws are found by characteristic functions, the stationary covariance by solving the Lyapunov equation, convergence by a Lyapunov argument that needs no eigenvalues; runs are built on a product space |
| C86 | the Markov chain of the runs of C52, with standard normal and uniform draws; `Spec/HmcConv` states posterior, draws and the condition on the trajectories | short trajectories make the end point an invertible bi-Lipschitz function of the momentum (contraction argument), so that it has a positive density; detailed balance makes the transition a self-adjoint contraction, whose even powers converge in L²; positivity leaves only constants in the limit; one accepted step turns a point start into a density; chains are joined by adding distances |
| C87 | averages of a function along the runs | Chebyshev for bounded functions of a stationary chain, whose correlations vanish by the L² limit; truncation for integrable ones; total variation convergence removes the stationary start |
| C88 | runs of `HMC.sample` with adaptation on, as in C54 | the dual averaging sum telescopes into an exact identity between mean rate and log step; a drift argument bounds the steps; the averaged step is a convex combination, whose old terms decay at least like 1/n |
| C89 | the runs of C86 and C87 with the log joint of a net as in C78 | the log joint splits into one log density per chain whose normalisation is the posterior of the chain-rule density; then C86 and C87 |
| C90 | the update rules of Sgmcmc as functions of random draws; posterior densities on tuples of real arrays | a Taylor expansion of the test function under dominated convergence; integration by parts against the density shows that the first order term vanishes |
| C91 | the update rule of PSGLD as a function of random draws | the expansion of C90 gives the first order term for every start; it vanishes when the preconditioner does not follow the gradients; for the RMSprop preconditioner a witness on a standard normal posterior refutes the property |
| C92 | Minibatch: the numbers of iterations, slices, shuffled arrays and the log joint of a batch in the example scripts | slices add up to a prefix by induction; all places of a uniformly shuffled array have the same mean; C90 with the uniform distribution on permutations |
| C93 | SgldLoop: the distribution of the latent variables over iterations and epochs, with one permutation per epoch | SGLD is coupled with a Metropolis adjusted chain that keeps the posterior and uses the same normal draws; strong concavity contracts the distance, rejections are rare (dominated convergence, Rademacher's theorem), the dependence within an epoch costs a second order term; a recursion over epochs |
| C94 | Pmf: the tables, `select_from_corpus`, the log joint of a chunk with its gathers (which fail when an index is out of range), the loops over chunks with HMC on one chunk | the fed lists are computed exactly; the log joint of a chunk differs from that of everything by a constant; a Metropolis adjusted leapfrog step on one block keeps the joint distribution (Fubini over the other blocks); induction over chunks and epochs |
| C95 | MinibatchVi: the bound on a batch, the net of `bnn_vi.py` with any layers | linearity and C92 for the shuffles, C39 for the divergence; the net grows polynomially in the weights, so everything is integrable for normal weights |
| C96 | Svgp: the variables, the two nets and the bound of `svgp.py` on a batch | two-step drawing of normal vectors (equal covariances), reweighting of the prior, C92 for the shuffles, C39 for the divergence; the marginal likelihood by a.e. equality of continuous densities; completing the square for the case of equality |
| C97 | Lntm: the net, padding, batches, E step, M step, hyper-parameters, training loop and evaluation of `lntm_mcem.py` | densities of Gaussian products; C52 for the sampler; derivative under the integral (Fisher's identity); `log t ≤ t - 1` for EM and the hyper-parameters; induction over batches and epochs with a path relation for the documents; C48, C49 and Jensen for the perplexity |
| C98 | Vae: networks, samples, flows, row objectives, binarization, batches and test means of `vae.py`, `iwae.py`, `vae_nf.py` | densities relative to the prior, linear growth of the networks for integrability, bijectivity of planar flows with `w ≠ 0`; C39, C40, C71 for the row objectives; Fubini and C92 for batches |
| C99 | Ssl: networks, row layout, shapes, labeled and unlabeled bounds and cost of `vae_ssl.py` | for a fixed class the networks are those of C98; Gibbs' inequality for the classes; broadcasting of shapes for the failing case |
| C100 | Adamax: slots and updates of `AdamaxOptimizer` | induction over the steps of a run with arbitrary gradients |
| C101 | Sbn: networks, draws, bound, VIMCO and importance gradients, batches of `sbn_vimco.py` and `sbn_adaptive_is.py` | the law of the layers by Fubini; finite latent spaces meet the conditions of C40, C44 and C45; explicit derivatives of the log probabilities; C92 for batches |
| C102 | Dropout: layers with batch normalization, noise, bound, prediction and moving averages of `variational_dropout.py` | continuity and polynomial growth of the net in the noise make everything integrable; C39 for the gap; C92 for batches; induction over training histories |
| C103 | Gan: split of a batch over towers, losses, averages over towers and clipping of `dcgan.py` and `wasserstein_gan.py`; networks as functions of all rows of a tower | lists for the towers; C67 for the averages; C92 for shuffles; densities relative to the mixture of data and generated images for the discriminator; couplings for the critic |
| C104 | Toy: log joints, feeds, kept samples, density estimates, printed numbers and plotted functions of `gaussian.py`, `mixture_sgnht.py` and `toy2d_intractable.py` | Gaussian integrals; C52 and C87 for HMC after the adaptation; C39 for the bound, and `log x <= x - 1` for its optimum |
| C105 | BernVae: networks with batch normalization in both modes, draws, bound, cost with its derivative | finite sums over all states; score functions of one row vanish against terms of other rows; the gradient is false of the code in training, see Findings |
| C106 | ConvVae: convolutions and their transposes as sums over windows, residual blocks, row-major reshapes, networks, bound of a batch | index identities; continuity and linear growth of all layers give the conditions under which the bound of one image is log probability minus divergence |
| C107 | SslIs: bounds and proposal cost of labeled and unlabeled images with their derivatives as dual numbers | C98 with the class fixed, sum over the classes; strong law of C45 with Gaussian proposals; divergence as a function of the first two moments of the posterior |
| C108 | Dataset: the loaders from the contents of the files on, as functions of the file's rows and numpy's shuffles | permutations and sublists of the row numbers; uniform permutation for the chance of a row; induction over the lines |
| C109 | Dtypes: every `_sample`, `_log_prob` and `_prob` as a sequence of operations on dtypes, with TensorFlow's check of each | evaluation for every distribution under its documented dtypes; induction over the nodes for the log joint |
| C110 | MetaArgs: the containers of arguments as objects on a heap; `copy.copy`, unpacking, arbitrary writes by others | writes elsewhere do not change an address, by induction over the history |
| C111 | MetaArgs: classes as the list of their entries for the method; `super` and `getattr` as searches; Python's recursion limit | induction over the limit and over the ancestors |
| C112 | BnnSg: `bnn_sgmcmc.py` on the net of C95, with SGHMC of Sgmcmc for all particles at once, the update of `logstds`, the prediction and the error | derivative of a sum with one term that varies; induction over the runs; exp x > 1 + x for the M step; C92 for the target |
| C113 | FloatDraw: the numbers of a dtype as `m * 2 ^ e`, any rounding to nearest, the kernel of `tf.random_uniform` as `k / 2 ^ bits`; the samplers that start from it | rounding is monotone and exact on numbers; spacing of the numbers of a binade; a rounding is constructed so that the hypotheses are met |
| C114 | Session: conversion of fetches and feeds of `bn.py` on the nets of C69, with a session that computes every tensor that is not fed from its inputs | the facts on built programs of C69; induction over the statements; the ancestral sample with fixed nodes is unique |
| C115 | FloatLse: `log_sum_exp` and `log_mean_exp` along one axis with rounded operations; the order of a sum is a tree, the device's exponential and logarithm are parameters | relative error of a rounded addition of two numbers of the dtype (small sums are exact); induction over the tree; errors of exponents become factors of the sum, then summands of its logarithm |
| C116 | ZeroDensity: `log_sum_exp`, `log_mean_exp`, the importance weighted objective, `vimco` and `importance` along the sample axis over `XF`; AIS as in C122 | with a finite maximum the shifted exponentials are densities times a constant; NaN propagates. The full claim is false: NaN when all densities are zero, and `vimco` is NaN when one is |
| C117 | FloatBern: `Bernoulli._log_prob` at one entry and its sum over a group, with rounded operations | the part `max(x, 0) - x z` is exact; `log(1 + y)` carries a relative error of `y` over to its value (Bernoulli's inequalities); sums as in C115 |
| C118 | Threads: the stack of one context class, used by several threads in any interleaving of single steps | the depth of the stack is the sum of the depths of the threads; a turn of one thread is lexical. The first sentence is false: witnesses for any two threads |
| C119 | HmcFetch: the iteration of C51 for any choice of fetched statistics; the check is evaluated only if `orig_log_prob` or `log_prob` is fetched | case analysis on the special values; induction over the runs. The first sentence is false of runs that fetch neither: witnesses for every model |
| C120 | Resume: the variables of the four SGMCMC samplers with the counter, and those of HMC; saving all, the trainable or the latent ones and restoring them into initialized variables | induction over the iterations; the other variables depend on the counter only modulo the period; constructions for the cases where it is not enough |
| C121 | Dataflow: running a graph with variables in any order; HmcGraph: the operations of an HMC iteration, their inputs and the variables they read and assign; HmcInterp: what they compute | every reader of a variable is an ancestor of its assignment, hence all orders agree, for every interpretation; two orders by sorting with two ranks for the race; the graph with the formulas computes `Hmc.iteration` in every order that reads the step size before assigning it |
| C122 | AisRun: `AIS.run` over `XF` with the errors that end it, on the HMC runs of HmcFetch | a tempered log density is finite exactly if both are; finite log densities are an invariant of the chains; the weights are sums of finite numbers. The full claim is false for draws with an infinite log density |
| C123 | HmcShared: an instance with any number of operations, shared counter, step size and tuner, own latent variables and variances; lists of runs of HmcFetch | induction over the runs; without adaptation the shared variables are constant. In every configuration runs of other operations leave samples and variances (induction). With adaptation the claim is false: an invariant of the estimator keeps the variance of a single chain at zero |

## Findings

Where the code does not do what its documentation (or the property) says. Each is proved about the
model by the theorem named.

* C04. If the base class `Context` itself is ever used as a context, all subclasses share its stack and
  answer with each other's objects (`C04_needs_separate`). The library never does this.
* C05. A `MetaBayesianNet` built directly without `args`/`kwargs` (their default `None`) cannot be
  observed: `TypeError` (`C05_direct_construction_fails`).
* C06. `deterministic()` silently replaces a node of the same name (`C06_deterministic_overwrites`), and
  so do the deprecated constructors, even when they raise (`C06_legacy_overwrites`).
* C09. `log_joint()` returns a stale cached value after `deterministic()` replaced a stochastic node,
  after a deprecated constructor added one, and after `meta_bn.log_joint` was set
  (`C09_stale_after_deterministic`, `C09_stale_after_legacy`, `C09_stale_after_set`).
* C10. Deprecated `outputs()` raises `AttributeError` on a deterministic node
  (`C10_outputs_deterministic`).
* C19. `FoldNormal` samples are not folded: they are negative with positive probability
  (`C19_samples_not_folded`).
* C31. `Multinomial.log_prob` with `n_experiments` given does not compare it with the counts; every count
  vector gets a positive probability and the total exceeds one (`C31_nonzero_elsewhere`,
  `C31_total_exceeded`).
* C33. `ExpConcrete.prob` is not a density for Lebesgue measure of the free coordinates
  (`C33_exp_lebesgue`).
* C38. The documented refusal of model nodes that have neither observation nor posterior never happens:
  the check iterates over names instead of nodes (`C38_missing_posterior_accepted`).
* C43. In `reinforce` the read of the moving mean and its update are unordered. If the update runs first
  the learning signal contains its own present value and the estimator is biased
  (`C43_update_first_reads_present`, `C43_update_first_biased`).
* C46. `is_reparameterized=False` cannot be asked of Gamma-based distributions, whose samples do carry a
  gradient (`C46_gamma_sample_leaks`, `C46_inverseGamma_sample_leaks`); `use_path_derivative=True` is
  accepted and ignored by Gamma, Uniform and Dirichlet (`C46_*_path_ignored`).
* C53. `HMCInfo.hamiltonian` is that of the proposal, also after a rejection
  (`C53_hamiltonian_of_proposal`).
* C54. Feeding `adapt_step_size=False` from the start sets the step size to 1 (`C54_off_overwrites`);
  the shrinkage point is `exp(10 * step_size)` (`C54_shrinkage_point`).
* C55. A zero variance estimate makes the mass infinite and freezes the chain
  (`C55_zero_variance_freezes`); feeding `adapt_mass=False` from the start does so
  (`C55_off_freezes`).
* C56. The search for an initial step size goes down by at most one factor (`C56_no_search_down`) and does
  not end for a target above one (`C56_target_above_one`) or, similarly, when the rate never drops below
  the target (constant log joint).
* C57. Without adaptation the iteration counter is not incremented (`C57_counter_stuck`).
* C61. The counter of SGHMC/SGNHT is read and incremented without an order: momenta may be resampled twice
  in a row, never, or for some latents only (`C61_twice`, `C61_skipped`, `C61_disagree`).
  Several sampling operations of one instance share the counter, so their calls are counted together: of `n` operations run in turn, one resamples
  in every call and the others never (`C61_shared`, `C61_shared_refuted`).
* C62. In SGLD/PSGLD with several latents, one may be assigned before another's gradient is computed
  (`C62_race`).
* C63. The effective sample size includes lag 0, so independent samples get about `n/3`
  (`C63_lag_zero`, `C63_bounds`). No samples after burn-in give `inf`, a constant dimension fails an
  assertion, one sample raises `IndexError` (`C63_too_few`, `C63_constant`, `C63_one_sample`). The
  documentation promises a 1-D array; a scalar minimum is returned.
* C64. The planar flow divides by `w·w`: the theorems need `w ≠ 0`.
* C65. An unknown `update` is not refused; the flow then only reverses coordinates
  (`C65_unknown_update`).
* C66. For a continuous `Implicit`, `prob` off the sample is `-inf` and `log_prob` NaN
  (`C66_implicit_continuous_partial`); with grouping, an even number of mismatches gives `+inf`
  (`C66_grouped_prob`) and `log_prob` reduces twice (`C66_grouped_twice`).
* C67. `to_one_hot` accepts negative labels (`C67_one_hot_negative`); `average_gradients` fails when a
  gradient is `None` in some towers only (`C67_missing_gradient`).
* C68. `Kdiag` has the wrong shape for two or more batch axes (`C68_kdiag_shape`).
* C72. The legacy class `Empirical` passes `is_continous` (misspelt), so the user's `is_continuous` never
  reaches the distribution (`C72_empirical_drops_is_continuous`). Unknown keywords, for instance
  `n_sample=`, are accepted and ignored by every node method (`C72_unknown_keyword`).
  `BayesianNet.normal` takes `group_ndims` before `n_samples`, all other methods and the legacy `Normal`
  the other way round (`C72_normal_order`, `C72_order`).
* C73. Of two parameters that do not broadcast and whose shapes are unknown the constructors of the two-parameter
  families say nothing; the failure comes with the first joint use (`C73_pairs_late`). A statically known size 0
  counts as unknown, so a mismatch next to it is reported only at run time (example beside `C73_build_time`).
* C74. When the first `observe` of a net with `reuse_variables=True` raises after making a variable, the net can
  never be observed again: TensorFlow only starts to reuse after a successful call, so the second call is refused
  because the variable exists (`C74_failed_first_call`).
* C78. A model node that is neither observed nor latent is sampled anew in every evaluation of the log joint, so
  HMC's Metropolis test compares densities at different values of it, and nothing warns (`C78_fresh_draws`).
* C79. AIS evaluates the first density with `merge_dicts(observed, latent)` and HMC with the latent variables first,
  so for a name that is both observed and latent the two disagree, and nothing checks for it (`C79_overlap`).
* C80. Without latent variables `_entropy_term()` is `None`; the elbo allows for it, but `is_loglikelihood`, the
  importance weighted objective, `reinforce` (despite its later test for `None`), `vimco` and `importance` add it to
  the log joint, which TensorFlow refuses (`C80_no_latent`).
* C82. `check_numerics` does not look at everything. `sample` of a `Normal` built from `std` is unchecked, so a NaN
  `std` gives NaN samples (`C82_sample_std_unchecked`). A negative shape parameter of `Gamma` that is not an integer
  passes (`C82_shape_unchecked`). `FoldNormal` returns `-inf` below zero without complaint (`C82_finite`), while
  `Uniform.log_prob` raises for every value outside its interval (`C82_complaints`), where the answer is also `-inf`.
* C83. Outside their support `Gamma`, `Beta`, `InverseGamma`, `BinConcrete`, `Dirichlet` and `Concrete` give NaN and
  not `-inf` (`C83_outside`). `Poisson` and `Binomial` give finite values at fractions, `Dirichlet`, `Concrete` and
  `ExpConcrete` at vectors that are not normalised (`C83_unrecognised`). On the boundary, `Gamma(1, b)` at 0,
  `Beta(1, 1)` at 0 and 1, `Dirichlet(1, …, 1)` with a zero entry and `InverseGamma` at 0 give NaN
  (`C83_boundary`, `C83_inverse_gamma_zero`).
* C84. `reinforce()` with variance reduction can be called once per graph: the second call raises `ValueError` since the
  variable `moving_mean` exists (`C84_reinforce_twice`; the source has a TODO). After a node is added to `objective.bn`,
  `tensor` and `sgvb()` keep the old log joint while `reinforce()`, `vimco()` and `importance()` use the new one
  (`C84_stale_tensor`).
* C85. The second order SGHMC, which is the default, has a bias that no learning rate removes: its positions have the
  posterior covariance times `(friction/2) / sinh (friction/2)`, which is below 1 (0.9974 for the default 0.25). With exact
  gradients larger friction makes it worse, against the doc string (`C85_sghmc2_positions`, `C85_friction_factor`,
  `C85_more_friction`). The cause is the factor `exp (-friction/2)` on noise that is drawn with variance
  `2 * friction * learning_rate`; the first order branch does not have the bias (`C85_sghmc1_middle`).
* C86. The number of leapfrog steps and the step size are fixed within a run, and nothing in `HMC` randomises them. So the chain can be
  periodic: for a standard normal posterior the step size `2 sin (π / 2n)` makes every iteration map `q` to `-q` with acceptance rate one
  (`C86_resonance`). The usual remedy, a random step size or number of steps, would have to be added outside the library.
* C91. PSGLD has no term for the divergence of the preconditioner (sgmcmc.py 250–257), so with a small learning rate it does not
  target the posterior. `C91_psgld_biased`: on a standard normal posterior, with exact gradients and the running means of squares
  at the value they converge to, one iteration changes the mean of a test function by an amount of the first order in the
  learning rate, for every decay and every epsilon. `C91_psgld_divergence` says which term is missing.
* C92. `svgp.py` prints the plain mean of the values of its batches; the last batch may have fewer rows, so that this is not the
  mean over the rows (`C92_ragged`). The scripts for autoencoders leave out up to a batch of rows per epoch, also of the test data
  (`C92_cover_down`).
* C94. `pmf_hmc.py` 115 evaluates the test error with the node `r`, which is not observed there and so sampled with standard deviation
  0.05, and not with `r_pred`.  The printed error is random and too large: `C94_error` gives the expected excess of the square,
  `std² / K` per rating.
* C97. In `lntm_mcem.py` each batch's loss contains the whole log prior of `beta`, while the likelihood is that of the batch only, without
  scaling.  Over an epoch of `m` batches the prior is counted `m` times (`C97_epoch_prior`): the M steps maximize the likelihood with a
  prior whose precision is `m` times the configured one.  The evaluation uses a sampler with `adapt_step_size=True` and does not turn the
  adaptation off during annealing; with adaptation only the range of the printed value is proved (`C97_perplexity_range`), the bound in
  expectation is proved for a fixed step size (`C97_perplexity`).
* C97. The learning rates `lr * (t0 / (t0 + epoch))²` have a finite sum, at most `lr * t0` (`C97_learning_rate`), so they do not meet the
  condition of stochastic approximation that they sum to infinity.
* C99. In `vae_ssl.py` the model is built with `n` rows for `z_mean` and `y_logits`, while the unlabeled part observes `n * n_class` rows.
  With two or more images and classes the log probabilities cannot be broadcast and the run fails (`C99_shape_error`; the code has the
  comment "TODO: n not match").  The bound is proved for batches of one image (`C99_unlabeled_partial`), and for all batches if the rows
  fit (`C99_unlabeled_value`).  Read but not modelled: `x_labeled` and `x_unlabeled` are names of arrays first and of tensors later, so
  that `np.random.shuffle(x_unlabeled)` and `x_labeled[labeled_indices]` get tensors; the tests feed `x_unlabeled` but not
  `x_unlabeled_ph`, on which the classifier of the unlabeled bound depends.
* C100. `AdamaxOptimizer` leaves out the factor `1 / (1 - beta1^t)` of the AdaMax of Kingma and Ba, so that its first steps are shorter by
  `1 - beta1^t` (`C100_step`, `C100_constant`).
* C101. What `sbn_vimco.py` and `sbn_adaptive_is.py` print as "Test log likelihood" is the importance weighted bound with 1000 particles,
  which is below the log likelihood on average (`C101_test`, `C101_bound`).
* C102. `layers.fully_connected` applies a rectifier by default, so the logits of `variational_dropout.py` are never negative and no class
  gets a probability below `exp(-M)` over the number of classes, `M` being the largest logit (`C102_logits`); the rectifier that the script
  adds to the inner layers does nothing.  With `is_training`, a row's logits depend on the other rows (`C102_coupled`), so that what training
  maximizes is not the bound of the model that is evaluated.
- `toy2d_intractable.py` plots the variational distribution with `np.exp(vlogstd)` as the variances, where these are the standard deviations;
  the contours show normals with the square roots of the standard deviations that were found (`C104_variational_contour`, `C104_contours_differ`).
- `bernoulli_latent_vae.py` trains with `reinforce` on networks with batch normalization, so the log joint of one image depends on the states drawn
  for the other images of the batch.  `reinforce` multiplies the signal of each image with the score of its own states only, so the terms between
  different images are missing and the expected gradient is not that of the lower bound (`C105_gradient` gives the missing terms,
  `C105_biased` a network where they do not cancel).
* C107. `vae_ssl_adaptive_is.py` draws one class for all particles of an unlabeled image.  So with more particles its bound does not tend to the log
  probability of the image but to that minus the divergence of the classifier from the posterior of the classes (`C107_unlabeled_partial`,
  `C107_unlabeled_gap`).  The importance weights of the particles do not contain the class, and the expected derivative of the cost of
  the proposal for unlabeled images is zero for the variables of the classifier: only the labeled images train it (`C107_classifier`,
  `C107_training`).  Read but not modelled: `iters` is computed from the shape of the tensor `x_unlabeled`, whose first dimension is not known.
* C108. `load_mnist_semi_supervised` and `load_cifar10_semi_supervised` say that all the *other* training rows are unlabeled.  The unlabeled rows
  are all training rows, with the labeled ones among them (`C108_overlap`).  A bag of words file that numbers documents or words from 0 is not
  rejected: index -1 is the last row or column (`C108_bow_zero`).
* C109. A numpy array with fractions that is given to an integer distribution is cut off to integers without an exception, although a tensor or a
  Python list with the same numbers is refused (`C109_truncated`, `C109_refused`).  The parameters of `MultivariateNormalCholesky` and
  `MatrixVariateNormalCholesky` may be documented as any `float` dtype, but `log_prob` cannot be built for a dtype without a triangular solver,
  such as `float16` in TensorFlow 1 (`C109_no_solver`).
* C110. `MetaBayesianNet(f)` with its default `args=None` or `kwargs=None` is accepted, but every `observe` raises a `TypeError`
  (`C110_defaults`).
* C111. `doc_inherit` breaks instances when the nearest ancestor decorates the method too, and so for every subclass that inherits a decorated
  method: access recurses until Python stops it (`C111_subclass`).  An instance that counts as false is not passed to the method
  (`C111_self_partial`).  The decorator is not used in the package.
* C112. `bnn_sgmcmc.py`: a weight that is zero in all particles would get the standard deviation 0; there is no best one (`C112_zero`).  It has
  probability 0.  With `epochs_ave_pred = 0` all epochs would be averaged (`C112_average_zero`).
* C113. `Uniform` is documented on `[minval, maxval)`, but rounding can return `maxval`: `Uniform(1000., 1001.)` in `float32` does, for about one
  draw in 2^15, and `log_prob` of that sample is `-inf` (`C113_uniform_refuted`).  It never returns more than `maxval`
  (`C113_uniform_closed`), and not `maxval` itself for bounds such as `(0, b)` and `(-b, b)` (`C113_uniform_partial`).
* C116. When all samples have density zero, `log_sum_exp`, `log_mean_exp`, the importance weighted objective and `is_loglikelihood` give NaN, not `-inf`
  (`C116_all_zero_refuted`), and one such entry makes the mean over a batch NaN (`C116_batch`). `tf.reduce_logsumexp` gives `-inf` (`C116_reduce_logsumexp`).
  `vimco` is NaN as soon as one sample has density zero (`C116_vimco`): it subtracts the signal from itself on the diagonal and from the sum,
  which is `-inf` minus `-inf`.
  AIS ends with an error as soon as one draw from the proposal has density zero under the model (`C116_ais_refuted`).
* C118. All threads share one stack of contexts. If the `observe` calls of two threads overlap, a net takes the observations and the model of the other thread's call, even of one that has ended
  (`C118_overlap_refuted`), and so does a net made outside of any `observe` (`C118_outside_refuted`). Taking turns is safe (`C118_turns_partial`).
* C119. The check of the starting point is evaluated only by runs that fetch `orig_log_prob` or `log_prob`. `sess.run(sample_op)` does not, nor do the runs of the examples `gaussian.py` and
  `lntm_mcem.py` or the adaptation runs of AIS. From a NaN or `+inf` the chain then stays where it is for ever, without an error (`C119_silent_refuted`, `C119_stuck`); from `-inf` it accepts the first
  finite proposal (`C119_escapes`). `Hmc.sample`, used by the other theorems, is the run with the log densities fetched; when it finishes, every other choice of fetches does the same (`C119_same`).
* C120. The momenta, frictions and averages of the SGMCMC samplers are trainable variables, but the counter that decides when momenta are resampled is not. A checkpoint of the trainable variables
  therefore shifts the times of resampling, unless it is taken at a multiple of the period (`C120_trainable`, `C120_trainable_needed`).
* C121. If HMC was given `adapt_step_size` and it is False in a run, the step size is assigned without waiting for the trajectory, so the trajectory may use the step size from before or from after
  the assignment (`C121_order_refuted`, `C121_sample_refuted`). Only the first run after adaptation was switched off is affected (`C121_off_step_size`, `C121_settles`). In all other cases every order
  gives the same result. The models of the other HMC properties take the step size from before: `C121_refines` shows that all such orders compute them.
* C122. One draw from the proposal with density zero under the model ends the whole run of AIS with the error of `check_numerics`, in the first annealing step, after all adaptation runs; its weight
  should be zero (`C122_draw_refuted`). At temperature 0 and 1 a density is multiplied by zero, which is NaN for an infinite one. With `n_temperatures=0` a run divides by zero (`C122_no_temperatures`).
* C123. The operations of one HMC instance share the counter, the step size and the tuner (the source has a TODO). With adaptation, an operation that is first run after others does not search for a step
  size (`C123_search_refuted`), and if the others have used up the window of `mass_collect_iters` runs, a single chain gets an infinite mass and never moves (`C123_frozen_refuted`). Use one instance per
  operation.

Read but not proved: under Python 2 `/` on integer StochasticTensors is true division.

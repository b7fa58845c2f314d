import Verif.Model.Checked

/-!
# Multi-sample objectives when samples have density zero

`log_sum_exp` and `log_mean_exp` (zhusuan/utils.py) and the costs of `ImportanceWeightedObjective` and `InclusiveKLObjective` along the sample axis,
over reals extended by the infinities and NaN, so that a sample of density zero has `log_prob` `-inf`.  `Model/Estimators.lean` has the
same costs over reals, with derivatives.
-/
set_option autoImplicit false

namespace ZhuSuan.ZeroDensity
open XF

variable {n : ℕ}

/-- `log_sum_exp` along one axis of `n + 1` entries (zhusuan/utils.py 169–171). -/
noncomputable def logSumExp (x : Fin (n + 1) → XF) : XF :=
  let xMax := maxVal x
  log (∑ i, exp (x i - xMax)) + xMax

/-- `log_mean_exp` along one axis of `n + 1` entries (zhusuan/utils.py 191–193). -/
noncomputable def logMeanExp (x : Fin (n + 1) → XF) : XF :=
  let xMax := maxVal x
  log ((∑ i, exp (x i - xMax)) / fin (n + 1)) + xMax

/-- `log_w` (zhusuan/variational/monte_carlo.py 138, 183), with one latent variable: the entropy term is `-log q`. -/
noncomputable def logW (logp logq : Fin (n + 1) → XF) (k : Fin (n + 1)) : XF := logp k + -logq k

/-- The importance weighted objective and `is_loglikelihood` (zhusuan/variational/monte_carlo.py 137–141, zhusuan/evaluation.py 49–54). -/
noncomputable def objective (logp logq : Fin (n + 1) → XF) : XF := logMeanExp (logW logp logq)

/-- The mean over a batch, as the examples take it (examples/variational_autoencoders/iwae.py 74–75). -/
noncomputable def reduceMean {m : ℕ} (v : Fin (m + 1) → XF) : XF := (∑ b, v b) / fin (m + 1)

/-- `control_variate` at sample `j` (zhusuan/variational/monte_carlo.py 198–218): the diagonal loses the signal and gets the mean of the others. -/
noncomputable def controlVariate (x : Fin (n + 1) → XF) (j : Fin (n + 1)) : XF :=
  let subX := fun j => ((∑ i, x i) - x j) / fin n
  logMeanExp fun i => x i - (if i = j then x i else fin 0) + (if i = j then subX i else fin 0)

/-- The `vimco` cost (zhusuan/variational/monte_carlo.py 183–227). -/
noncomputable def vimcoCost (logp logq : Fin (n + 1) → XF) : XF :=
  let x := logW logp logq
  let signal := fun j => logMeanExp x - controlVariate x j
  let fake := (∑ j, (-(-logq j)) * signal j);
  -fake - logMeanExp x

/-- The `importance` cost along the sample axis (zhusuan/variational/inclusive_kl.py 137–144). -/
noncomputable def importanceCost (logp logq : Fin (n + 1) → XF) : XF :=
  let x := logW logp logq
  let xMax := maxVal x
  let w := fun k => exp (x k - xMax)
  ∑ k, (w k / ∑ i, w i) * -logq k

/-- `log_fn` of AIS at one temperature (zhusuan/evaluation.py 101–103). -/
noncomputable def aisLogFn (temperature logPrior logJoint : XF) : XF := logPrior * (fin 1 - temperature) + logJoint * temperature

end ZhuSuan.ZeroDensity

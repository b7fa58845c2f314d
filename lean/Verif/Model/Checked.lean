import Verif.Model.Flt
import Verif.Model.Num

/-!
# `log_prob` on special values, and `check_numerics`

`_log_prob`, `_prob` and `_sample` of the classes that have the switch `check_numerics`
(distributions/univariate.py, distributions/multivariate.py), on numbers that may be NaN or infinite.
`tf.check_numerics(x, msg)` raises `InvalidArgumentError` with `msg` if an entry of `x` is infinite or NaN, and is
the identity otherwise.

Simplifications: a model function computes one entry of the batch (TensorFlow evaluates the same for every entry
and raises if a check fails in one of them); arithmetic on finite numbers is exact, so nothing overflows or
underflows; zeros have no sign.  When several checks fail, TensorFlow raises for whichever it evaluates first; the
model keeps all of them.  `path_param` and `tf.stop_gradient` do not change values and are left out.
-/

set_option autoImplicit false

namespace ZhuSuan.XF

/-- `tf.log`.  (TensorFlow primitive; used at distributions/univariate.py 100, 739.) -/
noncomputable def log : XF → XF
  | fin r => if 0 < r then fin (Real.log r) else if r = 0 then ninf else nan
  | inf => inf
  | ninf => nan
  | nan => nan

open Classical in
/-- `tf.lgamma`, the logarithm of the absolute value of the gamma function: infinite at zero and the negative
integers, and at both infinities.  (TensorFlow primitive; used at distributions/univariate.py 741.) -/
noncomputable def lgamma : XF → XF
  | fin r => if ∃ k : ℕ, r = -k then inf else fin (Uni.lgamma r)
  | inf => inf
  | ninf => inf
  | nan => nan

/-- `tf.nn.softplus`.  (TensorFlow primitive; used at distributions/univariate.py 328, 1399.) -/
noncomputable def softplus : XF → XF
  | fin r => fin (Uni.softplus r)
  | inf => inf
  | ninf => fin 0
  | nan => nan

/-- `tf.sigmoid`.  (TensorFlow primitive; used at distributions/univariate.py 387, 1373.) -/
noncomputable def sigmoid : XF → XF
  | fin r => fin (Uni.sigmoid r)
  | inf => fin 1
  | ninf => fin 0
  | nan => nan

/-- `tf.abs`.  (TensorFlow primitive; used at distributions/univariate.py 1273.) -/
noncomputable def abs : XF → XF
  | fin r => fin |r|
  | inf => inf
  | ninf => inf
  | nan => nan

/-- `tf.less_equal` and `>=` with the arguments exchanged; false if an argument is NaN.  (TensorFlow primitive;
used at distributions/univariate.py 326, 653.) -/
def le : XF → XF → Prop
  | fin a, fin b => a ≤ b
  | nan, _ => False
  | _, nan => False
  | ninf, _ => True
  | _, inf => True
  | _, _ => False

open Classical in
/-- `tf.cast` of a truth value to a float.  (TensorFlow primitive; used at distributions/univariate.py 326, 653.) -/
noncomputable def cast (p : Prop) : XF := fin (if p then 1 else 0)

open Classical in
/-- `tf.reduce_max` over one axis; NaN if an entry is NaN.  (TensorFlow primitive; used by `tf.reduce_logsumexp`,
distributions/multivariate.py 811, 952.) -/
noncomputable def maxVal {n : ℕ} (x : Fin (n + 1) → XF) : XF :=
  if ∃ i, x i = nan then nan
  else if ∃ i, x i = inf then inf
  else if ∀ i, x i = ninf then ninf
  else fin (sSup {r | ∃ i, x i = fin r})

noncomputable instance : Num.Fn XF where
  ofReal := fin
  exp := exp
  log := log
  abs := abs
  softplus := softplus
  sigmoid := sigmoid
  lgamma := lgamma
  stop x := x
  sum f := ∑ i, f i
  max := maxVal

open Classical in
/-- `tf.reduce_logsumexp`: the maximum is taken out if it is finite.  (TensorFlow primitive; used at
distributions/multivariate.py 811, 952.) -/
noncomputable def logSumExp {n : ℕ} (x : Fin (n + 1) → XF) : XF :=
  let raw_max := maxVal x
  let my_max := if raw_max.isFinite then raw_max else fin 0
  log (∑ i, exp (x i - my_max)) + my_max

end ZhuSuan.XF

namespace ZhuSuan.Checked
open XF

/-- A value of the graph together with the messages of the checks that fail when it is evaluated.
(`tf.check_numerics`, e.g. distributions/univariate.py 102, 180) -/
structure Ck (α : Type) where
  val : α
  failed : List String

instance : Monad Ck where
  pure x := ⟨x, []⟩
  bind m f := ⟨(f m.val).val, m.failed ++ (f m.val).failed⟩

/-- Evaluating a value (`sess.run`): an exception if a check failed.  (`tf.check_numerics`, e.g.
distributions/univariate.py 102, 180) -/
def Ck.run {α : Type} (m : Ck α) : Except (List String) α :=
  if m.failed = [] then .ok m.val else .error m.failed

open Classical in
/-- `if self._check_numerics: x = tf.check_numerics(x, msg)`.  (e.g. distributions/univariate.py 179–180) -/
noncomputable def check (on : Bool) (x : XF) (msg : String) : Ck XF :=
  ⟨x, if on = true ∧ ¬ x.isFinite then [msg] else []⟩

open Classical in
/-- The same for a vector.  (e.g. distributions/multivariate.py 673–675) -/
noncomputable def checkV (on : Bool) {n : ℕ} (x : Fin n → XF) (msg : String) : Ck (Fin n → XF) :=
  ⟨x, if on = true ∧ ∃ i, ¬ (x i).isFinite then [msg] else []⟩

/-- The classes with the switch, and their parameters.  `Normal` and `FoldNormal` take `std` or `logstd`.
(distributions/univariate.py 43–1402 except Bernoulli and Categorical; distributions/multivariate.py 41–189,
570–1157 except the discrete classes) -/
inductive Dist (α : Type) : Type where
  | normalStd (mean std : α)
  | normalLogstd (mean logstd : α)
  | foldNormalStd (mean std : α)
  | foldNormalLogstd (mean logstd : α)
  | uniform (minval maxval : α)
  | gamma (alpha beta : α)
  | beta (alpha beta : α)
  | poisson (rate : α)
  | binomial (logits : α) (n : ℕ)
  | inverseGamma (alpha beta : α)
  | laplace (loc scale : α)
  | binConcrete (temperature logits : α)
  | mvn {n : ℕ} (mean : Fin n → α) (covTril : Fin n → Fin n → α)
  | dirichlet {n : ℕ} (alpha : Fin n → α)
  | expConcrete {n : ℕ} (temperature : α) (logits : Fin (n + 1) → α)
  | concrete {n : ℕ} (temperature : α) (logits : Fin (n + 1) → α)
  | matNormal {r c : ℕ} (mean : Fin r → Fin c → α) (uTril : Fin r → Fin r → α) (vTril : Fin c → Fin c → α)

/-- The type of `given`: a number, a vector or a matrix.  (`_get_value_shape`, e.g. distributions/univariate.py
150–151, distributions/multivariate.py 131–134, 1082–1086) -/
def Dist.Val {α : Type} : Dist α → Type
  | .mvn (n := n) .. => Fin n → α
  | .dirichlet (n := n) .. => Fin n → α
  | .expConcrete (n := n) .. => Fin (n + 1) → α
  | .concrete (n := n) .. => Fin (n + 1) → α
  | .matNormal (r := r) (c := c) .. => Fin r → Fin c → α
  | _ => α

/-- `Normal.__init__` (univariate.py 96–103) and `FoldNormal.__init__` (240–247): the stored `_logstd` when `std`
is given. -/
noncomputable def logstdOfStd (on : Bool) (std : XF) : Ck XF := check on (log std) "log(std)"

/-- `Normal.__init__` (univariate.py 104–112) and `FoldNormal.__init__` (248–257): the stored `_std` when `logstd`
is given. -/
noncomputable def stdOfLogstd (on : Bool) (logstd : XF) : Ck XF := check on (exp logstd) "exp(logstd)"

/-- `Normal._log_prob` (univariate.py 174–181). -/
noncomputable def normalLogProb (on : Bool) (mean : XF) (logstd : Ck XF) (given : XF) : Ck XF := do
  let logstd ← logstd
  let c := fin (-0.5 * Real.log (2 * Real.pi))
  let precision ← check on (exp (fin (-2) * logstd)) "precision"
  return c - logstd - fin 0.5 * precision * ((given - mean) * (given - mean))

/-- `FoldNormal._log_prob` (univariate.py 319–328). -/
noncomputable def foldNormalLogProb (on : Bool) (mean : XF) (logstd : Ck XF) (given : XF) : Ck XF := do
  let logstd ← logstd
  let c := fin (-0.5 * (Real.log 2 + Real.log Real.pi))
  let precision ← check on (exp (fin (-2) * logstd)) "precision"
  let mask := log (cast (le (fin 0) given))
  return (c - (logstd + fin 0.5 * precision * ((given - mean) * (given - mean))) +
    softplus (fin (-2) * mean * given * precision)) + mask

/-- `Uniform._prob` (univariate.py 652–659). -/
noncomputable def uniformProb (on : Bool) (minval maxval given : XF) : Ck XF := do
  let mask := cast (le minval given ∧ lt given maxval)
  let p ← check on (fin 1 / (maxval - minval)) "p"
  return p * mask

/-- `Uniform._log_prob` (univariate.py 646–650). -/
noncomputable def uniformLogProb (on : Bool) (minval maxval given : XF) : Ck XF := do
  let p ← uniformProb on minval maxval given
  check on (log p) "log_p"

/-- `Gamma._log_prob` (univariate.py 737–747). -/
noncomputable def gammaLogProb (on : Bool) (alpha beta given : XF) : Ck XF := do
  let log_given ← check on (log given) "log(given)"
  let log_beta ← check on (log beta) "log(beta)"
  let lgamma_alpha ← check on (lgamma alpha) "lgamma(alpha)"
  return alpha * log_beta - lgamma_alpha + (alpha - fin 1) * log_given - beta * given

/-- `Beta._log_prob` (univariate.py 833–851). -/
noncomputable def betaLogProb (on : Bool) (alpha beta given : XF) : Ck XF := do
  let log_given ← check on (log given) "log(given)"
  let log_1_minus_given ← check on (log (fin 1 - given)) "log(1 - given)"
  let lgamma_alpha ← check on (lgamma alpha) "lgamma(alpha)"
  let lgamma_beta ← check on (lgamma beta) "lgamma(beta)"
  let lgamma_alpha_plus_beta ← check on (lgamma (alpha + beta)) "lgamma(alpha + beta)"
  return (alpha - fin 1) * log_given + (beta - fin 1) * log_1_minus_given -
    (lgamma_alpha + lgamma_beta - lgamma_alpha_plus_beta)

/-- `Poisson._log_prob` (univariate.py 922–933); `given` after the cast. -/
noncomputable def poissonLogProb (on : Bool) (rate given : XF) : Ck XF := do
  let log_rate ← check on (log rate) "log(rate)"
  let lgamma_given_plus_1 ← check on (lgamma (given + fin 1)) "lgamma(given + 1)"
  return given * log_rate - rate - lgamma_given_plus_1

/-- `Binomial._log_prob` (univariate.py 1047–1064); `given` after the cast. -/
noncomputable def binomialLogProb (on : Bool) (logits : XF) (n : ℕ) (given : XF) : Ck XF := do
  let n := fin (n : ℝ)
  let log_1_minus_p := -softplus logits
  let lgamma_n_plus_1 := lgamma (n + fin 1)
  let lgamma_given_plus_1 ← check on (lgamma (given + fin 1)) "lgamma(given + 1)"
  let lgamma_n_minus_given_plus_1 ← check on (lgamma (n - given + fin 1)) "lgamma(n - given + 1)"
  return lgamma_n_plus_1 - lgamma_n_minus_given_plus_1 - lgamma_given_plus_1 + given * logits +
    n * log_1_minus_p

/-- `InverseGamma._log_prob` (univariate.py 1146–1158). -/
noncomputable def inverseGammaLogProb (on : Bool) (alpha beta given : XF) : Ck XF := do
  let log_given ← check on (log given) "log(given)"
  let log_beta ← check on (log beta) "log(beta)"
  let lgamma_alpha ← check on (lgamma alpha) "lgamma(alpha)"
  return alpha * log_beta - lgamma_alpha - (alpha + fin 1) * log_given - beta / given

/-- `Laplace._log_prob` (univariate.py 1267–1273). -/
noncomputable def laplaceLogProb (on : Bool) (loc scale given : XF) : Ck XF := do
  let log_scale ← check on (log scale) "log(scale)"
  return fin (-Real.log 2) - log_scale - abs (given - loc) / scale

/-- `BinConcrete._log_prob` (univariate.py 1381–1399). -/
noncomputable def binConcreteLogProb (on : Bool) (temperature logits given : XF) : Ck XF := do
  let log_given ← check on (log given) "log(given)"
  let log_1_minus_given ← check on (log (fin 1 - given)) "log(1 - given)"
  let log_temperature ← check on (log temperature) "log(temperature)"
  let logistic_given := log_given - log_1_minus_given
  let temp := temperature * logistic_given - logits
  return log_temperature - log_given - log_1_minus_given + temp - fin 2 * softplus temp

/-- `MultivariateNormalCholesky._log_prob` (multivariate.py 169–189). -/
noncomputable def mvnLogProb (on : Bool) {n : ℕ} (mean : Fin n → XF) (cov_tril : Fin n → Fin n → XF)
    (given : Fin n → XF) : Ck XF := do
  let log_det := fin 2 * ∑ i, log (cov_tril i i)
  let log_z ← check on (fin (-(n : ℝ) / 2) * log (fin 2 * fin Real.pi) - log_det / fin 2) "log[det(Cov)]"
  let x := Num.triSolve cov_tril (fun i => given i - mean i)
  let stoc_dist := fin (-0.5) * ∑ i, x i * x i
  return log_z + stoc_dist

/-- `Dirichlet._log_prob` (multivariate.py 665–677). -/
noncomputable def dirichletLogProb (on : Bool) {n : ℕ} (alpha given : Fin n → XF) : Ck XF := do
  let lbeta_alpha ← check on (Num.lbeta alpha) "lbeta(alpha)"
  let log_given ← checkV on (fun i => log (given i)) "log(given)"
  return -lbeta_alpha + ∑ i, (alpha i - fin 1) * log_given i

/-- `ExpConcrete._log_prob` (multivariate.py 797–811). -/
noncomputable def expConcreteLogProb (on : Bool) {n : ℕ} (temperature : XF) (logits given : Fin (n + 1) → XF) :
    Ck XF := do
  let N : ℝ := ((n + 1 : ℕ) : ℝ)
  let log_temperature ← check on (log temperature) "log(temperature)"
  let temp := fun i => logits i - temperature * given i
  return lgamma (fin N) + fin (N - 1) * log_temperature + (∑ i, temp i) - fin N * logSumExp temp

/-- `Concrete._log_prob` (multivariate.py 936–952). -/
noncomputable def concreteLogProb (on : Bool) {n : ℕ} (temperature : XF) (logits given : Fin (n + 1) → XF) :
    Ck XF := do
  let N : ℝ := ((n + 1 : ℕ) : ℝ)
  let log_given ← checkV on (fun i => log (given i)) "log(given)"
  let log_temperature ← check on (log temperature) "log(temperature)"
  let temp := fun i => logits i - temperature * log_given i
  return lgamma (fin N) + fin (N - 1) * log_temperature + (∑ i, (temp i - log_given i)) -
    fin N * logSumExp temp

/-- `MatrixVariateNormalCholesky._log_prob` (multivariate.py 1124–1157). -/
noncomputable def matNormalLogProb (on : Bool) {r c : ℕ} (mean : Fin r → Fin c → XF)
    (u_tril : Fin r → Fin r → XF) (v_tril : Fin c → Fin c → XF) (given : Fin r → Fin c → XF) : Ck XF := do
  let log_det_u := fin 2 * ∑ i, log (u_tril i i)
  let log_det_v := fin 2 * ∑ i, log (v_tril i i)
  let logZ ← check on (fin (-((r : ℝ) * c) / 2) * log (fin 2 * fin Real.pi) -
    fin ((r : ℝ) / 2) * log_det_v - fin ((c : ℝ) / 2) * log_det_u) "log[det(Cov)]"
  let y := fun i j => given i j - mean i j
  let x_Lb_inv_t := fun i j => Num.triSolve u_tril (fun k => y k j) i
  let x_t := fun (i : Fin c) (j : Fin r) => Num.triSolve v_tril (fun k => x_Lb_inv_t j k) i
  let stoc_dist := fin (-0.5) * ∑ i, ∑ j, x_t i j * x_t i j
  return logZ + stoc_dist

/-- `log_prob` of one value, with `check_numerics=on`.  (distributions/univariate.py 174–1399,
distributions/multivariate.py 169–1157) -/
noncomputable def Dist.logProb (on : Bool) : (d : Dist XF) → d.Val → Ck XF
  | .normalStd m s, x => normalLogProb on m (logstdOfStd on s) x
  | .normalLogstd m l, x => normalLogProb on m (pure l) x
  | .foldNormalStd m s, x => foldNormalLogProb on m (logstdOfStd on s) x
  | .foldNormalLogstd m l, x => foldNormalLogProb on m (pure l) x
  | .uniform a b, x => uniformLogProb on a b x
  | .gamma a b, x => gammaLogProb on a b x
  | .beta a b, x => betaLogProb on a b x
  | .poisson r, x => poissonLogProb on r x
  | .binomial l n, x => binomialLogProb on l n x
  | .inverseGamma a b, x => inverseGammaLogProb on a b x
  | .laplace a b, x => laplaceLogProb on a b x
  | .binConcrete t l, x => binConcreteLogProb on t l x
  | .mvn m L, x => mvnLogProb on m L x
  | .dirichlet a, x => dirichletLogProb on a x
  | .expConcrete t l, x => expConcreteLogProb on t l x
  | .concrete t l, x => concreteLogProb on t l x
  | .matNormal m U V, x => matNormalLogProb on m U V x

/-- `prob`: `tf.exp(self._log_prob(given))`, except for `Uniform`.  (distributions/univariate.py 183–184, 652–659,
distributions/multivariate.py 191–192) -/
noncomputable def Dist.prob (on : Bool) : (d : Dist XF) → d.Val → Ck XF
  | .uniform a b, x => uniformProb on a b x
  | d, x => do return exp (← d.logProb on x)

/-- `Normal._sample` (univariate.py 161–172), `FoldNormal._sample` (306–317): one entry, from the draw `z` and the
stored `_std`. -/
noncomputable def normalSample (mean : XF) (std : Ck XF) (z : ℝ) : Ck XF := do
  let std ← std
  return fin z * std + mean

end ZhuSuan.Checked

import Mathlib.Analysis.SpecialFunctions.Gamma.Basic
import Mathlib.Analysis.SpecialFunctions.Log.ENNRealLogExp
import Mathlib.Analysis.SpecialFunctions.Trigonometric.Basic
import Verif.Model.TensorExpr

/-!
# `_log_prob`, `_prob` and `_sample` of the univariate distributions

`/repo/zhusuan/distributions/univariate.py`.  Each `logProb` follows the Python expression on numbers;
the `...E` definitions are the same expressions on tensors with TensorFlow's broadcasting at every
operation.  `tf.log`, `tf.exp`, `tf.lgamma`, `tf.nn.softplus` are the real functions, so a `logProb` on ℝ
is meaningful only where the arguments of `log` are positive (elsewhere the code yields NaN or -inf, and
nothing is claimed); where the code uses `log 0 = -inf` on purpose the value is an extended real.
`check_numerics` is modelled in `Checked`; dtypes and casts are not modelled here.
Each `sample` maps one draw of the random source to one entry of the sample tensor.
-/

set_option autoImplicit false

namespace ZhuSuan.Uni

open Shape (Expr Tensor)

/-- `tf.nn.softplus`.  (TensorFlow primitive; used at distributions/univariate.py 328, 1031, 1052, 1399.) -/
noncomputable def softplus (x : ℝ) : ℝ := Real.log (1 + Real.exp x)

/-- `tf.sigmoid`.  (TensorFlow primitive; used at distributions/univariate.py 387, 1373.) -/
noncomputable def sigmoid (x : ℝ) : ℝ := 1 / (1 + Real.exp (-x))

/-- `tf.lgamma`.  (TensorFlow primitive; used at distributions/univariate.py 741, 838, 927, 1053.) -/
noncomputable def lgamma (x : ℝ) : ℝ := Real.log (Real.Gamma x)

/-- `tf.log` with `log 0 = -inf`, on nonnegative numbers.  (TensorFlow primitive; used at
distributions/univariate.py 326, 647.) -/
noncomputable def elog (x : ℝ) : EReal := ENNReal.log (ENNReal.ofReal x)

open Classical in
/-- `tf.cast(cond, float)`.  (TensorFlow primitive; used at distributions/univariate.py 326, 391, 653.) -/
noncomputable def ind (p : Prop) : ℝ := if p then 1 else 0

/-- `tf.nn.sigmoid_cross_entropy_with_logits(labels=z, logits=x)`, by TensorFlow's documented
formula.  (TensorFlow primitive; used at distributions/univariate.py 402.) -/
noncomputable def sigmoidCrossEntropy (z x : ℝ) : ℝ :=
  max x 0 - x * z + Real.log (1 + Real.exp (-|x|))

/-! ## On numbers -/

/-- `Normal.__init__` with `std` given stores `logstd = tf.log(std)` (univariate.py 96–103); with
`logstd` given it stores `std = tf.exp(logstd)` (104–112). -/
inductive StdArg where
  | std (s : ℝ)
  | logstd (l : ℝ)

/-- The stored `_std`.  (distributions/univariate.py 96–112) -/
noncomputable def StdArg.getStd : StdArg → ℝ
  | .std s => s
  | .logstd l => Real.exp l

/-- The stored `_logstd`.  (distributions/univariate.py 96–112) -/
noncomputable def StdArg.getLogstd : StdArg → ℝ
  | .std s => Real.log s
  | .logstd l => l

/-- `Normal._log_prob` (univariate.py 174–181). -/
noncomputable def Normal.logProb (mean logstd given : ℝ) : ℝ :=
  let c := -0.5 * Real.log (2 * Real.pi)
  let precision := Real.exp (-2 * logstd)
  c - logstd - 0.5 * precision * (given - mean) ^ 2

/-- `Normal._sample` (161–172) for one entry; `z` is the `tf.random_normal` draw. -/
noncomputable def Normal.sample (mean std z : ℝ) : ℝ := z * std + mean

/-- `FoldNormal._log_prob` (319–328). -/
noncomputable def FoldNormal.logProb (mean logstd given : ℝ) : EReal :=
  let c := -0.5 * (Real.log 2 + Real.log Real.pi)
  let precision := Real.exp (-2 * logstd)
  let mask := elog (ind (given ≥ 0))
  ((c - (logstd + 0.5 * precision * (given - mean) ^ 2) +
    softplus (-2 * mean * given * precision) : ℝ) : EReal) + mask

/-- `FoldNormal._sample` (306–317): the same as `Normal._sample`; no absolute value is taken. -/
noncomputable def FoldNormal.sample (mean std z : ℝ) : ℝ := z * std + mean

/-- `Bernoulli._log_prob` (398–403). -/
noncomputable def Bernoulli.logProb (logits given : ℝ) : ℝ := -sigmoidCrossEntropy given logits

/-- `Bernoulli._sample` (386–396): `u` is uniform on `[0, 1)`. -/
noncomputable def Bernoulli.sample (logits u : ℝ) : ℝ := ind (u < sigmoid logits)

/-- `Uniform._prob` (652–659). -/
noncomputable def Uniform.prob (minval maxval given : ℝ) : ℝ :=
  let mask := ind (minval ≤ given ∧ given < maxval)
  let p := 1 / (maxval - minval)
  p * mask

/-- `Uniform._log_prob` (646–650). -/
noncomputable def Uniform.logProb (minval maxval given : ℝ) : EReal :=
  elog (Uniform.prob minval maxval given)

/-- `Uniform._sample` (632–644): `u` is uniform on `[0, 1)`. -/
noncomputable def Uniform.sample (minval maxval u : ℝ) : ℝ := u * (maxval - minval) + minval

/-- `Gamma._log_prob` (737–747). -/
noncomputable def Gamma.logProb (alpha beta given : ℝ) : ℝ :=
  alpha * Real.log beta - lgamma alpha + (alpha - 1) * Real.log given - beta * given

/-- `Beta._log_prob` (833–851). -/
noncomputable def Beta.logProb (alpha beta given : ℝ) : ℝ :=
  (alpha - 1) * Real.log given + (beta - 1) * Real.log (1 - given) -
    (lgamma alpha + lgamma beta - lgamma (alpha + beta))

/-- `Beta._sample` (826–831): `x`, `y` are the two `tf.random_gamma` draws. -/
noncomputable def Beta.sample (x y : ℝ) : ℝ := x / (x + y)

/-- `Poisson._log_prob` (922–933). -/
noncomputable def Poisson.logProb (rate given : ℝ) : ℝ :=
  given * Real.log rate - rate - lgamma (given + 1)

/-- `Binomial._log_prob` (1047–1064). -/
noncomputable def Binomial.logProb (n logits given : ℝ) : ℝ :=
  let log_1_minus_p := -softplus logits
  lgamma (n + 1) - lgamma (n - given + 1) - lgamma (given + 1) + given * logits + n * log_1_minus_p

/-- The two unnormalised log weights of the categorical draws in `Binomial._sample` (1031–1033). -/
noncomputable def Binomial.stackedLogits (logits : ℝ) : ℝ × ℝ :=
  let log_1_minus_p := -softplus logits
  (log_1_minus_p, logits + log_1_minus_p)

/-- `InverseGamma._log_prob` (1146–1158). -/
noncomputable def InverseGamma.logProb (alpha beta given : ℝ) : ℝ :=
  alpha * Real.log beta - lgamma alpha - (alpha + 1) * Real.log given - beta / given

/-- `InverseGamma._sample` (1141–1144): `g` is the `tf.random_gamma(alpha, beta)` draw. -/
noncomputable def InverseGamma.sample (g : ℝ) : ℝ := 1 / g

/-- `Laplace._log_prob` (1267–1273). -/
noncomputable def Laplace.logProb (loc scale given : ℝ) : ℝ :=
  -Real.log 2 - Real.log scale - |given - loc| / scale

/-- `Laplace._sample` (1246–1265): `u` is the uniform draw on `(-1, 1)`; `log1p(x) = log(1 + x)`. -/
noncomputable def Laplace.sample (loc scale u : ℝ) : ℝ :=
  loc - scale * (SignType.sign u : ℝ) * Real.log (1 + -|u|)

/-- `BinConcrete._log_prob` (1381–1399). -/
noncomputable def BinConcrete.logProb (temperature logits given : ℝ) : ℝ :=
  let log_given := Real.log given
  let log_1_minus_given := Real.log (1 - given)
  let log_temperature := Real.log temperature
  let logistic_given := log_given - log_1_minus_given
  let temp := temperature * logistic_given - logits
  log_temperature - log_given - log_1_minus_given + temp - 2 * softplus temp

/-- `BinConcrete._sample` (1363–1379): `u` is the uniform draw on `(0, 1)`. -/
noncomputable def BinConcrete.sample (temperature logits u : ℝ) : ℝ :=
  let logistic := Real.log u - Real.log (1 - u)
  sigmoid ((logits + logistic) / temperature)

/-! ## On tensors -/

/-- The tensors that a `_log_prob` mentions: `given` and up to two parameters.  (distributions/univariate.py
174–1399) -/
inductive V where
  | given
  | a
  | b
deriving DecidableEq

/-- Tensor expressions with real variables.  (distributions/univariate.py 174–1399) -/
abbrev E (α : Type) := Expr V ℝ α

namespace E
/-- Python numeric constants and numpy scalars.  (distributions/univariate.py 174–1399) -/
def c (x : ℝ) : E ℝ := .const x
noncomputable instance : Add (E ℝ) := ⟨.bin (· + ·)⟩
noncomputable instance : Sub (E ℝ) := ⟨.bin (· - ·)⟩
noncomputable instance : Mul (E ℝ) := ⟨.bin (· * ·)⟩
noncomputable instance : Div (E ℝ) := ⟨.bin (· / ·)⟩
noncomputable instance : Neg (E ℝ) := ⟨.un (- ·)⟩
/-- `tf.log` (distributions/univariate.py 739). -/
noncomputable def log : E ℝ → E ℝ := .un Real.log
/-- `tf.exp` (distributions/univariate.py 178). -/
noncomputable def exp : E ℝ → E ℝ := .un Real.exp
/-- `tf.square` (distributions/univariate.py 181). -/
noncomputable def square : E ℝ → E ℝ := .un (· ^ 2)
/-- `tf.lgamma` (distributions/univariate.py 741). -/
noncomputable def lgammaE : E ℝ → E ℝ := .un Uni.lgamma
/-- `tf.nn.softplus` (distributions/univariate.py 328). -/
noncomputable def softplusE : E ℝ → E ℝ := .un Uni.softplus
/-- `tf.abs` (distributions/univariate.py 1273). -/
noncomputable def absE : E ℝ → E ℝ := .un (fun x => |x|)
/-- Comparison operators.  (TensorFlow primitive; used at distributions/univariate.py 326, 653.) -/
def le (x y : E ℝ) : E Prop := .bin (· ≤ ·) x y
/-- `tf.less` (distributions/univariate.py 654). -/
def lt (x y : E ℝ) : E Prop := .bin (· < ·) x y
/-- `tf.cast` of a truth value.  (TensorFlow primitive; used at distributions/univariate.py 326, 653.) -/
noncomputable def cast (x : E Prop) : E ℝ := .un (fun p => ind p) x
end E

open E

/-- `Normal._log_prob` (174–181); `a` is `mean`, `b` is `logstd`. -/
noncomputable def Normal.logProbE : E ℝ :=
  let mean : E ℝ := .var .a
  let logstd : E ℝ := .var .b
  let precision := exp (c (-2) * logstd)
  c (-0.5 * Real.log (2 * Real.pi)) - logstd - c 0.5 * precision * square (.var .given - mean)

/-- `FoldNormal._log_prob` (319–328). -/
noncomputable def FoldNormal.logProbE : E EReal :=
  let mean : E ℝ := .var .a
  let logstd : E ℝ := .var .b
  let given : E ℝ := .var .given
  let precision := exp (c (-2) * logstd)
  let mask : E EReal := .un elog (cast (le (c 0) given))
  .bin (· + ·)
    (.un (fun x : ℝ => (x : EReal))
      (c (-0.5 * (Real.log 2 + Real.log Real.pi)) -
        (logstd + c 0.5 * precision * square (given - mean)) +
        softplusE (c (-2) * mean * given * precision)))
    mask

/-- `Bernoulli._log_prob` (398–403) after `maybe_explicit_broadcast` of `given` and `logits` (`a`),
which by C13 has the effect of broadcasting the cross entropy itself. -/
noncomputable def Bernoulli.logProbE : E ℝ :=
  -(.bin sigmoidCrossEntropy (.var .given) (.var .a) : E ℝ)

/-- `Uniform._prob` (652–659); `a` is `minval`, `b` is `maxval`. -/
noncomputable def Uniform.probE : E ℝ :=
  let mask := cast (.bin And (le (.var .a) (.var .given)) (lt (.var .given) (.var .b)))
  let p := c 1 / (.var .b - .var .a)
  p * mask

/-- `Uniform._log_prob` (646–650). -/
noncomputable def Uniform.logProbE : E EReal := .un elog Uniform.probE

/-- `Gamma._log_prob` (737–747). -/
noncomputable def Gamma.logProbE : E ℝ :=
  let alpha : E ℝ := .var .a
  let beta : E ℝ := .var .b
  alpha * log beta - lgammaE alpha + (alpha - c 1) * log (.var .given) - beta * .var .given

/-- `Beta._log_prob` (833–851). -/
noncomputable def Beta.logProbE : E ℝ :=
  let alpha : E ℝ := .var .a
  let beta : E ℝ := .var .b
  let given : E ℝ := .var .given
  (alpha - c 1) * log given + (beta - c 1) * log (c 1 - given) -
    (lgammaE alpha + lgammaE beta - lgammaE (alpha + beta))

/-- `Poisson._log_prob` (922–933). -/
noncomputable def Poisson.logProbE : E ℝ :=
  .var .given * log (.var .a) - .var .a - lgammaE (.var .given + c 1)

/-- `Binomial._log_prob` (1047–1064); `n_experiments` is a scalar. -/
noncomputable def Binomial.logProbE (n : ℕ) : E ℝ :=
  let logits : E ℝ := .var .a
  let given : E ℝ := .var .given
  lgammaE (c n + c 1) - lgammaE (c n - given + c 1) - lgammaE (given + c 1) + given * logits +
    c n * -softplusE logits

/-- `InverseGamma._log_prob` (1146–1158). -/
noncomputable def InverseGamma.logProbE : E ℝ :=
  let alpha : E ℝ := .var .a
  let beta : E ℝ := .var .b
  alpha * log beta - lgammaE alpha - (alpha + c 1) * log (.var .given) - beta / .var .given

/-- `Laplace._log_prob` (1267–1273). -/
noncomputable def Laplace.logProbE : E ℝ :=
  c (-Real.log 2) - log (.var .b) - absE (.var .given - .var .a) / .var .b

/-- `BinConcrete._log_prob` (1381–1399); `a` is `temperature`, `b` is `logits`. -/
noncomputable def BinConcrete.logProbE : E ℝ :=
  let temperature : E ℝ := .var .a
  let logits : E ℝ := .var .b
  let given : E ℝ := .var .given
  let log_given := log given
  let log_1_minus_given := log (c 1 - given)
  let log_temperature := log temperature
  let logistic_given := log_given - log_1_minus_given
  let temp := temperature * logistic_given - logits
  log_temperature - log_given - log_1_minus_given + temp - c 2 * softplusE temp

/-- The elementwise univariate distributions with their parameter tensors.  (the classes of
distributions/univariate.py 43–1402 except Categorical) -/
inductive UDist where
  | normal (mean logstd : Tensor ℝ)
  | foldNormal (mean logstd : Tensor ℝ)
  | bernoulli (logits : Tensor ℝ)
  | uniform (minval maxval : Tensor ℝ)
  | gamma (alpha beta : Tensor ℝ)
  | beta (alpha beta : Tensor ℝ)
  | poisson (rate : Tensor ℝ)
  | binomial (logits : Tensor ℝ) (n : ℕ)
  | inverseGamma (alpha beta : Tensor ℝ)
  | laplace (loc scale : Tensor ℝ)
  | binConcrete (temperature logits : Tensor ℝ)

/-- A real expression as an extended real one.  (the range of distributions/univariate.py 326, 647) -/
noncomputable def ext (e : E ℝ) : E EReal := .un (fun x : ℝ => (x : EReal)) e

namespace UDist

/-- The expression computed by `_log_prob`.  (distributions/univariate.py 174–181, 319–328, 398–403, 646–650,
737–747, 833–851, 922–933, 1047–1064, 1146–1158, 1267–1273, 1381–1399) -/
noncomputable def logProbE : UDist → E EReal
  | normal .. => ext Normal.logProbE
  | foldNormal .. => FoldNormal.logProbE
  | bernoulli .. => ext Bernoulli.logProbE
  | uniform .. => Uniform.logProbE
  | gamma .. => ext Gamma.logProbE
  | beta .. => ext Beta.logProbE
  | poisson .. => ext Poisson.logProbE
  | binomial _ n => ext (Binomial.logProbE n)
  | inverseGamma .. => ext InverseGamma.logProbE
  | laplace .. => ext Laplace.logProbE
  | binConcrete .. => ext BinConcrete.logProbE

/-- The expression computed by `_prob`: `tf.exp(self._log_prob(given))` for all but `Uniform`, which has
its own (652–659). -/
noncomputable def probE : UDist → E ENNReal
  | uniform .. => .un ENNReal.ofReal Uniform.probE
  | d => .un EReal.exp d.logProbE

/-- Parameter tensors; a one-parameter distribution has its parameter in both places.  (the constructors,
distributions/univariate.py 79–121 and the same in each class) -/
def params : UDist → Tensor ℝ × Tensor ℝ
  | normal a b | foldNormal a b | uniform a b | gamma a b | beta a b | inverseGamma a b | laplace a b
  | binConcrete a b => (a, b)
  | bernoulli a | poisson a | binomial a _ => (a, a)

/-- The tensors named in the expressions.  (the tensors named in `_log_prob`, distributions/univariate.py 174–1399) -/
def env (d : UDist) (given : Tensor ℝ) : V → Tensor ℝ
  | .given => given
  | .a => d.params.1
  | .b => d.params.2

/-- `Distribution.log_prob` (base.py 291–304): `_log_prob`, then `reduce_sum` over the last
`group_ndims` axes.  The shape check (302) is C11's `checkInputShape`. -/
noncomputable def logProb (d : UDist) (given : Tensor ℝ) (groupNdims : ℕ) : Option (Tensor EReal) :=
  (d.logProbE.eval (d.env given)).bind (fun t => Shape.groupSum t groupNdims)

/-- `Distribution.prob` (base.py 307–320). -/
noncomputable def prob (d : UDist) (given : Tensor ℝ) (groupNdims : ℕ) : Option (Tensor ENNReal) :=
  (d.probE.eval (d.env given)).bind (fun t => Shape.groupProd t groupNdims)

end UDist
end ZhuSuan.Uni

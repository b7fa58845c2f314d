import Verif.Model.Ctors
import Mathlib.Algebra.Order.Archimedean.Real.Basic

/-!
# Model: the dtypes of samples and probabilities

What TensorFlow checks about dtypes while the graphs of `sample`, `log_prob` and `prob` are built.  Every `_sample`, `_log_prob` and `_prob` of
distributions/univariate.py and distributions/multivariate.py is followed operation by operation; shapes and values are left out.
-/

set_option autoImplicit false

namespace ZhuSuan.Dtypes
open ZhuSuan.Guards ZhuSuan.Ctors

/-- The dtype of an operation's result, or the exception that building it raises. -/
abbrev Ty := Except Err DType

/-- `tf.bool`, one of the dtypes that `Model/Guards.lean` does not name.  (tensorflow; distributions/univariate.py 326, 391, 653) -/
def bool : DType := .other 0

/-- Whether a dtype is floating.  (`DType.is_floating`, tensorflow; legacy/distributions/special.py 130) -/
def isFloat (d : DType) : Bool := d = .float16 || d = .float32 || d = .float64

/-- Whether a dtype is a number.  (tensorflow) -/
def isNumber (d : DType) : Bool := isFloat d || d = .int16 || d = .int32 || d = .int64

/-- Two tensors in an arithmetic operation must be numbers of the same dtype.  (tensorflow; e.g. distributions/univariate.py 167, 181) -/
def bin (a b : Ty) : Ty := do
  let x ← a
  let y ← b
  if x = y ∧ isNumber x then return x else throw .typeError

/-- A tensor and a Python or numpy number with a fraction: the number takes the dtype of the tensor, which must be floating.
(tensorflow; e.g. distributions/univariate.py 177) -/
def numF (a : Ty) : Ty := do
  let x ← a
  if isFloat x then return x else throw .typeError

/-- A tensor and a Python integer.  (tensorflow; e.g. distributions/univariate.py 746) -/
def numI (a : Ty) : Ty := do
  let x ← a
  if isNumber x then return x else throw .typeError

/-- `tf.exp`, `tf.log`, `tf.lgamma`, `tf.sigmoid`, `tf.nn.softplus`, `tf.nn.softmax`, `tf.check_numerics` and so on: for floating dtypes.
(tensorflow; e.g. distributions/univariate.py 177, 387, 742) -/
def fn (a : Ty) : Ty := numF a

/-- `tf.square`, `tf.abs`, `tf.reduce_sum`, `tf.negative` and so on: for all numbers.  (tensorflow; e.g. distributions/univariate.py 181) -/
def fnN (a : Ty) : Ty := numI a

/-- `tf.check_numerics` if the flag is set.  (e.g. distributions/univariate.py 178–179) -/
def checked (flag : Bool) (a : Ty) : Ty := if flag then fn a else a

/-- A comparison of two tensors.  (tensorflow; distributions/univariate.py 391, 653–654) -/
def compare (a b : Ty) : Ty := do
  let _ ← bin a b
  return bool

/-- A comparison with a Python number.  (tensorflow; distributions/univariate.py 326) -/
def compareF (a : Ty) : Ty := do
  let _ ← numF a
  return bool

/-- `tf.logical_and`.  (tensorflow; distributions/univariate.py 653) -/
def both (a b : Ty) : Ty := do
  let x ← a
  let y ← b
  if x = bool ∧ y = bool then return bool else throw .typeError

/-- `tf.cast`.  (tensorflow; e.g. distributions/univariate.py 399) -/
def cast (a : Ty) (d : DType) : Ty := do
  let _ ← a
  return d

/-- `tf.random_normal`, `tf.random_uniform` and `open_interval_standard_uniform`: for floating dtypes.
(tensorflow; e.g. distributions/univariate.py 167, 389–390, distributions/utils.py 311–324) -/
def source (d : DType) : Ty := if isFloat d then .ok d else .error .typeError

/-- `tf.random_gamma(..., dtype)`: the parameters are converted to `dtype`, which fails for tensors of another one.
(tensorflow; distributions/univariate.py 734–735, 829–830) -/
def gamma (params : List Ty) (d : DType) : Ty := params.foldl bin (source d)

/-- `tf.random_poisson(rate, shape, dtype)`.  (tensorflow; distributions/univariate.py 916–917) -/
def poisson (rate : Ty) (d : DType) : Ty := do
  let _ ← fn rate
  source d

/-- `tf.random.categorical(logits, n)`: indices are `int64`.  (tensorflow; distributions/univariate.py 483–484) -/
def categorical (logits : Ty) : Ty := do
  let _ ← fn logits
  return .int64

/-- `tf.one_hot(indices, depth, dtype)`.  (tensorflow; distributions/multivariate.py 315–316, 539) -/
def oneHot (indices : Ty) (d : DType) : Ty := do
  let i ← indices
  if i = .int32 ∨ i = .int64 then return d else throw .typeError

/-- `tf.nn.sparse_softmax_cross_entropy_with_logits`: labels are `int32` or `int64`.  (tensorflow; distributions/univariate.py 543–544) -/
def sparseXent (labels logits : Ty) : Ty := do
  let l ← labels
  let x ← fn logits
  if l = .int32 ∨ l = .int64 then return x else throw .typeError

/-- One tensor of `explicit_broadcast(x, y, …)`: `x *= tf.ones_like(y, dtype=x.dtype)`; the dtype of `y` does not matter.
(distributions/utils.py 44–45) -/
def explicitBroadcast (x y : Ty) : Ty := do
  let d ← x
  let _ ← y
  bin (.ok d) (.ok d)

/-- One tensor of `maybe_explicit_broadcast`; the flag is whether the shapes differ.  (distributions/utils.py 53–77) -/
def broadcast (flag : Bool) (x y : Ty) : Ty := if flag then explicitBroadcast x y else x

/-- What is known about a call besides the dtypes: `check_numerics`, whether tensors are broadcast first, and for which dtypes
`tf.matrix_triangular_solve` exists, which depends on the version of TensorFlow.  (e.g. distributions/univariate.py 178;
distributions/utils.py 53–77; distributions/multivariate.py 186, 1150–1152) -/
structure Env where
  check : Bool
  spread : Bool
  solve : DType → Bool

/-- `tf.matrix_triangular_solve`.  (tensorflow; distributions/multivariate.py 186, 1150–1152) -/
def triangularSolve (e : Env) (a b : Ty) : Ty := do
  let x ← bin a b
  if e.solve x then return x else throw .typeError

/-- `dtype`.  (the calls of `super().__init__`, e.g. distributions/univariate.py 122–123, 364–365) -/
def dtype : Args → DType
  | .normal x _ | .foldNormal x _ | .uniform x _ | .gamma x _ | .beta x _ | .inverseGamma x _ | .laplace x _ | .mvn x _ | .dirichlet x
  | .matrixNormal x _ _ => x.dtype
  | .binConcrete _ l | .expConcrete _ l | .concrete _ l => l.dtype
  | .bernoulli _ d | .categorical _ d | .poisson _ d | .binomial _ _ d | .multinomial _ _ d | .unnormalizedMultinomial _ d | .onehot _ d => d

/-- `param_dtype`.  (the calls of `super().__init__`, e.g. distributions/univariate.py 122–123, 364–365) -/
def paramDtype : Args → DType
  | .normal x _ | .foldNormal x _ | .uniform x _ | .gamma x _ | .beta x _ | .inverseGamma x _ | .laplace x _ | .mvn x _ | .dirichlet x
  | .matrixNormal x _ _ => x.dtype
  | .binConcrete _ l | .expConcrete _ l | .concrete _ l => l.dtype
  | .bernoulli l _ | .categorical l _ | .poisson l _ | .binomial l _ _ | .multinomial l _ _ | .unnormalizedMultinomial l _ | .onehot l _ => l.dtype

/-- A parameter in an operation. -/
def t (x : T) : Ty := .ok x.dtype

/-- `_sample`.  (distributions/univariate.py 161–172, 306–317, 386–396, 478–494, 632–644, 733–735, 826–831, 915–920, 1025–1045, 1141–1144,
1246–1265, 1363–1379; distributions/multivariate.py 145–167, 295–318, 429–433, 522–540, 660–663, 781–795, 919–934, 1099–1122; the `NotImplementedError` of `UnnormalizedMultinomial` is written as a run error) -/
def sample (a : Args) : Ty :=
  let d := dtype a
  match a with
  | .normal mean std | .foldNormal mean std => bin (bin (source d) (t std)) (t mean)
  | .bernoulli logits _ => cast (compare (source (paramDtype a)) (fn (t logits))) d
  | .categorical logits _ => cast (categorical (t logits)) d
  | .uniform minval maxval => bin (bin (source d) (bin (t maxval) (t minval))) (t minval)
  | .gamma alpha beta => gamma [t alpha, t beta] d
  | .beta alpha beta =>
    let x := gamma [t alpha] d
    let y := gamma [t beta] d
    bin x (bin x y)
  | .poisson rate _ => if paramDtype a ≠ d then cast (poisson (t rate) (paramDtype a)) d else poisson (t rate) (paramDtype a)
  | .binomial logits _ _ =>
    let log1MinusP := fnN (fn (t logits))
    cast (fnN (categorical (bin log1MinusP (bin (t logits) log1MinusP)))) d
  | .inverseGamma alpha beta => numI (gamma [t alpha, t beta] d)
  | .laplace loc scale => bin (t loc) (bin (bin (t scale) (fnN (source d))) (fn (fnN (fnN (source d)))))
  | .binConcrete temperature logits =>
    let logistic := bin (fn (source d)) (fn (numI (source d)))
    fn (bin (bin (t logits) logistic) (t temperature))
  | .mvn mean covTril => bin (bin (t covTril) (source d)) (t mean)
  | .multinomial logits n _ => if n.isNone then throw .valueError else fnN (oneHot (categorical (t logits)) d)
  | .unnormalizedMultinomial _ _ => throw .runError
  | .onehot logits _ => oneHot (categorical (t logits)) d
  | .dirichlet alpha =>
    let samples := gamma [t alpha] d
    bin samples (fnN samples)
  | .expConcrete temperature logits | .concrete temperature logits =>
    fn (bin (bin (t logits) (fnN (fn (fnN (fn (source d)))))) (t temperature))
  | .matrixNormal mean u v => bin (t mean) (bin (bin (t u) (source d)) (t v))

/-- `prob` of `Uniform`.  (distributions/univariate.py 652–659) -/
def uniformProb (e : Env) (minval maxval given : Ty) (d : DType) : Ty :=
  bin (checked e.check (numF (bin maxval minval))) (cast (both (compare minval given) (compare given maxval)) d)

/-- `_log_prob`; `given` has been converted.  (distributions/univariate.py 174–181, 319–328, 398–403, 496–548, 646–650, 737–747, 833–851,
922–933, 1047–1064, 1146–1158, 1267–1273, 1381–1399; distributions/multivariate.py 169–189, 320–333, 435–443, 542–561, 665–677, 797–811,
936–952, 1124–1157) -/
def logProb (e : Env) (a : Args) (given : Ty) : Ty :=
  let d := dtype a
  let p := paramDtype a
  match a with
  | .normal mean std =>
    let logstd := fn (t std)
    let precision := checked e.check (fn (numF logstd))
    numF (bin logstd (bin (numF precision) (fnN (bin given (t mean)))))
  | .foldNormal mean std =>
    let logstd := fn (t std)
    let precision := checked e.check (fn (numF logstd))
    let mask := fn (precision >>= fun x => cast (compareF given) x)
    bin (bin (numF (bin logstd (bin (numF precision) (fnN (bin given (t mean))))))
      (fn (bin (bin (numF (t mean)) given) precision))) mask
  | .bernoulli logits _ =>
    let given := cast given p
    fnN (bin (broadcast e.spread given (t logits)) (broadcast e.spread (t logits) given))
  | .categorical logits _ =>
    let given := if e.spread then bin given (.ok d) else given
    let logits := if e.spread then bin (t logits) (cast given p) else t logits
    let labels := if d = .float32 then cast given .int32 else if d = .float64 then cast given .int64 else given
    fnN (sparseXent labels logits)
  | .uniform minval maxval => checked e.check (fn (uniformProb e (t minval) (t maxval) given d))
  | .gamma alpha beta =>
    let logGiven := checked e.check (fn given)
    let logBeta := checked e.check (fn (t beta))
    let lgammaAlpha := checked e.check (fn (t alpha))
    bin (bin (bin (bin (t alpha) logBeta) lgammaAlpha) (bin (numI (t alpha)) logGiven)) (bin (t beta) given)
  | .beta alpha beta =>
    let logGiven := checked e.check (fn given)
    let log1MinusGiven := checked e.check (fn (numI given))
    let lgammaAlpha := checked e.check (fn (t alpha))
    let lgammaBeta := checked e.check (fn (t beta))
    let lgammaSum := checked e.check (fn (bin (t alpha) (t beta)))
    bin (bin (bin (numI (t alpha)) logGiven) (bin (numI (t beta)) log1MinusGiven)) (bin (bin lgammaAlpha lgammaBeta) lgammaSum)
  | .poisson rate _ =>
    let given := cast given p
    let logRate := checked e.check (fn (t rate))
    let lgammaGiven := checked e.check (fn (numI given))
    bin (bin (bin given logRate) (t rate)) lgammaGiven
  | .binomial logits _ _ =>
    let n := cast (.ok .int32) p
    let given := cast given p
    let log1MinusP := fnN (fn (t logits))
    let lgammaN := fn (numI n)
    let lgammaGiven := checked e.check (fn (numI given))
    let lgammaRest := checked e.check (fn (numI (bin n given)))
    bin (bin (bin (bin lgammaN lgammaRest) lgammaGiven) (bin given (t logits))) (bin n log1MinusP)
  | .inverseGamma alpha beta =>
    let logGiven := checked e.check (fn given)
    let logBeta := checked e.check (fn (t beta))
    let lgammaAlpha := checked e.check (fn (t alpha))
    bin (bin (bin (bin (t alpha) logBeta) lgammaAlpha) (bin (numI (t alpha)) logGiven)) (bin (t beta) given)
  | .laplace loc scale =>
    let logScale := checked e.check (fn (t scale))
    bin (numF logScale) (bin (fnN (bin given (t loc))) (t scale))
  | .binConcrete temperature logits =>
    let logGiven := checked e.check (fn given)
    let log1MinusGiven := checked e.check (fn (numI given))
    let logTemperature := checked e.check (fn (t temperature))
    let temp := bin (bin (t temperature) (bin logGiven log1MinusGiven)) (t logits)
    bin (bin (bin (bin logTemperature logGiven) log1MinusGiven) temp) (numI (fn temp))
  | .mvn mean covTril =>
    let logDet := numI (fnN (fn (t covTril)))
    let nDim := cast (.ok .int32) d
    let logZ := checked e.check (bin (bin (numI (fnN nDim)) (fn (numI (.ok d)))) (numI logDet))
    let y := bin given (t mean)
    let x := triangularSolve e (broadcast e.spread (t covTril) y) y
    bin logZ (numF (fnN (fnN x)))
  | .multinomial logits n _ =>
    let given := cast given p
    let given' := broadcast e.spread given (t logits)
    let logits' := broadcast e.spread (t logits) given
    let logits' := bin logits' (fn logits')
    let count := if n.isNone then fnN given' else cast (.ok .int32) p
    bin (bin (fn (numI count)) (fnN (fn (numI given')))) (fnN (bin given' logits'))
  | .unnormalizedMultinomial logits _ =>
    let given := cast given p
    let given' := broadcast e.spread given (t logits)
    let logits' := broadcast e.spread (t logits) given
    fnN (bin given' (bin logits' (fn logits')))
  | .onehot logits _ =>
    let given := cast given p
    fnN (fn (bin (broadcast e.spread given (t logits)) (broadcast e.spread (t logits) given)))
  | .dirichlet alpha =>
    let given' := broadcast e.spread given (t alpha)
    let alpha' := broadcast e.spread (t alpha) given
    let lbetaAlpha := checked e.check (fn alpha')
    let logGiven := checked e.check (fn given')
    bin (fnN lbetaAlpha) (fnN (bin (numI alpha') logGiven))
  | .expConcrete temperature logits =>
    let n := cast (.ok .int32) d
    let logTemperature := checked e.check (fn (t temperature))
    let temp := bin (t logits) (bin (t temperature) given)
    bin (bin (bin (fn n) (bin (numI n) logTemperature)) (fnN temp)) (bin n (fn temp))
  | .concrete temperature logits =>
    let n := cast (.ok .int32) d
    let logGiven := checked e.check (fn given)
    let logTemperature := checked e.check (fn (t temperature))
    let temp := bin (t logits) (bin (t temperature) logGiven)
    bin (bin (bin (fn n) (bin (numI n) logTemperature)) (fnN (bin temp logGiven))) (bin n (fn temp))
  | .matrixNormal mean u v =>
    let logDetU := numI (fnN (fn (t u)))
    let logDetV := numI (fnN (fn (t v)))
    let nRow := cast (.ok .int32) d
    let nCol := cast (.ok .int32) d
    let logZ := checked e.check (bin (bin (bin (numF (fnN (bin nRow nCol))) (fn (numF (.ok d)))) (bin (numF nRow) logDetV)) (bin (numF nCol) logDetU))
    let y := bin given (t mean)
    let ones : Ty := .ok .float32
    let x := triangularSolve e (broadcast e.spread (t u) ones) y
    let x := triangularSolve e (broadcast e.spread (t v) ones) x
    bin logZ (numF (fnN (fnN x)))

/-- `_prob`.  (distributions/univariate.py 183–184, 330–331, 405–406, 550–551, 652–659, 749–750, 853–854, 935–936, 1066–1067, 1160–1161,
1275–1276, 1401–1402; distributions/multivariate.py 191–192, 335–336, 445–446, 563–564, 679–680, 813–814, 954–955, 1159–1160) -/
def prob (e : Env) (a : Args) (given : Ty) : Ty :=
  match a with
  | .uniform minval maxval => uniformProb e (t minval) (t maxval) given (dtype a)
  | a => fn (logProb e a given)

/-- What a user passes as `given` or as an observation: a tensor, a numpy array, or Python integers or floats.  (distributions/base.py 269–270) -/
inductive Given where
  | tensor (d : DType)
  | array (d : DType)
  | ints
  | floats
  deriving DecidableEq

/-- `tf.convert_to_tensor(given, dtype=d)` for a number dtype `d`: a tensor must have the dtype, numpy arrays are converted with `astype`, Python
floats do not become integers.  (tensorflow; distributions/base.py 270, framework/bn.py 99) -/
def convert (g : Given) (d : DType) : Ty :=
  match g with
  | .tensor d' => if d' = d then .ok d else throw .valueError
  | .array _ => .ok d
  | .ints => .ok d
  | .floats => if isFloat d then .ok d else throw .typeError

/-- `log_prob(given)`: the conversion comes first; the sum over the group axes keeps the dtype.  (distributions/base.py 290–303) -/
def logProbOf (e : Env) (a : Args) (g : Given) : Ty := do
  let d ← convert g (dtype a)
  fnN (logProb e a (.ok d))

/-- `prob(given)`.  (distributions/base.py 306–319) -/
def probOf (e : Env) (a : Args) (g : Given) : Ty := do
  let d ← convert g (dtype a)
  fnN (prob e a (.ok d))

/-- The value that the entries of a numpy array have after `astype`: conversion to integers cuts off the fraction.
(numpy; distributions/base.py 270) -/
noncomputable def astype (d : DType) (v : ℝ) : ℝ := if isFloat d then v else if 0 ≤ v then (⌊v⌋ : ℝ) else (⌈v⌉ : ℝ)

/-- `sum` over the conditional log probabilities of the nodes: Python's `sum` starts with the integer 0.  (framework/bn.py 456–457) -/
def logJoint (nodes : List Ty) : Option Ty :=
  match nodes with
  | [] => none
  | a :: l => some (l.foldl bin (numI a))

end ZhuSuan.Dtypes

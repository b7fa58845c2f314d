import Mathlib.Data.Real.Basic
import Mathlib.Algebra.Order.Round
import Mathlib.Data.Int.Log
import Mathlib.Analysis.SpecialFunctions.Log.Basic

/-!
# Uniform draws in floating point

The samplers of the library that start from `tf.random_uniform`, with every operation rounded to the dtype.

A floating point number is a real number `m * 2 ^ e`; overflow is not modelled, as no quantity of the samplers that is modelled here exceeds
two, except for `Uniform`, whose theorems are about bounds that are floating point numbers.  An operation returns a number of the dtype that is
nearest to the exact result, with any rule for ties.
-/
set_option autoImplicit false

namespace ZhuSuan.FloatDraw

/-- The dtypes of `floating_dtypes` (zhusuan/distributions/utils.py:101-103). -/
inductive Dtype where
  | float16
  | float32
  | float64

/-- The number of significant bits of a number of the dtype (IEEE 754). -/
def Dtype.prec : Dtype → ℕ
  | .float16 => 11
  | .float32 => 24
  | .float64 => 53

/-- The exponent of the smallest positive number of the dtype is `-emin` (IEEE 754). -/
def Dtype.emin : Dtype → ℕ
  | .float16 => 24
  | .float32 => 149
  | .float64 => 1074

/-- `np.finfo(dtype).tiny`, the smallest normal number, is `2 ^ (-tinyExp)` (IEEE 754). -/
def Dtype.tinyExp : Dtype → ℕ
  | .float16 => 14
  | .float32 => 126
  | .float64 => 1022

/-- The number of random bits in a draw of the kernel of `tf.random_uniform`: the bits of the mantissa that are stored. -/
def Dtype.bits (d : Dtype) : ℕ := d.prec - 1

/-- The numbers of a dtype, without a largest one. -/
def Dtype.numbers (d : Dtype) : Set ℝ :=
  {x | ∃ m e : ℤ, |m| < 2 ^ d.prec ∧ -(d.emin : ℤ) ≤ e ∧ x = m * (2 : ℝ) ^ e}

/-- `fl x` is a number of the dtype and none is nearer to `x`: rounding to nearest with any rule for ties. -/
structure Nearest (d : Dtype) (fl : ℝ → ℝ) : Prop where
  mem : ∀ x, fl x ∈ d.numbers
  nearest : ∀ x, ∀ y ∈ d.numbers, |fl x - x| ≤ |y - x|

variable (d : Dtype) (fl : ℝ → ℝ)

/-- What the kernel of `tf.random_uniform` returns for the random bits `k`: the number `k / 2 ^ bits`, in `[0, 1)`. -/
noncomputable def draw (k : ℕ) : ℝ := k * (2 : ℝ) ^ (-(d.bits : ℤ))

/-- `tf.random_uniform(shape, minval, maxval, dtype)`: TensorFlow computes `draw * (maxval - minval) + minval` in the dtype. -/
noncomputable def randomUniform (minval maxval : ℝ) (k : ℕ) : ℝ :=
  fl (fl (draw d k * fl (maxval - minval)) + minval)

/-- `open_interval_standard_uniform` (zhusuan/distributions/utils.py:320-324). -/
noncomputable def openUniform (k : ℕ) : ℝ :=
  randomUniform d fl ((2 : ℝ) ^ (-(d.tinyExp : ℤ))) 1 k

/-- `np.nextafter(-1, 0)` in the dtype (zhusuan/distributions/univariate.py:1255-1256). -/
noncomputable def afterMinusOne : ℝ := -1 + (2 : ℝ) ^ (-(d.prec : ℤ))

/-- `uniform_samples` of `Laplace._sample` (zhusuan/distributions/univariate.py:1253-1258). -/
noncomputable def laplaceUniform (k : ℕ) : ℝ := randomUniform d fl (afterMinusOne d) 1 k

/-- The argument of `tf.log1p` in `Laplace._sample` (zhusuan/distributions/univariate.py:1259-1260).  Signs are changed without rounding. -/
noncomputable def laplaceLog1pArg (k : ℕ) : ℝ := -|laplaceUniform d fl k|

/-- The arguments of the two `tf.log` in `BinConcrete._sample` (zhusuan/distributions/univariate.py:1370-1372). -/
noncomputable def logisticLogArgs (k : ℕ) : ℝ × ℝ :=
  let uniform := openUniform d fl k
  (uniform, fl (1 - uniform))

/-- The arguments of the two `tf.log` in `ExpConcrete._sample` and in `Concrete._sample`, the inner one first
(zhusuan/distributions/multivariate.py:788-789, 926-928).  `lg` is the logarithm of the device. -/
noncomputable def gumbelLogArgs (lg : ℝ → ℝ) (k : ℕ) : ℝ × ℝ :=
  let uniform := openUniform d fl k
  (uniform, -lg uniform)

/-- `Uniform._sample` (zhusuan/distributions/univariate.py:638-639). -/
noncomputable def uniformSample (minval maxval : ℝ) (k : ℕ) : ℝ :=
  fl (fl (randomUniform d fl 0 1 k * fl (maxval - minval)) + minval)

open Classical in
/-- The mask of `Uniform._prob` (zhusuan/distributions/univariate.py:653-655). -/
noncomputable def uniformMask (minval maxval given : ℝ) : ℝ :=
  if minval ≤ given ∧ given < maxval then 1 else 0

/-- `Uniform._prob` (zhusuan/distributions/univariate.py:652-659). -/
noncomputable def uniformProb (minval maxval given : ℝ) : ℝ :=
  fl (fl (1 / fl (maxval - minval)) * uniformMask minval maxval given)

open Classical in
/-- `tf.cast(tf.less(alpha, p))` with `alpha = tf.random_uniform(shape, 0, 1)`, in `Bernoulli._sample`
(zhusuan/distributions/univariate.py:389-391), and the Metropolis-Hastings test of `HMC.sample` (zhusuan/hmc.py:485-486). -/
noncomputable def below (p : ℝ) (k : ℕ) : Bool :=
  decide (randomUniform d fl 0 1 k < p)

end ZhuSuan.FloatDraw

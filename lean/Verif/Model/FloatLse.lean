import Verif.Model.FloatDraw
import Mathlib.Data.Finset.Lattice.Fold
import Mathlib.Algebra.Order.BigOperators.Group.Finset

/-!
# `log_sum_exp` and `log_mean_exp` with rounding

The functions of zhusuan/utils.py:153-196 on `n + 1` numbers of a dtype along one axis, with every operation rounded.  `ex` and `lg` are the
exponential and the logarithm of the device.  A sum is computed by rounded additions in an order that TensorFlow does not fix, so the order is
an argument.  `Model/LogExp.lean` has the functions on tensors, in exact arithmetic.
-/
set_option autoImplicit false

namespace ZhuSuan.FloatDraw

/-- An order of additions: a binary tree whose leaves are the places of the summands. -/
inductive Order where
  | leaf (i : ℕ)
  | node (a b : Order)

/-- The places that are added, from left to right. -/
def Order.places : Order → List ℕ
  | .leaf i => [i]
  | .node a b => a.places ++ b.places

/-- `tf.reduce_sum` along one axis (zhusuan/utils.py:170): rounded additions in the given order. -/
def reduceSum (fl : ℝ → ℝ) (f : ℕ → ℝ) : Order → ℝ
  | .leaf i => f i
  | .node a b => fl (reduceSum fl f a + reduceSum fl f b)

/-- `tf.reduce_max` along one axis of `n + 1` numbers (zhusuan/utils.py:169, 191): exact. -/
noncomputable def reduceMax (n : ℕ) (x : ℕ → ℝ) : ℝ :=
  (Finset.range (n + 1)).sup' Finset.nonempty_range_add_one x

/-- `tf.reduce_mean` along one axis of `n + 1` numbers (zhusuan/utils.py:192): the sum divided by the number of summands. -/
noncomputable def reduceMean (fl : ℝ → ℝ) (n : ℕ) (f : ℕ → ℝ) (o : Order) : ℝ :=
  fl (reduceSum fl f o / (n + 1))

/-- `log_sum_exp` (zhusuan/utils.py:168-174).  The last `tf.reduce_sum` is over an axis of length one and changes no number. -/
noncomputable def logSumExp (fl ex lg : ℝ → ℝ) (n : ℕ) (x : ℕ → ℝ) (o : Order) : ℝ :=
  let xMax := reduceMax n x
  fl (lg (reduceSum fl (fun i => ex (fl (x i - xMax))) o) + xMax)

/-- `log_mean_exp` (zhusuan/utils.py:190-196).  The last `tf.reduce_mean` is over an axis of length one and changes no number. -/
noncomputable def logMeanExp (fl ex lg : ℝ → ℝ) (n : ℕ) (x : ℕ → ℝ) (o : Order) : ℝ :=
  let xMax := reduceMax n x
  fl (lg (reduceMean fl n (fun i => ex (fl (x i - xMax))) o) + xMax)

end ZhuSuan.FloatDraw

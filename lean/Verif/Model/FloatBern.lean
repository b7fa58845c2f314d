import Verif.Model.FloatLse

/-!
# `Bernoulli.log_prob` with rounding

One entry of `Bernoulli._log_prob`, and the sum over a group of entries that `group_ndims` asks for, with every operation rounded.  `ex` and `lp` are the device's
`exp` and `log1p`.
-/
set_option autoImplicit false

namespace ZhuSuan.FloatDraw

/-- `tf.nn.sigmoid_cross_entropy_with_logits` (TensorFlow primitive; used at zhusuan/distributions/univariate.py:402-403):
`max(x, 0) - x * z + log1p(exp(-|x|))`.  Maximum, absolute value and sign are exact. -/
noncomputable def crossEntropy (fl ex lp : ℝ → ℝ) (label logit : ℝ) : ℝ :=
  fl (fl (max logit 0 - fl (logit * label)) + lp (ex (-|logit|)))

/-- `Bernoulli._log_prob` at one entry (zhusuan/distributions/univariate.py:398-403); the label is cast to the dtype of the logits. -/
noncomputable def bernoulliLogProb (fl ex lp : ℝ → ℝ) (given : Bool) (logit : ℝ) : ℝ :=
  -crossEntropy fl ex lp (if given then 1 else 0) logit

/-- `log_prob` with `group_ndims = 1` (zhusuan/distributions/base.py:304): the entries are added in some order. -/
noncomputable def bernoulliGroup (fl ex lp : ℝ → ℝ) (given : ℕ → Bool) (logit : ℕ → ℝ) (o : Order) : ℝ :=
  reduceSum fl (fun i => bernoulliLogProb fl ex lp (given i) (logit i)) o

end ZhuSuan.FloatDraw

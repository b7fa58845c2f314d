import Verif.Model.BatchLogProb
import Verif.Model.Univariate

/-!
# `sample(n_samples)` of the distributions that flatten their batch or have vectors or matrices as values

The `_sample` methods on whole tensors, as functions of the random numbers they ask TensorFlow for: `u` is the tensor
of uniform, normal or rate-one gamma numbers, `draw` the integers returned by `tf.random.categorical`.  `none` stands
for any failure.  `tf.stop_gradient` and `tf.cast` do not change values, and `set_shape` only adds what is true
(C14).
-/

set_option autoImplicit false

namespace ZhuSuan.Batch
open Shape LogExp Num

/-- `tf.tile(tf.expand_dims(t, 0), [n] + [1, ...])`, the local function `tile` (multivariate.py 151–153, 1106–1108). -/
def tile {α : Type} (n : ℕ) (t : Tensor α) : Tensor α := ⟨n :: t.shape, fun idx => t.val idx.tail⟩

/-- `tf.matmul` on the last two axes; the batch shapes must be the same.  (TensorFlow primitive; used at
distributions/multivariate.py 160, 1115.) -/
noncomputable def matmulT (x y : Tensor ℝ) : Option (Tensor ℝ) := do
  let (b, r, c) ← split2 x.shape
  let (b', r', c') ← split2 y.shape
  if b = b' ∧ c = r' then
    some ⟨b ++ [r, c'], fun idx =>
      let bi := idx.dropLast.dropLast
      let i := idx.dropLast.getLastD 0
      let j := idx.getLastD 0
      Fn.sum fun k : Fin c => x.val (bi ++ [i, k.val]) * y.val (bi ++ [k.val, j])⟩
  else none

/-- `tf.squeeze(samples, axis=0)`.  (TensorFlow primitive; used at distributions/base.py 253.) -/
def squeezeFirst {α : Type} (t : Tensor α) : Option (Tensor α) :=
  match t.shape with
  | 1 :: s => some ⟨s, fun idx => t.val (0 :: idx)⟩
  | _ => none

/-- `Distribution.sample` (base.py 236–263) from `_sample`: `n_samples` is `None` or a number. -/
def sampleArg {α : Type} (sample : ℕ → Option (Tensor α)) : Option ℕ → Option (Tensor α)
  | none => (sample 1).bind squeezeFirst
  | some n => sample n

/-- `MultivariateNormalCholesky._sample` (multivariate.py 145–167). -/
noncomputable def mvnSampleT (mean covTril : Tensor ℝ) (u : List ℕ → ℝ) (n : ℕ) : Option (Tensor ℝ) := do
  let batchMean := expandLast (tile n mean)
  let batchCov := tile n covTril
  let noise : Tensor ℝ := ⟨batchMean.shape, u⟩
  let samples ← map2 (· + ·) (← matmulT batchCov noise) batchMean
  squeezeLast samples

/-- `MatrixVariateNormalCholesky._sample` (multivariate.py 1099–1122). -/
noncomputable def matNormalSampleT (mean uTril vTril : Tensor ℝ) (u : List ℕ → ℝ) (n : ℕ) : Option (Tensor ℝ) := do
  let noise : Tensor ℝ := ⟨n :: mean.shape, u⟩
  let un ← matmulT (tile n uTril) noise
  map2 (· + ·) mean (← matmulT un (← transposeLast (tile n vTril)))

/-- `Dirichlet._sample` (multivariate.py 660–663); `tf.random_gamma([n], alpha, beta=1)` is a rate-one draw divided by
1. -/
noncomputable def dirichletSampleT (alpha : Tensor ℝ) (u : List ℕ → ℝ) (n : ℕ) : Option (Tensor ℝ) := do
  let samples : Tensor ℝ := ⟨n :: alpha.shape, fun idx => u idx / 1⟩
  map2 (· / ·) samples (expandLast (← reduceRow sumRow samples))

/-- `(logits + gumbel) / temperature` of `ExpConcrete._sample` and `Concrete._sample` (multivariate.py 786–790,
924–929). -/
noncomputable def gumbelLogits (temperature logits : Tensor ℝ) (u : List ℕ → ℝ) (n : ℕ) : Option (Tensor ℝ) := do
  let uniform : Tensor ℝ := ⟨n :: logits.shape, u⟩
  let gumbel := mapT gumbel uniform
  map2 (· / ·) (← map2 (· + ·) logits gumbel) temperature

/-- `ExpConcrete._sample` (multivariate.py 780–795): `tf.nn.log_softmax` on the last axis. -/
noncomputable def expConcreteSampleT (temperature logits : Tensor ℝ) (u : List ℕ → ℝ) (n : ℕ) : Option (Tensor ℝ) := do
  let x ← gumbelLogits temperature logits u n
  map2 (· - ·) x (expandLast (← reduceRow lseRow x))

/-- `Concrete._sample` (multivariate.py 918–934): `tf.nn.softmax` on the last axis. -/
noncomputable def concreteSampleT (temperature logits : Tensor ℝ) (u : List ℕ → ℝ) (n : ℕ) : Option (Tensor ℝ) := do
  let x ← gumbelLogits temperature logits u n
  let e := mapT Fn.exp x
  map2 (· / ·) e (expandLast (← reduceRow sumRow e))

/-- `logits_flat` (univariate.py 477–480, multivariate.py 299–302, 523–526): the last axis of `logits` are the
categories. -/
def logitsFlat (logits : STensor ℝ) : Option (Tensor ℝ) := do
  let k ← logits.rt.shape.getLast?
  if logits.static.map List.length = some 2 then some logits.rt else reshapeRows logits.rt k

/-- `tf.transpose(tf.random.categorical(logits_flat, m))`: integers of shape `[m, rows]`, the draw number `j` for row
`i` being `draw i j`.  There must be a category.  (TensorFlow primitives; used at distributions/univariate.py 481–482,
1035–1036, distributions/multivariate.py 303–304, 527–528.) -/
def categoricalDraws (logitsFlat : Tensor ℝ) (draw : ℕ → ℕ → ℤ) (m : ℕ) : Option (Tensor ℤ) :=
  match logitsFlat.shape with
  | [rows, k] => if k = 0 then none else some ⟨[m, rows], fun idx => draw (idx.getD 1 0) (idx.getD 0 0)⟩
  | _ => none

/-- The last step of `Categorical._sample` and `OnehotCategorical._sample`: `samples_flat` itself when `logits` is known
to be a matrix, otherwise reshaped to `[n] + batch_shape` (univariate.py 484–487, multivariate.py 529–533). -/
def unflatten (logits : STensor ℝ) (flat : Tensor ℤ) (n : ℕ) : Option (Tensor ℤ) :=
  if logits.static.map List.length = some 2 then some flat else reshape flat (n :: logits.rt.shape.dropLast)

/-- The arguments of `tf.random.categorical` in `Categorical._sample` and `OnehotCategorical._sample`: the flattened
logits and the number of draws per row (univariate.py 477–482, multivariate.py 523–528). -/
def categoricalRequest (logits : STensor ℝ) (n : ℕ) : Option (Tensor ℝ × ℕ) :=
  (logitsFlat logits).map fun flat => (flat, n)

/-- `Categorical._sample` (univariate.py 476–492). -/
def categoricalSampleT (logits : STensor ℝ) (draw : ℕ → ℕ → ℤ) (n : ℕ) : Option (Tensor ℤ) := do
  let (flat, m) ← categoricalRequest logits n
  let samplesFlat ← categoricalDraws flat draw m
  unflatten logits samplesFlat n

/-- `tf.one_hot(samples, k)`: a new last axis.  (TensorFlow primitive; used at distributions/multivariate.py 316, 539.) -/
def oneHotT (samples : Tensor ℤ) (k : ℕ) : Tensor ℝ :=
  ⟨samples.shape ++ [k], fun idx => if ((idx.getLastD 0 : ℕ) : ℤ) = samples.val idx.dropLast then 1 else 0⟩

/-- `OnehotCategorical._sample` (multivariate.py 522–540). -/
def onehotSampleT (logits : STensor ℝ) (draw : ℕ → ℕ → ℤ) (n : ℕ) : Option (Tensor ℝ) := do
  let k ← logits.rt.shape.getLast?
  let (flat, m) ← categoricalRequest logits n
  let samplesFlat ← categoricalDraws flat draw m
  let samples ← unflatten logits samplesFlat n
  pure (oneHotT samples k)

/-- `tf.reduce_sum(t, axis=a)` for `a` 0 or 1, the other axes staying.  (TensorFlow primitive; used at
distributions/multivariate.py 315–317, distributions/univariate.py 1039.) -/
noncomputable def sumAxis {α : Type} [AddCommMonoid α] (a : ℕ) (t : Tensor α) : Option (Tensor α) :=
  (t.shape[a]?).map fun m =>
    ⟨t.shape.eraseIdx a, fun idx => ∑ e : Fin m, t.val (idx.take a ++ e.val :: idx.drop a)⟩

/-- The arguments of `tf.random.categorical` in `Multinomial._sample` (multivariate.py 299–304). -/
def multinomialRequest (m : ℕ) (logits : STensor ℝ) (n : ℕ) : Option (Tensor ℝ × ℕ) :=
  (logitsFlat logits).map fun flat => (flat, n * m)

/-- `Multinomial._sample` (multivariate.py 295–318); without `n_experiments` it raises. -/
noncomputable def multinomialSampleT (nExperiments : Option ℕ) (logits : STensor ℝ) (draw : ℕ → ℕ → ℤ) (n : ℕ) :
    Option (Tensor ℝ) := do
  let m ← nExperiments
  let k ← logits.rt.shape.getLast?
  let (flat, nm) ← multinomialRequest m logits n
  let samplesFlat ← categoricalDraws flat draw nm
  let samples ← reshape samplesFlat (n :: m :: logits.rt.shape.dropLast)
  sumAxis 1 (oneHotT samples k)

/-- The arguments of `tf.random.categorical` in `Binomial._sample` (univariate.py 1028–1036): the logits are flattened
to one axis, and those of failure and success stacked. -/
noncomputable def binomialRequest (m : ℕ) (logits : STensor ℝ) (n : ℕ) : Option (Tensor ℝ × ℕ) := do
  let flat ← if logits.static.map List.length = some 1 then some logits.rt
    else reshape logits.rt [logits.rt.shape.prod]
  pure (⟨flat.shape ++ [2], fun idx =>
    let l := Uni.Binomial.stackedLogits (flat.val idx.dropLast)
    if idx.getLastD 0 = 0 then l.1 else l.2⟩, n * m)

/-- `Binomial._sample` (univariate.py 1026–1045). -/
noncomputable def binomialSampleT (m : ℕ) (logits : STensor ℝ) (draw : ℕ → ℕ → ℤ) (n : ℕ) : Option (Tensor ℝ) := do
  let (stacked, nm) ← binomialRequest m logits n
  let samplesFlat ← categoricalDraws stacked draw nm
  let samples ← sumAxis 0 (← reshape samplesFlat (m :: n :: logits.rt.shape))
  pure (mapT (fun k : ℤ => (k : ℝ)) samples)

end ZhuSuan.Batch

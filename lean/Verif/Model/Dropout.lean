import Verif.Model.Num
import Verif.Model.Vae

/-!
# Variational dropout

`examples/bayesian_neural_nets/variational_dropout.py`: a classifier whose layers multiply their inputs by normal noise, with batch
normalization after every layer, and a variational distribution of the noise.  A tensor whose first axis is for particles and whose second
axis is for the rows of the batch is a function of a pair.  The variables are real numbers that the caller gives.  Not modelled: the
optimizer, sessions, printing, rounding.
-/

set_option autoImplicit false

namespace ZhuSuan.Dropout

/-- The variables of one layer: `layers.fully_connected` has no bias when a normalizer is given, and `layers.batch_norm` has an offset `beta`,
no scale and two moving averages.  (TensorFlow primitive; variational_dropout.py 31–33) -/
structure Layer (m k : ℕ) where
  kernel : Fin m → Fin k → ℝ
  beta : Fin k → ℝ
  movingMean : Fin k → ℝ
  movingVar : Fin k → ℝ

section
variable {R : Type} [Fintype R] {m k : ℕ}

/-- `tf.nn.moments` over all axes except the last: the mean.  (TensorFlow primitive; variational_dropout.py 32) -/
noncomputable def batchMean (a : R → Fin k → ℝ) (j : Fin k) : ℝ := (∑ r, a r j) / Fintype.card R

/-- `tf.nn.moments` over all axes except the last: the variance.  (TensorFlow primitive; variational_dropout.py 32) -/
noncomputable def batchVar (a : R → Fin k → ℝ) (j : Fin k) : ℝ := (∑ r, (a r j - batchMean a j) ^ 2) / Fintype.card R

/-- `layers.batch_norm` with its default `epsilon=0.001`: the moments of the batch when training and the moving averages otherwise.
(TensorFlow primitive; variational_dropout.py 22–23, 32–33) -/
noncomputable def batchNorm (l : Layer m k) (isTraining : Bool) (a : R → Fin k → ℝ) : R → Fin k → ℝ := fun r j =>
  let mean := if isTraining then batchMean a j else l.movingMean j
  let variance := if isTraining then batchVar a j else l.movingVar j
  (a r j - mean) / Real.sqrt (variance + 0.001) + l.beta j

/-- The product of the inputs with the kernel.  (TensorFlow primitive; variational_dropout.py 31–32) -/
noncomputable def matmul (l : Layer m k) (h : R → Fin m → ℝ) : R → Fin k → ℝ := fun r j => ∑ i, h r i * l.kernel i j

/-- `layers.fully_connected` with its default `activation_fn=tf.nn.relu`: the normalizer, then the activation.  (TensorFlow primitive;
variational_dropout.py 31–33) -/
noncomputable def fullyConnected (l : Layer m k) (isTraining : Bool) (h : R → Fin m → ℝ) : R → Fin k → ℝ := fun r =>
  Vae.relu (batchNorm l isTraining (matmul l h) r)

/-- What a run with `is_training=True` makes of the moving averages, with the default `decay=0.999`, in place because
`updates_collections` is `None`.  (TensorFlow primitive; variational_dropout.py 22–23, 32–33) -/
noncomputable def Layer.update (l : Layer m k) (h : R → Fin m → ℝ) : Layer m k :=
  { l with
    movingMean := fun j => l.movingMean j * 0.999 + batchMean (matmul l h) j * (1 - 0.999)
    movingVar := fun j => l.movingVar j * 0.999 + batchVar (matmul l h) j * (1 - 0.999) }

end

/-- The noise of one row and one particle: a number for every input of each of the `L` layers.  `sizes` is `net_size`.
(variational_dropout.py 26–30, 87) -/
abbrev Noise (L : ℕ) (sizes : ℕ → ℕ) := (l : Fin L) × Fin (sizes l)

variable {L : ℕ} {sizes : ℕ → ℕ}

/-- `eps` of one layer.  The value outside the net is never used.  (variational_dropout.py 28–30) -/
noncomputable def epsAt (e : Noise L sizes → ℝ) (l : ℕ) (i : Fin (sizes l)) : ℝ := if h : l < L then e ⟨⟨l, h⟩, i⟩ else 0

/-- The variables of all layers.  (variational_dropout.py 26, 31–33) -/
abbrev Net (sizes : ℕ → ℕ) := (l : ℕ) → Layer (sizes l) (sizes (l + 1))

/-- `h` after `l` rounds of the loop in `var_dropout`; `len(net_size) - 2` is `L - 1`.  (variational_dropout.py 25–35) -/
noncomputable def hidden {R : Type} [Fintype R] (net : Net sizes) (isTraining : Bool) (x : R → Fin (sizes 0) → ℝ) (e : R → Noise L sizes → ℝ) :
    (l : ℕ) → R → Fin (sizes l) → ℝ
  | 0 => x
  | l + 1 =>
    let h := fullyConnected (net l) isTraining (fun r i => hidden net isTraining x e l r i * epsAt (e r) l i)
    if l < L - 1 then fun r => Vae.relu (h r) else h

/-- `std` in `q`.  (variational_dropout.py 48) -/
noncomputable def std (logitAlpha : ℝ) : ℝ := Real.sqrt (Uni.sigmoid logitAlpha + 1e-10)

/-- A sample of the noise of one row from standard normal draws.  (variational_dropout.py 44–52; distributions/univariate.py 161–172) -/
noncomputable def sample (logitAlpha : Noise L sizes → ℝ) (z : Noise L sizes → ℝ) : Noise L sizes → ℝ := fun j =>
  Uni.Normal.sample 1 (std (logitAlpha j)) (z j)

/-- Its log probability under `q`.  (variational_dropout.py 50–52; distributions/univariate.py 96–103, 174–182) -/
noncomputable def logQ (logitAlpha : Noise L sizes → ℝ) (e : Noise L sizes → ℝ) : ℝ :=
  ∑ j, Uni.Normal.logProb 1 (Real.log (std (logitAlpha j))) (e j)

/-- Its log probability in the model, `tf.add_n(log_pe)`.  (variational_dropout.py 27–30, 97–99) -/
noncomputable def logPe (e : Noise L sizes → ℝ) : ℝ := ∑ j, Uni.Normal.logProb 1 (Real.log 1) (e j)

section
variable {c K b : ℕ}

/-- `y_logit`, for the particles and the rows of a batch.  The last layer has a unit for every class.  (variational_dropout.py 36–37, 90,
105) -/
noncomputable def logits (hL : sizes L = c + 1) (net : Net sizes) (isTraining : Bool) (x : Fin b → Fin (sizes 0) → ℝ)
    (e : Fin K × Fin b → Noise L sizes → ℝ) (r : Fin K × Fin b) (j : Fin (c + 1)) : ℝ :=
  hidden net isTraining (fun r => x r.2) e L r (Fin.cast hL.symm j)

/-- `log_joint` of one particle and one row.  (variational_dropout.py 96–99) -/
noncomputable def logJoint (hL : sizes L = c + 1) (N : ℕ) (net : Net sizes) (isTraining : Bool) (x : Fin b → Fin (sizes 0) → ℝ)
    (y : Fin b → Fin (c + 1)) (e : Fin K × Fin b → Noise L sizes → ℝ) (r : Fin K × Fin b) : ℝ :=
  logPe (e r) + Num.categoricalLogProb (logits hL net isTraining x e r) (y r.2) * N

/-- `lower_bound` as printed, for a batch with `b` rows and `K` particles; `N` is `x_train.shape[0]` and `z` are the draws.  Up to its sign it
is the value of `cost`.  (variational_dropout.py 94, 103–104, 110, 115) -/
noncomputable def lowerBound (hL : sizes L = c + 1) (N : ℕ) (net : Net sizes) (logitAlpha : Noise L sizes → ℝ) (isTraining : Bool)
    (x : Fin b → Fin (sizes 0) → ℝ) (y : Fin b → Fin (c + 1)) (z : Fin K × Fin b → Noise L sizes → ℝ) : ℝ :=
  let e := fun r => sample logitAlpha (z r)
  (∑ i, (Grad.elboObjective (fun k => .const (logJoint hL N net isTraining x y e (k, i))) (fun k => .const (logQ logitAlpha (e (k, i))))).val) /
    b / N

/-- `h_pred` of one row.  (variational_dropout.py 105–106) -/
noncomputable def hPred (hL : sizes L = c + 1) (net : Net sizes) (logitAlpha : Noise L sizes → ℝ) (isTraining : Bool)
    (x : Fin b → Fin (sizes 0) → ℝ) (z : Fin K × Fin b → Noise L sizes → ℝ) (i : Fin b) (j : Fin (c + 1)) : ℝ :=
  (∑ k, (let l := logits hL net isTraining x (fun r => sample logitAlpha (z r)) (k, i)
    Real.exp (l j) / ∑ j', Real.exp (l j'))) / K

/-- `lower_bound` for the feeds of an iteration.  (variational_dropout.py 130–141, 152–158) -/
noncomputable def feedBound (hL : sizes L = c + 1) (N : ℕ) (net : Net sizes) (logitAlpha : Noise L sizes → ℝ) (isTraining : Bool)
    (fed : List ((Fin (sizes 0) → ℝ) × Fin (c + 1))) (z : Fin K × Fin fed.length → Noise L sizes → ℝ) : ℝ :=
  lowerBound hL N net logitAlpha isTraining (fun i => (fed.get i).1) (fun i => (fed.get i).2) z

end

end ZhuSuan.Dropout

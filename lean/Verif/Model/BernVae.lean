import Verif.Model.Dropout
import Verif.Model.Sbn

/-!
# The variational autoencoder with binary latent variables

`examples/variational_autoencoders/bernoulli_latent_vae.py`: binary units above a binary image, networks with batch normalization for both, and
`reinforce` with a baseline network.  A tensor whose first axis is for particles and whose second axis is for the rows of the batch is a
function of a pair.  The variables are real numbers that the caller gives; `d`-arguments are derivatives in a direction in which the
variables move, so that a `Dual` is a value with its derivative, as `tf.gradients` of it gives for each variable.  Not modelled: the
optimizer, sessions, printing, rounding.
-/

set_option autoImplicit false

namespace ZhuSuan.BernVae

open ZhuSuan.Vae (Dense pixels logLik binarize relu)
open ZhuSuan.Sbn (bits logLikDer)

/-! ## The networks -/

/-- The variables of `tf.layers.dense(…, use_bias=False)` and of the `tf.layers.batch_normalization` that follows.  (TensorFlow primitive;
bernoulli_latent_vae.py 25–26, 28–29, 39–40, 42–43) -/
structure Layer (m k : ℕ) where
  kernel : Fin m → Fin k → ℝ
  gamma : Fin k → ℝ
  beta : Fin k → ℝ
  movingMean : Fin k → ℝ
  movingVar : Fin k → ℝ

section
variable {R : Type} [Fintype R] {m k : ℕ}

/-- `tf.layers.dense(…, use_bias=False)`.  (TensorFlow primitive; bernoulli_latent_vae.py 25, 28, 39, 42) -/
noncomputable def Layer.matmul (l : Layer m k) (h : R → Fin m → ℝ) : R → Fin k → ℝ := fun r j => ∑ i, h r i * l.kernel i j

/-- `tf.layers.batch_normalization` with its default `epsilon=0.001`: the moments of the batch when training and the moving averages
otherwise.  (TensorFlow primitive; bernoulli_latent_vae.py 26, 29, 40, 43) -/
noncomputable def Layer.batchNorm (l : Layer m k) (isTraining : Bool) (a : R → Fin k → ℝ) : R → Fin k → ℝ := fun r j =>
  let mean := if isTraining then Dropout.batchMean a j else l.movingMean j
  let variance := if isTraining then Dropout.batchVar a j else l.movingVar j
  (a r j - mean) / Real.sqrt (variance + 0.001) * l.gamma j + l.beta j

/-- One hidden layer.  (bernoulli_latent_vae.py 25–27, 28–30, 39–41, 42–44) -/
noncomputable def Layer.apply (l : Layer m k) (isTraining : Bool) (h : R → Fin m → ℝ) : R → Fin k → ℝ := fun r =>
  relu (l.batchNorm isTraining (l.matmul h) r)

end

/-- The variables of `build_gen`, or with the dimensions exchanged of `build_q_net`; hidden layers have 500 units there.
(bernoulli_latent_vae.py 20–33, 36–48) -/
structure Net (m h k : ℕ) where
  l1 : Layer m h
  l2 : Layer h h
  l3 : Dense h k

/-- `x_logits`, or `z_logits`.  (bernoulli_latent_vae.py 25–31, 39–45) -/
noncomputable def Net.logits {R : Type} [Fintype R] {m h k : ℕ} (net : Net m h k) (isTraining : Bool) (a : R → Fin m → ℝ) : R → Fin k → ℝ :=
  fun r => net.l3.apply (net.l2.apply isTraining (net.l1.apply isTraining a) r)

/-- The variables of `baseline_net`.  (bernoulli_latent_vae.py 51–55) -/
structure Baseline (xd h : ℕ) where
  l1 : Dense xd h
  l2 : Dense h 1

/-- `baseline_net`.  (bernoulli_latent_vae.py 51–55) -/
noncomputable def Baseline.apply {xd h : ℕ} (c : Baseline xd h) (x : Fin xd → Bool) : ℝ := c.l2.apply (relu (c.l1.apply (pixels x))) 0

/-! ## Objectives -/

section
variable {K b zd xd : ℕ}

/-- The logits of the pixels as a function of the states of all particles and rows.  (bernoulli_latent_vae.py 23–32, 78) -/
noncomputable def Net.pixelLogits {h : ℕ} (gen : Net zd h xd) (isTraining : Bool) (z : Fin K × Fin b → Fin zd → Bool) : Fin K × Fin b → Fin xd → ℝ :=
  gen.logits isTraining fun r => pixels (z r)

/-- The logits of the states for all rows.  (bernoulli_latent_vae.py 39–45, 79) -/
noncomputable def Net.stateLogits {h : ℕ} (q : Net xd h zd) (isTraining : Bool) (x : Fin b → Fin xd → Bool) : Fin b → Fin zd → ℝ :=
  q.logits isTraining fun i => pixels (x i)

/-- The states that the variational net draws; `u` are uniform draws.  (bernoulli_latent_vae.py 46–47; distributions/univariate.py 386–396) -/
noncomputable def draw (zLogits : Fin b → Fin zd → ℝ) (u : Fin K × Fin b → Fin zd → ℝ) : Fin K × Fin b → Fin zd → Bool := fun r =>
  bits (zLogits r.2) (u r)

/-- The log joint of one particle of one row: fair coins for the states, and the image.  (bernoulli_latent_vae.py 22–32; variational/base.py 169–175) -/
noncomputable def logJoint (xLogits : Fin K × Fin b → Fin xd → ℝ) (x : Fin b → Fin xd → Bool) (z : Fin K × Fin b → Fin zd → Bool)
    (r : Fin K × Fin b) : ℝ :=
  logLik (fun _ : Fin zd => 0) (z r) + logLik (xLogits r) (x r.2)

/-- The log probability of its states in the variational net.  (bernoulli_latent_vae.py 46–47; variational/base.py 177–183) -/
noncomputable def logProb (zLogits : Fin b → Fin zd → ℝ) (z : Fin K × Fin b → Fin zd → Bool) (r : Fin K × Fin b) : ℝ := logLik (zLogits r.2) (z r)

/-- `lower_bound`.  (bernoulli_latent_vae.py 82–83, 86) -/
noncomputable def lowerBound (xLogits : (Fin K × Fin b → Fin zd → Bool) → Fin K × Fin b → Fin xd → ℝ) (zLogits : Fin b → Fin zd → ℝ)
    (x : Fin b → Fin xd → Bool) (u : Fin K × Fin b → Fin zd → ℝ) : ℝ :=
  let z := draw zLogits u
  (∑ i, (Grad.elboObjective (fun k => .const (logJoint (xLogits z) x z (k, i))) (fun k => .const (logProb zLogits z (k, i)))).val) / b

/-- `cost`, with its derivative when the logits and the baseline have the derivatives `dx`, `dz` and `dc`.  `movingMean` is the value that
`reinforce` reads.  (bernoulli_latent_vae.py 80–85; variational/exclusive_kl.py 161–231) -/
noncomputable def cost (movingMean : ℝ) (xLogits dx : (Fin K × Fin b → Fin zd → Bool) → Fin K × Fin b → Fin xd → ℝ)
    (zLogits dz : Fin b → Fin zd → ℝ) (c dc : Fin b → ℝ) (x : Fin b → Fin xd → Bool) (u : Fin K × Fin b → Fin zd → ℝ) : Grad.Dual :=
  let z := draw zLogits u
  let logp : Fin b → Fin K → Grad.Dual := fun i k =>
    ⟨logJoint (xLogits z) x z (k, i), logLikDer (xLogits z (k, i)) (dx z (k, i)) (x i)⟩
  let logq : Fin b → Fin K → Grad.Dual := fun i k => ⟨logProb zLogits z (k, i), logLikDer (zLogits i) (dz i) (z (k, i))⟩
  let cx : Fin b → Grad.Dual := fun i => ⟨c i, dc i⟩
  Grad.reduceMean fun i => Grad.reinforceCost true (fun _ => some (cx i)) (.const movingMean) (logp i) (logq i) +
    Grad.baselineCost (fun _ => cx i) (logp i) (logq i)

end

end ZhuSuan.BernVae

import Verif.Model.Estimators
import Verif.Model.Minibatch
import Verif.Model.Transform
import Verif.Model.Univariate

/-!
# Variational autoencoders

`examples/variational_autoencoders/vae.py` and `iwae.py` and `examples/normalizing_flows/vae_nf.py`: a model of binary images with a normal
latent vector and a network for the pixels, a normal variational distribution with a network for its parameters, followed by planar flows in
`vae_nf.py`, and the objectives on a batch of images that are made binary at random.  The variables of the networks are real numbers that
the caller gives.  `vae_conv.py`, with convolutional networks, is modelled in ConvVae.  Not modelled: the optimizer, sessions, printing,
saving of images.
-/

set_option autoImplicit false

namespace ZhuSuan.Vae

/-! ## Networks -/

/-- The variables of `tf.layers.dense`.  (TensorFlow primitive; vae.py 24–26, 35–38) -/
structure Dense (m k : ℕ) where
  kernel : Fin m → Fin k → ℝ
  bias : Fin k → ℝ

/-- `tf.layers.dense` of one row.  (TensorFlow primitive; vae.py 24–26, 35–38) -/
noncomputable def Dense.apply {m k : ℕ} (l : Dense m k) (h : Fin m → ℝ) : Fin k → ℝ := fun j => ∑ i, h i * l.kernel i j + l.bias j

/-- `tf.nn.relu`.  (TensorFlow primitive; vae.py 24–25, 35–36) -/
noncomputable def relu {m : ℕ} (h : Fin m → ℝ) : Fin m → ℝ := fun j => max (h j) 0

/-- The variables of `build_gen`; both hidden layers have 500 units there.  (vae.py 19–29, vae_nf.py 19–28, iwae.py 23–32) -/
structure Gen (zd h1 h2 xd : ℕ) where
  l1 : Dense zd h1
  l2 : Dense h1 h2
  l3 : Dense h2 xd

/-- `x_logits`.  (vae.py 24–26, vae_nf.py 24–26) -/
noncomputable def Gen.logits {zd h1 h2 xd : ℕ} (g : Gen zd h1 h2 xd) (z : Fin zd → ℝ) : Fin xd → ℝ :=
  g.l3.apply (relu (g.l2.apply (relu (g.l1.apply z))))

/-- The variables of `build_q_net`, and of the calls of `planar_normalizing_flow` that follow it: none in `vae.py`, two in `vae_nf.py`, with
ten iterations each.  (vae.py 32–40, vae_nf.py 31–40, 67–73) -/
structure QNet (xd h1 h2 zd : ℕ) where
  l1 : Dense xd h1
  l2 : Dense h1 h2
  lMean : Dense h2 zd
  lLogstd : Dense h2 zd
  flows : List (List (Transform.Planar (Fin zd)))

/-- `tf.cast(x, tf.float32)` of an image.  (vae.py 35, vae_nf.py 34) -/
def pixels {xd : ℕ} (x : Fin xd → Bool) : Fin xd → ℝ := fun d => if x d then 1 else 0

/-- The second hidden layer.  (vae.py 35–36, vae_nf.py 34–35) -/
noncomputable def QNet.hidden {xd h1 h2 zd : ℕ} (q : QNet xd h1 h2 zd) (x : Fin xd → Bool) : Fin h2 → ℝ :=
  relu (q.l2.apply (relu (q.l1.apply (pixels x))))

/-- `z_mean`.  (vae.py 37, vae_nf.py 36) -/
noncomputable def QNet.mean {xd h1 h2 zd : ℕ} (q : QNet xd h1 h2 zd) (x : Fin xd → Bool) : Fin zd → ℝ := q.lMean.apply (q.hidden x)

/-- `z_logstd`.  (vae.py 38, vae_nf.py 37) -/
noncomputable def QNet.logstd {xd h1 h2 zd : ℕ} (q : QNet xd h1 h2 zd) (x : Fin xd → Bool) : Fin zd → ℝ := q.lLogstd.apply (q.hidden x)

/-! ## Log densities and samples -/

section
variable {ι : Type} [Fintype ι]

/-- A row of samples of `bn.normal("z", z_mean, logstd=z_logstd, group_ndims=1, n_samples=n_z_per_x)` from standard normal draws.
(vae.py 39; distributions/univariate.py 161–172) -/
noncomputable def draw (mean logstd e : ι → ℝ) : ι → ℝ := fun j => Uni.Normal.sample (mean j) (Real.exp (logstd j)) (e j)

/-- Its log probability.  (vae.py 39; distributions/univariate.py 174–182, base.py 249–274) -/
noncomputable def logNormals (mean logstd z : ι → ℝ) : ℝ := ∑ j, Uni.Normal.logProb (mean j) (logstd j) (z j)

/-- `qz_samples, log_qz` after the flows, for one image and one particle.  (vae.py 63, vae_nf.py 67–73) -/
noncomputable def encode (mean logstd : ι → ℝ) (flows : List (List (Transform.Planar ι))) (e : ι → ℝ) : (ι → ℝ) × ℝ :=
  flows.foldl (fun s ps => Transform.planarFlow ps s) (draw mean logstd e, logNormals mean logstd (draw mean logstd e))

/-- The log probability of `z` in the model, `bn.normal("z", z_mean, std=1., group_ndims=1, …)` with `z_mean = tf.zeros([n, z_dim])`.
(vae.py 22–23; distributions/univariate.py 113–114, 174–182) -/
noncomputable def logPrior (z : ι → ℝ) : ℝ := ∑ j, Uni.Normal.logProb 0 (Real.log 1) (z j)

end

/-- The log probability of one image, `bn.bernoulli("x", x_logits, group_ndims=1)`.  (vae.py 28) -/
noncomputable def logLik {xd : ℕ} (logits : Fin xd → ℝ) (x : Fin xd → Bool) : ℝ := ∑ d, Uni.Bernoulli.logProb (logits d) (pixels x d)

/-- The log joint of one image and one particle.  (vae.py 62–66; variational/base.py 169–175) -/
noncomputable def Gen.logJoint {zd h1 h2 xd : ℕ} (g : Gen zd h1 h2 xd) (x : Fin xd → Bool) (z : Fin zd → ℝ) : ℝ :=
  logPrior z + logLik (g.logits z) x

/-! ## Objectives -/

section
variable {zd h1 h2 k1 k2 xd K n : ℕ}

/-- The sample and log probability of particle `k` for the image `x`.  (vae.py 63, vae_nf.py 67–73) -/
noncomputable def QNet.particle (q : QNet xd k1 k2 zd) (x : Fin xd → Bool) (e : Fin K → Fin zd → ℝ) (k : Fin K) : (Fin zd → ℝ) × ℝ :=
  encode (q.mean x) (q.logstd x) q.flows (e k)

/-- The evidence lower bound of one image.  (vae.py 65–66, vae_nf.py 75–78) -/
noncomputable def rowElbo (g : Gen zd h1 h2 xd) (q : QNet xd k1 k2 zd) (x : Fin xd → Bool) (e : Fin K → Fin zd → ℝ) : ℝ :=
  (Grad.elboObjective (fun k => .const (g.logJoint x (q.particle x e k).1)) (fun k => .const (q.particle x e k).2)).val

/-- The importance weighted objective of one image.  (iwae.py 72–73) -/
noncomputable def rowIw (g : Gen zd h1 h2 xd) (q : QNet xd k1 k2 zd) (x : Fin xd → Bool) (e : Fin (K + 1) → Fin zd → ℝ) : ℝ :=
  (Grad.iwObjective (fun k => .const (g.logJoint x (q.particle x e k).1)) (fun k => .const (q.particle x e k).2)).val

/-- `zs.is_loglikelihood` of one image.  (vae.py 72, vae_nf.py 84–85) -/
noncomputable def rowIs (g : Gen zd h1 h2 xd) (q : QNet xd k1 k2 zd) (x : Fin xd → Bool) (e : Fin (K + 1) → Fin zd → ℝ) : ℝ :=
  Grad.isLoglikelihood (fun k => .const (g.logJoint x (q.particle x e k).1)) (fun k => .const (q.particle x e k).2)

/-- `x = tf.cast(tf.less(tf.random_uniform(tf.shape(x_input)), x_input), tf.int32)`.  (vae.py 58–59) -/
noncomputable def binarize (xInput u : Fin xd → ℝ) : Fin xd → Bool := fun d => decide (u d < xInput d)

/-- `x_mean` of a generated image, `e` being the standard normal draws of `z`.  (vae.py 22–27, 78; distributions/univariate.py 161–172) -/
noncomputable def Gen.generate (g : Gen zd h1 h2 xd) (e : Fin zd → ℝ) : Fin xd → ℝ :=
  fun d => Uni.sigmoid (g.logits (fun j => Uni.Normal.sample 0 1 (e j)) d)

/-- The noise of one row of a batch: the uniform draws that make the image binary and the normal draws of the particles.  (vae.py 39, 58) -/
abbrev Noise (xd K zd : ℕ) : Type := (Fin xd → ℝ) × (Fin K → Fin zd → ℝ)

/-- `tf.reduce_mean` over a batch of an objective `row`, when `x_input` is fed: `noise` has one entry for each row, `n` being fed with the
batch size.  (vae.py 68, 71, 98–104) -/
noncomputable def batchMean {b : ℕ} (row : (Fin xd → Bool) → (Fin K → Fin zd → ℝ) → ℝ) (xBatch : List (Fin xd → ℝ))
    (noise : Fin b → Noise xd K zd) : ℝ :=
  Minibatch.mean (List.zipWith (fun xInput (z : Noise xd K zd) => row (binarize xInput z.1) z.2) xBatch (List.ofFn noise))

/-- The same when the binary images are fed, as in the tests.  (vae.py 68, 71, 112–124) -/
noncomputable def testMean {b : ℕ} (row : (Fin xd → Bool) → (Fin K → Fin zd → ℝ) → ℝ) (xBatch : List (Fin xd → Bool))
    (noise : Fin b → Fin K → Fin zd → ℝ) : ℝ :=
  Minibatch.mean (List.zipWith row xBatch (List.ofFn noise))

end

end ZhuSuan.Vae

import Verif.Model.ExampleUtils
import Verif.Model.Tensor
import Verif.Model.Minibatch
import Verif.Model.Univariate

/-!
# Adversarial nets

`examples/generative_adversarial_nets/dcgan.py` and `wasserstein_gan.py`: the split of a batch over the towers, the losses of both nets and
the clipping of the critic.  The two networks are functions of all rows that a tower sees, because of the batch normalization in them; their
convolutional layers are not modelled.  Not modelled: the optimizers, sessions, printing, saving of images.
-/

set_option autoImplicit false

namespace ZhuSuan.Gan

open Minibatch ExUtils Shape

section
variable {X Z : Type}

/-- `tower_x`: the rows `id_ * tf.shape(x)[0] // FLAGS.num_gpus` to `(id_ + 1) * tf.shape(x)[0] // FLAGS.num_gpus` of the batch.
(dcgan.py 80–81, wasserstein_gan.py 85–86) -/
def tower (x : List X) (gpus id : ℕ) : List X := slice x (id * x.length / gpus) ((id + 1) * x.length / gpus)

/-- `z`: a latent vector from uniform draws on `[0, 1)`.  (dcgan.py 23–25, wasserstein_gan.py 23–25; distributions/univariate.py 632–644) -/
noncomputable def latent {d : ℕ} (u : Fin d → ℝ) : Fin d → ℝ := fun j => Uni.Uniform.sample (-1) 1 (u j)

/-- The two networks: `discriminator` gives one number for each row and `generator` one image for each latent vector.
(dcgan.py 20–59, wasserstein_gan.py 20–63) -/
structure Nets (X Z : Type) where
  disc : List X → List ℝ
  gen : List Z → List X

/-- `gen_loss` of one tower.  (dcgan.py 87–90) -/
noncomputable def genLoss (xGenLogits : List ℝ) : ℝ := mean (xGenLogits.map (Uni.sigmoidCrossEntropy 1))

/-- `disc_loss` of one tower.  (dcgan.py 94–102) -/
noncomputable def discLoss (xLogits xGenLogits : List ℝ) : ℝ :=
  (mean (xLogits.map (Uni.sigmoidCrossEntropy 1)) + mean (xGenLogits.map (Uni.sigmoidCrossEntropy 0))) / 2

/-- `gen_loss` of one tower.  (wasserstein_gan.py 92) -/
noncomputable def wGenLoss (xGenCritic : List ℝ) : ℝ := -mean xGenCritic

/-- `disc_loss` of one tower; the generator makes as many images as the tower has.  (wasserstein_gan.py 96) -/
noncomputable def wDiscLoss (xCritic xGenCritic : List ℝ) : ℝ := -mean (List.zipWith (· - ·) xCritic xGenCritic)

/-- A scalar tensor.  (TensorFlow primitive; dcgan.py 116) -/
def scalar (a : ℝ) : Tensor ℝ := ⟨[], fun _ => a⟩

/-- `[gen_loss, disc_loss]` of one tower.  (dcgan.py 82–102, 116) -/
noncomputable def towerLosses (nets : Nets X Z) (towerX : List X) (z : List Z) : List (Tensor ℝ) :=
  [scalar (genLoss (nets.disc (nets.gen z))), scalar (discLoss (nets.disc towerX) (nets.disc (nets.gen z)))]

/-- The same in `wasserstein_gan.py`.  (wasserstein_gan.py 87–96, 110) -/
noncomputable def wTowerLosses (nets : Nets X Z) (towerX : List X) (z : List Z) : List (Tensor ℝ) :=
  [scalar (wGenLoss (nets.disc (nets.gen z))), scalar (wDiscLoss (nets.disc towerX) (nets.disc (nets.gen z)))]

/-- `multi_gpu.average_losses(tower_losses)`; `z` are the latent vectors of the towers.  (dcgan.py 110–118) -/
noncomputable def losses (nets : Nets X Z) (x : List X) (gpus : ℕ) (z : Fin gpus → List Z) : Except Err (List (Tensor ℝ)) :=
  averageLosses ((List.finRange gpus).map fun i : Fin gpus => towerLosses nets (tower x gpus i) (z i))

/-- The same in `wasserstein_gan.py`.  (wasserstein_gan.py 104–112) -/
noncomputable def wLosses (nets : Nets X Z) (x : List X) (gpus : ℕ) (z : Fin gpus → List Z) : Except Err (List (Tensor ℝ)) :=
  averageLosses ((List.finRange gpus).map fun i : Fin gpus => wTowerLosses nets (tower x gpus i) (z i))

/-- `w_distance`.  (wasserstein_gan.py 113) -/
def wDistance (discLoss : ℝ) : ℝ := -discLoss

end

/-! ## The training loop of the critic -/

/-- The variables of both networks.  (wasserstein_gan.py 93, 97, 121) -/
structure Vars (D G : Type) where
  disc : D → ℝ
  gen : G → ℝ

/-- `tf.clip_by_value`.  (TensorFlow primitive; wasserstein_gan.py 124) -/
noncomputable def clip (lo hi a : ℝ) : ℝ := max (min a hi) lo

/-- `clip_op`.  (wasserstein_gan.py 121–125) -/
noncomputable def clipOp {D G : Type} (v : Vars D G) : Vars D G := { v with disc := fun d => clip (-0.01) 0.01 (v.disc d) }

/-- The variables after some iterations: each runs `infer_op`, which moves the variables of both networks as the optimizer does, and then
`clip_op`, which waits for it.  The moves are given.  (wasserstein_gan.py 116–125, 145–150) -/
noncomputable def train {D G : Type} (infer : ℕ → Vars D G → Vars D G) (v : Vars D G) : ℕ → Vars D G
  | 0 => v
  | t + 1 => clipOp (infer t (train infer v t))

end ZhuSuan.Gan

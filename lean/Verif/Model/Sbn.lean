import Verif.Model.Vae
import Verif.Spec.Sbn

/-!
# Sigmoid belief nets

`examples/sigmoid_belief_nets/sbn_vimco.py` and `sbn_adaptive_is.py`: three layers of binary units above a binary image, and a network that
draws them upwards.  The variables are real numbers that the caller gives; `d`-arguments are directions in which they move, so that a
`Dual` is a value with its derivative in that direction, as `tf.gradients` of it gives for each variable.  Not modelled: the optimizer,
sessions, printing.
-/

set_option autoImplicit false

namespace ZhuSuan.Sbn

open ZhuSuan.Vae (Dense pixels logLik binarize)

/-! ## The networks -/

/-- The variables of `build_sbn`.  (sbn_vimco.py 19–31, sbn_adaptive_is.py 19–31) -/
structure Gen (h xd : ℕ) where
  l2 : Dense h h
  l1 : Dense h h
  lx : Dense h xd

/-- The variables of `build_q_net`, or of `build_proposal`.  (sbn_vimco.py 34–44, sbn_adaptive_is.py 34–44) -/
structure QNet (xd h : ℕ) where
  l1 : Dense xd h
  l2 : Dense h h
  l3 : Dense h h

/-- The variables of a layer, moved by `t` in the direction `d`.  (The variables that `optimizer.minimize` changes, sbn_vimco.py 78) -/
def moveDense {m k : ℕ} (l d : Dense m k) (t : ℝ) : Dense m k := ⟨fun i j => l.kernel i j + t * d.kernel i j, fun j => l.bias j + t * d.bias j⟩

section
variable {h xd K : ℕ}

/-- The same for the model.  (sbn_vimco.py 78, sbn_adaptive_is.py 77–78) -/
def Gen.move (g d : Gen h xd) (t : ℝ) : Gen h xd := ⟨moveDense g.l2 d.l2 t, moveDense g.l1 d.l1 t, moveDense g.lx d.lx t⟩

/-- The same for the proposal.  (sbn_vimco.py 78, sbn_adaptive_is.py 84–85) -/
def QNet.move (q d : QNet xd h) (t : ℝ) : QNet xd h := ⟨moveDense q.l1 d.l1 t, moveDense q.l2 d.l2 t, moveDense q.l3 d.l3 t⟩

/-- The derivative of `bn.bernoulli(…, logits, group_ndims=1)`'s log probability, when the logits have the derivatives `dlogits`: that of
`tf.nn.sigmoid_cross_entropy_with_logits`.  (TensorFlow primitive; distributions/univariate.py 398–403) -/
noncomputable def logLikDer {k : ℕ} (logits dlogits : Fin k → ℝ) (x : Fin k → Bool) : ℝ :=
  ∑ j, (pixels x j - Uni.sigmoid (logits j)) * dlogits j

/-- The log joint of `h1`, `h2`, `h3` and `x`.  (sbn_vimco.py 19–31; variational/base.py 169–175) -/
noncomputable def Gen.logJoint (g : Gen h xd) (x : Fin xd → Bool) (z : Latent h) : ℝ :=
  logLik (fun _ : Fin h => 0) z.2.2 + logLik (g.l2.apply (pixels z.2.2)) z.2.1 + logLik (g.l1.apply (pixels z.2.1)) z.1 +
    logLik (g.lx.apply (pixels z.1)) x

/-- Its derivative in the direction `d`; the logits are linear in the variables.  (TensorFlow primitive; sbn_vimco.py 19–31) -/
noncomputable def Gen.logJointDer (g d : Gen h xd) (x : Fin xd → Bool) (z : Latent h) : ℝ :=
  logLikDer (g.l2.apply (pixels z.2.2)) (d.l2.apply (pixels z.2.2)) z.2.1 + logLikDer (g.l1.apply (pixels z.2.1)) (d.l1.apply (pixels z.2.1)) z.1 +
    logLikDer (g.lx.apply (pixels z.1)) (d.lx.apply (pixels z.1)) x

/-- The log probability of the states under the proposal.  (sbn_vimco.py 34–44; variational/base.py 177–183) -/
noncomputable def QNet.logProb (q : QNet xd h) (x : Fin xd → Bool) (z : Latent h) : ℝ :=
  logLik (q.l1.apply (pixels x)) z.1 + logLik (q.l2.apply (pixels z.1)) z.2.1 + logLik (q.l3.apply (pixels z.2.1)) z.2.2

/-- Its derivative in the direction `d`.  (TensorFlow primitive; sbn_vimco.py 34–44) -/
noncomputable def QNet.logProbDer (q d : QNet xd h) (x : Fin xd → Bool) (z : Latent h) : ℝ :=
  logLikDer (q.l1.apply (pixels x)) (d.l1.apply (pixels x)) z.1 + logLikDer (q.l2.apply (pixels z.1)) (d.l2.apply (pixels z.1)) z.2.1 +
    logLikDer (q.l3.apply (pixels z.2.1)) (d.l3.apply (pixels z.2.1)) z.2.2

/-- The uniform draws for one particle.  (distributions/univariate.py 389–390) -/
abbrev Draws (h : ℕ) : Type := (Fin h → ℝ) × (Fin h → ℝ) × (Fin h → ℝ)

/-- A layer drawn from its logits: `tf.less(alpha, tf.sigmoid(logits))`.  (distributions/univariate.py 386–396) -/
noncomputable def bits {k : ℕ} (logits u : Fin k → ℝ) : Fin k → Bool := binarize (fun j => Uni.sigmoid (logits j)) u

/-- The states that the proposal draws for the image `x`.  (sbn_vimco.py 34–44) -/
noncomputable def QNet.draw (q : QNet xd h) (x : Fin xd → Bool) (u : Draws h) : Latent h :=
  let h1 := bits (q.l1.apply (pixels x)) u.1
  let h2 := bits (q.l2.apply (pixels h1)) u.2.1
  let h3 := bits (q.l3.apply (pixels h2)) u.2.2
  (h1, h2, h3)

/-! ## Objectives -/

/-- The log joint of particle `k` with its derivative.  (sbn_vimco.py 72–73) -/
noncomputable def logp (g dg : Gen h xd) (q : QNet xd h) (x : Fin xd → Bool) (u : Fin (K + 1) → Draws h) (k : Fin (K + 1)) : Grad.Dual :=
  ⟨g.logJoint x (q.draw x (u k)), g.logJointDer dg x (q.draw x (u k))⟩

/-- The log probability of particle `k` under the proposal with its derivative; the samples have none.  (sbn_vimco.py 72–73) -/
noncomputable def logq (q dq : QNet xd h) (x : Fin xd → Bool) (u : Fin (K + 1) → Draws h) (k : Fin (K + 1)) : Grad.Dual :=
  ⟨q.logProb x (q.draw x (u k)), q.logProbDer dq x (q.draw x (u k))⟩

/-- A layer of zeros: no variable of it moves.  (sbn_adaptive_is.py 77–78, 84–85: gradients are taken of the variables of one network) -/
def still (m k : ℕ) : Dense m k := ⟨fun _ _ => 0, fun _ => 0⟩

/-- No variable of the model moves.  (sbn_adaptive_is.py 84–85) -/
def Gen.still : Gen h xd := ⟨Sbn.still h h, Sbn.still h h, Sbn.still h xd⟩

/-- No variable of the proposal moves.  (sbn_adaptive_is.py 77–78) -/
def QNet.still : QNet xd h := ⟨Sbn.still xd h, Sbn.still h h, Sbn.still h h⟩

/-- `lower_bound` of one image.  (sbn_vimco.py 72–73, 75) -/
noncomputable def rowIw (g : Gen h xd) (q : QNet xd h) (x : Fin xd → Bool) (u : Fin (K + 1) → Draws h) : ℝ :=
  (Grad.iwObjective (logp g Gen.still q x u) (logq q QNet.still x u)).val

/-- The derivative of `lower_bound.vimco()` of one image.  (sbn_vimco.py 74, 78) -/
noncomputable def rowVimco (g dg : Gen h xd) (q dq : QNet xd h) (x : Fin xd → Bool) (u : Fin (K + 1) → Draws h) : ℝ :=
  (Grad.vimcoCost (logp g dg q x u) (logq q dq x u)).der

/-- The derivative of `-lower_bound` of one image with respect to the variables of the model.  (sbn_adaptive_is.py 74–78) -/
noncomputable def rowModel (g dg : Gen h xd) (q : QNet xd h) (x : Fin xd → Bool) (u : Fin (K + 1) → Draws h) : ℝ :=
  (-Grad.iwObjective (logp g dg q x u) (logq q QNet.still x u)).der

/-- The derivative of `klpq_obj.importance()` of one image with respect to the variables of the proposal.  (sbn_adaptive_is.py 81–85) -/
noncomputable def rowKlpq (g : Gen h xd) (q dq : QNet xd h) (x : Fin xd → Bool) (u : Fin (K + 1) → Draws h) : ℝ :=
  (Grad.importanceCost (logp g Gen.still q x u) (logq q dq x u)).der

/-- `tf.reduce_mean` over a batch of a quantity `row` of an image, when `x_input` is fed: each row has uniform draws that make the image binary
and draws for the particles.  (sbn_vimco.py 65–66, 74–75, 97–102; sbn_adaptive_is.py 65–66, 74, 83) -/
noncomputable def batchMean {b : ℕ} (row : (Fin xd → Bool) → (Fin (K + 1) → Draws h) → ℝ) (xBatch : List (Fin xd → ℝ))
    (noise : Fin b → (Fin xd → ℝ) × (Fin (K + 1) → Draws h)) : ℝ :=
  Minibatch.mean (List.zipWith (fun xInput (z : (Fin xd → ℝ) × (Fin (K + 1) → Draws h)) => row (binarize xInput z.1) z.2) xBatch (List.ofFn noise))

/-- The same when binary images are fed, as in the tests.  (sbn_vimco.py 112–122) -/
noncomputable def testMean {b : ℕ} (row : (Fin xd → Bool) → (Fin (K + 1) → Draws h) → ℝ) (xBatch : List (Fin xd → Bool))
    (noise : Fin b → Fin (K + 1) → Draws h) : ℝ :=
  Minibatch.mean (List.zipWith row xBatch (List.ofFn noise))

end

end ZhuSuan.Sbn

import Verif.Lemmas.Euclid
import Verif.Model.Minibatch
import Verif.Spec.Minibatch

/-!
# SGLD in a training loop

The distribution of the latent variables in the loop of `examples/bayesian_neural_nets/bnn_sgmcmc.py` (118–126) with
`zs.SGLD(learning_rate=…)` (bnn_sgmcmc.py 81, sgmcmc.py 183–200).  The learning rate is a number that may change between epochs
(sgmcmc.py 180–185: the argument may be "a placeholder for decaying learning rate").  `ω` is what is drawn once per epoch, in the
example the permutation of the rows; every iteration draws new normal values.  Not modelled: the update of `logstds` after the
epoch (bnn_sgmcmc.py 128), which changes the prior.
-/

set_option autoImplicit false

open MeasureTheory ProbabilityTheory

namespace ZhuSuan.SgldLoop

open ZhuSuan.Sgmcmc ZhuSuan.SgWeak ZhuSuan.Minibatch

variable {V : Type} {I : V → Type} [Fintype V] [∀ v, Fintype (I v)] {Ω : Type} [MeasurableSpace Ω]

/-- The joint distribution of the draw of an epoch and the latent variables after `t` iterations, from the joint distribution `J`
at the start of the epoch.  `G t ω` is the gradient of the log joint of batch `t`.  (bnn_sgmcmc.py 122–126: `sess.run(sample_op)`
in each of the iterations; sgmcmc.py 195–200) -/
noncomputable def steps (lr : ℝ) (G : ℕ → Ω → Lat I → Lat I) (J : Measure (Ω × Lat I)) : ℕ → Measure (Ω × Lat I)
  | 0 => J
  | t + 1 => ((steps lr G J t).prod (normals I)).map fun s => (s.1.1, fun v => sgld lr (G t s.1.1) s.2 v s.1.2)

/-- The distribution of the latent variables at the start of every epoch, when the draws of the epochs are independent, each with
distribution `P`.  (bnn_sgmcmc.py 118–126) -/
noncomputable def starts (lr : ℕ → ℝ) (G : ℕ → Ω → Lat I → Lat I) (P : Measure Ω) (T : ℕ) (μ : Measure (Lat I)) :
    ℕ → Measure (Lat I)
  | 0 => μ
  | e + 1 => (steps (lr e) G (P.prod (starts lr G P T μ e)) T).map Prod.snd

/-- The joint distribution of the order of the rows and the latent variables after the rows are permuted: the rows are permuted
again in each epoch (`perm = np.random.permutation(x_train.shape[0]); x_train = x_train[perm, :]`), so the order is the composition
of all permutations so far.  (bnn_sgmcmc.py 119–121) -/
noncomputable def shuffle {n : ℕ} (J : Measure (Equiv.Perm (Fin n) × Lat I)) : Measure (Equiv.Perm (Fin n) × Lat I) :=
  (J.prod (uniform n)).map fun a => (a.1.1 * a.2, a.1.2)

/-- The gradient of the log joint of batch `t` when the rows are in the given order.  (bnn_sgmcmc.py 74–77, 122–126;
sgmcmc.py 92–98) -/
noncomputable def batchGrads {X Y : Type} {n : ℕ} (s : Arrays n X Y) (b : ℕ) (prior : Lat I → ℝ) (lik : X × Y → Lat I → ℝ) (t : ℕ)
    (order : Equiv.Perm (Fin n)) : Lat I → Lat I :=
  pd (logJoint n prior lik ((s.permute order).feed b t))

/-- The joint distribution of the order of the rows and the latent variables after every epoch of the loop on the arrays `s`.
(bnn_sgmcmc.py 110, 118–126) -/
noncomputable def loop {X Y : Type} {n : ℕ} (s : Arrays n X Y) (b : ℕ) (prior : Lat I → ℝ) (lik : X × Y → Lat I → ℝ)
    (lr : ℕ → ℝ) (μ : Measure (Lat I)) : ℕ → Measure (Equiv.Perm (Fin n) × Lat I)
  | 0 => (Measure.dirac 1).prod μ
  | e + 1 => steps (lr e) (batchGrads s b prior lik) (shuffle (loop s b prior lik lr μ e)) (itersSub n b)

end ZhuSuan.SgldLoop

import Verif.Model.ExampleUtils
import Verif.Model.MinibatchVi
import Verif.Model.Sgmcmc

/-!
# Model: the Bayesian neural net that is sampled with SGHMC

`examples/bayesian_neural_nets/bnn_sgmcmc.py`: the net has the same layers as the one of `bnn_vi.py` (`Minibatch.yMean`), the standard
deviations of the weights are estimated from the samples after every epoch.  Gradients are derivatives of the log joint; where a `relu` is at its
kink TensorFlow takes 0 for its slope.  Not modelled: loading and printing.
-/

set_option autoImplicit false

namespace ZhuSuan.BnnSg

open ZhuSuan.Minibatch ZhuSuan.Sgmcmc

variable {L K : ℕ} {sizes : ℕ → ℕ}

/-- The components of the variable of layer `l`: particle, output, input.  (bnn_sgmcmc.py 66–70) -/
abbrev Idx (K : ℕ) {L : ℕ} (sizes : ℕ → ℕ) (l : Fin L) : Type := Fin K × Fin (sizes (l + 1)) × Fin (sizes l + 1)

/-- The weights of particle `k`: `w[k]` of every layer.  (bnn_sgmcmc.py 23–28: `einsum("imk,ijk->ijm", w, h)` uses row `i` of both) -/
def particle (w : Lat (Idx K (L := L) sizes)) (k : Fin K) : Wt L sizes → ℝ := fun j => w j.1 (k, j.2.1, j.2.2)

/-- `tf.add_n(bn.cond_log_prob(w_names))` of one particle.  (bnn_sgmcmc.py 24–25, 75–77) -/
noncomputable def logPrior (logstds : Wt L sizes → ℝ) (w : Wt L sizes → ℝ) : ℝ := ∑ j, Uni.Normal.logProb 0 (logstds j) (w j)

/-- `bn.cond_log_prob('y')` of one row and one particle, with `y_logstd = -0.95`.  (bnn_sgmcmc.py 33–35, 76) -/
noncomputable def logLik (hL : sizes L = 1) (d : (Fin (sizes 0) → ℝ) × ℝ) (w : Wt L sizes → ℝ) : ℝ :=
  Uni.Normal.logProb (yMean hL w d.1) (-0.95) d.2

/-- `log_joint` of one particle for the fed rows; `n` is `n_train`.  (bnn_sgmcmc.py 74–79) -/
noncomputable def logJoint (hL : sizes L = 1) (n : ℕ) (logstds : Wt L sizes → ℝ) (fed : List ((Fin (sizes 0) → ℝ) × ℝ)) (w : Wt L sizes → ℝ) : ℝ :=
  Minibatch.logJoint n (logPrior logstds) (logLik hL) fed w

open Classical in
/-- Component `i` of variable `l` replaced. -/
noncomputable def setEntry (w : Lat (Idx K (L := L) sizes)) (l : Fin L) (i : Idx K sizes l) (u : ℝ) : Lat (Idx K (L := L) sizes) :=
  Function.update w l (Function.update (w l) i u)

/-- `tf.gradients(log_joint, qs)` where the log joint has one value per particle: the gradient of their sum.  `f` is the log joint of one particle.
(sgmcmc.py 92–98; TensorFlow) -/
noncomputable def grads (f : (Wt L sizes → ℝ) → ℝ) (w : Lat (Idx K (L := L) sizes)) : Lat (Idx K (L := L) sizes) := fun l i =>
  deriv (fun u => ∑ k, f (particle (setEntry w l i u) k)) (w l i)

/-- The weights and momenta of all layers.  (bnn_sgmcmc.py 68–69; sgmcmc.py 320–324) -/
abbrev Chain (K L : ℕ) (sizes : ℕ → ℕ) := (l : Fin L) → HState (Idx K sizes l)

/-- What one run of `sample_op` gets from outside: the fed rows, which momenta are drawn anew, and the normal draws.
(bnn_sgmcmc.py 122–126; sgmcmc.py 326–342) -/
structure Input (K L : ℕ) (sizes : ℕ → ℕ) where
  fed : List ((Fin (sizes 0) → ℝ) × ℝ)
  now : Fin L → Bool
  r : Lat (Idx K (L := L) sizes)
  z : Lat (Idx K (L := L) sizes)

/-- One run of `sample_op` with `zs.SGHMC(learning_rate=2e-6, friction=0.2, second_order=True)`; the numbers are arguments.
(bnn_sgmcmc.py 82–83, 90–91, 125–126) -/
noncomputable def sampleOp (hL : sizes L = 1) (lr alpha : ℝ) (n : ℕ) (logstds : Wt L sizes → ℝ) (a : Input K L sizes) (s : Chain K L sizes) :
    Chain K L sizes :=
  fun l => sghmc2 lr alpha 0 (grads (logJoint hL n logstds a.fed)) a.now a.r a.z l s

/-- The runs of one epoch.  (bnn_sgmcmc.py 122–126) -/
noncomputable def runs (hL : sizes L = 1) (lr alpha : ℝ) (n : ℕ) (logstds : Wt L sizes → ℝ) (l : List (Input K L sizes)) (s : Chain K L sizes) :
    Chain K L sizes :=
  l.foldl (fun s a => sampleOp hL lr alpha n logstds a s) s

/-- The weights of a chain.  (bnn_sgmcmc.py 68–69) -/
def Chain.q (s : Chain K L sizes) : Lat (Idx K (L := L) sizes) := fun l => (s l).q

/-- `esti_logstds`: `0.5*tf.log(tf.reduce_mean(w*w, axis=0))` for every layer.  (bnn_sgmcmc.py 95) -/
noncomputable def mStep (w : Lat (Idx K (L := L) sizes)) : Wt L sizes → ℝ := fun j =>
  0.5 * Real.log ((∑ k, particle w k j * particle w k j) / K)

/-- `output_logstds[w_l]`: `0.5*tf.log(tf.reduce_mean(w*w))`.  (bnn_sgmcmc.py 96–97) -/
noncomputable def outputLogstd (w : Lat (Idx K (L := L) sizes)) (l : Fin L) : ℝ :=
  0.5 * Real.log ((∑ i, w l i * w l i) / Fintype.card (Idx K sizes l))

/-- What a session holds besides the data: the chain and the variables `logstds`.  (bnn_sgmcmc.py 64–70) -/
structure State (K L : ℕ) (sizes : ℕ → ℕ) where
  chain : Chain K L sizes
  logstds : Wt L sizes → ℝ

/-- An epoch: the runs with the old `logstds`, then `assign_op`.  `draws t` are the flags and draws of iteration `t`; `data` has been permuted.
(bnn_sgmcmc.py 118–128) -/
noncomputable def epoch {n : ℕ} (hL : sizes L = 1) (lr alpha : ℝ) (b : ℕ) (data : Arrays n (Fin (sizes 0) → ℝ) ℝ)
    (draws : ℕ → (Fin L → Bool) × Lat (Idx K (L := L) sizes) × Lat (Idx K (L := L) sizes)) (s : State K L sizes) : State K L sizes :=
  let chain := runs hL lr alpha n s.logstds
    ((List.range (itersSub n b)).map fun t => ⟨data.feed b t, (draws t).1, (draws t).2.1, (draws t).2.2⟩) s.chain
  ⟨chain, mStep chain.q⟩

/-- `y_pred`: the mean over the particles.  (bnn_sgmcmc.py 103–105, 130) -/
noncomputable def yPred (hL : sizes L = 1) (w : Lat (Idx K (L := L) sizes)) (x : Fin (sizes 0) → ℝ) : ℝ :=
  (∑ k, yMean hL (particle w k) x) / K

/-- `preds[-m:]`; `-0` is `0`, so that `m = 0` takes all.  (Python; bnn_sgmcmc.py 132) -/
def lastPreds {P : Type} (m : ℕ) (preds : List P) : List P := if m = 0 then preds else preds.drop (preds.length - m)

/-- `pred = np.mean(preds[-epochs_ave_pred:], axis=0)` for one test row.  (bnn_sgmcmc.py 131–132) -/
noncomputable def avePred (m : ℕ) (preds : List ℝ) : ℝ := mean (lastPreds m preds)

/-- `np.sqrt(np.mean((pred - y_test) ** 2)) * std_y_train`, where `y_test` and `std_y_train` come from `standardize`.  (bnn_sgmcmc.py 51–53, 134) -/
noncomputable def testRmse {n m : ℕ} (yTrain : Fin n → ℝ) (yTest : Fin m → ℝ) (pred : Fin m → ℝ) : ℝ :=
  let s := ExUtils.standardize (d := 1) (fun i _ => yTrain i) fun i _ => yTest i
  Real.sqrt ((∑ i, (pred i - s.test i 0) ^ 2) / m) * s.std 0

end ZhuSuan.BnnSg

import Mathlib.Analysis.SpecialFunctions.Sqrt
import Verif.Model.Estimators
import Verif.Model.Minibatch
import Verif.Model.Univariate

/-!
# Variational inference on minibatches

`examples/bayesian_neural_nets/bnn_vi.py`: a Bayesian neural net with normal weights, a mean field variational
distribution, and the evidence lower bound computed from a batch.  Parameters (`y_logstd`, `w_mean_i`, `w_logstd_i`) are
real numbers that the caller gives.  Not modelled: the optimizer, sessions, printing.
-/

set_option autoImplicit false

namespace ZhuSuan.Minibatch

/-! ## The objective -/

/-- `lower_bound = zs.variational.elbo(model, {'y': y}, variational=variational, axis=0)` when `log_joint` is set to the function of
the scripts: `logq` is the log probability of the variational net, `w k` the sample of particle `k`.  (bnn_vi.py 83–91;
variational/exclusive_kl.py 131–137) -/
noncomputable def lowerBound {D W : Type} {K : ℕ} (n : ℕ) (prior : W → ℝ) (lik : D → W → ℝ) (logq : W → ℝ) (fed : List D)
    (w : Fin K → W) : ℝ :=
  (Grad.elboObjective (fun k => .const (logJoint n prior lik fed (w k))) (fun k => .const (logq (w k)))).val

/-! ## The net -/

/-- The entries of all the weights: `w_i` has shape `[layer_sizes[i + 1], layer_sizes[i] + 1]` (for each particle).  `L` is the number
of layers, `len(layer_sizes) - 1`.  (bnn_vi.py 22–24, 41–49) -/
abbrev Wt (L : ℕ) (sizes : ℕ → ℕ) : Type := Σ l : Fin L, Fin (sizes (l + 1)) × Fin (sizes l + 1)

/-- Entry `(m, k)` of `w_l`; zero if there is no such layer.  (bnn_vi.py 23–24) -/
def wAt {L : ℕ} {sizes : ℕ → ℕ} (w : Wt L sizes → ℝ) (l : ℕ) (m : Fin (sizes (l + 1))) (k : Fin (sizes l + 1)) : ℝ :=
  if h : l < L then w ⟨⟨l, h⟩, m, k⟩ else 0

/-- `h` before layer `l`, for one row of `x` and one particle: append a one, multiply with the weights, divide by the root of the number
of inputs, and apply `relu` in all layers but the last.  (bnn_vi.py 21–29) -/
noncomputable def hidden {L : ℕ} {sizes : ℕ → ℕ} (w : Wt L sizes → ℝ) (x : Fin (sizes 0) → ℝ) : (l : ℕ) → Fin (sizes l) → ℝ
  | 0 => x
  | l + 1 => fun m =>
    let h : Fin (sizes l + 1) → ℝ := Fin.snoc (hidden w x l) 1
    let a := (∑ k, wAt w l m k * h k) / Real.sqrt (sizes l + 1 : ℕ)
    if l + 1 < L then max a 0 else a

/-- `y_mean = tf.squeeze(h, 2)`: the last layer has one output.  (bnn_vi.py 31) -/
noncomputable def yMean {L : ℕ} {sizes : ℕ → ℕ} (hL : sizes L = 1) (w : Wt L sizes → ℝ) (x : Fin (sizes 0) → ℝ) : ℝ :=
  hidden w x L ⟨0, by omega⟩

/-- `tf.add_n(log_pws)`.  (bnn_vi.py 23–24, 84, 86) -/
noncomputable def logPrior {L : ℕ} {sizes : ℕ → ℕ} (w : Wt L sizes → ℝ) : ℝ := ∑ j, Uni.Normal.logProb 0 (Real.log 1) (w j)

/-- `log_py_xw` of one row.  (bnn_vi.py 34, 85) -/
noncomputable def logLik {L : ℕ} {sizes : ℕ → ℕ} (hL : sizes L = 1) (yLogstd : ℝ) (d : (Fin (sizes 0) → ℝ) × ℝ) (w : Wt L sizes → ℝ) :
    ℝ :=
  Uni.Normal.logProb (yMean hL w d.1) yLogstd d.2

/-- The sum of the log probabilities of the variational net.  (bnn_vi.py 41–49; variational/base.py 177–183) -/
noncomputable def logQ {L : ℕ} {sizes : ℕ → ℕ} (wMean wLogstd : Wt L sizes → ℝ) (w : Wt L sizes → ℝ) : ℝ :=
  ∑ j, Uni.Normal.logProb (wMean j) (wLogstd j) (w j)

/-- The samples of the variational net from standard normal draws.  (bnn_vi.py 48–49; distributions/univariate.py 161–172) -/
noncomputable def sampleQ {L : ℕ} {sizes : ℕ → ℕ} (wMean wLogstd : Wt L sizes → ℝ) (z : Wt L sizes → ℝ) (j : Wt L sizes) : ℝ :=
  Uni.Normal.sample (wMean j) (Real.exp (wLogstd j)) (z j)

/-- The value of `lower_bound` in iteration `t` of an epoch.  (bnn_vi.py 117–128) -/
noncomputable def bnnBound {L n K : ℕ} {sizes : ℕ → ℕ} (hL : sizes L = 1) (yLogstd : ℝ) (wMean wLogstd : Wt L sizes → ℝ) (b t : ℕ)
    (s : Arrays n (Fin (sizes 0) → ℝ) ℝ) (z : Fin K → Wt L sizes → ℝ) : ℝ :=
  lowerBound n logPrior (logLik hL yLogstd) (logQ wMean wLogstd) (s.feed b t) fun k => sampleQ wMean wLogstd (z k)

end ZhuSuan.Minibatch

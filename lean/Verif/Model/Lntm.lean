import Verif.Model.Ais
import Verif.Model.Num
import Verif.Model.Pmf

/-!
# Topic model with Monte Carlo EM

`examples/topic_models/lntm_mcem.py`.  `K + 1` topics, `V + 1` words, batches of `b` documents, chains `Ch`.  Numbers are real.
`tf.train.AdamOptimizer` is an arbitrary function of the learning rate, the gradient, its own variables and `beta`.  Not modelled:
loading the data, the output of the topics, and printing except for the perplexities.
-/

set_option autoImplicit false

namespace ZhuSuan.Lntm

variable {K V m b : ℕ} {Ch : Type} [Fintype Ch]

/-! ## The net -/

/-- `tf.nn.softmax` over the last axis.  (TensorFlow primitive; lntm_mcem.py 39, 42) -/
noncomputable def softmax {n : ℕ} (z : Fin (n + 1) → ℝ) (k : Fin (n + 1)) : ℝ := Real.exp (z k) / ∑ j, Real.exp (z j)

/-- `doc_word` of one chain and document: `theta` times `phi`.  (lntm_mcem.py 39, 42–45) -/
noncomputable def docWord (beta : Fin (K + 1) → Fin (V + 1) → ℝ) (eta : Fin (K + 1) → ℝ) (v : Fin (V + 1)) : ℝ :=
  ∑ k, softmax eta k * softmax (beta k) v

/-- `bn.cond_log_prob('x')` of one chain and document.  (lntm_mcem.py 46–47) -/
noncomputable def logPx (beta : Fin (K + 1) → Fin (V + 1) → ℝ) (x : Fin (V + 1) → ℝ) (eta : Fin (K + 1) → ℝ) : ℝ :=
  Num.unnormalizedMultinomialLogProb false (fun v => Real.log (docWord beta eta v)) x

/-- `bn.cond_log_prob('eta')` of one chain and document.  (lntm_mcem.py 36–38) -/
noncomputable def logPeta (mean logstd : Fin (K + 1) → ℝ) (eta : Fin (K + 1) → ℝ) : ℝ :=
  ∑ k, Uni.Normal.logProb (mean k) (logstd k) (eta k)

/-- `bn.cond_log_prob('beta')` of one topic; `logDelta` is `log_delta`.  (lntm_mcem.py 40–41) -/
noncomputable def logPbeta (logDelta : ℝ) (beta : Fin (V + 1) → ℝ) : ℝ := ∑ v, Uni.Normal.logProb 0 logDelta (beta v)

/-- `e_obj`, the log joint of the E step, of one chain and document.  (lntm_mcem.py 97–98) -/
noncomputable def eObj (mean logstd : Fin (K + 1) → ℝ) (beta : Fin (K + 1) → Fin (V + 1) → ℝ) (x : Fin (V + 1) → ℝ)
    (eta : Fin (K + 1) → ℝ) : ℝ := logPeta mean logstd eta + logPx beta x eta

/-! ## The data -/

/-- The padding with empty documents.  (lntm_mcem.py 75–78) -/
def pad (batchSize : ℕ) (X : List (Fin (V + 1) → ℝ)) : List (Fin (V + 1) → ℝ) :=
  let rem := batchSize - X.length % batchSize
  if rem < batchSize then X ++ List.replicate rem (fun _ => 0) else X

/-- Row `j` of the slice `[t * batch_size: (t + 1) * batch_size]`.  (lntm_mcem.py 158–159) -/
def rowOf (t : Fin m) (j : Fin b) : Fin (m * b) :=
  ⟨t * b + j, calc t * b + j < t * b + b := Nat.add_lt_add_left j.isLt _
    _ = (t + 1) * b := (Nat.succ_mul _ _).symm
    _ ≤ m * b := Nat.mul_le_mul_right _ t.isLt⟩

/-- `Eta[:, t*batch_size: (t+1)*batch_size, :] = new_eta`.  (lntm_mcem.py 172–173) -/
def writeBack (Eta : Ch → Fin (m * b) → Fin (K + 1) → ℝ) (t : Fin m) (newEta : Ch → Fin b → Fin (K + 1) → ℝ) (c : Ch)
    (i : Fin (m * b)) : Fin (K + 1) → ℝ :=
  if h : i / b = t then newEta c ⟨i % b, Nat.mod_lt _ (Nat.pos_of_ne_zero fun e => by subst e; exact absurd i.isLt (by simp))⟩
  else Eta c i

/-! ## The E step -/

/-- The runs of `sample_op` for one batch, each with its own random numbers; `h` has the variables of HMC, with `eta` assigned by
`init_eta_ph`.  `none` if a run fails.  (lntm_mcem.py 100–105, 161–170) -/
noncomputable def eStep (cfg : Hmc.Cfg ℝ) (feed : Hmc.Feed) (mean logstd : Fin (K + 1) → ℝ) (beta : Fin (K + 1) → Fin (V + 1) → ℝ)
    (x : Fin b → Fin (V + 1) → ℝ) (h : Hmc.State ℝ (Ch × Fin b) (Fin (K + 1))) (numESteps : ℕ)
    (w : Fin numESteps → (Ch × Fin b → Fin (K + 1) → ℝ) × (Ch × Fin b → ℝ)) : Option (Hmc.State ℝ (Ch × Fin b) (Fin (K + 1))) :=
  Hmc.runs cfg (fun q c => eObj mean logstd beta (x c.2) (q c))
    (Pmf.gradients fun q c => eObj mean logstd beta (x c.2) (q c)) feed h numESteps w

/-! ## The M step -/

/-- `log_px` of the M step: summed over the documents after `tf.reduce_mean(log_px, axis=0)`.  (lntm_mcem.py 107–110) -/
noncomputable def logPxBatch (x : Fin b → Fin (V + 1) → ℝ) (eta : Ch → Fin b → Fin (K + 1) → ℝ)
    (beta : Fin (K + 1) → Fin (V + 1) → ℝ) : ℝ :=
  ∑ d, (∑ c, logPx beta (x d) (eta c d)) / Fintype.card Ch

/-- `log_joint_beta`.  (lntm_mcem.py 107–111) -/
noncomputable def logJointBeta (logDelta : ℝ) (x : Fin b → Fin (V + 1) → ℝ) (eta : Ch → Fin b → Fin (K + 1) → ℝ)
    (beta : Fin (K + 1) → Fin (V + 1) → ℝ) : ℝ :=
  ∑ k, logPbeta logDelta (beta k) + logPxBatch x eta beta

/-- The gradient of a function of `beta`.  (`tf.gradients`, called by the optimizer; lntm_mcem.py 114) -/
noncomputable def gradBeta (f : (Fin (K + 1) → Fin (V + 1) → ℝ) → ℝ) (beta : Fin (K + 1) → Fin (V + 1) → ℝ) (k : Fin (K + 1))
    (v : Fin (V + 1)) : ℝ :=
  deriv (fun y => f (Function.update beta k (Function.update (beta k) v y))) (beta k v)

/-! ## The update of the hyper-parameters -/

/-- `np.mean(Eta, axis=(0, 1))`.  (lntm_mcem.py 185) -/
noncomputable def npMean {n : ℕ} (Eta : Ch → Fin n → Fin (K + 1) → ℝ) (k : Fin (K + 1)) : ℝ :=
  (∑ c, ∑ i, Eta c i k) / (Fintype.card Ch * n : ℕ)

/-- `np.std(Eta, axis=(0, 1))`.  (lntm_mcem.py 186) -/
noncomputable def npStd {n : ℕ} (Eta : Ch → Fin n → Fin (K + 1) → ℝ) (k : Fin (K + 1)) : ℝ :=
  Real.sqrt ((∑ c, ∑ i, (Eta c i k - npMean Eta k) ^ 2) / (Fintype.card Ch * n : ℕ))

/-- `Eta_logstd`.  (lntm_mcem.py 186) -/
noncomputable def etaLogstd {n : ℕ} (Eta : Ch → Fin n → Fin (K + 1) → ℝ) (k : Fin (K + 1)) : ℝ :=
  Real.log (npStd Eta k + 1e-6)

/-! ## The training loop -/

/-- The constants of the script.  `optimizer lr grad (variables, beta)` is what `infer` does.  (lntm_mcem.py 30, 62–73, 112–114) -/
structure Script (K V : ℕ) (O : Type) where
  cfg : Hmc.Cfg ℝ
  feed : Hmc.Feed
  logDelta : ℝ
  numESteps : ℕ
  learningRate0 : ℝ
  t0 : ℝ
  optimizer : ℝ → (Fin (K + 1) → Fin (V + 1) → ℝ) → O × (Fin (K + 1) → Fin (V + 1) → ℝ) → O × (Fin (K + 1) → Fin (V + 1) → ℝ)

/-- The arrays and variables of the script.  (lntm_mcem.py 59, 80–95) -/
structure Vars (Ch : Type) (K V m b : ℕ) (O : Type) where
  X : Fin (m * b) → Fin (V + 1) → ℝ
  Eta : Ch → Fin (m * b) → Fin (K + 1) → ℝ
  mean : Fin (K + 1) → ℝ
  logstd : Fin (K + 1) → ℝ
  beta : Fin (K + 1) → Fin (V + 1) → ℝ
  hmc : Hmc.State ℝ (Ch × Fin b) (Fin (K + 1))
  opt : O

/-- The random numbers of the E step of one batch.  (lntm_mcem.py 163–170) -/
abbrev Noise (Ch : Type) (K b e : ℕ) : Type := Fin e → (Ch × Fin b → Fin (K + 1) → ℝ) × (Ch × Fin b → ℝ)

variable {O : Type}

/-- Batch `t` of an epoch: E step, write back, M step.  (lntm_mcem.py 157–182) -/
noncomputable def batchStep (S : Script K V O) (lr : ℝ) (t : ℕ) (w : Noise Ch K b S.numESteps) (s : Vars Ch K V m b O) :
    Option (Vars Ch K V m b O) :=
  if ht : t < m then do
    let x : Fin b → Fin (V + 1) → ℝ := fun j => s.X (rowOf ⟨t, ht⟩ j)
    let h ← eStep S.cfg S.feed s.mean s.logstd s.beta x { s.hmc with q := fun c => s.Eta c.1 (rowOf ⟨t, ht⟩ c.2) } S.numESteps w
    let eta : Ch → Fin b → Fin (K + 1) → ℝ := fun c j => h.q (c, j)
    let ob := S.optimizer lr (gradBeta (fun beta => -logJointBeta S.logDelta x eta beta) s.beta) (s.opt, s.beta)
    some { s with Eta := writeBack s.Eta ⟨t, ht⟩ eta, hmc := h, opt := ob.1, beta := ob.2 }
  else none

/-- The learning rate of epoch `epoch`, counted from one.  (lntm_mcem.py 150) -/
noncomputable def learningRate (S : Script K V O) (epoch : ℕ) : ℝ := S.learningRate0 * (S.t0 / (S.t0 + epoch)) ^ 2

/-- `X_train = X_train[perm, :]; Eta = Eta[:, perm, :]`.  (lntm_mcem.py 151–154) -/
def shuffle (perm : Equiv.Perm (Fin (m * b))) (s : Vars Ch K V m b O) : Vars Ch K V m b O :=
  { s with X := fun i => s.X (perm i), Eta := fun c i => s.Eta c (perm i) }

/-- One epoch; `epoch` counts from zero here.  (lntm_mcem.py 148–186) -/
noncomputable def epoch (S : Script K V O) (epoch : ℕ) (w : Equiv.Perm (Fin (m * b)) × (Fin m → Noise Ch K b S.numESteps))
    (s : Vars Ch K V m b O) : Option (Vars Ch K V m b O) := do
  let s ← Pmf.loop (batchStep S (learningRate S (epoch + 1))) (shuffle w.1 s) m w.2
  some { s with mean := npMean s.Eta, logstd := etaLogstd s.Eta }

/-- The training loop.  (lntm_mcem.py 148–186) -/
noncomputable def train (S : Script K V O) (s : Vars Ch K V m b O) (k : ℕ)
    (w : Fin k → Equiv.Perm (Fin (m * b)) × (Fin m → Noise Ch K b S.numESteps)) : Option (Vars Ch K V m b O) :=
  Pmf.loop (epoch S) s k w

/-! ## The evaluation -/

/-- What is printed as the upper bound of the perplexity of the test documents `x`; `llLb` is what `ais.run` returns.
(lntm_mcem.py 215–219) -/
noncomputable def perplexityBound {n : ℕ} (x : Fin n → Fin (V + 1) → ℝ) (llLb : ℝ) : ℝ :=
  Real.exp (-llLb * n / ∑ d, ∑ v, x d v)

/-- The weights of `ais.run`: `Model/Ais.lean`, `AIS.run`, with the log joint `e_obj`, the log joint of the proposal
`bn.cond_log_prob('eta')` and the sampler of the evaluation.  (lntm_mcem.py 120–142, 209–213) -/
noncomputable def aisWeights {n : ℕ} (cfg : Hmc.Cfg ℝ) (feed : Hmc.Feed) (mean logstd : Fin (K + 1) → ℝ)
    (beta : Fin (K + 1) → Fin (V + 1) → ℝ) (x : Fin n → Fin (V + 1) → ℝ) (nTemp nAdapt : ℕ)
    (s : Hmc.State ℝ (Ch × Fin n) (Fin (K + 1))) (draw1 draw2 : Ch × Fin n → Fin (K + 1) → ℝ)
    (adaptNoise : Noise Ch K n nAdapt) (noise : Noise Ch K n nTemp) : Option (Ch × Fin n → ℝ) :=
  let logPrior : (Ch × Fin n → Fin (K + 1) → ℝ) → Ch × Fin n → ℝ := fun q c => logPeta mean logstd (q c)
  let logJoint : (Ch × Fin n → Fin (K + 1) → ℝ) → Ch × Fin n → ℝ := fun q c => eObj mean logstd beta (x c.2) (q c)
  Ais.logWeights (Ais.hmcOp cfg feed logPrior logJoint fun t => Pmf.gradients (Ais.logFn logPrior logJoint t))
    (fun q s => { s with q := q }) (fun s c => Ais.logFn logPrior logJoint 0 s.q c) nTemp nAdapt s draw1 draw2 adaptNoise noise

end ZhuSuan.Lntm

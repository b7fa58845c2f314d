import Verif.Model.Ssl

/-!
# The semi-supervised autoencoder with adaptive importance sampling

`examples/semi_supervised_vae/vae_ssl_adaptive_is.py`.  The networks are those of `vae_ssl.py` (Ssl).  The model is trained with the importance
weighted objective, the proposal with the `importance` cost of the inclusive divergence; the class of an unlabeled image is drawn once and shared by
its particles, because `bn.onehot_categorical("y", y_logits)` has no `n_samples`.  Values have a derivative in the direction of a change of the
variables; that of the outputs of the networks is given by the caller.  Not modelled: the optimizer, the accuracy, sessions and printing.
-/

set_option autoImplicit false

namespace ZhuSuan.SslIs

open Vae Num Ssl

section
variable {zd C h1 h2 k1 k2 c1 c2 xd K n : ℕ}

/-- A change of the variables: the derivatives of `y_logits`, `z_mean` and `z_logstd` for every image and class.  (TensorFlow primitive;
vae_ssl_adaptive_is.py 35–50) -/
structure Dir (zd C xd : ℕ) where
  logits : (Fin xd → Bool) → Fin C → ℝ
  mean : (Fin xd → Bool) → Fin C → Fin zd → ℝ
  logstd : (Fin xd → Bool) → Fin C → Fin zd → ℝ

/-- The derivative of the log probability of the normal distribution with fixed samples.  (TensorFlow primitive; distributions/univariate.py 174–182;
vae_ssl_adaptive_is.py 56–57, 66–67: `is_reparameterized=False`) -/
noncomputable def logNormalsDer (mean logstd dMean dLogstd z : Fin zd → ℝ) : ℝ :=
  ∑ j, (-dLogstd j + Real.exp (-2 * logstd j) * ((z j - mean j) * dMean j + (z j - mean j) ^ 2 * dLogstd j))

/-- The derivative of the log probability of a class.  (TensorFlow primitive; distributions/multivariate.py 542–561) -/
noncomputable def onehotDer (logits dLogits : Fin (C + 1) → ℝ) (y : Fin (C + 1)) : ℝ := dLogits y - ∑ j, Ssl.softmax logits j * dLogits j

/-- The samples of `z` of the particles, given the class.  (vae_ssl_adaptive_is.py 55–57, 65–67) -/
noncomputable def samples (q : Qz xd C k1 k2 zd) (x : Fin xd → Bool) (y : Fin C) (e : Fin K → Fin zd → ℝ) : Fin K → Fin zd → ℝ :=
  fun k => draw (q.mean x y) (q.logstd x y) (e k)

/-- The log probability of the samples of `z` under the proposal.  (vae_ssl_adaptive_is.py 55–57, 65–67) -/
noncomputable def logQz (q : Qz xd C k1 k2 zd) (d : Dir zd C xd) (x : Fin xd → Bool) (y : Fin C) (z : Fin zd → ℝ) : Grad.Dual :=
  ⟨logNormals (q.mean x y) (q.logstd x y) z, logNormalsDer (q.mean x y) (q.logstd x y) (d.mean x y) (d.logstd x y) z⟩

/-- The log probability of the class under the proposal.  (vae_ssl_adaptive_is.py 63–64) -/
noncomputable def logQy (qy : Qy xd c1 c2 (C + 1)) (d : Dir zd (C + 1) xd) (x : Fin xd → Bool) (y : Fin (C + 1)) : Grad.Dual :=
  ⟨onehotLogProb (qy.logits (pixels x)) (oneHot y), onehotDer (qy.logits (pixels x)) (d.logits x) y⟩

/-- `importance_weighted_objective` of one labeled image.  (vae_ssl_adaptive_is.py 109–112) -/
noncomputable def labeledIw (g : Gen zd (C + 1) h1 h2 xd) (q : Qz xd (C + 1) k1 k2 zd) (x : Fin xd → Bool) (y : Fin (C + 1))
    (e : Fin (K + 1) → Fin zd → ℝ) : ℝ :=
  (Grad.iwObjective (fun k => .const (g.logJoint x y (samples q x y e k)))
    (fun k => .const (logNormals (q.mean x y) (q.logstd x y) (samples q x y e k)))).val

/-- `importance_weighted_objective` of one unlabeled image; `y` is the class drawn for it.  (vae_ssl_adaptive_is.py 131–134) -/
noncomputable def unlabeledIw (g : Gen zd (C + 1) h1 h2 xd) (q : Qz xd (C + 1) k1 k2 zd) (qy : Qy xd c1 c2 (C + 1)) (x : Fin xd → Bool)
    (y : Fin (C + 1)) (e : Fin (K + 1) → Fin zd → ℝ) : ℝ :=
  (Grad.iwObjective (fun k => .const (g.logJoint x y (samples q x y e k)))
    (fun k => .const (onehotLogProb (qy.logits (pixels x)) (oneHot y) + logNormals (q.mean x y) (q.logstd x y) (samples q x y e k)))).val

/-- `labeled_klpq_obj.importance()` of one image.  (vae_ssl_adaptive_is.py 101–106) -/
noncomputable def labeledQ (g : Gen zd (C + 1) h1 h2 xd) (q : Qz xd (C + 1) k1 k2 zd) (d : Dir zd (C + 1) xd) (x : Fin xd → Bool) (y : Fin (C + 1))
    (e : Fin (K + 1) → Fin zd → ℝ) : Grad.Dual :=
  Grad.importanceCost (fun k => .const (g.logJoint x y (samples q x y e k))) (fun k => logQz q d x y (samples q x y e k))

/-- `unlabeled_klpq_obj.importance()` of one image; `y` is the class drawn for it.  (vae_ssl_adaptive_is.py 123–128) -/
noncomputable def unlabeledQ (g : Gen zd (C + 1) h1 h2 xd) (q : Qz xd (C + 1) k1 k2 zd) (qy : Qy xd c1 c2 (C + 1)) (d : Dir zd (C + 1) xd)
    (x : Fin xd → Bool) (y : Fin (C + 1)) (e : Fin (K + 1) → Fin zd → ℝ) : Grad.Dual :=
  Grad.importanceCost (fun k => .const (g.logJoint x y (samples q x y e k))) (fun k => logQy qy d x y + logQz q d x y (samples q x y e k))

/-- `labeled_lower_bound`.  (vae_ssl_adaptive_is.py 109–112) -/
noncomputable def labeledBound (g : Gen zd (C + 1) h1 h2 xd) (q : Qz xd (C + 1) k1 k2 zd) (x : Fin n → Fin xd → Bool) (y : Fin n → Fin (C + 1))
    (e : Fin n → Fin (K + 1) → Fin zd → ℝ) : ℝ := (∑ i, labeledIw g q (x i) (y i) (e i)) / n

/-- `unlabeled_lower_bound`.  (vae_ssl_adaptive_is.py 131–134) -/
noncomputable def unlabeledBound (g : Gen zd (C + 1) h1 h2 xd) (q : Qz xd (C + 1) k1 k2 zd) (qy : Qy xd c1 c2 (C + 1)) (x : Fin n → Fin xd → Bool)
    (noise : Fin n → Fin (C + 1) × (Fin (K + 1) → Fin zd → ℝ)) : ℝ := (∑ i, unlabeledIw g q qy (x i) (noise i).1 (noise i).2) / n

/-- `classifier_cost`.  (vae_ssl_adaptive_is.py 143–145) -/
noncomputable def classifierCost (qy : Qy xd c1 c2 (C + 1)) (d : Dir zd (C + 1) xd) (beta : ℝ) (x : Fin n → Fin xd → Bool) (y : Fin n → Fin (C + 1)) :
    Grad.Dual := .const (-beta) * Grad.reduceMean fun i => logQy qy d (x i) (y i)

/-- `proposal_cost`; `x, y, e` belong to the labeled images, `x', noise` to the unlabeled ones.  (vae_ssl_adaptive_is.py 148) -/
noncomputable def proposalCost {n' : ℕ} (g : Gen zd (C + 1) h1 h2 xd) (q : Qz xd (C + 1) k1 k2 zd) (qy : Qy xd c1 c2 (C + 1)) (d : Dir zd (C + 1) xd)
    (beta : ℝ) (x : Fin n → Fin xd → Bool) (y : Fin n → Fin (C + 1)) (e : Fin n → Fin (K + 1) → Fin zd → ℝ) (x' : Fin n' → Fin xd → Bool)
    (noise : Fin n' → Fin (C + 1) × (Fin (K + 1) → Fin zd → ℝ)) : Grad.Dual :=
  (Grad.reduceMean fun i => labeledQ g q d (x i) (y i) (e i)) + (Grad.reduceMean fun i => unlabeledQ g q qy d (x' i) (noise i).1 (noise i).2) +
    classifierCost qy d beta x y

end

end ZhuSuan.SslIs

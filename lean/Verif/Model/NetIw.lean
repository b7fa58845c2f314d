import Verif.Model.VObjective
import Verif.Model.Estimators

/-!
# The importance weighted objective built from two nets

`ImportanceWeightedObjective` (`zhusuan/variational/monte_carlo.py` 124–141), `is_loglikelihood`
(`zhusuan/evaluation.py` 20–54) and the elbo with a sample axis (`zhusuan/variational/exclusive_kl.py` 131–137),
on top of `Model/VObjective.lean`.  `K + 1` is the size of the sample axis.  A world `ω k` gives the draws
belonging to index `k` of the sample axis, and every node is drawn along that axis.  Log probabilities are
extended reals; the reductions over the sample axis are those of `Model/Estimators.lean` on their real values.
-/

set_option autoImplicit false

namespace ZhuSuan.VObj
open ZhuSuan.BN ZhuSuan.Grad

variable {V W : Type}

/-- `log_w = self._log_joint_term() + self._entropy_term()` (monte_carlo.py 138, exclusive_kl.py 196,
inclusive_kl.py 136).  Without latent variables `_entropy_term()` is `None`, which TensorFlow refuses to add
("None values not supported"). -/
noncomputable def logWeight (logJoint : W → EReal) (v : VObj V (W → EReal)) : Except Err (W → EReal) :=
  match entropyTerm v with
  | none => .error .valueError
  | some h => .ok (logJoint + h)

/-- `ImportanceWeightedObjective(...).tensor`: a missing `axis` is refused (monte_carlo.py 126–129), and
`_objective` is the log mean exp of the weights over the axis (monte_carlo.py 137–141). -/
noncomputable def iwTensor (axis : Option ℕ) {K : ℕ} (logJoint : W → EReal) (v : VObj V (W → EReal)) :
    Except Err ((Fin (K + 1) → W) → ℝ) :=
  match axis with
  | none => .error .valueError
  | some _ =>
    match logWeight logJoint v with
    | .error e => .error e
    | .ok lw => .ok (fun ω => (logMeanExp (fun k => Dual.const (lw (ω k)).toReal)).val)

/-- `is_loglikelihood(meta_bn, observed, proposal=..., axis=...)` (evaluation.py 49–54). -/
noncomputable def isLogLik (axis : Option ℕ) {K : ℕ} (logJoint : W → EReal) (v : VObj V (W → EReal)) :
    Except Err ((Fin (K + 1) → W) → ℝ) :=
  iwTensor axis logJoint v

/-- `EvidenceLowerBoundObjective(...).tensor` with a sample axis (exclusive_kl.py 131–137). -/
noncomputable def elboTensor {K : ℕ} (logJoint : W → EReal) (v : VObj V (W → EReal)) :
    (Fin (K + 1) → W) → ℝ :=
  fun ω => (reduceMean (fun k => Dual.const (elbo logJoint v (ω k)).toReal)).val

end ZhuSuan.VObj

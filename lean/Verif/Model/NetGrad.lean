import Verif.Model.VObjective
import Verif.Model.Estimators

/-!
# The surrogate costs built from the terms of a variational objective

`sgvb`, `reinforce`, `vimco` and `importance` (`zhusuan/variational/{exclusive_kl,monte_carlo,inclusive_kl}.py`)
from the tensors that the objective holds: the log joint `logJoint` of the model net and the log probabilities
`vLogProbs` of the variational nodes, each with its gradient.  A world `ω k` of type `W` gives the random draws
belonging to index `k` of the sample axis, which has size `K + 1`.  Reductions are those of
`Model/Estimators.lean`.  `axis` is `none` for `axis=None`; its position does not matter here.
-/

set_option autoImplicit false

namespace ZhuSuan.VObj
open ZhuSuan.BN ZhuSuan.Grad

variable {W : Type}

/-- Python's `sum` of tensors with gradients, starting from 0.  (variational/base.py 180) -/
def dualSum (l : List Dual) : Dual := l.foldl (fun a b => a + b) (Dual.const 0)

/-- `_entropy_term()` (variational/base.py 177–183), with gradients. -/
def entropyDual (vLogProbs : List (Name × (W → Dual))) : Option (W → Dual) :=
  if 0 < vLogProbs.length then some (fun w => -dualSum (vLogProbs.map (fun p => p.2 w))) else none

/-- `EvidenceLowerBoundObjective.sgvb()` with a sample axis (exclusive_kl.py 131–137, 159). -/
noncomputable def elboSgvbCost {K : ℕ} (logJoint : W → Dual) (vLogProbs : List (Name × (W → Dual)))
    (ω : Fin (K + 1) → W) : Dual :=
  match entropyDual vLogProbs with
  | some h => elboSgvb (fun k => logJoint (ω k)) (fun k => -h (ω k))
  | none => -reduceMean (fun k => logJoint (ω k))

/-- `EvidenceLowerBoundObjective.reinforce(variance_reduction, baseline)` with a sample axis (exclusive_kl.py
196–226).  Adding `_entropy_term()` to the log joint is refused when it is `None` (exclusive_kl.py 196).  The
value read from the moving mean is an argument, and so are the baseline's values for the drawn samples. -/
noncomputable def reinforceNet {K : ℕ} (varianceReduction : Bool)
    (baseline : (Fin (K + 1) → W) → Fin (K + 1) → Option Dual) (movingMean : Dual)
    (logJoint : W → Dual) (vLogProbs : List (Name × (W → Dual))) :
    Except Err ((Fin (K + 1) → W) → Dual) :=
  match entropyDual vLogProbs with
  | none => .error .valueError
  | some h => .ok (fun ω => reinforceCost varianceReduction (baseline ω) movingMean
      (fun k => logJoint (ω k)) (fun k => -h (ω k)))

/-- `ImportanceWeightedObjective(...).sgvb()` (monte_carlo.py 126–129, 137–141, 164). -/
noncomputable def iwSgvbNet {K : ℕ} (axis : Option ℕ) (logJoint : W → Dual)
    (vLogProbs : List (Name × (W → Dual))) : Except Err ((Fin (K + 1) → W) → Dual) :=
  match axis, entropyDual vLogProbs with
  | none, _ => .error .valueError
  | _, none => .error .valueError
  | some _, some h => .ok (fun ω => iwSgvb (fun k => logJoint (ω k)) (fun k => -h (ω k)))

/-- `ImportanceWeightedObjective(...).vimco()` (monte_carlo.py 126–129, 183–227), the size of the sample axis
being known when the graph is built. -/
noncomputable def vimcoNet {K : ℕ} (axis : Option ℕ) (logJoint : W → Dual)
    (vLogProbs : List (Name × (W → Dual))) : Except Err ((Fin (K + 1) → W) → Dual) :=
  match axis, entropyDual vLogProbs with
  | none, _ => .error .valueError
  | _, none => .error .valueError
  | some _, some h =>
    match vimcoCheck (some (K + 1)) (K + 1) with
    | .ok => .ok (fun ω => vimcoCost (fun k => logJoint (ω k)) (fun k => -h (ω k)))
    | _ => .error .valueError

/-- `InclusiveKLObjective(...).importance()` and its alias `rws()` (inclusive_kl.py 106–114, 137–151).  Without
a sample axis there is one sample, whose weight is 1. -/
noncomputable def importanceNet {K : ℕ} (axis : Option ℕ) (logJoint : W → Dual)
    (vLogProbs : List (Name × (W → Dual))) : Except Err ((Fin (K + 1) → W) → Dual) :=
  match entropyDual vLogProbs with
  | none => .error .valueError
  | some h =>
    match axis with
    | some _ => .ok (fun ω => importanceCost (fun k => logJoint (ω k)) (fun k => -h (ω k)))
    | none => .ok (fun ω => h (ω 0))

end ZhuSuan.VObj

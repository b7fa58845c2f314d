import Verif.Model.Dual

/-!
# The variational objectives and their surrogate costs

`zhusuan/variational/{exclusive_kl,monte_carlo,inclusive_kl}.py`, for one entry of the batch: the log
joint and the log probability of the variational samples are given along the sample axis, of size `K`
(`axis=None` is one sample and no reduction).  Entries of different batch positions do not interact,
except in the moving mean of `reinforce`, whose value is an argument here (see `Model/MovingMean.lean`).
-/

set_option autoImplicit false

namespace ZhuSuan.Grad
open Dual

variable {K : ℕ}

/-- `_entropy_term` (base.py 177–183), from the sum of the variational log probabilities. -/
def entropyTerm (logq : Dual) : Dual := -logq

/-- The elbo (exclusive_kl.py 131–137). -/
noncomputable def elboObjective (logp logq : Fin K → Dual) : Dual :=
  reduceMean (fun k => logp k + entropyTerm (logq k))

/-- `sgvb` of the elbo (exclusive_kl.py 139–159). -/
noncomputable def elboSgvb (logp logq : Fin K → Dual) : Dual := -elboObjective logp logq

/-- The learning signal of `reinforce` (exclusive_kl.py 196–219): `logp + entropy`, minus the baseline
if there is one and minus the value `movingMean` read from the variable, if `variance_reduction`. -/
def reinforceSignal (varianceReduction : Bool) (baseline : Option Dual) (movingMean : Dual)
    (logp logq : Dual) : Dual :=
  let l := logp + entropyTerm logq
  if varianceReduction then
    let l := match baseline with
      | some b => l - b
      | none => l
    l - movingMean
  else l

/-- The cost of one sample (exclusive_kl.py 221–223). -/
def reinforceCost1 (varianceReduction : Bool) (baseline : Option Dual) (movingMean : Dual)
    (logp logq : Dual) : Dual :=
  -logp + stopGradient (reinforceSignal varianceReduction baseline movingMean logp logq) *
    entropyTerm logq

/-- The `reinforce` cost, averaged over the sample axis (exclusive_kl.py 225–226). -/
noncomputable def reinforceCost (varianceReduction : Bool) (baseline : Fin K → Option Dual)
    (movingMean : Dual) (logp logq : Fin K → Dual) : Dual :=
  reduceMean (fun k => reinforceCost1 varianceReduction (baseline k) movingMean (logp k) (logq k))

/-- The additional cost for training the baseline (exclusive_kl.py 200–204). -/
noncomputable def baselineCost (baseline : Fin K → Dual) (logp logq : Fin K → Dual) : Dual :=
  reduceMean (fun k =>
    const (1 / 2) * square (stopGradient (logp k + entropyTerm (logq k)) - baseline k))

/-- The importance weighted objective (monte_carlo.py 137–141). -/
noncomputable def iwObjective (logp logq : Fin (K + 1) → Dual) : Dual :=
  logMeanExp (fun k => logp k + entropyTerm (logq k))

/-- `is_loglikelihood(meta_bn, observed, latent/proposal, axis)` (evaluation.py 20–54), for one batch entry:
the value of `ImportanceWeightedObjective(...).tensor`. -/
noncomputable def isLoglikelihood {K : ℕ} (logp logq : Fin (K + 1) → Dual) : ℝ :=
  (iwObjective logp logq).val

/-- `sgvb` of it (monte_carlo.py 143–164). -/
noncomputable def iwSgvb (logp logq : Fin (K + 1) → Dual) : Dual := -iwObjective logp logq

/-- `mean_except_signal` (monte_carlo.py 198–200). -/
noncomputable def meanExcept (x : Fin (K + 1) → Dual) (j : Fin (K + 1)) : Dual :=
  (reduceSum x - x j) / const ((K + 1 : ℕ) - 1 : ℝ)

/-- `x_ex[..., i, j]` (monte_carlo.py 213–216): `x` along rows, with the diagonal replaced. -/
noncomputable def xEx (x : Fin (K + 1) → Dual) (i j : Fin (K + 1)) : Dual :=
  x i - (if i = j then x i else const 0) + (if i = j then meanExcept x i else const 0)

/-- `control_variate` (monte_carlo.py 217–218). -/
noncomputable def controlVariate (x : Fin (K + 1) → Dual) (j : Fin (K + 1)) : Dual :=
  logMeanExp (fun i => xEx x i j)

/-- The `vimco` cost (monte_carlo.py 183–227). -/
noncomputable def vimcoCost (logp logq : Fin (K + 1) → Dual) : Dual :=
  let x := fun k => logp k + entropyTerm (logq k)
  let signal := fun j => logMeanExp x - controlVariate x j
  let fake := reduceSum (fun j => (-entropyTerm (logq j)) * stopGradient (signal j));
  (-fake) - logMeanExp x

/-- The weights `w_tilde` of `importance` (inclusive_kl.py 137–142). -/
noncomputable def importanceWeight (logp logq : Fin (K + 1) → Dual) (k : Fin (K + 1)) : Dual :=
  let x := fun k => logp k + entropyTerm (logq k)
  let w := fun k => Dual.exp (x k - reduceMax x)
  stopGradient (w k / reduceSum w)

/-- The `importance` cost with a sample axis (inclusive_kl.py 143–144). -/
noncomputable def importanceCost (logp logq : Fin (K + 1) → Dual) : Dual :=
  reduceSum (fun k => importanceWeight logp logq k * entropyTerm (logq k))

/-! ### The size check and the transposition of `vimco` -/

/-- What happens to a call of `vimco` (monte_carlo.py 187–195): an exception, a run-time error, or a cost. -/
inductive Verdict where
  | valueError
  | runError
  | ok
  deriving DecidableEq

/-- monte_carlo.py 187–195, for a sample axis whose static size may be unknown: a `ValueError` while
building or an assertion while running. -/
def vimcoCheck (staticSize : Option ℕ) (size : ℕ) : Verdict :=
  match staticSize with
  | some k => if k < 2 then .valueError else if size < 2 then .runError else .ok
  | none => if size < 2 then .runError else .ok

/-- `perm` (monte_carlo.py 203–209) for rank `n` and axis `axis`. -/
def vimcoPerm (n axis : ℕ) : List ℕ :=
  let perm := (List.range n).map (fun i => if i = n - 1 then axis else i)
  (List.range n).map (fun i => if i = axis then n - 1 else perm.getD i 0)

end ZhuSuan.Grad

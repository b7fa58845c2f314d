import Mathlib.Probability.Distributions.Gaussian.Real
import Mathlib.MeasureTheory.Constructions.Pi
import Verif.Model.Hmc

/-!
# What it means that HMC settles at the posterior

Independent of the sampler: the law of the draws of one iteration, the posterior as a probability, and the
condition that the simulated trajectory is short compared with the curvature of the log density.
-/

set_option autoImplicit false

open MeasureTheory ProbabilityTheory
open scoped ENNReal

namespace ZhuSuan.Hmc

/-- The draws of one iteration: standard normals, one for each entry of each chain, and a uniform number in
`[0, 1)` for each chain, all independent (`tf.random_normal` and `tf.random_uniform`, hmc.py 21–23, 485). -/
noncomputable def draws (C ι : Type) [Fintype C] [Fintype ι] : Measure ((C → ι → ℝ) × (C → ℝ)) :=
  (Measure.pi fun _ : C => Measure.pi fun _ : ι => gaussianReal 0 1).prod
    (Measure.pi fun _ : C => volume.restrict (Set.Ico 0 1))

/-- The probability with density proportional to `exp l`. -/
noncomputable def posterior {ι : Type} [Fintype ι] (l : (ι → ℝ) → ℝ) : Measure (ι → ℝ) :=
  (∫⁻ q, ENNReal.ofReal (Real.exp (l q)))⁻¹ • volume.withDensity fun q => ENNReal.ofReal (Real.exp (l q))

/-- A trajectory of at least one leapfrog step of positive size is short: the force `g / mass` has a Lipschitz
constant `K` (in the largest entry) with `K (n ε)² ≤ 1`. -/
def ShortPath {C ι : Type} [Fintype ι] (mass : ι → ℝ) (g : C → (ι → ℝ) → ι → ℝ) (n : ℕ) (eps : ℝ) : Prop :=
  0 < n ∧ 0 < eps ∧ ∃ K : ℝ, 0 ≤ K ∧ K * (n * eps) ^ 2 ≤ 1 ∧
    ∀ c (x y : ι → ℝ), ‖fun i => (g c x i - g c y i) / mass i‖ ≤ K * ‖x - y‖

/-- The mass that a burn-in leaves behind: the inverse of the estimated variances if the mass is adapted, and one
if not (hmc.py 151–158, 284–306). -/
noncomputable def burnedMass {C ι : Type} (cfg : Cfg ℝ) (s : State ℝ C ι) : ι → ℝ :=
  if cfg.adaptsMass = true then fun i => 1 / s.ewmv.var i else fun _ => 1

/-- The step sizes of the iterations after a burn-in: the last one of the burn-in, then the averaged one if the
step size is adapted (hmc.py 108–112, 375–379). -/
noncomputable def burnedStep {C ι : Type} (cfg : Cfg ℝ) (s : State ℝ C ι) (j : ℕ) : ℝ :=
  if cfg.adaptsStep = true ∧ j ≠ 0 then Real.exp s.tuner.logEpsBar else s.stepSize

end ZhuSuan.Hmc

import Mathlib.Probability.Distributions.Gaussian.Real

/-!
# The distributions of the toy examples
-/

set_option autoImplicit false

open MeasureTheory ProbabilityTheory

namespace ZhuSuan.Toy

/-- The normal distribution with this mean and standard deviation. -/
noncomputable def normal (m s : ℝ) : Measure ℝ := gaussianReal m (Real.toNNReal (s ^ 2))

/-- A fair mixture of two normal distributions. -/
noncomputable def mixture (mu1 mu2 s : ℝ) : Measure ℝ := (2⁻¹ : ENNReal) • (normal mu1 s + normal mu2 s)

/-- The distribution of `(z1, z2)` when `z2` is normal with standard deviation 1.35 and `z1`, given `z2`, is normal with standard deviation
`exp z2`. -/
noncomputable def funnel : Measure (ℝ × ℝ) :=
  ((normal 0 1.35).prod (normal 0 1)).map fun w => (Real.exp w.1 * w.2, w.1)

/-- Two independent standard normal draws for each of `K` particles. -/
noncomputable def particles (K : ℕ) : Measure (Fin K → ℝ × ℝ) := Measure.pi fun _ => (normal 0 1).prod (normal 0 1)

end ZhuSuan.Toy

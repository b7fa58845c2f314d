import Mathlib.MeasureTheory.Measure.WithDensity
import Mathlib.MeasureTheory.Integral.Bochner.Basic

/-!
# Latent variable models, for stating what the variational objectives mean

`p z` is the joint density of the observation (fixed) and the latent value `z`, and `q z` the density of
the variational posterior, both with respect to a reference measure `μ`: Lebesgue measure for continuous
latents, counting measure for discrete ones, products of them for several latents.
-/

set_option autoImplicit false

namespace ZhuSuan.Grad
open MeasureTheory

variable {Z : Type*} [MeasurableSpace Z]

/-- The law of a sample of `q`. -/
noncomputable def law (μ : Measure Z) (q : Z → ℝ) : Measure Z :=
  μ.withDensity (fun z => ENNReal.ofReal (q z))

/-- The evidence `p(x) = ∫ p(x, z) dz`. -/
noncomputable def evidence (μ : Measure Z) (p : Z → ℝ) : ℝ := ∫ z, p z ∂μ

/-- The posterior `p(z | x)`. -/
noncomputable def posterior (μ : Measure Z) (p : Z → ℝ) : Measure Z :=
  μ.withDensity (fun z => ENNReal.ofReal (p z / evidence μ p))

/-- A joint density with positive finite evidence, and a probability density for the latents that
vanishes where the joint does. -/
structure LatentModel (μ : Measure Z) (p q : Z → ℝ) : Prop where
  p_meas : Measurable p
  q_meas : Measurable q
  p_nonneg : ∀ z, 0 ≤ p z
  q_nonneg : ∀ z, 0 ≤ q z
  p_int : Integrable p μ
  evidence_pos : 0 < evidence μ p
  q_int : Integrable q μ
  q_one : ∫ z, q z ∂μ = 1
  supp : ∀ z, p z = 0 → q z = 0

end ZhuSuan.Grad

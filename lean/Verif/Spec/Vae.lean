import Mathlib.MeasureTheory.Constructions.Pi
import Mathlib.Probability.Distributions.Gaussian.Real
import Verif.Spec.Elbo

/-!
# Specification: a binary image model with a normal latent vector
-/

set_option autoImplicit false

open MeasureTheory ProbabilityTheory

namespace ZhuSuan.Vae

/-- Independent standard normal variables. -/
noncomputable def normals (ι : Type) [Fintype ι] : Measure (ι → ℝ) := Measure.pi fun _ => gaussianReal 0 1

/-- Independent uniform variables on `[0, 1)`. -/
noncomputable def uniforms (ι : Type) [Fintype ι] : Measure (ι → ℝ) := Measure.pi fun _ => volume.restrict (Set.Ico (0 : ℝ) 1)

/-- The probability of an image whose pixels are independently one with the given probabilities. -/
noncomputable def imageProb {ξ : Type} [Fintype ξ] (p : ξ → ℝ) (x : ξ → Bool) : ℝ := ∏ d, if x d then p d else 1 - p d

/-- The logistic function. -/
noncomputable def logistic (x : ℝ) : ℝ := (1 + Real.exp (-x))⁻¹

/-- The probability of the image `x` given the latent vector `z`, when `logits z` are the log odds of the pixels. -/
noncomputable def lik {ι ξ : Type} [Fintype ξ] (logits : (ι → ℝ) → ξ → ℝ) (x : ξ → Bool) (z : ι → ℝ) : ℝ :=
  imageProb (fun d => logistic (logits z d)) x

/-- The probability of the image `x` under the model. -/
noncomputable def modelProb {ι ξ : Type} [Fintype ι] [Fintype ξ] (logits : (ι → ℝ) → ξ → ℝ) (x : ξ → Bool) : ℝ :=
  ∫ z, lik logits x z ∂normals ι

/-- The distribution of the latent vector given the image `x`. -/
noncomputable def posterior {ι ξ : Type} [Fintype ι] [Fintype ξ] (logits : (ι → ℝ) → ξ → ℝ) (x : ξ → Bool) : Measure (ι → ℝ) :=
  (normals ι).withDensity fun z => ENNReal.ofReal (lik logits x z / modelProb logits x)

end ZhuSuan.Vae

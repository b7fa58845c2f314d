import Verif.Spec.Vae

/-!
# Specification: a binary image model with a class and a normal latent vector
-/

set_option autoImplicit false

open MeasureTheory ProbabilityTheory

namespace ZhuSuan.Ssl

open Vae

variable {ι ξ : Type} [Fintype ι] [Fintype ξ] {C : ℕ}

/-- The probability of the image `x` together with the class `y`, when the classes are equally likely and `logits z y` are the log odds of the
pixels given the latent vector and the class. -/
noncomputable def classProb (logits : (ι → ℝ) → Fin C → ξ → ℝ) (x : ξ → Bool) (y : Fin C) : ℝ := modelProb (fun z => logits z y) x / C

/-- The probability of the image `x`. -/
noncomputable def marginalProb (logits : (ι → ℝ) → Fin C → ξ → ℝ) (x : ξ → Bool) : ℝ := ∑ y, classProb logits x y

/-- The probability of the class `y` given the image `x`. -/
noncomputable def classPosterior (logits : (ι → ℝ) → Fin C → ξ → ℝ) (x : ξ → Bool) (y : Fin C) : ℝ := classProb logits x y / marginalProb logits x

/-- The divergence of one distribution of the classes from another. -/
noncomputable def classKl (q p : Fin C → ℝ) : ℝ := ∑ y, q y * Real.log (q y / p y)

end ZhuSuan.Ssl

import Mathlib.InformationTheory.KullbackLeibler.Basic
import Mathlib.MeasureTheory.Constructions.Pi
import Mathlib.MeasureTheory.Integral.Bochner.Basic
import Mathlib.MeasureTheory.Measure.Lebesgue.Basic

/-!
# What adversarial nets are about

The Jensen–Shannon divergence, and the Wasserstein distance as a minimum over couplings.
-/

set_option autoImplicit false

open MeasureTheory InformationTheory

namespace ZhuSuan.Gan

variable {X : Type} [MeasurableSpace X]

/-- A fair mixture of two distributions. -/
noncomputable def mix (P Q : Measure X) : Measure X := (2⁻¹ : ENNReal) • (P + Q)

/-- The Jensen–Shannon divergence. -/
noncomputable def jsd (P Q : Measure X) : ℝ := ((klDiv P (mix P Q)).toReal + (klDiv Q (mix P Q)).toReal) / 2

/-- The expected loss of a classifier with the log odds `D x` that `x` comes from `P`, for a fair mixture of `P` and `Q`: `-log` of the
probability of the right answer. -/
noncomputable def logLoss (P Q : Measure X) (D : X → ℝ) : ℝ :=
  ((∫ x, Real.log (1 + Real.exp (-D x)) ∂P) + ∫ x, Real.log (1 + Real.exp (D x)) ∂Q) / 2

/-- The distribution of a row of the data that is picked at random. -/
noncomputable def empirical {n : ℕ} (x : Fin n → X) : Measure X := (n : ENNReal)⁻¹ • ∑ i, Measure.dirac (x i)

/-- The distribution of the images that the generator `G` makes of latent vectors with independent uniform entries between -1 and 1. -/
noncomputable def generated {d : ℕ} (G : (Fin d → ℝ) → X) : Measure X :=
  (Measure.pi fun _ : Fin d => (2⁻¹ : ENNReal) • (volume.restrict (Set.Ico (-1 : ℝ) 1))).map G

/-- Independent uniform draws on `[0, 1)` for `b` latent vectors. -/
noncomputable def draws (b d : ℕ) : Measure (Fin b → Fin d → ℝ) :=
  Measure.pi fun _ => Measure.pi fun _ => volume.restrict (Set.Ico (0 : ℝ) 1)

/-- `π` is a joint distribution with the marginals `P` and `Q`. -/
def Coupling (P Q : Measure X) (π : Measure (X × X)) : Prop := π.map Prod.fst = P ∧ π.map Prod.snd = Q

end ZhuSuan.Gan

import Verif.Spec.NetMcmc
import Verif.Spec.EndToEnd

/-!
# Latent variables made of numbers
-/

set_option autoImplicit false

namespace ZhuSuan.BN
open MeasureTheory

variable {X : Type} [MeasurableSpace X] {k : ℕ} {κ : Fin k → Type} [∀ i, Fintype (κ i)]

/-- The densities of the latent nodes are with respect to the volume of the numbers in them. -/
def OnNumbers (μ : Name → Measure X) (names : Fin k → Name) (mk : (i : Fin k) → (κ i → ℝ) → X) : Prop :=
  ∀ i, μ (names i) = (volume : Measure (κ i → ℝ)).map (mk i)

end ZhuSuan.BN

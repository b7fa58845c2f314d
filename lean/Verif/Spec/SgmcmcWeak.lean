import Mathlib.Analysis.Calculus.ContDiff.Basic
import Mathlib.MeasureTheory.Constructions.Pi
import Mathlib.MeasureTheory.Integral.Bochner.Basic
import Mathlib.MeasureTheory.Measure.Haar.OfBasis
import Mathlib.MeasureTheory.Measure.Haar.Unique
import Mathlib.Probability.Distributions.Gaussian.Real

/-!
# Samplers with small steps

What it means that the posterior is the target of a sampler that is exact only in the limit of small steps.
Values of all latent variables are dependent functions `(v : V) → I v → ℝ`, as in the model.
-/

set_option autoImplicit false

open MeasureTheory ProbabilityTheory

namespace ZhuSuan.SgWeak

/-- The probability distribution whose density is proportional to `exp l`. -/
noncomputable def posterior {E : Type*} [MeasureSpace E] (l : E → ℝ) : Measure E :=
  volume.withDensity fun x => ENNReal.ofReal (Real.exp (l x) / ∫ y, Real.exp (l y))

/-- A log density: continuously differentiable, and its exponential has a finite integral. -/
structure LogDens {E : Type*} [NormedAddCommGroup E] [NormedSpace ℝ E] [MeasureSpace E] (l : E → ℝ) : Prop where
  smooth : ContDiff ℝ 1 l
  int : Integrable fun x => Real.exp (l x)

variable {V : Type} {I : V → Type} [Fintype V] [∀ v, Fintype (I v)]

open scoped Classical in
/-- The direction of component `i` of variable `v`. -/
noncomputable def unit (v : V) (i : I v) : (v : V) → I v → ℝ := Pi.single v (Pi.single i 1)

/-- The partial derivative of `l` in component `i` of variable `v`. -/
noncomputable def pd (l : ((v : V) → I v → ℝ) → ℝ) (x : (v : V) → I v → ℝ) (v : V) (i : I v) : ℝ :=
  fderiv ℝ l x (unit v i)

variable (I) in
/-- Independent standard normal values for all components. -/
noncomputable def normals : Measure ((v : V) → I v → ℝ) := Measure.pi fun _ => Measure.pi fun _ => gaussianReal 0 1

/-- `G ω` is an unbiased estimate of the gradient of `l` when `ω` has distribution `P`. -/
def Unbiased {Ω : Type*} [MeasurableSpace Ω] (P : Measure Ω) (G : Ω → ((v : V) → I v → ℝ) → (v : V) → I v → ℝ)
    (l : ((v : V) → I v → ℝ) → ℝ) : Prop :=
  ∀ x v i, Integrable (fun ω => G ω x v i) P ∧ ∫ ω, G ω x v i ∂P = pd l x v i

end ZhuSuan.SgWeak

import Mathlib.Analysis.Calculus.Deriv.Basic
import Verif.Spec.Elbo

/-!
# Regularity needed to differentiate an expectation

The expectation of `F t` under a law `ν t`, both depending on the parameter.  `s` is the score, the
derivative of the log density of the law.  The structure says that the usual formula for the derivative of
the expectation holds.  It is what the score function estimators assume.  `Lemmas/Score.lean` shows that
it holds with no condition on finite spaces, and under a domination condition in general.
-/

set_option autoImplicit false

namespace ZhuSuan.Grad
open MeasureTheory

structure ScoreRegular {Ω : Type*} [MeasurableSpace Ω] (ν : ℝ → Measure Ω) (s : Ω → ℝ)
    (F : ℝ → Ω → ℝ) (F' : Ω → ℝ) (θ : ℝ) : Prop where
  int_sF : Integrable (fun ω => s ω * F θ ω) (ν θ)
  int_F' : Integrable F' (ν θ)
  leibniz : HasDerivAt (fun t => ∫ ω, F t ω ∂ν t) (∫ ω, (s ω * F θ ω + F' ω) ∂ν θ) θ

/-- A family of variational posteriors `exp (lq t z)` and joints `exp (lp t z)`, differentiable in the
parameter, with the interchange of derivative and expectation for the elbo. -/
structure ElboFamily {Z : Type*} [MeasurableSpace Z] (μ : Measure Z) (lp lq : ℝ → Z → ℝ)
    (lp' lq' : Z → ℝ) (θ : ℝ) : Prop where
  dp : ∀ z, HasDerivAt (fun t => lp t z) (lp' z) θ
  dq : ∀ z, HasDerivAt (fun t => lq t z) (lq' z) θ
  prob : ∀ t, IsProbabilityMeasure (law μ fun z => Real.exp (lq t z))
  score : ScoreRegular (fun t => law μ fun z => Real.exp (lq t z)) lq' (fun _ _ => 1) (fun _ => 0) θ
  elbo : ScoreRegular (fun t => law μ fun z => Real.exp (lq t z)) lq'
    (fun t z => lp t z - lq t z) (fun z => lp' z - lq' z) θ
  elbo_int : ∀ t, Integrable (fun z => lp t z - lq t z) (law μ fun z => Real.exp (lq t z))

end ZhuSuan.Grad

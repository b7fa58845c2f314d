import Mathlib.Probability.Distributions.Gaussian.HasGaussianLaw.Independence
import Mathlib.Probability.Distributions.Gaussian.Fernique
import Mathlib.Probability.Moments.Covariance
import Mathlib.Data.Matrix.Block
import Mathlib.LinearAlgebra.Matrix.NonsingularInverse
import Mathlib.LinearAlgebra.Matrix.PosDef
import Mathlib.Analysis.SpecialFunctions.Trigonometric.DerivHyp
import Verif.Model.Sgmcmc

/-!
# Specification: normal vectors, and stochastic gradient MCMC on a normal posterior

What C85 is stated with.  Nothing here mentions the update rules except the two `Run` structures, which say
what it means for a sequence of states to come from calling `sample` again and again.
-/

set_option autoImplicit false

open MeasureTheory ProbabilityTheory Matrix

namespace ZhuSuan.Sgmcmc

variable {Ω : Type} {mΩ : MeasurableSpace Ω}

/-- `X` has the multivariate normal distribution with mean `m` and covariance matrix `S`. -/
structure Normal {ι : Type} [Fintype ι] (P : Measure Ω) (X : Ω → ι → ℝ) (m : ι → ℝ) (S : Matrix ι ι ℝ) :
    Prop where
  law : HasGaussianLaw X P
  mean : ∀ i, ∫ ω, X ω i ∂P = m i
  cov : ∀ i j, cov[fun ω => X ω i, fun ω => X ω j; P] = S i j

variable {V : Type} {I : V → Type}

/-- All components of all latent variables. -/
abbrev Comp (I : V → Type) := Σ v, I v

/-- The values of all latent variables as one vector. -/
def flat (q : Lat I) : Comp I → ℝ := fun k => q k.1 k.2

variable [Fintype V] [∀ v, Fintype (I v)]

/-- The log density, up to a constant, of the normal distribution with mean `m` and precision matrix (inverse
covariance) `L`. -/
noncomputable def logPost (L : Matrix (Comp I) (Comp I) ℝ) (m : Lat I) (q : Lat I) : ℝ :=
  -(1 / 2) * ∑ k, ∑ l, (flat q k - flat m k) * L k l * (flat q l - flat m l)

/-- Its gradient, plus an error `e` such as that of estimating it on a part of the data. -/
def noisyGrad (L : Matrix (Comp I) (Comp I) ℝ) (m e : Lat I) (q : Lat I) : Lat I := fun v i =>
  -(∑ l, L ⟨v, i⟩ l * (flat q l - flat m l)) + e v i

/-- The errors of the gradient and the draws of one call: all independent, the errors with variance `s2` and
the draws with variance 1. -/
def Noise [DecidableEq (Comp I)] (P : Measure Ω) (s2 : ℝ) (e z : Ω → Lat I) : Prop :=
  Normal P (fun ω => Sum.elim (flat (e ω)) (flat (z ω))) 0 (fromBlocks (s2 • 1) 0 0 1)

/-- The draws of a call are independent of the state before it. -/
def Fresh {ι : Type} (P : Measure Ω) (X : Ω → ι → ℝ) (e z : Ω → Lat I) : Prop :=
  IndepFun X (fun ω => Sum.elim (flat (e ω)) (flat (z ω))) P

/-- `q 0, q 1, …` are the values before the first, second, … call of the sampler SGLD, run on a normal
posterior with mean `m` and precision matrix `L`. -/
structure SgldRun [DecidableEq (Comp I)] (P : Measure Ω) (lr : ℝ) (L : Matrix (Comp I) (Comp I) ℝ) (m : Lat I)
    (s2 : ℝ) (q : ℕ → Ω → Lat I) : Prop where
  calls : ∃ e z : ℕ → Ω → Lat I, (∀ n, Noise P s2 (e n) (z n)) ∧
    (∀ n, Fresh P (fun ω => flat (q n ω)) (e n) (z n)) ∧
    ∀ n ω, q (n + 1) ω = fun v => sgld lr (noisyGrad L m (e n ω)) (z n ω) v (q n ω)

/-- Positions and momenta as one vector. -/
def both (s : (v : V) → HState (I v)) : Comp I ⊕ Comp I → ℝ :=
  Sum.elim (flat fun v => (s v).q) (flat fun v => (s v).v)

/-- The same for SGHMC without resampling of the momenta; `second` is `second_order`. -/
structure SghmcRun [DecidableEq (Comp I)] (second : Bool) (P : Measure Ω) (lr alpha beta : ℝ)
    (L : Matrix (Comp I) (Comp I) ℝ) (m : Lat I) (s2 : ℝ) (s : ℕ → Ω → (v : V) → HState (I v)) : Prop where
  calls : ∃ e z r : ℕ → Ω → Lat I, (∀ n, Noise P s2 (e n) (z n)) ∧
    (∀ n, Fresh P (fun ω => both (s n ω)) (e n) (z n)) ∧
    ∀ n ω, s (n + 1) ω = fun v =>
      if second then sghmc2 lr alpha beta (noisyGrad L m (e n ω)) (fun _ => false) (r n ω) (z n ω) v (s n ω)
      else sghmc1 lr alpha beta (noisyGrad L m (e n ω)) (fun _ => false) (r n ω) (z n ω) v (s n ω)

/-- Covariance of the values SGLD ends up with: that of the posterior plus an excess, times a factor for the
errors of the gradient. -/
noncomputable def sgldCov [DecidableEq (Comp I)] (lr s2 : ℝ) (L : Matrix (Comp I) (Comp I) ℝ) :
    Matrix (Comp I) (Comp I) ℝ :=
  (1 + lr * s2 / 4) • (L⁻¹ + (lr / 4) • (1 - (lr / 4) • L)⁻¹)

/-- Factor by which the covariance of SGHMC's positions is too large because the variance of the gradient
errors was not estimated right. -/
noncomputable def noiseFactor (lr alpha beta s2 : ℝ) : ℝ := 1 - beta / alpha + lr * s2 / (2 * alpha)

/-- How large half the learning rate times an eigenvalue of the precision matrix may be. -/
noncomputable def stepBound (second : Bool) (alpha : ℝ) : ℝ :=
  if second then 2 * Real.cosh (alpha / 2) else 2 - alpha

/-- The conditions for SGHMC to have a stationary distribution: a positive learning rate and friction, noise,
and a learning rate that is not too large for the posterior. -/
structure Stable [DecidableEq (Comp I)] (second : Bool) (lr alpha beta s2 : ℝ)
    (L : Matrix (Comp I) (Comp I) ℝ) : Prop where
  rate_pos : 0 < lr
  friction_pos : 0 < alpha
  estimate_le : beta ≤ alpha
  error_nonneg : 0 ≤ s2
  factor_pos : 0 < noiseFactor lr alpha beta s2
  posterior : L.PosDef
  bounded : (stepBound second alpha • (1 : Matrix (Comp I) (Comp I) ℝ) - (lr / 2) • L).PosDef

/-- Covariance of the momenta the first order SGHMC ends up with. -/
noncomputable def momCov1 [DecidableEq (Comp I)] (lr alpha beta s2 : ℝ) (L : Matrix (Comp I) (Comp I) ℝ) :
    Matrix (Comp I) (Comp I) ℝ :=
  (2 * lr * noiseFactor lr alpha beta s2) • ((2 - alpha) • 1 - (lr / 2) • L)⁻¹

/-- Joint covariance of positions and momenta of the first order SGHMC. -/
noncomputable def sghmcCov1 [DecidableEq (Comp I)] (lr alpha beta s2 : ℝ) (L : Matrix (Comp I) (Comp I) ℝ) :
    Matrix (Comp I ⊕ Comp I) (Comp I ⊕ Comp I) ℝ :=
  let M := momCov1 lr alpha beta s2 L
  fromBlocks (noiseFactor lr alpha beta s2 • L⁻¹ + (1 / 4 : ℝ) • M) ((1 / 2 : ℝ) • M) ((1 / 2 : ℝ) • M) M

/-- Factor of the position covariance of the second order SGHMC that comes from the friction. -/
noncomputable def frictionFactor (alpha : ℝ) : ℝ := (alpha / 2) / Real.sinh (alpha / 2)

/-- Joint covariance of positions and momenta of the second order SGHMC. -/
noncomputable def sghmcCov2 [DecidableEq (Comp I)] (lr alpha beta s2 : ℝ) (L : Matrix (Comp I) (Comp I) ℝ) :
    Matrix (Comp I ⊕ Comp I) (Comp I ⊕ Comp I) ℝ :=
  let k := frictionFactor alpha * noiseFactor lr alpha beta s2
  fromBlocks (k • L⁻¹) 0 0 ((2 * lr * k) • ((2 * Real.cosh (alpha / 2)) • 1 - (lr / 2) • L)⁻¹)

/-- The joint covariance of positions and momenta SGHMC ends up with. -/
noncomputable def sghmcCov [DecidableEq (Comp I)] (second : Bool) (lr alpha beta s2 : ℝ)
    (L : Matrix (Comp I) (Comp I) ℝ) :
    Matrix (Comp I ⊕ Comp I) (Comp I ⊕ Comp I) ℝ :=
  if second then sghmcCov2 lr alpha beta s2 L else sghmcCov1 lr alpha beta s2 L

end ZhuSuan.Sgmcmc

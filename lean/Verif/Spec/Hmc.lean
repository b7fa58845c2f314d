import Mathlib.Analysis.SpecialFunctions.Pow.Real

/-!
# Dual averaging and exponentially weighted moments
-/

set_option autoImplicit false

namespace ZhuSuan.Hmc

/-- Dual averaging (Hoffman & Gelman 2014, section 3.2.1): the log step size after `n` acceptance rates
`a 0, ..., a (n - 1)`, with shrinkage point `mu`. -/
noncomputable def dualLogStep (mu gamma t0 delta : ℝ) (a : ℕ → ℝ) (n : ℕ) : ℝ :=
  mu - Real.sqrt n / gamma * ((∑ i ∈ Finset.range n, (delta - a i)) / (n + t0))

/-- Its averaged iterate, with weights `n ^ (-kappa)`. -/
noncomputable def dualLogStepBar (mu gamma t0 delta kappa : ℝ) (a : ℕ → ℝ) : ℕ → ℝ
  | 0 => 0
  | n + 1 => ((n + 1 : ℕ) : ℝ) ^ (-kappa) * dualLogStep mu gamma t0 delta a (n + 1) +
      (1 - ((n + 1 : ℕ) : ℝ) ^ (-kappa)) * dualLogStepBar mu gamma t0 delta kappa a n

variable {C : Type} [Fintype C]

/-- The average over chains. -/
noncomputable def avg (f : C → ℝ) : ℝ := (∑ c, f c) / Fintype.card C

/-- Exponentially weighted mean of the batches `x 0, ..., x (n - 1)`: a batch of age `k` has weight
`d ^ k`. -/
noncomputable def ewMean (d : ℝ) (x : ℕ → C → ℝ) (n : ℕ) : ℝ :=
  (∑ k ∈ Finset.range n, d ^ (n - 1 - k) * avg (x k)) / ∑ k ∈ Finset.range n, d ^ (n - 1 - k)

/-- Exponentially weighted variance of the same batches. -/
noncomputable def ewVar (d : ℝ) (x : ℕ → C → ℝ) (n : ℕ) : ℝ :=
  (∑ k ∈ Finset.range n, d ^ (n - 1 - k) * avg fun c => (x k c - ewMean d x n) ^ 2) /
    ∑ k ∈ Finset.range n, d ^ (n - 1 - k)

end ZhuSuan.Hmc

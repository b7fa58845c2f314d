import Mathlib.Data.Real.Basic
import Mathlib.Algebra.BigOperators.Group.Finset.Basic
import Mathlib.Algebra.BigOperators.Fin

/-!
# Statistics of a chain `x 0, …, x (n-1)` of real samples
-/

set_option autoImplicit false

namespace ZhuSuan.Ess

/-- The sample mean. -/
noncomputable def mean (n : ℕ) (x : ℕ → ℝ) : ℝ := (∑ i ∈ Finset.range n, x i) / n

/-- The variance with denominator `n`. -/
noncomputable def varN (n : ℕ) (x : ℕ → ℝ) : ℝ := (∑ i ∈ Finset.range n, (x i - mean n x) ^ 2) / n

/-- The unbiased variance, with denominator `n - 1`. -/
noncomputable def varU (n : ℕ) (x : ℕ → ℝ) : ℝ := (∑ i ∈ Finset.range n, (x i - mean n x) ^ 2) / (n - 1)

/-- The autocovariance at lag `t`. -/
noncomputable def autoCov (n : ℕ) (x : ℕ → ℝ) (t : ℕ) : ℝ :=
  (∑ i ∈ Finset.range (n - t), (x i - mean n x) * (x (i + t) - mean n x)) / ((n - t : ℕ) : ℝ)

/-- Stan's estimate of the autocorrelation at lag `t`, for one chain. -/
noncomputable def rho (n : ℕ) (x : ℕ → ℝ) (t : ℕ) : ℝ := 1 - (varU n x - autoCov n x t) / varN n x

/-- `T` is the first lag with a negative autocorrelation (or `n`). -/
def FirstNegative (n : ℕ) (x : ℕ → ℝ) (T : ℕ) : Prop :=
  T ≤ n ∧ (∀ t < T, 0 ≤ rho n x t) ∧ (T = n ∨ rho n x T < 0)

/-- Not all samples are equal. -/
def NonConstant (n : ℕ) (x : ℕ → ℝ) : Prop := ∃ i < n, ∃ j < n, x i ≠ x j

end ZhuSuan.Ess

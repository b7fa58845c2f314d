import Verif.Spec.Checked

/-!
# Values outside the support

`Dist.Support d x`: the value `x` is in the support of `d`, by the textbook.  `Dist.Excluded d x`: the part of its
complement that `log_prob` recognises.
-/

set_option autoImplicit false

namespace ZhuSuan.Checked
open XF

/-- The support (for a density: its closure). -/
def Dist.Support : (d : Dist ℝ) → d.Val → Prop
  | .normalStd .., _ => True
  | .normalLogstd .., _ => True
  | .foldNormalStd .., (x : ℝ) => 0 ≤ x
  | .foldNormalLogstd .., (x : ℝ) => 0 ≤ x
  | .uniform a b, (x : ℝ) => a ≤ x ∧ x ≤ b
  | .gamma .., (x : ℝ) => 0 ≤ x
  | .beta .., (x : ℝ) => 0 ≤ x ∧ x ≤ 1
  | .poisson _, (x : ℝ) => ∃ k : ℕ, x = k
  | .binomial _ n, (x : ℝ) => ∃ k : ℕ, k ≤ n ∧ x = k
  | .inverseGamma .., (x : ℝ) => 0 ≤ x
  | .laplace .., _ => True
  | .binConcrete .., (x : ℝ) => 0 ≤ x ∧ x ≤ 1
  | .mvn .., _ => True
  | .dirichlet .., x => (∀ i, (0 : ℝ) ≤ x i) ∧ ∑ i, (x i : ℝ) = 1
  | .expConcrete .., x => ∑ i, Real.exp (x i) = 1
  | .concrete .., x => (∀ i, (0 : ℝ) ≤ x i) ∧ ∑ i, (x i : ℝ) = 1
  | .matNormal .., _ => True

/-- The values outside the support that `log_prob` recognises: for `Poisson` and `Binomial` integers that are too
small or too large, for `Dirichlet` and `Concrete` vectors with a negative entry, for the others all values outside
the support. -/
def Dist.Excluded : (d : Dist ℝ) → d.Val → Prop
  | .poisson _, (x : ℝ) => ∃ k : ℤ, k < 0 ∧ x = k
  | .binomial _ n, (x : ℝ) => ∃ k : ℤ, (k < 0 ∨ (n : ℤ) < k) ∧ x = k
  | .dirichlet .., x => ∃ i, x i < (0 : ℝ)
  | .expConcrete .., _ => False
  | .concrete .., x => ∃ i, x i < (0 : ℝ)
  | d, x => ¬ d.Support x

/-- The classes for which `log_prob` does not recognise all values outside the support. -/
def Dist.IsUnseen : Dist ℝ → Prop
  | .poisson _ => True
  | .binomial .. => True
  | .dirichlet .. => True
  | .expConcrete .. => True
  | .concrete .. => True
  | _ => False

/-- The classes whose `log_prob` is `-inf` at an excluded value; for the others it is NaN. -/
def Dist.SaysZero : Dist ℝ → Prop
  | .foldNormalStd .. => True
  | .foldNormalLogstd .. => True
  | .uniform .. => True
  | .poisson _ => True
  | .binomial .. => True
  | _ => False

/-- What a finite `log_prob` says about a value: it is in the interior of the support, as far as `log_prob` can
tell. -/
def Dist.Plausible : (d : Dist ℝ) → d.Val → Prop
  | .poisson _, (x : ℝ) => ∀ k : ℤ, x = k → 0 ≤ k
  | .binomial _ n, (x : ℝ) => ∀ k : ℤ, x = k → 0 ≤ k ∧ k ≤ n
  | d, x => d.Inside x

end ZhuSuan.Checked

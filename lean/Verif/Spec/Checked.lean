import Verif.Model.Checked

/-!
# What `check_numerics` may and may not do

`Complains d x m`: the exception with message `m` is due for the parameters of `d` at the value `x`, in terms of
the parameters and the value only.  `Valid` and `Inside` are the documented conditions on the parameters and the
values of positive density or mass.  `Dist.realLogProb` is the log density of the real model.
-/

set_option autoImplicit false

namespace ZhuSuan.Checked
open XF

/-- A finite positive number. -/
def Pos (x : XF) : Prop := ∃ r : ℝ, 0 < r ∧ x = fin r

/-- A finite number at which the gamma function is defined: not 0, -1, -2, … -/
def Regular (x : XF) : Prop := ∃ r : ℝ, (∀ k : ℕ, r ≠ -k) ∧ x = fin r

/-- The messages that are due, and when. -/
def Complains : (d : Dist XF) → d.Val → String → Prop
  | .normalStd _ s, _, m => (m = "log(std)" ∧ ¬ Pos s) ∨ (m = "precision" ∧ ¬ Pos s ∧ s ≠ inf)
  | .normalLogstd _ l, _, m => m = "precision" ∧ (l = nan ∨ l = ninf)
  | .foldNormalStd _ s, _, m => (m = "log(std)" ∧ ¬ Pos s) ∨ (m = "precision" ∧ ¬ Pos s ∧ s ≠ inf)
  | .foldNormalLogstd _ l, _, m => m = "precision" ∧ (l = nan ∨ l = ninf)
  | .uniform a b, x, m => (m = "p" ∧ (a = b ∨ a = nan ∨ b = nan)) ∨
      (m = "log_p" ∧ ¬ ∃ r s t : ℝ, a = fin r ∧ b = fin s ∧ x = fin t ∧ r ≤ t ∧ t < s)
  | .gamma a b, x, m => (m = "log(given)" ∧ ¬ Pos x) ∨ (m = "log(beta)" ∧ ¬ Pos b) ∨
      (m = "lgamma(alpha)" ∧ ¬ Regular a)
  | .beta a b, x, m => (m = "log(given)" ∧ ¬ Pos x) ∨ (m = "log(1 - given)" ∧ ¬ ∃ t : ℝ, t < 1 ∧ x = fin t) ∨
      (m = "lgamma(alpha)" ∧ ¬ Regular a) ∨ (m = "lgamma(beta)" ∧ ¬ Regular b) ∨
      (m = "lgamma(alpha + beta)" ∧ ¬ ∃ r s : ℝ, a = fin r ∧ b = fin s ∧ ∀ k : ℕ, r + s ≠ -k)
  | .poisson r, x, m => (m = "log(rate)" ∧ ¬ Pos r) ∨
      (m = "lgamma(given + 1)" ∧ ¬ ∃ t : ℝ, x = fin t ∧ ∀ k : ℕ, t + 1 ≠ -k)
  | .binomial _ n, x, m => (m = "lgamma(given + 1)" ∧ ¬ ∃ t : ℝ, x = fin t ∧ ∀ k : ℕ, t + 1 ≠ -k) ∨
      (m = "lgamma(n - given + 1)" ∧ ¬ ∃ t : ℝ, x = fin t ∧ ∀ k : ℕ, (n : ℝ) - t + 1 ≠ -k)
  | .inverseGamma a b, x, m => (m = "log(given)" ∧ ¬ Pos x) ∨ (m = "log(beta)" ∧ ¬ Pos b) ∨
      (m = "lgamma(alpha)" ∧ ¬ Regular a)
  | .laplace _ s, _, m => m = "log(scale)" ∧ ¬ Pos s
  | .binConcrete t _, x, m => (m = "log(given)" ∧ ¬ Pos x) ∨
      (m = "log(1 - given)" ∧ ¬ ∃ t : ℝ, t < 1 ∧ x = fin t) ∨ (m = "log(temperature)" ∧ ¬ Pos t)
  | .mvn _ L, _, m => m = "log[det(Cov)]" ∧ ∃ i, ¬ Pos (L i i)
  | .dirichlet a, x, m => (m = "lbeta(alpha)" ∧ ¬ ((∀ i, Regular (a i)) ∧ Regular (∑ i, a i))) ∨
      (m = "log(given)" ∧ ∃ i, ¬ Pos (x i))
  | .expConcrete t _, _, m => m = "log(temperature)" ∧ ¬ Pos t
  | .concrete t _, x, m => (m = "log(given)" ∧ ∃ i, ¬ Pos (x i)) ∨ (m = "log(temperature)" ∧ ¬ Pos t)
  | .matNormal _ U V, _, m => m = "log[det(Cov)]" ∧ ((∃ i, ¬ Pos (U i i)) ∨ ∃ i, ¬ Pos (V i i))

/-- The same distribution with its real parameters as floats. -/
def Dist.toX : Dist ℝ → Dist XF
  | .normalStd m s => .normalStd (fin m) (fin s)
  | .normalLogstd m l => .normalLogstd (fin m) (fin l)
  | .foldNormalStd m s => .foldNormalStd (fin m) (fin s)
  | .foldNormalLogstd m l => .foldNormalLogstd (fin m) (fin l)
  | .uniform a b => .uniform (fin a) (fin b)
  | .gamma a b => .gamma (fin a) (fin b)
  | .beta a b => .beta (fin a) (fin b)
  | .poisson r => .poisson (fin r)
  | .binomial l n => .binomial (fin l) n
  | .inverseGamma a b => .inverseGamma (fin a) (fin b)
  | .laplace a b => .laplace (fin a) (fin b)
  | .binConcrete t l => .binConcrete (fin t) (fin l)
  | .mvn m L => .mvn (fun i => fin (m i)) (fun i j => fin (L i j))
  | .dirichlet a => .dirichlet (fun i => fin (a i))
  | .expConcrete t l => .expConcrete (fin t) (fun i => fin (l i))
  | .concrete t l => .concrete (fin t) (fun i => fin (l i))
  | .matNormal m U V => .matNormal (fun i j => fin (m i j)) (fun i j => fin (U i j)) (fun i j => fin (V i j))

/-- A real value as floats. -/
def Dist.valX : (d : Dist ℝ) → d.Val → d.toX.Val
  | .normalStd .., x => fin x
  | .normalLogstd .., x => fin x
  | .foldNormalStd .., x => fin x
  | .foldNormalLogstd .., x => fin x
  | .uniform .., x => fin x
  | .gamma .., x => fin x
  | .beta .., x => fin x
  | .poisson .., x => fin x
  | .binomial .., x => fin x
  | .inverseGamma .., x => fin x
  | .laplace .., x => fin x
  | .binConcrete .., x => fin x
  | .mvn .., x => fun i => fin (x i)
  | .dirichlet .., x => fun i => fin (x i)
  | .expConcrete .., x => fun i => fin (x i)
  | .concrete .., x => fun i => fin (x i)
  | .matNormal .., x => fun i j => fin (x i j)

/-- The documented conditions on the parameters. -/
def Dist.Valid : Dist ℝ → Prop
  | .normalStd _ s => 0 < s
  | .normalLogstd _ _ => True
  | .foldNormalStd _ s => 0 < s
  | .foldNormalLogstd _ _ => True
  | .uniform a b => a < b
  | .gamma a b => 0 < a ∧ 0 < b
  | .beta a b => 0 < a ∧ 0 < b
  | .poisson r => 0 < r
  | .binomial _ n => 0 < n
  | .inverseGamma a b => 0 < a ∧ 0 < b
  | .laplace _ s => 0 < s
  | .binConcrete t _ => 0 < t
  | .mvn _ L => ∀ i, 0 < L i i
  | .dirichlet (n := n) a => 0 < n ∧ ∀ i, 0 < a i
  | .expConcrete t _ => 0 < t
  | .concrete t _ => 0 < t
  | .matNormal _ U V => (∀ i, 0 < U i i) ∧ ∀ i, 0 < V i i

/-- The values of positive density or mass.  For `Dirichlet`, `ExpConcrete` and `Concrete` more values are
allowed here than the simplex. -/
def Dist.Inside : (d : Dist ℝ) → d.Val → Prop
  | .normalStd .., _ => True
  | .normalLogstd .., _ => True
  | .foldNormalStd .., (x : ℝ) => 0 ≤ x
  | .foldNormalLogstd .., (x : ℝ) => 0 ≤ x
  | .uniform a b, (x : ℝ) => a ≤ x ∧ x < b
  | .gamma .., (x : ℝ) => 0 < x
  | .beta .., (x : ℝ) => 0 < x ∧ x < 1
  | .poisson _, (x : ℝ) => ∃ k : ℕ, x = k
  | .binomial _ n, (x : ℝ) => ∃ k : ℕ, k ≤ n ∧ x = k
  | .inverseGamma .., (x : ℝ) => 0 < x
  | .laplace .., _ => True
  | .binConcrete .., (x : ℝ) => 0 < x ∧ x < 1
  | .mvn .., _ => True
  | .dirichlet .., x => ∀ i, (0 : ℝ) < x i
  | .expConcrete .., _ => True
  | .concrete .., x => ∀ i, (0 : ℝ) < x i
  | .matNormal .., _ => True

/-- `FoldNormal` at a negative value, where the density is zero. -/
def Dist.BelowFold : (d : Dist ℝ) → d.Val → Prop
  | .foldNormalStd .., (x : ℝ) => x < 0
  | .foldNormalLogstd .., (x : ℝ) => x < 0
  | _, _ => False

/-- The switches of a distribution; they do not matter for values. -/
def flags : Num.Flags := ⟨true, false⟩

/-- The log densities of the real models (`Model/Univariate.lean`, `Model/Num.lean`), to which the properties C18 to
C34 refer. -/
noncomputable def Dist.realLogProb : (d : Dist ℝ) → d.Val → EReal
  | .normalStd m s, x => (Uni.Normal.logProb m (Uni.StdArg.getLogstd (.std s)) x : ℝ)
  | .normalLogstd m l, x => (Uni.Normal.logProb m (Uni.StdArg.getLogstd (.logstd l)) x : ℝ)
  | .foldNormalStd m s, x => Uni.FoldNormal.logProb m (Uni.StdArg.getLogstd (.std s)) x
  | .foldNormalLogstd m l, x => Uni.FoldNormal.logProb m (Uni.StdArg.getLogstd (.logstd l)) x
  | .uniform a b, x => Uni.Uniform.logProb a b x
  | .gamma a b, x => (Uni.Gamma.logProb a b x : ℝ)
  | .beta a b, x => (Uni.Beta.logProb a b x : ℝ)
  | .poisson r, x => (Uni.Poisson.logProb r x : ℝ)
  | .binomial l n, x => (Uni.Binomial.logProb n l x : ℝ)
  | .inverseGamma a b, x => (Uni.InverseGamma.logProb a b x : ℝ)
  | .laplace a b, x => (Uni.Laplace.logProb a b x : ℝ)
  | .binConcrete t l, x => (Uni.BinConcrete.logProb t l x : ℝ)
  | .mvn m L, x => (Num.mvnLogProb flags m L x : ℝ)
  | .dirichlet a, x => (Num.dirichletLogProb flags a x : ℝ)
  | .expConcrete t l, x => (Num.expConcreteLogProb flags l t x : ℝ)
  | .concrete t l, x => (Num.concreteLogProb flags l t x : ℝ)
  | .matNormal m U V, x => (Num.matNormalLogProb flags m U V x : ℝ)

/-- The extended real number that a float is; NaN is none. -/
noncomputable def ext : XF → Option EReal
  | fin r => some (r : ℝ)
  | inf => some ⊤
  | ninf => some ⊥
  | nan => none

/-- `prob` is computed from `log_prob` for every class but `Uniform`. -/
def Dist.IsUniform {α : Type} : Dist α → Prop
  | .uniform .. => True
  | _ => False

end ZhuSuan.Checked

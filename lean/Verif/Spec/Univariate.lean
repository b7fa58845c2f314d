import Verif.Model.Univariate
import Verif.Spec.Tensor

/-! # What `log_prob` of a batch of univariate distributions should be -/

set_option autoImplicit false

namespace ZhuSuan.Uni.UDist

open Shape

/-- The batch shape: the broadcast of the parameter shapes (just the shape of `logits`/`rate` for
one-parameter distributions; the BinConcrete temperature is a scalar). -/
def HasBatch : UDist → List ℕ → Prop
  | normal a b, s | foldNormal a b, s | uniform a b, s | gamma a b, s | beta a b, s
  | inverseGamma a b, s | laplace a b, s => IsBroadcast a.shape b.shape s
  | bernoulli a, s | poisson a, s | binomial a _, s => s = a.shape
  | binConcrete t l, s => t.shape = [] ∧ s = l.shape

/-- The log probability of a single number `x` under a single pair of parameters `a`, `b` (for
one-parameter distributions `a` alone). -/
noncomputable def entry : UDist → (x a b : ℝ) → EReal
  | normal .., x, a, b => Normal.logProb a b x
  | foldNormal .., x, a, b => FoldNormal.logProb a b x
  | bernoulli .., x, a, _ => Bernoulli.logProb a x
  | uniform .., x, a, b => Uniform.logProb a b x
  | gamma .., x, a, b => Gamma.logProb a b x
  | beta .., x, a, b => Beta.logProb a b x
  | poisson .., x, a, _ => Poisson.logProb a x
  | binomial _ n, x, a, _ => Binomial.logProb n a x
  | inverseGamma .., x, a, b => InverseGamma.logProb a b x
  | laplace .., x, a, b => Laplace.logProb a b x
  | binConcrete .., x, a, b => BinConcrete.logProb a b x

end ZhuSuan.Uni.UDist

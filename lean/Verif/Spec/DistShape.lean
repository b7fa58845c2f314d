import Verif.Model.DistShape
import Verif.Spec.Tensor

/-! # Documented batch and value shapes -/

set_option autoImplicit false

namespace ZhuSuan.Shape

/-- What is statically known of a parameter is true of it at run time. -/
def P.WF (p : P) : Prop := Admits p.st p.rt

namespace Dist

/-- All parameters are well-formed graph tensors. -/
def WF : Dist → Prop
  | normal a b | foldNormal a b | uniform a b | gamma a b | beta a b | inverseGamma a b
  | laplace a b | binConcrete a b | mvn a b | expConcrete a b | concrete a b => a.WF ∧ b.WF
  | bernoulli l | poisson l | binomial l _ | categorical l | multinomial l _
  | unnormalizedMultinomial l | onehot l | dirichlet l => l.WF
  | matrixNormal m u v => m.WF ∧ u.WF ∧ v.WF

/-- The documented shapes: the parameters are ones the class accepts, and the distribution has batch
shape `b` and value shape `v`. -/
def HasShape : Dist → List ℕ → List ℕ → Prop
  -- two broadcastable parameters
  | normal x y, b, v | foldNormal x y, b, v | uniform x y, b, v | gamma x y, b, v | beta x y, b, v
  | inverseGamma x y, b, v | laplace x y, b, v => IsBroadcast x.rt y.rt b ∧ v = []
  | bernoulli l, b, v | poisson l, b, v => b = l.rt ∧ v = []
  | binomial l _, b, v => b = l.rt ∧ v = []
  | binConcrete t l, b, v => t.rt = [] ∧ b = l.rt ∧ v = []
  -- the last axis of `logits` enumerates the categories
  | categorical l, b, v => v = [] ∧ ∃ k, 0 < k ∧ l.rt = b ++ [k]
  | multinomial l _, b, v | unnormalizedMultinomial l, b, v | onehot l, b, v =>
    ∃ k, 0 < k ∧ v = [k] ∧ l.rt = b ++ [k]
  | dirichlet a, b, v => ∃ k, 2 ≤ k ∧ v = [k] ∧ a.rt = b ++ [k]
  | expConcrete t l, b, v | concrete t l, b, v => t.rt = [] ∧ ∃ k, v = [k] ∧ l.rt = b ++ [k]
  | mvn m c, b, v => ∃ k, v = [k] ∧ m.rt = b ++ [k] ∧ c.rt = b ++ [k, k]
  | matrixNormal m u w, b, v =>
    ∃ r c, v = [r, c] ∧ m.rt = b ++ [r, c] ∧ u.rt = b ++ [r, r] ∧ w.rt = b ++ [c, c]

/-- Sampling is supported: not `UnnormalizedMultinomial`, nor `Multinomial` without `n_experiments`. -/
def Samplable : Dist → Prop
  | unnormalizedMultinomial _ => False
  | multinomial _ ne => ne.isSome
  | _ => True

/-- A multivariate distribution. -/
def Multivariate : Dist → Prop
  | mvn _ _ | multinomial _ _ | unnormalizedMultinomial _ | onehot _ | dirichlet _ | expConcrete _ _
  | concrete _ _ | matrixNormal _ _ _ => True
  | _ => False

end Dist
end ZhuSuan.Shape

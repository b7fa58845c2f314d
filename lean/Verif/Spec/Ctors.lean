import Verif.Model.Ctors
import Verif.Spec.DistShape
import Verif.Props.Guards

/-!
# Specification: documented requirements on the parameters of a distribution

Only dtypes and run-time shapes appear; what TensorFlow happens to know statically does not.
-/

set_option autoImplicit false

namespace ZhuSuan.Ctors
open ZhuSuan.Shape ZhuSuan.Guards

/-- A floating dtype. -/
def IsFloat (d : DType) : Prop := d = .float16 ∨ d = .float32 ∨ d = .float64

/-- A floating or integer dtype. -/
def IsIntOrFloat (d : DType) : Prop := IsFloat d ∨ d = .int16 ∨ d = .int32 ∨ d = .int64

/-- The run-time shape of a parameter. -/
def T.dims (x : T) : List ℕ := x.shape.rt

namespace Args

/-- What is statically known of the parameters is true of them at run time, and a rank-0 tensor has one entry. -/
def WF : Args → Prop
  | normal a b | foldNormal a b | uniform a b | gamma a b | beta a b | inverseGamma a b | laplace a b
  | binConcrete a b | mvn a b | expConcrete a b | concrete a b => a.shape.WF ∧ b.shape.WF
  | bernoulli l _ | poisson l _ | categorical l _ | unnormalizedMultinomial l _ | onehot l _
  | dirichlet l => l.shape.WF
  | binomial l n _ => l.shape.WF ∧ WellFormed n
  | multinomial l n _ => l.shape.WF ∧ ∀ n' ∈ n, WellFormed n'
  | matrixNormal m u v => m.shape.WF ∧ u.shape.WF ∧ v.shape.WF

/-- The documented requirement on shapes. -/
def ShapeOK : Args → Prop
  | normal x y | foldNormal x y | uniform x y | gamma x y | beta x y | inverseGamma x y
  | laplace x y => Compatible x.dims y.dims
  | bernoulli _ _ | poisson _ _ | binomial _ _ _ => True
  | binConcrete t _ => t.dims = []
  | categorical l _ | multinomial l _ _ | unnormalizedMultinomial l _ | onehot l _ =>
    ∃ b k, l.dims = b ++ [k]
  | dirichlet a => ∃ b k, a.dims = b ++ [k] ∧ 2 ≤ k
  | expConcrete t l | concrete t l => t.dims = [] ∧ ∃ b k, l.dims = b ++ [k]
  | mvn m c => ∃ b k, m.dims = b ++ [k] ∧ c.dims = b ++ [k, k]
  | matrixNormal m u v => ∃ b r c, m.dims = b ++ [r, c] ∧ u.dims = b ++ [r, r] ∧ v.dims = b ++ [c, c]

/-- The documented requirement on dtypes. -/
def DtypeOK : Args → Prop
  | normal x y | foldNormal x y | uniform x y | gamma x y | beta x y | inverseGamma x y | laplace x y
  | binConcrete x y | mvn x y | expConcrete x y | concrete x y => IsFloat x.dtype ∧ y.dtype = x.dtype
  | matrixNormal m u v => IsFloat m.dtype ∧ u.dtype = m.dtype ∧ v.dtype = m.dtype
  | dirichlet a => IsFloat a.dtype
  | bernoulli l d | poisson l d | binomial l _ d | multinomial l _ d | unnormalizedMultinomial l d
  | onehot l d => IsFloat l.dtype ∧ IsIntOrFloat d
  | categorical l d =>
    (l.dtype = .float32 ∨ l.dtype = .float64) ∧
    (d = .float32 ∨ d = .float64 ∨ d = .int32 ∨ d = .int64)

/-- The documented requirement on `n_experiments`: a positive integer scalar, or `None` for `Multinomial`. -/
def CountOK : Args → Prop
  | binomial _ n _ => ∃ k, denotes n = some k ∧ 0 < k
  | multinomial _ n _ => ∀ n' ∈ n, ∃ k, denotes n' = some k ∧ 0 < k
  | _ => True

/-- The families of two parameters that are broadcast against each other. -/
def Pair : Args → Option (T × T)
  | normal x y | foldNormal x y | uniform x y | gamma x y | beta x y | inverseGamma x y
  | laplace x y => some (x, y)
  | _ => none

/-- The arguments with only the run-time facts kept: nothing is known statically. -/
def forget : Args → Args
  | normal x y => normal (un x) (un y)
  | foldNormal x y => foldNormal (un x) (un y)
  | bernoulli l d => bernoulli (un l) d
  | categorical l d => categorical (un l) d
  | uniform x y => uniform (un x) (un y)
  | gamma x y => gamma (un x) (un y)
  | beta x y => beta (un x) (un y)
  | poisson l d => poisson (un l) d
  | binomial l n d => binomial (un l) n d
  | inverseGamma x y => inverseGamma (un x) (un y)
  | laplace x y => laplace (un x) (un y)
  | binConcrete t l => binConcrete (un t) (un l)
  | mvn m c => mvn (un m) (un c)
  | multinomial l n d => multinomial (un l) n d
  | unnormalizedMultinomial l d => unnormalizedMultinomial (un l) d
  | onehot l d => onehot (un l) d
  | dirichlet a => dirichlet (un a)
  | expConcrete t l => expConcrete (un t) (un l)
  | concrete t l => concrete (un t) (un l)
  | matrixNormal m u v => matrixNormal (un m) (un u) (un v)
where
  /-- The same tensor with nothing known statically. -/
  un (x : T) : T := ⟨x.dtype, ⟨none, x.shape.rt⟩⟩

/-- Every parameter's shape is fully known while the graph is built (and no size is 0, which the code treats as
unknown). -/
def FullyKnown : Args → Prop
  | normal a b | foldNormal a b | uniform a b | gamma a b | beta a b | inverseGamma a b | laplace a b
  | binConcrete a b | mvn a b | expConcrete a b | concrete a b => known a ∧ known b
  | bernoulli l _ | poisson l _ | categorical l _ | unnormalizedMultinomial l _ | onehot l _
  | dirichlet l => known l
  | binomial l _ _ => known l
  | multinomial l _ _ => known l
  | matrixNormal m u v => known m ∧ known u ∧ known v
where
  /-- All sizes of the tensor are known, and positive. -/
  known (x : T) : Prop := x.shape.st = some (x.dims.map some) ∧ ∀ n ∈ x.dims, 0 < n

/-- `n_experiments`, if any, is a Python value rather than a tensor. -/
def PyCount : Args → Prop
  | binomial _ n _ => IsPy n
  | multinomial _ n _ => ∀ n' ∈ n, IsPy n'
  | _ => True
where
  /-- The argument is a Python number, or something that cannot be converted. -/
  IsPy (g : PyArg) : Prop := ∀ t, g ≠ .obj (some t)

/-- The distribution built, at the level of shapes (`Spec/DistShape.lean` has its documented batch and value shapes);
`n` is the number of experiments, which those do not depend on. -/
def dist (n : ℕ) : Args → Dist
  | normal x y => .normal x.shape y.shape
  | foldNormal x y => .foldNormal x.shape y.shape
  | bernoulli l _ => .bernoulli l.shape
  | categorical l _ => .categorical l.shape
  | uniform x y => .uniform x.shape y.shape
  | gamma x y => .gamma x.shape y.shape
  | beta x y => .beta x.shape y.shape
  | poisson l _ => .poisson l.shape
  | binomial l _ _ => .binomial l.shape n
  | inverseGamma x y => .inverseGamma x.shape y.shape
  | laplace x y => .laplace x.shape y.shape
  | binConcrete t l => .binConcrete t.shape l.shape
  | mvn m c => .mvn m.shape c.shape
  | multinomial l o _ => .multinomial l.shape (o.map (fun _ => n))
  | unnormalizedMultinomial l _ => .unnormalizedMultinomial l.shape
  | onehot l _ => .onehot l.shape
  | dirichlet a => .dirichlet a.shape
  | expConcrete t l => .expConcrete t.shape l.shape
  | concrete t l => .concrete t.shape l.shape
  | matrixNormal m u v => .matrixNormal m.shape u.shape v.shape

/-- At least one category, for the classes that draw one. -/
def HasCategory : Args → Prop
  | categorical l _ | multinomial l _ _ | unnormalizedMultinomial l _ | onehot l _ =>
    ∀ b, l.dims ≠ b ++ [0]
  | _ => True

end Args

/-- `group_ndims` denotes a nonnegative integer scalar. -/
def GroupOK (g : PyArg) : Prop := ∃ k, denotes g = some k ∧ 0 ≤ k

end ZhuSuan.Ctors

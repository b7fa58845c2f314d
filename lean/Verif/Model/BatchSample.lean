import Verif.Model.Univariate

/-!
# `sample(n_samples)` of a batch of univariate distributions

The `_sample` methods of `/repo/zhusuan/distributions/univariate.py` as expressions on tensors: the source tensors
of random numbers have shape `[n_samples] + batch_shape`, and every operation broadcasts.  `u` is the first source
and `w` the second (only `Beta` has two).  Categorical and Binomial, which flatten their batch, are not here;
FoldNormal samples as Normal does (C19).
-/

set_option autoImplicit false

namespace ZhuSuan.Uni

open Shape (Expr Tensor)

/-- The tensors a `_sample` mentions: two sources and two parameters.  (distributions/univariate.py 161–1379) -/
inductive SV where
  | u
  | w
  | a
  | b
deriving DecidableEq

/-- Tensor expressions of the samplers.  (distributions/univariate.py 161–1379) -/
abbrev SE (α : Type) := Expr SV ℝ α

namespace SE
noncomputable instance : Add (SE ℝ) := ⟨.bin (· + ·)⟩
noncomputable instance : Sub (SE ℝ) := ⟨.bin (· - ·)⟩
noncomputable instance : Mul (SE ℝ) := ⟨.bin (· * ·)⟩
noncomputable instance : Div (SE ℝ) := ⟨.bin (· / ·)⟩
noncomputable instance : Neg (SE ℝ) := ⟨.un (- ·)⟩
/-- Python numbers.  (distributions/univariate.py 1144, 1372) -/
def c (x : ℝ) : SE ℝ := .const x
end SE

/-- The `std` or `logstd` argument of `Normal`.  (distributions/univariate.py 96–112) -/
inductive StdT where
  | std (t : Tensor ℝ)
  | logstd (t : Tensor ℝ)

/-- The stored `_std`.  (distributions/univariate.py 96–112) -/
noncomputable def StdT.getStd : StdT → Tensor ℝ
  | .std t => t
  | .logstd t => ⟨t.shape, fun i => Real.exp (t.val i)⟩

/-- The stored `_logstd`.  (distributions/univariate.py 96–112) -/
noncomputable def StdT.getLogstd : StdT → Tensor ℝ
  | .std t => ⟨t.shape, fun i => Real.log (t.val i)⟩
  | .logstd t => t

/-- The univariate distributions whose samplers are elementwise, with their parameter tensors.  (the classes of
distributions/univariate.py 43–1402 except FoldNormal, Categorical and Binomial) -/
inductive BDist where
  | normal (mean : Tensor ℝ) (s : StdT)
  | bernoulli (logits : Tensor ℝ)
  | uniform (minval maxval : Tensor ℝ)
  | gamma (alpha beta : Tensor ℝ)
  | beta (alpha beta : Tensor ℝ)
  | poisson (rate : Tensor ℝ)
  | inverseGamma (alpha beta : Tensor ℝ)
  | laplace (loc scale : Tensor ℝ)
  | binConcrete (temperature logits : Tensor ℝ)

namespace BDist

/-- The same object as the `log_prob` model knows it.  (distributions/univariate.py 79–121 and the same in each
class) -/
noncomputable def toU : BDist → UDist
  | normal m s => .normal m s.getLogstd
  | bernoulli l => .bernoulli l
  | uniform a b => .uniform a b
  | gamma a b => .gamma a b
  | beta a b => .beta a b
  | poisson r => .poisson r
  | inverseGamma a b => .inverseGamma a b
  | laplace a b => .laplace a b
  | binConcrete a b => .binConcrete a b

/-- The parameter tensors the sampler reads; a one-parameter distribution has its parameter in both places.
(distributions/univariate.py 162, 387, 633, 734, 827, 916, 1142, 1248, 1364) -/
noncomputable def sparams : BDist → Tensor ℝ × Tensor ℝ
  | normal m s => (m, s.getStd)
  | uniform a b | gamma a b | beta a b | inverseGamma a b | laplace a b | binConcrete a b => (a, b)
  | bernoulli l | poisson l => (l, l)

/-- What `_sample` computes from the source tensors.  `tf.random_gamma(shape, alpha, beta)` divides a draw of rate
one by `beta`; `tf.stop_gradient` and casts do not change values.  (distributions/univariate.py 161–172, 386–396,
632–644, 733–735, 826–831, 915–920, 1141–1144, 1246–1265, 1363–1379) -/
noncomputable def sampleE : BDist → SE ℝ
  | normal .. => .var .u * .var .b + .var .a
  | bernoulli .. => .un (fun p => ind p) (.bin (· < ·) (.var .u) (.un sigmoid (.var .a)) : SE Prop)
  | uniform .. => .var .u * (.var .b - .var .a) + .var .a
  | gamma .. => .var .u / .var .b
  | beta .. => .var .u / (.var .u + .var .w)
  | poisson .. => .var .u
  | inverseGamma .. => SE.c 1 / (.var .u / .var .b)
  | laplace .. => .var .a - .var .b * .un (fun x => (SignType.sign x : ℝ)) (.var .u) *
      .un (fun x => Real.log (1 + x)) (-(.un (fun x => |x|) (.var .u) : SE ℝ))
  | binConcrete .. => .un sigmoid ((.var .b + (.un Real.log (.var .u) -
      .un Real.log (SE.c 1 - .var .u))) / .var .a)

/-- `batch_shape` as the samplers use it (`tf.random_gamma` broadcasts its two parameters itself, Beta broadcasts
them explicitly, `tf.random_poisson` takes the shape of `rate`).  (distributions/univariate.py 153–155, 380–381,
624–626, 733–735, 826–831, 915–920, 1141–1144, 1238–1240, 1357–1358) -/
def batch : BDist → Option (List ℕ)
  | normal m s => Shape.bcast m.shape (match s with | .std t => t.shape | .logstd t => t.shape)
  | uniform a b | gamma a b | beta a b | inverseGamma a b | laplace a b => Shape.bcast a.shape b.shape
  | bernoulli l | poisson l => some l.shape
  | binConcrete _ l => some l.shape

/-- The tensors named in the expressions.  (distributions/univariate.py 161–1379) -/
noncomputable def senv (d : BDist) (s : List ℕ) (u w : List ℕ → ℝ) : SV → Tensor ℝ
  | .u => ⟨s, u⟩
  | .w => ⟨s, w⟩
  | .a => d.sparams.1
  | .b => d.sparams.2

/-- `sample(n_samples)` with a number, given the contents of the sources.  (distributions/base.py 254–263,
distributions/univariate.py 161–1379) -/
noncomputable def sample (d : BDist) (n : ℕ) (u w : List ℕ → ℝ) : Option (Tensor ℝ) :=
  d.batch.bind (fun b => d.sampleE.eval (d.senv (n :: b) u w))

/-- `sample()`: one sample with the sample axis squeezed.  (distributions/base.py 251–253) -/
noncomputable def sampleOne (d : BDist) (u w : List ℕ → ℝ) : Option (Tensor ℝ) :=
  (d.sample 1 u w).map (fun t => ⟨t.shape.tail, fun idx => t.val (0 :: idx)⟩)

end BDist
end ZhuSuan.Uni

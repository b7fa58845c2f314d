import Verif.Model.Guards
import Verif.Model.DistShape

/-!
# Constructors of the distributions: which parameters are refused, and when

Every `__init__` of distributions/univariate.py and distributions/multivariate.py is followed check by check, in
the order of the code.  A check may raise while the graph is built, or attach an assertion that is evaluated when
the graph runs.  Only dtypes and shapes (static and run-time) of the parameters matter.
-/

set_option autoImplicit false

namespace ZhuSuan.Ctors
open ZhuSuan.Shape ZhuSuan.Guards

/-- A parameter after `tf.convert_to_tensor`: its dtype, its static and its run-time shape.  (e.g.
distributions/univariate.py 95–96, distributions/multivariate.py 81, 85) -/
structure T where
  dtype : DType
  shape : P

/-- The effect of a piece of a constructor: the exception it raises, if any, and whether the assertions it adds
to the graph hold at run time.  (distributions/utils.py 222–308, distributions/multivariate.py 600–623) -/
structure Check where
  err : Option Err
  run : Bool
  deriving DecidableEq

/-- Two pieces of a constructor in sequence: an exception of the first ends the constructor.  (Python statements
in sequence, e.g. distributions/univariate.py 435–446) -/
def Check.then (a b : Check) : Check :=
  match a.err with
  | some e => ⟨some e, true⟩
  | none => ⟨b.err, a.run && b.run⟩

/-- Nothing checked.  (the end of e.g. distributions/univariate.py 361–367) -/
def Check.pass : Check := ⟨none, true⟩

/-- A guard of `Model/Guards.lean` as a piece of a constructor.  (distributions/utils.py 111–171, 276–308) -/
def Check.ofGuard {α : Type} : Except Err α → Check
  | .ok _ => .pass
  | .error .runError => ⟨none, false⟩
  | .error e => ⟨some e, true⟩

/-- A shape guard of `Model/Shape.lean` as a piece of a constructor; refusals while building are `ValueError`s.
(distributions/utils.py 234–241, 266–273) -/
def Check.ofVerdict : Verdict → Check
  | .buildError => ⟨some .valueError, true⟩
  | .runError => ⟨none, false⟩
  | .accepted => .pass

/-- The constructor returned and every assertion it added holds when the graph runs.  (what
`tf.control_dependencies` enforces, e.g. distributions/utils.py 239–241) -/
def Check.ok (c : Check) : Bool := c.err.isNone && c.run

/-- `assert_same_float_dtype`.  (distributions/utils.py 146–153) -/
def sameFloat (ts : List T) : Check := .ofGuard (assertSameFloatDtype (ts.map T.dtype))

/-- `assert_dtype_is_int_or_float`.  (distributions/utils.py 174–184) -/
def intOrFloat (d : DType) : Check := .ofGuard (assertDtypeInDtypes d (integerDtypes ++ floatingDtypes))

/-- `try: tf.broadcast_static_shape(...) except ValueError: raise ValueError(...)`.  (distributions/univariate.py
114–121, 259–266, 591–598, 692–699, 785–792, 1100–1107, 1204–1211) -/
def staticBroadcast (x y : T) : Check :=
  if (sbcast x.shape.st y.shape.st).isNone then ⟨some .valueError, true⟩ else .pass

/-- `assert_rank_at_least(tensor, k, name)`.  (distributions/utils.py 222–241) -/
def rankAtLeast (x : T) (k : ℕ) : Check := .ofVerdict (assertRankAtLeast x.shape.st x.shape.rt k)

/-- `assert_scalar(tensor, name)`.  (distributions/utils.py 256–273) -/
def scalar (x : T) : Check := .ofVerdict (assertScalar x.shape.st x.shape.rt)

/-- One axis of `TensorShape.is_compatible_with`: equal, or one of the two unknown.  (TensorFlow primitive; used at
distributions/multivariate.py 92, 1025, 1028) -/
def compatDim : Option ℕ → Option ℕ → Bool
  | some m, some n => decide (m = n)
  | _, _ => true

/-- All axes of `TensorShape.is_compatible_with`; no broadcasting.  (TensorFlow primitive; used at
distributions/multivariate.py 92, 1025, 1028) -/
def compatDims : List (Option ℕ) → List (Option ℕ) → Bool
  | [], [] => true
  | a :: as, b :: bs => compatDim a b && compatDims as bs
  | _, _ => false

/-- `x.assert_is_compatible_with(y)`: `ValueError` unless the two static shapes can be the same shape.  (TensorFlow
primitive; used at distributions/multivariate.py 92, 1025, 1028) -/
def assertCompatible : Static → Static → Check
  | some a, some b => if compatDims a b then .pass else ⟨some .valueError, true⟩
  | _, _ => .pass

/-- `tf.assert_equal(x, y)` on two integer vectors at run time: elementwise, a vector of length 1 being broadcast
against the other one; other lengths are an error.  (TensorFlow primitive; used at distributions/multivariate.py
100, 1036, 1043) -/
def assertEqualVec (x y : List ℕ) : Bool :=
  if x.length = y.length then decide (x = y)
  else match x, y with
    | [a], y => y.all (fun b => decide (a = b))
    | x, [b] => x.all (fun a => decide (a = b))
    | _, _ => false

/-- The run-time part of a constructor, which may itself fail (`none`).  (distributions/multivariate.py 94–102,
1030–1046) -/
def atRun (r : Option Bool) : Check := ⟨none, r.getD false⟩

/-- `Distribution.__init__` with the deprecated `group_event_ndims` left out.  (distributions/base.py 90–114) -/
def baseInit (groupNdims : PyArg) : Check := .ofGuard (checkGroupNdims false groupNdims)

/-- The `tf.float32`/`tf.float64` check of `Categorical`'s logits.  (distributions/univariate.py 435–437) -/
def categoricalLogits (x : T) : Check := .ofGuard (assertSameDtypeIn [x.dtype] (some [.float32, .float64]))

/-- `Normal.__init__` and `FoldNormal.__init__` once one of `std`, `logstd` is chosen (`Guards.normalCtor` has that
choice); `tf.log` and `tf.exp` keep the shape.  (distributions/univariate.py 92–130, 237–275) -/
def normalInit (mean std : T) (g : PyArg) : Check :=
  (sameFloat [mean, std]).then ((staticBroadcast mean std).then (baseInit g))

/-- `Bernoulli.__init__`.  (distributions/univariate.py 354–367) -/
def bernoulliInit (logits : T) (dtype : DType) (g : PyArg) : Check :=
  (sameFloat [logits]).then ((intOrFloat dtype).then (baseInit g))

/-- `Categorical.__init__`.  (distributions/univariate.py 433–452) -/
def categoricalInit (logits : T) (dtype : DType) (g : PyArg) : Check :=
  (categoricalLogits logits).then
    ((Check.ofGuard (assertDtypeInDtypes dtype [.float32, .float64, .int32, .int64])).then
      ((rankAtLeast logits 1).then (baseInit g)))

/-- `Uniform.__init__`, `Gamma.__init__`, `Beta.__init__`, `InverseGamma.__init__` and `Laplace.__init__`.
(distributions/univariate.py 584–606, 685–707, 778–800, 1093–1115, 1197–1220) -/
def pairInit (x y : T) (g : PyArg) : Check :=
  (sameFloat [x, y]).then ((staticBroadcast x y).then (baseInit g))

/-- `Poisson.__init__`.  (distributions/univariate.py 881–896) -/
def poissonInit (rate : T) (dtype : DType) (g : PyArg) : Check :=
  (sameFloat [rate]).then ((intOrFloat dtype).then (baseInit g))

/-- `Binomial.__init__`.  (distributions/univariate.py 968–1001) -/
def binomialInit (logits : T) (n : PyArg) (dtype : DType) (g : PyArg) : Check :=
  (sameFloat [logits]).then
    ((intOrFloat dtype).then ((Check.ofGuard (checkNExperiments n)).then (baseInit g)))

/-- `BinConcrete.__init__`.  (distributions/univariate.py 1320–1339) -/
def binConcreteInit (temperature logits : T) (g : PyArg) : Check :=
  (sameFloat [logits, temperature]).then ((scalar temperature).then (baseInit g))

/-- `MultivariateNormalCholesky.__init__`.  (distributions/multivariate.py 80–114) -/
def mvnInit (mean cov : T) (g : PyArg) : Check :=
  (rankAtLeast mean 1).then
    ((rankAtLeast cov 2).then
      ((assertCompatible cov.shape.st (mean.shape.st.concat (some [intAt mean.shape.st (-1)]))).then
        ((atRun ((getShapeAt mean.shape.st mean.shape.rt (-1)).map
            (fun n => assertEqualVec (mean.shape.rt ++ [n]) cov.shape.rt))).then
          ((sameFloat [mean, cov]).then (baseInit g)))))

/-- The `n_experiments` part of `Multinomial.__init__`; `None` is kept.  (distributions/multivariate.py 248–252) -/
def multinomialCount : Option PyArg → Check
  | none => .pass
  | some n => .ofGuard (assertPositiveInt32Scalar n)

/-- `Multinomial.__init__`.  (distributions/multivariate.py 237–262) -/
def multinomialInit (logits : T) (n : Option PyArg) (dtype : DType) (g : PyArg) : Check :=
  (sameFloat [logits]).then
    ((intOrFloat dtype).then
      ((rankAtLeast logits 1).then ((multinomialCount n).then (baseInit g))))

/-- `UnnormalizedMultinomial.__init__` and `OnehotCategorical.__init__`.  (distributions/multivariate.py 382–401,
477–494) -/
def onehotInit (logits : T) (dtype : DType) (g : PyArg) : Check :=
  (sameFloat [logits]).then ((intOrFloat dtype).then ((rankAtLeast logits 1).then (baseInit g)))

/-- The shape part of `Dirichlet.__init__`.  (distributions/multivariate.py 602–623) -/
def dirichletShape (alpha : T) : Check :=
  match alpha.shape.st with
  | some l =>
    if l.length < 1 then ⟨some .valueError, true⟩
    else match l.getLast? with
      | some (some k) => if k < 2 then ⟨some .valueError, true⟩ else .pass
      | _ => ⟨none, decide (1 ≤ alpha.shape.rt.length) && ((pyIndex alpha.shape.rt (-1)).any (fun k => decide (2 ≤ k)))⟩
  | none => ⟨none, decide (1 ≤ alpha.shape.rt.length) && ((pyIndex alpha.shape.rt (-1)).any (fun k => decide (2 ≤ k)))⟩

/-- `Dirichlet.__init__`.  (distributions/multivariate.py 597–632) -/
def dirichletInit (alpha : T) (g : PyArg) : Check :=
  (sameFloat [alpha]).then ((dirichletShape alpha).then (baseInit g))

/-- `ExpConcrete.__init__` and `Concrete.__init__`.  (distributions/multivariate.py 725–748, 863–886) -/
def concreteInit (temperature logits : T) (g : PyArg) : Check :=
  (sameFloat [logits, temperature]).then
    ((rankAtLeast logits 1).then ((scalar temperature).then (baseInit g)))

/-- `MatrixVariateNormalCholesky.__init__`.  (distributions/multivariate.py 1008–1059) -/
def matrixNormalInit (mean u v : T) (g : PyArg) : Check :=
  (rankAtLeast mean 2).then
    ((rankAtLeast u 2).then
      ((rankAtLeast v 2).then
        ((assertCompatible u.shape.st ((mean.shape.st.dropEnd 1).concat (some [intAt mean.shape.st (-2)]))).then
          ((assertCompatible v.shape.st
              ((mean.shape.st.dropEnd 2).concat
                (some [intAt mean.shape.st (-1), intAt mean.shape.st (-1)]))).then
            ((atRun ((getShapeAt mean.shape.st mean.shape.rt (-2)).map
                (fun r => assertEqualVec (mean.shape.rt.dropLast ++ [r]) u.shape.rt))).then
              ((atRun ((getShapeAt mean.shape.st mean.shape.rt (-1)).map
                  (fun c => assertEqualVec (mean.shape.rt.dropLast.dropLast ++ [c, c]) v.shape.rt))).then
                ((sameFloat [mean, u, v]).then (baseInit g))))))))

/-- The arguments of a constructor call.  (the signatures of the `__init__`s of distributions/univariate.py 43–1340
and distributions/multivariate.py 41–1060; flags that only change later behaviour are left out) -/
inductive Args where
  | normal (mean std : T)
  | foldNormal (mean std : T)
  | bernoulli (logits : T) (dtype : DType)
  | categorical (logits : T) (dtype : DType)
  | uniform (minval maxval : T)
  | gamma (alpha beta : T)
  | beta (alpha beta : T)
  | poisson (rate : T) (dtype : DType)
  | binomial (logits : T) (nExperiments : PyArg) (dtype : DType)
  | inverseGamma (alpha beta : T)
  | laplace (loc scale : T)
  | binConcrete (temperature logits : T)
  | mvn (mean covTril : T)
  | multinomial (logits : T) (nExperiments : Option PyArg) (dtype : DType)
  | unnormalizedMultinomial (logits : T) (dtype : DType)
  | onehot (logits : T) (dtype : DType)
  | dirichlet (alpha : T)
  | expConcrete (temperature logits : T)
  | concrete (temperature logits : T)
  | matrixNormal (mean uTril vTril : T)

/-- The constructor call.  (the `__init__`s of distributions/univariate.py 43–1340 and
distributions/multivariate.py 41–1060) -/
def Args.init (g : PyArg) : Args → Check
  | .normal x y | .foldNormal x y => normalInit x y g
  | .uniform x y | .gamma x y | .beta x y | .inverseGamma x y | .laplace x y => pairInit x y g
  | .bernoulli l d => bernoulliInit l d g
  | .categorical l d => categoricalInit l d g
  | .poisson l d => poissonInit l d g
  | .binomial l n d => binomialInit l n d g
  | .binConcrete t l => binConcreteInit t l g
  | .mvn m c => mvnInit m c g
  | .multinomial l n d => multinomialInit l n d g
  | .unnormalizedMultinomial l d | .onehot l d => onehotInit l d g
  | .dirichlet a => dirichletInit a g
  | .expConcrete t l | .concrete t l => concreteInit t l g
  | .matrixNormal m u v => matrixNormalInit m u v g

end ZhuSuan.Ctors

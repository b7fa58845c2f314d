import Verif.Model.Dict

/-!
# Calls: how arguments reach a distribution (`framework/bn.py` 556–1187, `legacy/framework/stochastic.py`)

The node methods of `BayesianNet` and the legacy `StochasticTensor` classes build a distribution from their
arguments, pass it to `stochastic` (or to `StochasticTensor.__init__`), and forward their `**kwargs` to
both.  A row (`Wrapper`, `Ctor`) transcribes one such function: its parameters with their default values, and
the arguments of its two calls.  `bind` is Python's rule for binding arguments to parameters.

Simplification: the bodies of the constructors (checks and conversions of values) are modelled elsewhere; here a
constructor call yields the values its parameters receive.
-/

set_option autoImplicit false

namespace ZhuSuan.Calls

/-- The default values that occur in the signatures.  (framework/bn.py 556–1187) -/
inductive Lit where
  | none | zero | zeroF | oneF | true | false | int32
  deriving DecidableEq, Repr

/-- A value passed as an argument: a default, something given by the user, or one of the objects the wrappers pass
on: the net (`self` or `None`), the distribution just built, the result of `_get_observation`.  (framework/bn.py
368–369) -/
inductive Val (U : Type) where
  | lit (l : Lit)
  | user (u : U)
  | net
  | dist
  | obs
  deriving DecidableEq

/-- The exceptions of a call.  (Python's `TypeError` and `NameError`; `ValueError` at distributions/base.py
89–92) -/
inductive Err where
  | typeError | nameError | valueError
  deriving DecidableEq

/-- The parameters of a function after `self`, in order, with their default values; every function here also has
`**kwargs`.  (framework/bn.py 556–566) -/
abbrev Params := Dict String (Option Lit)

/-- `Distribution.__init__` of one class: its parameters, and the keywords it passes to the base class before
`**kwargs`.  (distributions/univariate.py 79–130) -/
structure Ctor where
  name : String
  params : Params
  base : List String

/-- Which of the two ends a wrapper has: `self.stochastic(name, dist, …)` or
`super().__init__(None, name, dist, …)`.  (framework/bn.py 590; legacy/framework/stochastic.py 102) -/
inductive Kind where
  | bn | legacy
  deriving DecidableEq

/-- One wrapper: `def name(self, params, **kwargs)` with body `dist = ctor(pos, kw, **kwargs)` and then
`stochastic(name, dist, node, **kwargs)`.  (framework/bn.py 556–590) -/
structure Wrapper where
  name : String
  params : Params
  ctor : Ctor
  pos : List String
  kw : Dict String String
  node : Dict String String
  kind : Kind

section
variable {U : Type}

/-- The values of the parameters: the argument of that name, else the default, else `TypeError` (missing
argument).  (Python calls; used at framework/bn.py 582–590) -/
def fill : Params → Dict String (Val U) → Except Err (Dict String (Val U))
  | [], _ => .ok []
  | (p, d) :: ps, a =>
    match (a.get? p).or (d.map .lit) with
    | none => .error .typeError
    | some v => match fill ps a with
      | .error e => .error e
      | .ok b => .ok ((p, v) :: b)

/-- The arguments by name: positional ones take the parameters' names in order.  (Python calls; used at
framework/bn.py 582–590) -/
def byName (ps : Params) (pos : List (Val U)) (kw : Dict String (Val U)) : Dict String (Val U) :=
  List.zip ps.keys pos ++ kw

/-- Python's binding of a call `f(*pos, **kw)` of a method `def f(self, ps, **kwargs)`: `TypeError` for too many
positional arguments, for `self` or a positionally bound parameter given again by keyword, and for a missing
argument; otherwise the values of the parameters, and `kwargs`.  (Python calls; used at framework/bn.py
582–590) -/
def bind (ps : Params) (pos : List (Val U)) (kw : Dict String (Val U)) :
    Except Err (Dict String (Val U) × Dict String (Val U)) :=
  if ps.length < pos.length then .error .typeError
  else if kw.keys.any (fun k => k == "self" || (ps.keys.take pos.length).contains k) then .error .typeError
  else match fill ps (byName ps pos kw) with
    | .error e => .error e
    | .ok b => .ok (b, kw.filter fun kv => !ps.keys.contains kv.1)

/-- The values of local variables.  (Python; used at framework/bn.py 582–588) -/
def evalPos (locals : Dict String (Val U)) : List String → Except Err (List (Val U))
  | [] => .ok []
  | x :: xs =>
    match locals.get? x with
    | none => .error .nameError
    | some v => match evalPos locals xs with
      | .error e => .error e
      | .ok vs => .ok (v :: vs)

/-- Keyword arguments whose values are local variables.  (Python; used at framework/bn.py 583–588) -/
def evalKw (locals : Dict String (Val U)) : Dict String String → Except Err (Dict String (Val U))
  | [] => .ok []
  | (k, x) :: xs =>
    match locals.get? x with
    | none => .error .nameError
    | some v => match evalKw locals xs with
      | .error e => .error e
      | .ok vs => .ok ((k, v) :: vs)

/-- `k=v, …, **kwargs` in a call: `TypeError` if a keyword is given twice.  (Python; used at framework/bn.py
588) -/
def merge (kw extra : Dict String (Val U)) : Except Err (Dict String (Val U)) :=
  if extra.keys.any kw.keys.contains then .error .typeError else .ok (kw ++ extra)

/-- A distribution as built: the values of its constructor's parameters, and the remaining keyword arguments, which
go to the base class. -/
structure Built (U : Type) where
  params : Dict String (Val U)
  rest : Dict String (Val U)

/-- A constructor call: bind the arguments; then the base class is called with the keywords `c.base` and the
remaining ones, where `group_event_ndims` is a `ValueError`.  (distributions/univariate.py 79–130, base.py
82–92) -/
def construct (c : Ctor) (pos : List (Val U)) (kw : Dict String (Val U)) : Except Err (Built U) :=
  match bind c.params pos kw with
  | .error e => .error e
  | .ok (b, extra) =>
    if extra.keys.any c.base.contains then .error .typeError
    else if extra.keys.contains "group_event_ndims" then .error .valueError
    else .ok ⟨b, extra⟩

/-- A node as built: name, distribution, `n_samples` and the argument `observation`. -/
structure Node (U : Type) where
  name : Val U
  dist : Built U
  nSamples : Val U
  observation : Val U

/-- `StochasticTensor.__init__(self, bn, name, dist, observation=None, **kwargs)` (framework/bn.py 69–95):
`n_samples` is `kwargs.get("n_samples", None)`. -/
def initNode (d : Built U) (pos : List (Val U)) (kw : Dict String (Val U)) : Except Err (Node U) :=
  match bind [("bn", none), ("name", none), ("dist", none), ("observation", some .none)] pos kw with
  | .error e => .error e
  | .ok (b, extra) =>
    match b.get? "name", b.get? "observation" with
    | some n, some o => .ok ⟨n, d, (extra.get? "n_samples").getD (.lit .none), o⟩
    | _, _ => .error .nameError

/-- `BayesianNet.stochastic(self, name, dist, **kwargs)` (framework/bn.py 348–371), the calls it makes; the check
for duplicate names is in `Model/BayesNet.lean`. -/
def stochastic (d : Built U) (pos : List (Val U)) (kw : Dict String (Val U)) : Except Err (Node U) :=
  match bind [("name", none), ("dist", none)] pos kw with
  | .error e => .error e
  | .ok (b, extra) =>
    match b.get? "name" with
    | none => .error .nameError
    | some n => match merge [("observation", .obs)] extra with
      | .error e => .error e
      | .ok kw' => initNode d [.net, n, .dist] kw'

/-- Calling a wrapper (framework/bn.py 556–590; legacy/framework/stochastic.py 80–102): bind its arguments, call
the constructor, then make the node. -/
def call (w : Wrapper) (pos : List (Val U)) (kw : Dict String (Val U)) : Except Err (Node U) :=
  match bind w.params pos kw with
  | .error e => .error e
  | .ok (locals, extra) =>
    match evalPos locals w.pos, evalKw locals w.kw with
    | .ok cpos, .ok ckw =>
      match merge ckw extra with
      | .error e => .error e
      | .ok ckw' =>
        match construct w.ctor cpos ckw' with
        | .error e => .error e
        | .ok d =>
          match locals.get? "name", evalKw locals w.node with
          | some n, .ok nkw =>
            match merge nkw extra with
            | .error e => .error e
            | .ok nkw' =>
              match w.kind with
              | .bn => stochastic d [n, .dist] nkw'
              | .legacy => initNode d [.net, n, .dist] nkw'
          | _, _ => .error .nameError
    | _, _ => .error .nameError

end

/-! ### The rows -/

/-- `Normal.__init__` (distributions/univariate.py 79–130). -/
def normalInit : Ctor where
  name := "Normal"
  params := [("mean", some .zeroF), ("_sentinel", some .none), ("std", some .none), ("logstd", some
    .none), ("group_ndims", some .zero), ("is_reparameterized", some .true), ("use_path_derivative", some
    .false), ("check_numerics", some .false)]
  base := ["dtype", "param_dtype", "is_continuous", "is_reparameterized", "use_path_derivative",
    "group_ndims"]

/-- `FoldNormal.__init__` (distributions/univariate.py 224–275). -/
def foldNormalInit : Ctor where
  name := "FoldNormal"
  params := [("mean", some .zeroF), ("_sentinel", some .none), ("std", some .none), ("logstd", some
    .none), ("group_ndims", some .zero), ("is_reparameterized", some .true), ("use_path_derivative", some
    .false), ("check_numerics", some .false)]
  base := ["dtype", "param_dtype", "is_continuous", "is_reparameterized", "use_path_derivative",
    "group_ndims"]

/-- `Bernoulli.__init__` (distributions/univariate.py 354–367). -/
def bernoulliInit : Ctor where
  name := "Bernoulli"
  params := [("logits", none), ("dtype", some .int32), ("group_ndims", some .zero)]
  base := ["dtype", "param_dtype", "is_continuous", "is_reparameterized", "group_ndims"]

/-- `Categorical.__init__` (distributions/univariate.py 433–452). -/
def categoricalInit : Ctor where
  name := "Categorical"
  params := [("logits", none), ("dtype", some .int32), ("group_ndims", some .zero)]
  base := ["dtype", "param_dtype", "is_continuous", "is_reparameterized", "group_ndims"]

/-- `Uniform.__init__` (distributions/univariate.py 578–606). -/
def uniformInit : Ctor where
  name := "Uniform"
  params := [("minval", some .zeroF), ("maxval", some .oneF), ("group_ndims", some .zero),
    ("is_reparameterized", some .true), ("check_numerics", some .false)]
  base := ["dtype", "param_dtype", "is_continuous", "is_reparameterized", "group_ndims"]

/-- `Gamma.__init__` (distributions/univariate.py 680–707). -/
def gammaInit : Ctor where
  name := "Gamma"
  params := [("alpha", none), ("beta", none), ("group_ndims", some .zero), ("check_numerics", some .false)]
  base := ["dtype", "param_dtype", "is_continuous", "is_reparameterized", "group_ndims"]

/-- `Beta.__init__` (distributions/univariate.py 773–800). -/
def betaInit : Ctor where
  name := "Beta"
  params := [("alpha", none), ("beta", none), ("group_ndims", some .zero), ("check_numerics", some .false)]
  base := ["dtype", "param_dtype", "is_continuous", "is_reparameterized", "group_ndims"]

/-- `Poisson.__init__` (distributions/univariate.py 876–896). -/
def poissonInit : Ctor where
  name := "Poisson"
  params := [("rate", none), ("dtype", some .int32), ("group_ndims", some .zero), ("check_numerics", some
    .false)]
  base := ["dtype", "param_dtype", "is_continuous", "is_reparameterized", "group_ndims"]

/-- `Binomial.__init__` (distributions/univariate.py 962–1001). -/
def binomialInit : Ctor where
  name := "Binomial"
  params := [("logits", none), ("n_experiments", none), ("dtype", some .int32), ("group_ndims", some
    .zero), ("check_numerics", some .false)]
  base := ["dtype", "param_dtype", "is_continuous", "is_reparameterized", "group_ndims"]

/-- `InverseGamma.__init__` (distributions/univariate.py 1088–1115). -/
def inverseGammaInit : Ctor where
  name := "InverseGamma"
  params := [("alpha", none), ("beta", none), ("group_ndims", some .zero), ("check_numerics", some .false)]
  base := ["dtype", "param_dtype", "is_continuous", "is_reparameterized", "group_ndims"]

/-- `Laplace.__init__` (distributions/univariate.py 1190–1220). -/
def laplaceInit : Ctor where
  name := "Laplace"
  params := [("loc", none), ("scale", none), ("group_ndims", some .zero), ("is_reparameterized", some
    .true), ("use_path_derivative", some .false), ("check_numerics", some .false)]
  base := ["dtype", "param_dtype", "is_continuous", "is_reparameterized", "use_path_derivative",
    "group_ndims"]

/-- `BinConcrete.__init__` (distributions/univariate.py 1314–1339). -/
def binConcreteInit : Ctor where
  name := "BinConcrete"
  params := [("temperature", none), ("logits", none), ("group_ndims", some .zero), ("is_reparameterized",
    some .true), ("use_path_derivative", some .false), ("check_numerics", some .false)]
  base := ["dtype", "param_dtype", "is_continuous", "is_reparameterized", "use_path_derivative",
    "group_ndims"]

/-- `MultivariateNormalCholesky.__init__` (distributions/multivariate.py 72–114). -/
def multivariateNormalCholeskyInit : Ctor where
  name := "MultivariateNormalCholesky"
  params := [("mean", none), ("cov_tril", none), ("group_ndims", some .zero), ("is_reparameterized", some
    .true), ("use_path_derivative", some .false), ("check_numerics", some .false)]
  base := ["dtype", "param_dtype", "is_continuous", "is_reparameterized", "use_path_derivative",
    "group_ndims"]

/-- `Multinomial.__init__` (distributions/multivariate.py 231–262). -/
def multinomialInit : Ctor where
  name := "Multinomial"
  params := [("logits", none), ("n_experiments", none), ("normalize_logits", some .true), ("dtype", some
    .int32), ("group_ndims", some .zero)]
  base := ["dtype", "param_dtype", "is_continuous", "is_reparameterized", "group_ndims"]

/-- `UnnormalizedMultinomial.__init__` (distributions/multivariate.py 377–401). -/
def unnormalizedMultinomialInit : Ctor where
  name := "UnnormalizedMultinomial"
  params := [("logits", none), ("normalize_logits", some .true), ("dtype", some .int32), ("group_ndims",
    some .zero)]
  base := ["dtype", "param_dtype", "is_continuous", "is_reparameterized", "group_ndims"]

/-- `OnehotCategorical.__init__` (distributions/multivariate.py 477–494). -/
def onehotCategoricalInit : Ctor where
  name := "OnehotCategorical"
  params := [("logits", none), ("dtype", some .int32), ("group_ndims", some .zero)]
  base := ["dtype", "param_dtype", "is_continuous", "is_reparameterized", "group_ndims"]

/-- `Dirichlet.__init__` (distributions/multivariate.py 593–632). -/
def dirichletInit : Ctor where
  name := "Dirichlet"
  params := [("alpha", none), ("group_ndims", some .zero), ("check_numerics", some .false)]
  base := ["dtype", "param_dtype", "is_continuous", "is_reparameterized", "group_ndims"]

/-- `ExpConcrete.__init__` (distributions/multivariate.py 719–748). -/
def expConcreteInit : Ctor where
  name := "ExpConcrete"
  params := [("temperature", none), ("logits", none), ("group_ndims", some .zero), ("is_reparameterized",
    some .true), ("use_path_derivative", some .false), ("check_numerics", some .false)]
  base := ["dtype", "param_dtype", "is_continuous", "is_reparameterized", "use_path_derivative",
    "group_ndims"]

/-- `Concrete.__init__` (distributions/multivariate.py 857–886). -/
def concreteInit : Ctor where
  name := "Concrete"
  params := [("temperature", none), ("logits", none), ("group_ndims", some .zero), ("is_reparameterized",
    some .true), ("use_path_derivative", some .false), ("check_numerics", some .false)]
  base := ["dtype", "param_dtype", "is_continuous", "is_reparameterized", "use_path_derivative",
    "group_ndims"]

/-- `MatrixVariateNormalCholesky.__init__` (distributions/multivariate.py 1000–1059). -/
def matrixVariateNormalCholeskyInit : Ctor where
  name := "MatrixVariateNormalCholesky"
  params := [("mean", none), ("u_tril", none), ("v_tril", none), ("group_ndims", some .zero),
    ("is_reparameterized", some .true), ("use_path_derivative", some .false), ("check_numerics", some
    .false)]
  base := ["dtype", "param_dtype", "is_continuous", "is_reparameterized", "use_path_derivative",
    "group_ndims"]

/-- `Empirical.__init__` (legacy/distributions/special.py 47–70). -/
def empiricalInit : Ctor where
  name := "Empirical"
  params := [("dtype", none), ("batch_shape", some .none), ("value_shape", some .none), ("group_ndims",
    some .zero), ("is_continuous", some .none)]
  base := ["dtype", "param_dtype", "is_continuous", "is_reparameterized", "use_path_derivative",
    "group_ndims"]

/-- `Implicit.__init__` (legacy/distributions/special.py 118–134). -/
def implicitInit : Ctor where
  name := "Implicit"
  params := [("samples", none), ("value_shape", some .none), ("group_ndims", some .zero)]
  base := ["dtype", "param_dtype", "is_continuous", "is_reparameterized", "use_path_derivative",
    "group_ndims"]

/-- `BayesianNet.normal` (framework/bn.py 556–590). -/
def bn_normal : Wrapper where
  name := "normal"
  params := [("name", none), ("mean", some .zeroF), ("_sentinel", some .none), ("std", some .none),
    ("logstd", some .none), ("group_ndims", some .zero), ("n_samples", some .none), ("is_reparameterized",
    some .true), ("check_numerics", some .false)]
  ctor := normalInit
  pos := ["mean"]
  kw := [("_sentinel", "_sentinel"), ("std", "std"), ("logstd", "logstd"), ("group_ndims", "group_ndims"),
    ("is_reparameterized", "is_reparameterized"), ("check_numerics", "check_numerics")]
  node := [("n_samples", "n_samples")]
  kind := .bn

/-- `BayesianNet.fold_normal` (framework/bn.py 592–626). -/
def bn_fold_normal : Wrapper where
  name := "fold_normal"
  params := [("name", none), ("mean", some .zeroF), ("_sentinel", some .none), ("std", some .none),
    ("logstd", some .none), ("n_samples", some .none), ("group_ndims", some .zero), ("is_reparameterized",
    some .true), ("check_numerics", some .false)]
  ctor := foldNormalInit
  pos := ["mean"]
  kw := [("_sentinel", "_sentinel"), ("std", "std"), ("logstd", "logstd"), ("group_ndims", "group_ndims"),
    ("is_reparameterized", "is_reparameterized"), ("check_numerics", "check_numerics")]
  node := [("n_samples", "n_samples")]
  kind := .bn

/-- `BayesianNet.bernoulli` (framework/bn.py 628–654). -/
def bn_bernoulli : Wrapper where
  name := "bernoulli"
  params := [("name", none), ("logits", none), ("n_samples", some .none), ("group_ndims", some .zero),
    ("dtype", some .int32)]
  ctor := bernoulliInit
  pos := ["logits"]
  kw := [("group_ndims", "group_ndims"), ("dtype", "dtype")]
  node := [("n_samples", "n_samples")]
  kind := .bn

/-- `BayesianNet.categorical` (framework/bn.py 656–682). -/
def bn_categorical : Wrapper where
  name := "categorical"
  params := [("name", none), ("logits", none), ("n_samples", some .none), ("group_ndims", some .zero),
    ("dtype", some .int32)]
  ctor := categoricalInit
  pos := ["logits"]
  kw := [("group_ndims", "group_ndims"), ("dtype", "dtype")]
  node := [("n_samples", "n_samples")]
  kind := .bn

/-- `BayesianNet.uniform` (framework/bn.py 686–716). -/
def bn_uniform : Wrapper where
  name := "uniform"
  params := [("name", none), ("minval", some .zeroF), ("maxval", some .oneF), ("n_samples", some .none),
    ("group_ndims", some .zero), ("is_reparameterized", some .true), ("check_numerics", some .false)]
  ctor := uniformInit
  pos := ["minval", "maxval"]
  kw := [("group_ndims", "group_ndims"), ("is_reparameterized", "is_reparameterized"), ("check_numerics",
    "check_numerics")]
  node := [("n_samples", "n_samples")]
  kind := .bn

/-- `BayesianNet.gamma` (framework/bn.py 718–746). -/
def bn_gamma : Wrapper where
  name := "gamma"
  params := [("name", none), ("alpha", none), ("beta", none), ("n_samples", some .none), ("group_ndims",
    some .zero), ("check_numerics", some .false)]
  ctor := gammaInit
  pos := ["alpha", "beta"]
  kw := [("group_ndims", "group_ndims"), ("check_numerics", "check_numerics")]
  node := [("n_samples", "n_samples")]
  kind := .bn

/-- `BayesianNet.beta` (framework/bn.py 748–776). -/
def bn_beta : Wrapper where
  name := "beta"
  params := [("name", none), ("alpha", none), ("beta", none), ("n_samples", some .none), ("group_ndims",
    some .zero), ("check_numerics", some .false)]
  ctor := betaInit
  pos := ["alpha", "beta"]
  kw := [("group_ndims", "group_ndims"), ("check_numerics", "check_numerics")]
  node := [("n_samples", "n_samples")]
  kind := .bn

/-- `BayesianNet.poisson` (framework/bn.py 778–806). -/
def bn_poisson : Wrapper where
  name := "poisson"
  params := [("name", none), ("rate", none), ("n_samples", some .none), ("group_ndims", some .zero),
    ("dtype", some .int32), ("check_numerics", some .false)]
  ctor := poissonInit
  pos := ["rate"]
  kw := [("group_ndims", "group_ndims"), ("dtype", "dtype"), ("check_numerics", "check_numerics")]
  node := [("n_samples", "n_samples")]
  kind := .bn

/-- `BayesianNet.binomial` (framework/bn.py 808–838). -/
def bn_binomial : Wrapper where
  name := "binomial"
  params := [("name", none), ("logits", none), ("n_experiments", none), ("n_samples", some .none),
    ("group_ndims", some .zero), ("dtype", some .int32), ("check_numerics", some .false)]
  ctor := binomialInit
  pos := ["logits", "n_experiments"]
  kw := [("group_ndims", "group_ndims"), ("dtype", "dtype"), ("check_numerics", "check_numerics")]
  node := [("n_samples", "n_samples")]
  kind := .bn

/-- `BayesianNet.multivariate_normal_cholesky` (framework/bn.py 840–870). -/
def bn_multivariate_normal_cholesky : Wrapper where
  name := "multivariate_normal_cholesky"
  params := [("name", none), ("mean", none), ("cov_tril", none), ("n_samples", some .none),
    ("group_ndims", some .zero), ("is_reparameterized", some .true), ("check_numerics", some .false)]
  ctor := multivariateNormalCholeskyInit
  pos := ["mean", "cov_tril", "group_ndims"]
  kw := [("is_reparameterized", "is_reparameterized"), ("check_numerics", "check_numerics")]
  node := [("n_samples", "n_samples")]
  kind := .bn

/-- `BayesianNet.matrix_variate_normal_cholesky` (framework/bn.py 872–904). -/
def bn_matrix_variate_normal_cholesky : Wrapper where
  name := "matrix_variate_normal_cholesky"
  params := [("name", none), ("mean", none), ("u_tril", none), ("v_tril", none), ("n_samples", some
    .none), ("group_ndims", some .zero), ("is_reparameterized", some .true), ("check_numerics", some
    .false)]
  ctor := matrixVariateNormalCholeskyInit
  pos := ["mean", "u_tril", "v_tril", "group_ndims"]
  kw := [("is_reparameterized", "is_reparameterized"), ("check_numerics", "check_numerics")]
  node := [("n_samples", "n_samples")]
  kind := .bn

/-- `BayesianNet.multinomial` (framework/bn.py 906–936). -/
def bn_multinomial : Wrapper where
  name := "multinomial"
  params := [("name", none), ("logits", none), ("n_experiments", none), ("normalize_logits", some .true),
    ("n_samples", some .none), ("group_ndims", some .zero), ("dtype", some .int32)]
  ctor := multinomialInit
  pos := ["logits", "n_experiments"]
  kw := [("normalize_logits", "normalize_logits"), ("group_ndims", "group_ndims"), ("dtype", "dtype")]
  node := [("n_samples", "n_samples")]
  kind := .bn

/-- `BayesianNet.unnormalized_multinomial` (framework/bn.py 938–965). -/
def bn_unnormalized_multinomial : Wrapper where
  name := "unnormalized_multinomial"
  params := [("name", none), ("logits", none), ("normalize_logits", some .true), ("group_ndims", some
    .zero), ("dtype", some .int32)]
  ctor := unnormalizedMultinomialInit
  pos := ["logits"]
  kw := [("normalize_logits", "normalize_logits"), ("group_ndims", "group_ndims"), ("dtype", "dtype")]
  node := []
  kind := .bn

/-- `BayesianNet.onehot_categorical` (framework/bn.py 969–995). -/
def bn_onehot_categorical : Wrapper where
  name := "onehot_categorical"
  params := [("name", none), ("logits", none), ("n_samples", some .none), ("group_ndims", some .zero),
    ("dtype", some .int32)]
  ctor := onehotCategoricalInit
  pos := ["logits"]
  kw := [("group_ndims", "group_ndims"), ("dtype", "dtype")]
  node := [("n_samples", "n_samples")]
  kind := .bn

/-- `BayesianNet.dirichlet` (framework/bn.py 999–1025). -/
def bn_dirichlet : Wrapper where
  name := "dirichlet"
  params := [("name", none), ("alpha", none), ("n_samples", some .none), ("group_ndims", some .zero),
    ("check_numerics", some .false)]
  ctor := dirichletInit
  pos := ["alpha"]
  kw := [("group_ndims", "group_ndims"), ("check_numerics", "check_numerics")]
  node := [("n_samples", "n_samples")]
  kind := .bn

/-- `BayesianNet.inverse_gamma` (framework/bn.py 1027–1055). -/
def bn_inverse_gamma : Wrapper where
  name := "inverse_gamma"
  params := [("name", none), ("alpha", none), ("beta", none), ("n_samples", some .none), ("group_ndims",
    some .zero), ("check_numerics", some .false)]
  ctor := inverseGammaInit
  pos := ["alpha", "beta"]
  kw := [("group_ndims", "group_ndims"), ("check_numerics", "check_numerics")]
  node := [("n_samples", "n_samples")]
  kind := .bn

/-- `BayesianNet.laplace` (framework/bn.py 1057–1087). -/
def bn_laplace : Wrapper where
  name := "laplace"
  params := [("name", none), ("loc", none), ("scale", none), ("n_samples", some .none), ("group_ndims",
    some .zero), ("is_reparameterized", some .true), ("check_numerics", some .false)]
  ctor := laplaceInit
  pos := ["loc", "scale"]
  kw := [("group_ndims", "group_ndims"), ("is_reparameterized", "is_reparameterized"), ("check_numerics",
    "check_numerics")]
  node := [("n_samples", "n_samples")]
  kind := .bn

/-- `BayesianNet.bin_concrete` (framework/bn.py 1089–1119). -/
def bn_bin_concrete : Wrapper where
  name := "bin_concrete"
  params := [("name", none), ("temperature", none), ("logits", none), ("n_samples", some .none),
    ("group_ndims", some .zero), ("is_reparameterized", some .true), ("check_numerics", some .false)]
  ctor := binConcreteInit
  pos := ["temperature", "logits"]
  kw := [("group_ndims", "group_ndims"), ("is_reparameterized", "is_reparameterized"), ("check_numerics",
    "check_numerics")]
  node := [("n_samples", "n_samples")]
  kind := .bn

/-- `BayesianNet.exp_concrete` (framework/bn.py 1123–1153). -/
def bn_exp_concrete : Wrapper where
  name := "exp_concrete"
  params := [("name", none), ("temperature", none), ("logits", none), ("n_samples", some .none),
    ("group_ndims", some .zero), ("is_reparameterized", some .true), ("check_numerics", some .false)]
  ctor := expConcreteInit
  pos := ["temperature", "logits"]
  kw := [("group_ndims", "group_ndims"), ("is_reparameterized", "is_reparameterized"), ("check_numerics",
    "check_numerics")]
  node := [("n_samples", "n_samples")]
  kind := .bn

/-- `BayesianNet.concrete` (framework/bn.py 1157–1187). -/
def bn_concrete : Wrapper where
  name := "concrete"
  params := [("name", none), ("temperature", none), ("logits", none), ("n_samples", some .none),
    ("group_ndims", some .zero), ("is_reparameterized", some .true), ("check_numerics", some .false)]
  ctor := concreteInit
  pos := ["temperature", "logits"]
  kw := [("group_ndims", "group_ndims"), ("is_reparameterized", "is_reparameterized"), ("check_numerics",
    "check_numerics")]
  node := [("n_samples", "n_samples")]
  kind := .bn

/-- `Normal.__init__` (legacy/framework/stochastic.py 80–102). -/
def legacyNormal : Wrapper where
  name := "Normal"
  params := [("name", none), ("mean", some .zeroF), ("_sentinel", some .none), ("std", some .none),
    ("logstd", some .none), ("n_samples", some .none), ("group_ndims", some .zero), ("is_reparameterized",
    some .true), ("check_numerics", some .false)]
  ctor := normalInit
  pos := ["mean"]
  kw := [("_sentinel", "_sentinel"), ("std", "std"), ("logstd", "logstd"), ("group_ndims", "group_ndims"),
    ("is_reparameterized", "is_reparameterized"), ("check_numerics", "check_numerics")]
  node := [("n_samples", "n_samples")]
  kind := .legacy

/-- `FoldNormal.__init__` (legacy/framework/stochastic.py 138–160). -/
def legacyFoldNormal : Wrapper where
  name := "FoldNormal"
  params := [("name", none), ("mean", some .zeroF), ("_sentinel", some .none), ("std", some .none),
    ("logstd", some .none), ("n_samples", some .none), ("group_ndims", some .zero), ("is_reparameterized",
    some .true), ("check_numerics", some .false)]
  ctor := foldNormalInit
  pos := ["mean"]
  kw := [("_sentinel", "_sentinel"), ("std", "std"), ("logstd", "logstd"), ("group_ndims", "group_ndims"),
    ("is_reparameterized", "is_reparameterized"), ("check_numerics", "check_numerics")]
  node := [("n_samples", "n_samples")]
  kind := .legacy

/-- `Bernoulli.__init__` (legacy/framework/stochastic.py 191–205). -/
def legacyBernoulli : Wrapper where
  name := "Bernoulli"
  params := [("name", none), ("logits", none), ("n_samples", some .none), ("group_ndims", some .zero),
    ("dtype", some .int32)]
  ctor := bernoulliInit
  pos := ["logits"]
  kw := [("group_ndims", "group_ndims"), ("dtype", "dtype")]
  node := [("n_samples", "n_samples")]
  kind := .legacy

/-- `Categorical.__init__` (legacy/framework/stochastic.py 240–254). -/
def legacyCategorical : Wrapper where
  name := "Categorical"
  params := [("name", none), ("logits", none), ("n_samples", some .none), ("group_ndims", some .zero),
    ("dtype", some .int32)]
  ctor := categoricalInit
  pos := ["logits"]
  kw := [("group_ndims", "group_ndims"), ("dtype", "dtype")]
  node := [("n_samples", "n_samples")]
  kind := .legacy

/-- `Uniform.__init__` (legacy/framework/stochastic.py 289–307). -/
def legacyUniform : Wrapper where
  name := "Uniform"
  params := [("name", none), ("minval", some .zeroF), ("maxval", some .oneF), ("n_samples", some .none),
    ("group_ndims", some .zero), ("is_reparameterized", some .true), ("check_numerics", some .false)]
  ctor := uniformInit
  pos := ["minval", "maxval"]
  kw := [("group_ndims", "group_ndims"), ("is_reparameterized", "is_reparameterized"), ("check_numerics",
    "check_numerics")]
  node := [("n_samples", "n_samples")]
  kind := .legacy

/-- `Gamma.__init__` (legacy/framework/stochastic.py 336–352). -/
def legacyGamma : Wrapper where
  name := "Gamma"
  params := [("name", none), ("alpha", none), ("beta", none), ("n_samples", some .none), ("group_ndims",
    some .zero), ("check_numerics", some .false)]
  ctor := gammaInit
  pos := ["alpha", "beta"]
  kw := [("group_ndims", "group_ndims"), ("check_numerics", "check_numerics")]
  node := [("n_samples", "n_samples")]
  kind := .legacy

/-- `Beta.__init__` (legacy/framework/stochastic.py 383–399). -/
def legacyBeta : Wrapper where
  name := "Beta"
  params := [("name", none), ("alpha", none), ("beta", none), ("n_samples", some .none), ("group_ndims",
    some .zero), ("check_numerics", some .false)]
  ctor := betaInit
  pos := ["alpha", "beta"]
  kw := [("group_ndims", "group_ndims"), ("check_numerics", "check_numerics")]
  node := [("n_samples", "n_samples")]
  kind := .legacy

/-- `Poisson.__init__` (legacy/framework/stochastic.py 429–445). -/
def legacyPoisson : Wrapper where
  name := "Poisson"
  params := [("name", none), ("rate", none), ("n_samples", some .none), ("group_ndims", some .zero),
    ("dtype", some .int32), ("check_numerics", some .false)]
  ctor := poissonInit
  pos := ["rate"]
  kw := [("group_ndims", "group_ndims"), ("dtype", "dtype"), ("check_numerics", "check_numerics")]
  node := [("n_samples", "n_samples")]
  kind := .legacy

/-- `Binomial.__init__` (legacy/framework/stochastic.py 479–497). -/
def legacyBinomial : Wrapper where
  name := "Binomial"
  params := [("name", none), ("logits", none), ("n_experiments", none), ("n_samples", some .none),
    ("group_ndims", some .zero), ("dtype", some .int32), ("check_numerics", some .false)]
  ctor := binomialInit
  pos := ["logits", "n_experiments"]
  kw := [("group_ndims", "group_ndims"), ("dtype", "dtype"), ("check_numerics", "check_numerics")]
  node := [("n_samples", "n_samples")]
  kind := .legacy

/-- `MultivariateNormalCholesky.__init__` (legacy/framework/stochastic.py 534–552). -/
def legacyMultivariateNormalCholesky : Wrapper where
  name := "MultivariateNormalCholesky"
  params := [("name", none), ("mean", none), ("cov_tril", none), ("n_samples", some .none),
    ("group_ndims", some .zero), ("is_reparameterized", some .true), ("check_numerics", some .false)]
  ctor := multivariateNormalCholeskyInit
  pos := ["mean", "cov_tril"]
  kw := [("group_ndims", "group_ndims"), ("is_reparameterized", "is_reparameterized"), ("check_numerics",
    "check_numerics")]
  node := [("n_samples", "n_samples")]
  kind := .legacy

/-- `MatrixVariateNormalCholesky.__init__` (legacy/framework/stochastic.py 597–617). -/
def legacyMatrixVariateNormalCholesky : Wrapper where
  name := "MatrixVariateNormalCholesky"
  params := [("name", none), ("mean", none), ("u_tril", none), ("v_tril", none), ("n_samples", some
    .none), ("group_ndims", some .zero), ("is_reparameterized", some .true), ("check_numerics", some
    .false)]
  ctor := matrixVariateNormalCholeskyInit
  pos := ["mean", "u_tril", "v_tril"]
  kw := [("group_ndims", "group_ndims"), ("is_reparameterized", "is_reparameterized"), ("check_numerics",
    "check_numerics")]
  node := [("n_samples", "n_samples")]
  kind := .legacy

/-- `Multinomial.__init__` (legacy/framework/stochastic.py 664–682). -/
def legacyMultinomial : Wrapper where
  name := "Multinomial"
  params := [("name", none), ("logits", none), ("n_experiments", none), ("normalize_logits", some .true),
    ("n_samples", some .none), ("group_ndims", some .zero), ("dtype", some .int32)]
  ctor := multinomialInit
  pos := ["logits", "n_experiments"]
  kw := [("normalize_logits", "normalize_logits"), ("group_ndims", "group_ndims"), ("dtype", "dtype")]
  node := [("n_samples", "n_samples")]
  kind := .legacy

/-- `UnnormalizedMultinomial.__init__` (legacy/framework/stochastic.py 729–744). -/
def legacyUnnormalizedMultinomial : Wrapper where
  name := "UnnormalizedMultinomial"
  params := [("name", none), ("logits", none), ("normalize_logits", some .true), ("group_ndims", some
    .zero), ("dtype", some .int32)]
  ctor := unnormalizedMultinomialInit
  pos := ["logits"]
  kw := [("normalize_logits", "normalize_logits"), ("group_ndims", "group_ndims"), ("dtype", "dtype")]
  node := []
  kind := .legacy

/-- `OnehotCategorical.__init__` (legacy/framework/stochastic.py 783–797). -/
def legacyOnehotCategorical : Wrapper where
  name := "OnehotCategorical"
  params := [("name", none), ("logits", none), ("n_samples", some .none), ("group_ndims", some .zero),
    ("dtype", some .int32)]
  ctor := onehotCategoricalInit
  pos := ["logits"]
  kw := [("group_ndims", "group_ndims"), ("dtype", "dtype")]
  node := [("n_samples", "n_samples")]
  kind := .legacy

/-- `Dirichlet.__init__` (legacy/framework/stochastic.py 835–849). -/
def legacyDirichlet : Wrapper where
  name := "Dirichlet"
  params := [("name", none), ("alpha", none), ("n_samples", some .none), ("group_ndims", some .zero),
    ("check_numerics", some .false)]
  ctor := dirichletInit
  pos := ["alpha"]
  kw := [("group_ndims", "group_ndims"), ("check_numerics", "check_numerics")]
  node := [("n_samples", "n_samples")]
  kind := .legacy

/-- `InverseGamma.__init__` (legacy/framework/stochastic.py 878–894). -/
def legacyInverseGamma : Wrapper where
  name := "InverseGamma"
  params := [("name", none), ("alpha", none), ("beta", none), ("n_samples", some .none), ("group_ndims",
    some .zero), ("check_numerics", some .false)]
  ctor := inverseGammaInit
  pos := ["alpha", "beta"]
  kw := [("group_ndims", "group_ndims"), ("check_numerics", "check_numerics")]
  node := [("n_samples", "n_samples")]
  kind := .legacy

/-- `Laplace.__init__` (legacy/framework/stochastic.py 926–944). -/
def legacyLaplace : Wrapper where
  name := "Laplace"
  params := [("name", none), ("loc", none), ("scale", none), ("n_samples", some .none), ("group_ndims",
    some .zero), ("is_reparameterized", some .true), ("check_numerics", some .false)]
  ctor := laplaceInit
  pos := ["loc", "scale"]
  kw := [("group_ndims", "group_ndims"), ("is_reparameterized", "is_reparameterized"), ("check_numerics",
    "check_numerics")]
  node := [("n_samples", "n_samples")]
  kind := .legacy

/-- `BinConcrete.__init__` (legacy/framework/stochastic.py 983–1001). -/
def legacyBinConcrete : Wrapper where
  name := "BinConcrete"
  params := [("name", none), ("temperature", none), ("logits", none), ("n_samples", some .none),
    ("group_ndims", some .zero), ("is_reparameterized", some .true), ("check_numerics", some .false)]
  ctor := binConcreteInit
  pos := ["temperature", "logits"]
  kw := [("group_ndims", "group_ndims"), ("is_reparameterized", "is_reparameterized"), ("check_numerics",
    "check_numerics")]
  node := [("n_samples", "n_samples")]
  kind := .legacy

/-- `ExpConcrete.__init__` (legacy/framework/stochastic.py 1043–1061). -/
def legacyExpConcrete : Wrapper where
  name := "ExpConcrete"
  params := [("name", none), ("temperature", none), ("logits", none), ("n_samples", some .none),
    ("group_ndims", some .zero), ("is_reparameterized", some .true), ("check_numerics", some .false)]
  ctor := expConcreteInit
  pos := ["temperature", "logits"]
  kw := [("group_ndims", "group_ndims"), ("is_reparameterized", "is_reparameterized"), ("check_numerics",
    "check_numerics")]
  node := [("n_samples", "n_samples")]
  kind := .legacy

/-- `Concrete.__init__` (legacy/framework/stochastic.py 1104–1122). -/
def legacyConcrete : Wrapper where
  name := "Concrete"
  params := [("name", none), ("temperature", none), ("logits", none), ("n_samples", some .none),
    ("group_ndims", some .zero), ("is_reparameterized", some .true), ("check_numerics", some .false)]
  ctor := concreteInit
  pos := ["temperature", "logits"]
  kw := [("group_ndims", "group_ndims"), ("is_reparameterized", "is_reparameterized"), ("check_numerics",
    "check_numerics")]
  node := [("n_samples", "n_samples")]
  kind := .legacy

/-- `Empirical.__init__` (legacy/framework/stochastic.py 1158–1176). -/
def legacyEmpirical : Wrapper where
  name := "Empirical"
  params := [("name", none), ("dtype", none), ("batch_shape", none), ("n_samples", some .none),
    ("group_ndims", some .zero), ("value_shape", some .none), ("is_continuous", some .none)]
  ctor := empiricalInit
  pos := ["dtype", "batch_shape"]
  kw := [("value_shape", "value_shape"), ("group_ndims", "group_ndims"), ("is_continous", "is_continuous")]
  node := [("n_samples", "n_samples")]
  kind := .legacy

/-- `Implicit.__init__` (legacy/framework/stochastic.py 1205–1219). -/
def legacyImplicit : Wrapper where
  name := "Implicit"
  params := [("name", none), ("samples", none), ("value_shape", some .none), ("group_ndims", some .zero),
    ("n_samples", some .none)]
  ctor := implicitInit
  pos := ["samples"]
  kw := [("value_shape", "value_shape"), ("group_ndims", "group_ndims")]
  node := [("n_samples", "n_samples")]
  kind := .legacy

/-- The node methods of `BayesianNet` (framework/bn.py 556–1187); the aliases (`discrete` at 684,
  `bag_of_categoricals` at 967, `onehot_discrete` at 997, `bin_gumbel_softmax` at 1121, `exp_gumbel_softmax`
  at 1155, `gumbel_softmax` at 1189) are the same functions. -/
def bnMethods : List Wrapper :=
  [bn_normal, bn_fold_normal, bn_bernoulli, bn_categorical, bn_uniform, bn_gamma, bn_beta, bn_poisson,
   bn_binomial, bn_multivariate_normal_cholesky, bn_matrix_variate_normal_cholesky, bn_multinomial,
   bn_unnormalized_multinomial, bn_onehot_categorical, bn_dirichlet, bn_inverse_gamma, bn_laplace,
   bn_bin_concrete, bn_exp_concrete, bn_concrete]

/-- The classes of legacy/framework/stochastic.py; the aliases (`Discrete` at 257, `BagofCategoricals` at
  747, `OnehotDiscrete` at 800, `BinGumbelSoftmax` at 1004, `ExpGumbelSoftmax` at 1064, `GumbelSoftmax` at
  1125) are the same classes. -/
def legacyClasses : List Wrapper :=
  [legacyNormal, legacyFoldNormal, legacyBernoulli, legacyCategorical, legacyUniform, legacyGamma,
   legacyBeta, legacyPoisson, legacyBinomial, legacyMultivariateNormalCholesky,
   legacyMatrixVariateNormalCholesky, legacyMultinomial, legacyUnnormalizedMultinomial,
   legacyOnehotCategorical, legacyDirichlet, legacyInverseGamma, legacyLaplace, legacyBinConcrete,
   legacyExpConcrete, legacyConcrete, legacyEmpirical, legacyImplicit]

end ZhuSuan.Calls

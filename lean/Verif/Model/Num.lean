import Verif.Model.Dual
import Verif.Model.Univariate

/-!
# Numbers of a TensorFlow graph, with or without gradients

The distribution code below is written once for a type of numbers with TensorFlow's operations.  With `ℝ`
it gives values; with `Dual` values together with the derivative that `tf.gradients` reports.
-/

set_option autoImplicit false

namespace ZhuSuan.Num

open Grad

/-- The functions used besides `+ - * /` and negation.  (TensorFlow primitive; used at distributions/univariate.py
161–1399, distributions/multivariate.py 145–1157.) -/
class Fn (α : Type) where
  /-- Python and numpy constants, and random draws. -/
  ofReal : ℝ → α
  exp : α → α
  log : α → α
  abs : α → α
  softplus : α → α
  sigmoid : α → α
  lgamma : α → α
  /-- `tf.stop_gradient`. -/
  stop : α → α
  /-- `tf.reduce_sum` over one axis. -/
  sum : {n : ℕ} → (Fin n → α) → α
  /-- `tf.reduce_max` over one axis. -/
  max : {n : ℕ} → (Fin (n + 1) → α) → α

noncomputable instance : Fn ℝ where
  ofReal x := x
  exp := Real.exp
  log := Real.log
  abs x := |x|
  softplus := Uni.softplus
  sigmoid := Uni.sigmoid
  lgamma := Uni.lgamma
  stop x := x
  sum f := ∑ i, f i
  max f := maxVal f

/-- Gradients as registered in TensorFlow: `abs` has `sign`, `softplus` has `sigmoid`, `sigmoid` has
`s (1 - s)`, `lgamma` has the digamma function (the derivative of `lgamma`). -/
noncomputable instance : Fn Dual where
  ofReal x := Dual.const x
  exp := Dual.exp
  log := Dual.log
  abs x := ⟨|x.val|, (SignType.sign x.val : ℝ) * x.der⟩
  softplus x := ⟨Uni.softplus x.val, Uni.sigmoid x.val * x.der⟩
  sigmoid x := ⟨Uni.sigmoid x.val, Uni.sigmoid x.val * (1 - Uni.sigmoid x.val) * x.der⟩
  lgamma x := ⟨Uni.lgamma x.val, deriv Uni.lgamma x.val * x.der⟩
  stop := Dual.stopGradient
  sum f := reduceSum f
  max f := reduceMax f

/-- The two switches of `Distribution.__init__` (base.py 82–114). -/
structure Flags where
  isReparam : Bool
  usePath : Bool

variable {α : Type} [Add α] [Sub α] [Neg α] [Mul α] [Div α] [Fn α]

/-- `param`, under `tf.stop_gradient` if `not self.is_reparameterized`: the first lines of each `_sample`
that has the switch.  (e.g. distributions/univariate.py 162–164, 307–309, 633–635, 1247–1249, 1364–1367) -/
def Flags.sampleParam (f : Flags) (x : α) : α := if f.isReparam then x else Fn.stop x

/-- `Distribution.path_param` (base.py 150–157). -/
def Flags.pathParam (f : Flags) (x : α) : α := if f.usePath then Fn.stop x else x

/-- `tf.reduce_logsumexp` along an axis of size `n + 1`: the maximum is taken out under
`tf.stop_gradient`.  (TensorFlow primitive; used at distributions/multivariate.py 325, 440, 811, 952.) -/
def logSumExp {n : ℕ} (x : Fin (n + 1) → α) : α :=
  let m := Fn.stop (Fn.max x)
  Fn.log (Fn.sum fun i => Fn.exp (x i - m)) + m

/-- `tf.square`.  (TensorFlow primitive; used at distributions/univariate.py 181, distributions/multivariate.py 188,
1156.) -/
def sq (x : α) : α := x * x

/-! ## Univariate -/

/-- `Normal._sample` (univariate.py 161–172). -/
def normalSample (f : Flags) (mean std : α) (z : ℝ) : α :=
  Fn.ofReal z * f.sampleParam std + f.sampleParam mean

/-- `Normal._log_prob` (174–181). -/
noncomputable def normalLogProb (f : Flags) (mean logstd given : α) : α :=
  let mean := f.pathParam mean
  let logstd := f.pathParam logstd
  let c : α := Fn.ofReal (-0.5 * Real.log (2 * Real.pi))
  let precision := Fn.exp (Fn.ofReal (-2) * logstd)
  c - logstd - Fn.ofReal 0.5 * precision * sq (given - mean)

/-- `FoldNormal._log_prob` (319–328) for a nonnegative value, where the mask term is zero. -/
noncomputable def foldNormalLogProb (f : Flags) (mean logstd given : α) : α :=
  let mean := f.pathParam mean
  let logstd := f.pathParam logstd
  let c : α := Fn.ofReal (-0.5 * (Real.log 2 + Real.log Real.pi))
  let precision := Fn.exp (Fn.ofReal (-2) * logstd)
  c - (logstd + Fn.ofReal 0.5 * precision * sq (given - mean)) +
    Fn.softplus (Fn.ofReal (-2) * mean * given * precision)

/-- `Uniform._sample` (632–644). -/
def uniformSample (f : Flags) (minval maxval : α) (u : ℝ) : α :=
  let minval := f.sampleParam minval
  let maxval := f.sampleParam maxval
  Fn.ofReal u * (maxval - minval) + minval

/-- `Uniform._log_prob` (646–659) for a value inside the interval, where the mask is one.  There is no
`path_param`. -/
noncomputable def uniformLogProb (_f : Flags) (minval maxval _given : α) : α :=
  Fn.log (Fn.ofReal 1 / (maxval - minval) * Fn.ofReal 1)

/-- `tf.random_gamma(alpha, beta=beta)`: a draw `g` for rate one, divided by `beta`.  `dg` is the gradient
that TensorFlow registers for the draw with respect to `alpha` (an implicit derivative, or zero in versions
without it).  (TensorFlow primitive; used at distributions/univariate.py 734, 829–830, 1142,
distributions/multivariate.py 661.) -/
class GammaDraw (α : Type) where
  draw : (g dg : ℝ) → α → α

noncomputable instance : GammaDraw ℝ := ⟨fun g _ _ => g⟩
noncomputable instance : GammaDraw Dual := ⟨fun g dg a => ⟨g, dg * a.der⟩⟩

/-- `Gamma._sample` (733–735): there is no `tf.stop_gradient`, although `is_reparameterized` is False. -/
def gammaSample [GammaDraw α] (alpha beta : α) (g dg : ℝ) : α := GammaDraw.draw g dg alpha / beta

/-- `Gamma._log_prob` (737–747): no `path_param`. -/
noncomputable def gammaLogProb (_f : Flags) (alpha beta given : α) : α :=
  alpha * Fn.log beta - Fn.lgamma alpha + (alpha - Fn.ofReal 1) * Fn.log given - beta * given

/-- `InverseGamma._sample` (1141–1144). -/
def inverseGammaSample [GammaDraw α] (alpha beta : α) (g dg : ℝ) : α :=
  Fn.ofReal 1 / gammaSample alpha beta g dg

/-- `Laplace._sample` (1246–1265). -/
noncomputable def laplaceSample (f : Flags) (loc scale : α) (u : ℝ) : α :=
  f.sampleParam loc - f.sampleParam scale * Fn.ofReal (SignType.sign u : ℝ) *
    Fn.ofReal (Real.log (1 + -|u|))

/-- `Laplace._log_prob` (1267–1273). -/
noncomputable def laplaceLogProb (f : Flags) (loc scale given : α) : α :=
  let loc := f.pathParam loc
  let scale := f.pathParam scale
  Fn.ofReal (-Real.log 2) - Fn.log scale - Fn.abs (given - loc) / scale

/-- `BinConcrete._sample` (1363–1379). -/
noncomputable def binConcreteSample (f : Flags) (temperature logits : α) (u : ℝ) : α :=
  Fn.sigmoid ((f.sampleParam logits + Fn.ofReal (Real.log u - Real.log (1 - u))) /
    f.sampleParam temperature)

/-- `BinConcrete._log_prob` (1381–1399). -/
noncomputable def binConcreteLogProb (f : Flags) (temperature logits given : α) : α :=
  let temperature := f.pathParam temperature
  let logits := f.pathParam logits
  let log_given := Fn.log given
  let log_1_minus_given := Fn.log (Fn.ofReal 1 - given)
  let log_temperature := Fn.log temperature
  let logistic_given := log_given - log_1_minus_given
  let temp := temperature * logistic_given - logits
  log_temperature - log_given - log_1_minus_given + temp - Fn.ofReal 2 * Fn.softplus temp

/-! ## Multivariate -/

/-- `tf.matmul` of a matrix and a column.  (TensorFlow primitive; used at distributions/multivariate.py 160.) -/
def matVec {m n : ℕ} (A : Fin m → Fin n → α) (x : Fin n → α) (i : Fin m) : α :=
  Fn.sum fun j => A i j * x j

/-- `tf.matrix_triangular_solve(L, b, lower=True)`: forward substitution.  Entries above the diagonal are
not read.  (TensorFlow primitive; used at distributions/multivariate.py 186, 1153–1154.) -/
def triSolveAux {n : ℕ} (L : Fin n → Fin n → α) (b : Fin n → α) (k : ℕ) (h : k < n) : α :=
  (b ⟨k, h⟩ - Fn.sum fun j : Fin k =>
    L ⟨k, h⟩ ⟨j.val, j.isLt.trans h⟩ * triSolveAux L b j.val (j.isLt.trans h)) / L ⟨k, h⟩ ⟨k, h⟩
termination_by k
decreasing_by exact j.isLt

/-- The solution vector.  (TensorFlow primitive; used at distributions/multivariate.py 186, 1153–1154.) -/
def triSolve {n : ℕ} (L : Fin n → Fin n → α) (b : Fin n → α) (i : Fin n) : α :=
  triSolveAux L b i.val i.isLt

/-- `MultivariateNormalCholesky._sample` (multivariate.py 145–167). -/
def mvnSample {n : ℕ} (f : Flags) (mean : Fin n → α) (L : Fin n → Fin n → α) (noise : Fin n → ℝ)
    (i : Fin n) : α :=
  matVec (fun i j => f.sampleParam (L i j)) (fun j => Fn.ofReal (noise j)) i + f.sampleParam (mean i)

/-- `MultivariateNormalCholesky._log_prob` (169–189). -/
noncomputable def mvnLogProb {n : ℕ} (f : Flags) (mean : Fin n → α) (L : Fin n → Fin n → α)
    (given : Fin n → α) : α :=
  let mean := fun i => f.pathParam (mean i)
  let L := fun i j => f.pathParam (L i j)
  let log_det := Fn.ofReal 2 * Fn.sum (fun i => Fn.log (L i i))
  let log_z := Fn.ofReal (-(n : ℝ) / 2) * Fn.log (Fn.ofReal 2 * Fn.ofReal Real.pi) -
    log_det / Fn.ofReal 2
  let y := fun i => given i - mean i
  let x := triSolve L y
  let stoc_dist := Fn.ofReal (-0.5) * Fn.sum (fun i => sq (x i))
  log_z + stoc_dist

/-- `MatrixVariateNormalCholesky._sample` (1099–1122). -/
def matNormalSample {r c : ℕ} (f : Flags) (mean : Fin r → Fin c → α) (U : Fin r → Fin r → α)
    (V : Fin c → Fin c → α) (noise : Fin r → Fin c → ℝ) (i : Fin r) (j : Fin c) : α :=
  let un := fun i l => Fn.sum fun k => f.sampleParam (U i k) * Fn.ofReal (noise k l)
  f.sampleParam (mean i j) + Fn.sum fun l => un i l * f.sampleParam (V j l)

/-- `MatrixVariateNormalCholesky._log_prob` (1124–1157). -/
noncomputable def matNormalLogProb {r c : ℕ} (f : Flags) (mean : Fin r → Fin c → α)
    (U : Fin r → Fin r → α) (V : Fin c → Fin c → α) (given : Fin r → Fin c → α) : α :=
  let mean := fun i j => f.pathParam (mean i j)
  let U := fun i j => f.pathParam (U i j)
  let V := fun i j => f.pathParam (V i j)
  let log_det_u := Fn.ofReal 2 * Fn.sum (fun i => Fn.log (U i i))
  let log_det_v := Fn.ofReal 2 * Fn.sum (fun i => Fn.log (V i i))
  let logZ := Fn.ofReal (-((r : ℝ) * c) / 2) * Fn.log (Fn.ofReal 2 * Fn.ofReal Real.pi) -
    Fn.ofReal ((r : ℝ) / 2) * log_det_v - Fn.ofReal ((c : ℝ) / 2) * log_det_u
  let y := fun i j => given i j - mean i j
  let x_Lb_inv_t := fun i j => triSolve U (fun k => y k j) i
  let x_t := fun (i : Fin c) (j : Fin r) => triSolve V (fun k => x_Lb_inv_t j k) i
  let stoc_dist := Fn.ofReal (-0.5) * Fn.sum (fun i => Fn.sum fun j => sq (x_t i j))
  logZ + stoc_dist

/-- The Gumbel draw `-tf.log(-tf.log(uniform))` (788–789 and 926–928). -/
noncomputable def gumbel (u : ℝ) : ℝ := -Real.log (-Real.log u)

/-- `ExpConcrete._sample` (781–795): `log_softmax`. -/
noncomputable def expConcreteSample {n : ℕ} (f : Flags) (logits : Fin (n + 1) → α) (temperature : α)
    (u : Fin (n + 1) → ℝ) (i : Fin (n + 1)) : α :=
  let x := fun i => (f.sampleParam (logits i) + Fn.ofReal (gumbel (u i))) / f.sampleParam temperature
  x i - logSumExp x

/-- `ExpConcrete._log_prob` (797–811). -/
noncomputable def expConcreteLogProb {n : ℕ} (f : Flags) (logits : Fin (n + 1) → α) (temperature : α)
    (given : Fin (n + 1) → α) : α :=
  let logits := fun i => f.pathParam (logits i)
  let temperature := f.pathParam temperature
  let log_temperature := Fn.log temperature
  let N : ℝ := ((n + 1 : ℕ) : ℝ)
  let temp := fun i => logits i - temperature * given i
  Fn.lgamma (Fn.ofReal N) + Fn.ofReal (N - 1) * log_temperature + Fn.sum temp -
    Fn.ofReal N * logSumExp temp

/-- `Concrete._sample` (919–934): `softmax`. -/
noncomputable def concreteSample {n : ℕ} (f : Flags) (logits : Fin (n + 1) → α) (temperature : α)
    (u : Fin (n + 1) → ℝ) (i : Fin (n + 1)) : α :=
  let x := fun i => (f.sampleParam (logits i) + Fn.ofReal (gumbel (u i))) / f.sampleParam temperature
  Fn.exp (x i) / Fn.sum fun j => Fn.exp (x j)

/-- `Concrete._log_prob` (936–952). -/
noncomputable def concreteLogProb {n : ℕ} (f : Flags) (logits : Fin (n + 1) → α) (temperature : α)
    (given : Fin (n + 1) → α) : α :=
  let logits := fun i => f.pathParam (logits i)
  let temperature := f.pathParam temperature
  let log_given := fun i => Fn.log (given i)
  let log_temperature := Fn.log temperature
  let N : ℝ := ((n + 1 : ℕ) : ℝ)
  let temp := fun i => logits i - temperature * log_given i
  Fn.lgamma (Fn.ofReal N) + Fn.ofReal (N - 1) * log_temperature +
    Fn.sum (fun i => temp i - log_given i) - Fn.ofReal N * logSumExp temp

/-- `Dirichlet._sample` (660–663): normalised gamma draws; no `tf.stop_gradient`. -/
def dirichletSample {n : ℕ} [GammaDraw α] (alpha : Fin n → α) (g dg : Fin n → ℝ) (i : Fin n) : α :=
  let s := fun i => GammaDraw.draw (g i) (dg i) (alpha i) / (Fn.ofReal 1 : α)
  s i / Fn.sum s

/-- `tf.lbeta` of a vector.  (TensorFlow primitive; used at distributions/multivariate.py 668.) -/
def lbeta {n : ℕ} (alpha : Fin n → α) : α :=
  (Fn.sum fun i => Fn.lgamma (alpha i)) - Fn.lgamma (Fn.sum alpha)

/-- `Dirichlet._log_prob` (665–677): no `path_param`. -/
noncomputable def dirichletLogProb {n : ℕ} (_f : Flags) (alpha given : Fin n → α) : α :=
  -lbeta alpha + Fn.sum fun i => (alpha i - Fn.ofReal 1) * Fn.log (given i)

/-- `log_combination(n, ks)` (utils.py 19–33). -/
def logCombination {n : ℕ} (N : α) (ks : Fin n → α) : α :=
  Fn.lgamma (N + Fn.ofReal 1) - Fn.sum fun i => Fn.lgamma (ks i + Fn.ofReal 1)

/-- `logits` after the optional normalisation of `Multinomial._log_prob` (324–326) and
`UnnormalizedMultinomial._log_prob` (439–441). -/
def normLogits {n : ℕ} (normalize : Bool) (logits : Fin (n + 1) → α) (i : Fin (n + 1)) : α :=
  if normalize then logits i - logSumExp logits else logits i

/-- `Multinomial._log_prob` (320–333). -/
def multinomialLogProb {n : ℕ} (normalize : Bool) (nExperiments : Option ℕ)
    (logits given : Fin (n + 1) → α) : α :=
  let logits := normLogits normalize logits
  let N := match nExperiments with
    | none => Fn.sum given
    | some k => Fn.ofReal (k : ℝ)
  logCombination N given + Fn.sum fun i => given i * logits i

/-- `UnnormalizedMultinomial._log_prob` (435–443). -/
def unnormalizedMultinomialLogProb {n : ℕ} (normalize : Bool) (logits given : Fin (n + 1) → α) : α :=
  let logits := normLogits normalize logits
  Fn.sum fun i => given i * logits i

/-- `OnehotCategorical._log_prob` (542–561) for one row: minus
`tf.nn.softmax_cross_entropy_with_logits`. -/
def onehotLogProb {n : ℕ} (logits given : Fin (n + 1) → α) : α :=
  -(-Fn.sum fun i => given i * (logits i - logSumExp logits))

/-- `Categorical._log_prob` (univariate.py 496–548) for one entry: minus
`tf.nn.sparse_softmax_cross_entropy_with_logits`. -/
def categoricalLogProb {n : ℕ} (logits : Fin (n + 1) → α) (given : Fin (n + 1)) : α :=
  -(-(logits given - logSumExp logits))

/-- `tf.one_hot(k, n)` in `OnehotCategorical._sample` (539). -/
def oneHot {n : ℕ} (k i : Fin n) : ℝ := if i = k then 1 else 0

/-- `Multinomial._sample` (295–318) for one batch entry: the categorical draws, one-hot encoded and summed
over the experiments. -/
noncomputable def multinomialCount {n m : ℕ} (draws : Fin m → Fin n) (i : Fin n) : ℝ :=
  ∑ e, oneHot (draws e) i

end ZhuSuan.Num

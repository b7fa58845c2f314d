import Verif.Model.Hmc
import Verif.Model.Minibatch
import Verif.Model.Univariate

/-!
# Toy examples

`examples/toy_examples/gaussian.py`, `mixture_sgnht.py` and `toy2d_intractable.py`: the log joints, what is kept of the samples, the density
estimates and what is printed and plotted.  Not modelled: printing and plotting themselves, the optimizer.
-/

set_option autoImplicit false

namespace ZhuSuan.Toy

open Minibatch

/-! ## `mixture_sgnht.py` -/

section
variable (mu1 mu2 stdev : ℝ)

/-- `a1` and `a2`.  (mixture_sgnht.py 32–33) -/
noncomputable def exponent (mu x : ℝ) : ℝ := -0.5 * ((x - mu) / stdev) ^ 2

/-- `log_joint`.  (mixture_sgnht.py 30–35) -/
noncomputable def mixtureLogJoint (x : ℝ) : ℝ :=
  let a1 := exponent stdev mu1 x
  let a2 := exponent stdev mu2 x
  let amax := max a1 a2
  amax + Real.log (Real.exp (a1 - amax) + Real.exp (a2 - amax))

/-- The gradient of `log_joint` that TensorFlow computes, by the chain rule through the graph; `d` is the derivative that it takes for
`tf.maximum`, of either argument where both are equal.  (mixture_sgnht.py 30–35) -/
noncomputable def mixtureGrad (d x : ℝ) : ℝ :=
  let a1 := exponent stdev mu1 x
  let a2 := exponent stdev mu2 x
  let amax := max a1 a2
  let d1 := -0.5 * (2 * ((x - mu1) / stdev) * (1 / stdev))
  let d2 := -0.5 * (2 * ((x - mu2) / stdev) * (1 / stdev))
  d + 1 / (Real.exp (a1 - amax) + Real.exp (a2 - amax)) * (Real.exp (a1 - amax) * (d1 - d) + Real.exp (a2 - amax) * (d2 - d))

/-- "Expected mean".  (mixture_sgnht.py 61) -/
noncomputable def expectedMean : ℝ := 0.5 * (mu1 + mu2)

/-- `total_stdev`.  (mixture_sgnht.py 63) -/
noncomputable def totalStdev : ℝ := Real.sqrt (stdev ^ 2 + 0.5 * (mu1 ^ 2 + mu2 ^ 2) - (0.5 * (mu1 + mu2)) ^ 2)

end

/-- The iterations whose samples `mixture_sgnht.py` keeps.  (mixture_sgnht.py 26–27, 49–55) -/
def mixtureKept (nIters : ℕ) : List ℕ := (List.range nIters).filter fun t => decide (t ≥ nIters * 2 / 3) && t % 100 == 0

/-- One iteration of the loop of `kde` at one point.  (gaussian.py 79–83, mixture_sgnht.py 74–78) -/
noncomputable def kdeTerm (width x : ℝ) (mu : List ℝ) (batchSize b : ℕ) : ℝ :=
  (1 / Real.sqrt (2 * Real.pi) / width) *
    mean ((slice mu (b * batchSize) ((b + 1) * batchSize)).map fun m => Real.exp ((-0.5 / width ^ 2) * (x - m) ^ 2))

/-- `kde` at one point; `none` if the assertion fails.  (gaussian.py 74–85, mixture_sgnht.py 69–80) -/
noncomputable def kde (width x : ℝ) (mu : List ℝ) (batchSize : ℕ) : Option ℝ :=
  if mu.length % batchSize = 0 then
    some ((List.range (mu.length / batchSize)).foldl (fun ys b => ys + kdeTerm width x mu batchSize b) 0 / ((mu.length : ℝ) / batchSize))
  else none

/-! ## `gaussian.py` -/

/-- `stdev`.  (gaussian.py 29) -/
noncomputable def stdev {n : ℕ} (j : Fin n) : ℝ := 1 / ((j : ℕ) + 1)

/-- The log joint of the model for one chain.  (gaussian.py 15–20) -/
noncomputable def gaussianLogJoint {n : ℕ} (q : Fin n → ℝ) : ℝ := ∑ j, Uni.Normal.logProb 0 (Real.log (stdev j)) (q j)

/-- Its gradient.  (gaussian.py 15–20; distributions/univariate.py 174–181) -/
noncomputable def gaussianGrad {n : ℕ} (q : Fin n → ℝ) (j : Fin n) : ℝ :=
  -0.5 * Real.exp (-2 * Real.log (stdev j)) * (2 * (q j - 0))

/-- What is fed in iteration `i`.  (gaussian.py 35, 54–58) -/
def gaussianFeed (nIters i : ℕ) : Hmc.Feed :=
  let burnin := nIters / 2
  ⟨decide (i < burnin / 2), decide (i < burnin / 2)⟩

/-- The iterations whose samples are kept.  (gaussian.py 34–35, 53, 61–62) -/
def gaussianKept (nIters : ℕ) : List ℕ := (List.range nIters).filter fun i => decide (i ≥ nIters / 2)

/-- The arguments of `zs.HMC`, others than the initial step size by default.  (gaussian.py 36, 42–44; hmc.py 252–281) -/
noncomputable def gaussianCfg : Hmc.Cfg ℝ where
  nLeapfrogs := 5
  target := 0.9
  tuner := { gamma := 0.05, t0 := 100, kappa := 0.75, delta := 0.9, initial := 1e-3 }
  adaptsStep := true
  adaptsMass := true
  massCollect := 10
  massDecay := 0.99

/-! ## `toy2d_intractable.py` -/

/-- The log joint of `z1` and `z2` for one particle.  (toy2d_intractable.py 15–20) -/
noncomputable def logP (z : ℝ × ℝ) : ℝ := Uni.Normal.logProb 0 (Real.log 1.35) z.2 + Uni.Normal.logProb 0 z.2 z.1

/-- The variational variables, for `z1` and `z2`.  (toy2d_intractable.py 26–28) -/
structure Q where
  m1 : ℝ
  l1 : ℝ
  m2 : ℝ
  l2 : ℝ

/-- A draw of the variational net.  (toy2d_intractable.py 23–30) -/
noncomputable def Q.sample (q : Q) (e : ℝ × ℝ) : ℝ × ℝ :=
  (Uni.Normal.sample q.m1 (Real.exp q.l1) e.1, Uni.Normal.sample q.m2 (Real.exp q.l2) e.2)

/-- Its log density.  (toy2d_intractable.py 23–30) -/
noncomputable def Q.logQ (q : Q) (z : ℝ × ℝ) : ℝ := Uni.Normal.logProb q.m1 q.l1 z.1 + Uni.Normal.logProb q.m2 q.l2 z.2

/-- `lower_bound`, the mean over the particles; `e` are the draws of `tf.random_normal`.  (toy2d_intractable.py 40–41;
variational/exclusive_kl.py 131–137) -/
noncomputable def lowerBound {K : ℕ} (q : Q) (e : Fin K → ℝ × ℝ) : ℝ := (∑ k, (logP (q.sample (e k)) - q.logQ (q.sample (e k)))) / K

/-- `scipy.stats.norm.pdf`.  (SciPy; toy2d_intractable.py 70–71) -/
noncomputable def normPdf (x loc scale : ℝ) : ℝ := Real.exp (-((x - loc) / scale) ^ 2 / 2) / Real.sqrt (2 * Real.pi) / scale

/-- What the first contours show.  (toy2d_intractable.py 68–73) -/
noncomputable def modelContour (z : ℝ × ℝ) : ℝ := Real.exp (Real.log (normPdf z.2 0 1.35) + Real.log (normPdf z.1 0 (Real.exp z.2)))

/-- What the second contours show: the normal density whose covariance matrix has `exp(vlogstd)` on the diagonal.
(toy2d_intractable.py 75–79) -/
noncomputable def variationalContour (q : Q) (z : ℝ × ℝ) : ℝ :=
  1 / (2 * Real.pi * Real.sqrt (Real.exp q.l1 * Real.exp q.l2)) *
    Real.exp (-((z.1 - q.m1) ^ 2 / Real.exp q.l1 + (z.2 - q.m2) ^ 2 / Real.exp q.l2) / 2)

end ZhuSuan.Toy

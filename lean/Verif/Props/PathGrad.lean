import Verif.Lemmas.Num
import Verif.Lemmas.Score
import Verif.Props.Estimators

/-!
# C46: `is_reparameterized` and `use_path_derivative`

For each distribution that has the switches: with `is_reparameterized=False` the sample is a constant as
far as gradients go (`const`), and with `use_path_derivative=True` the log probability of a constant is a
constant.  Values do not depend on the switches.  Distributions whose samples go through
`tf.random_gamma`, and log probabilities without `path_param`, do not have the property; the theorems
named `..._ignored` and `..._leaks` show it, so the two theorems that hold only for the distributions with
the switches are named `_partial`.
-/

set_option autoImplicit false

namespace ZhuSuan.Num
open Grad Dual MeasureTheory

/-- C46.  Samples: no gradient when `is_reparameterized=False`, for every distribution with the switch. -/
theorem C46_sample_no_gradient_partial (f : Flags) (h : f.isReparam = false) :
    (∀ (mean std : Dual) (z : ℝ),
      normalSample f mean std z = const (normalSample f mean.val std.val z)) ∧
    (∀ (a b : Dual) (u : ℝ), uniformSample f a b u = const (uniformSample f a.val b.val u)) ∧
    (∀ (loc scale : Dual) (u : ℝ),
      laplaceSample f loc scale u = const (laplaceSample f loc.val scale.val u)) ∧
    (∀ (t l : Dual) (u : ℝ), binConcreteSample f t l u = const (binConcreteSample f t.val l.val u)) ∧
    (∀ (n : ℕ) (mean : Fin n → Dual) (L : Fin n → Fin n → Dual) (z : Fin n → ℝ) (i : Fin n),
      mvnSample f mean L z i = const (mvnSample f (fun i => (mean i).val) (fun i j => (L i j).val) z i)) ∧
    (∀ (r c : ℕ) (mean : Fin r → Fin c → Dual) (U : Fin r → Fin r → Dual) (V : Fin c → Fin c → Dual)
      (z : Fin r → Fin c → ℝ) (i : Fin r) (j : Fin c),
      matNormalSample f mean U V z i j = const (matNormalSample f (fun i j => (mean i j).val)
        (fun i j => (U i j).val) (fun i j => (V i j).val) z i j)) ∧
    (∀ (n : ℕ) (l : Fin (n + 1) → Dual) (t : Dual) (u : Fin (n + 1) → ℝ) (i : Fin (n + 1)),
      expConcreteSample f l t u i = const (expConcreteSample f (fun i => (l i).val) t.val u i)) ∧
    (∀ (n : ℕ) (l : Fin (n + 1) → Dual) (t : Dual) (u : Fin (n + 1) → ℝ) (i : Fin (n + 1)),
      concreteSample f l t u i = const (concreteSample f (fun i => (l i).val) t.val u i)) := by
  refine ⟨?_, ?_, ?_, ?_, ?_, ?_, ?_, ?_⟩ <;> intros <;>
    simp only [normalSample, uniformSample, laplaceSample, binConcreteSample, mvnSample, matVec,
      matNormalSample, expConcreteSample, concreteSample, sampleParam_off f h, real_sampleParam,
      ofReal_const, mul_const, add_const, sub_const, div_const, sum_const', exp_const, sigmoid_const,
      logSumExp_const] <;> rfl

/-- C46.  Log probabilities: no direct parameter gradient when `use_path_derivative=True`, for every
distribution whose `_log_prob` uses `path_param`. -/
theorem C46_path_no_direct_gradient_partial (f : Flags) (h : f.usePath = true) :
    (∀ (mean logstd : Dual) (x : ℝ),
      normalLogProb f mean logstd (const x) = const (normalLogProb f mean.val logstd.val x)) ∧
    (∀ (mean logstd : Dual) (x : ℝ),
      foldNormalLogProb f mean logstd (const x) = const (foldNormalLogProb f mean.val logstd.val x)) ∧
    (∀ (loc scale : Dual) (x : ℝ),
      laplaceLogProb f loc scale (const x) = const (laplaceLogProb f loc.val scale.val x)) ∧
    (∀ (t l : Dual) (x : ℝ),
      binConcreteLogProb f t l (const x) = const (binConcreteLogProb f t.val l.val x)) ∧
    (∀ (n : ℕ) (mean : Fin n → Dual) (L : Fin n → Fin n → Dual) (x : Fin n → ℝ),
      mvnLogProb f mean L (fun i => const (x i)) =
        const (mvnLogProb f (fun i => (mean i).val) (fun i j => (L i j).val) x)) ∧
    (∀ (r c : ℕ) (mean : Fin r → Fin c → Dual) (U : Fin r → Fin r → Dual) (V : Fin c → Fin c → Dual)
      (x : Fin r → Fin c → ℝ),
      matNormalLogProb f mean U V (fun i j => const (x i j)) =
        const (matNormalLogProb f (fun i j => (mean i j).val) (fun i j => (U i j).val)
          (fun i j => (V i j).val) x)) ∧
    (∀ (n : ℕ) (l : Fin (n + 1) → Dual) (t : Dual) (x : Fin (n + 1) → ℝ),
      expConcreteLogProb f l t (fun i => const (x i)) =
        const (expConcreteLogProb f (fun i => (l i).val) t.val x)) ∧
    (∀ (n : ℕ) (l : Fin (n + 1) → Dual) (t : Dual) (x : Fin (n + 1) → ℝ),
      concreteLogProb f l t (fun i => const (x i)) =
        const (concreteLogProb f (fun i => (l i).val) t.val x)) := by
  refine ⟨?_, ?_, ?_, ?_, ?_, ?_, ?_, ?_⟩ <;> intros <;>
    simp only [normalLogProb, foldNormalLogProb, laplaceLogProb, binConcreteLogProb, mvnLogProb,
      matNormalLogProb, expConcreteLogProb, concreteLogProb, pathParam_on f h, real_pathParam,
      ofReal_const, mul_const, add_const, sub_const, div_const, sum_const', exp_const, log_const,
      abs_const, softplus_const, lgamma_const, sq_const, logSumExp_const, triSolve_const] <;> rfl

/-- C46.  The values of samples and log probabilities do not depend on the switches: they are those
computed with plain numbers, where the switches do nothing. -/
theorem C46_values (f : Flags) :
    (∀ (mean std : Dual) (z : ℝ),
      (normalSample f mean std z).val = Uni.Normal.sample mean.val std.val z) ∧
    (∀ (mean logstd given : Dual),
      (normalLogProb f mean logstd given).val = Uni.Normal.logProb mean.val logstd.val given.val) ∧
    (∀ (loc scale : Dual) (u : ℝ),
      (laplaceSample f loc scale u).val = Uni.Laplace.sample loc.val scale.val u) ∧
    (∀ (loc scale given : Dual),
      (laplaceLogProb f loc scale given).val = Uni.Laplace.logProb loc.val scale.val given.val) ∧
    (∀ (a b : Dual) (u : ℝ), (uniformSample f a b u).val = Uni.Uniform.sample a.val b.val u) ∧
    (∀ (t l : Dual) (u : ℝ),
      (binConcreteSample f t l u).val = Uni.BinConcrete.sample t.val l.val u) ∧
    (∀ (t l given : Dual),
      (binConcreteLogProb f t l given).val = Uni.BinConcrete.logProb t.val l.val given.val) ∧
    (∀ (n : ℕ) (mean : Fin n → Dual) (L : Fin n → Fin n → Dual) (given : Fin n → Dual),
      (mvnLogProb f mean L given).val = mvnLogProb ⟨true, false⟩ (fun i => (mean i).val)
        (fun i j => (L i j).val) (fun i => (given i).val)) ∧
    (∀ (n : ℕ) (mean : Fin n → Dual) (L : Fin n → Fin n → Dual) (z : Fin n → ℝ) (i : Fin n),
      (mvnSample f mean L z i).val = mvnSample ⟨true, false⟩ (fun i => (mean i).val)
        (fun i j => (L i j).val) z i) ∧
    (∀ (n : ℕ) (l : Fin (n + 1) → Dual) (t : Dual) (given : Fin (n + 1) → Dual),
      (expConcreteLogProb f l t given).val = expConcreteLogProb ⟨true, false⟩ (fun i => (l i).val) t.val
        (fun i => (given i).val)) ∧
    (∀ (n : ℕ) (l : Fin (n + 1) → Dual) (t : Dual) (given : Fin (n + 1) → Dual),
      (concreteLogProb f l t given).val = concreteLogProb ⟨true, false⟩ (fun i => (l i).val) t.val
        (fun i => (given i).val)) ∧
    (∀ (r c : ℕ) (mean : Fin r → Fin c → Dual) (U : Fin r → Fin r → Dual) (V : Fin c → Fin c → Dual)
      (given : Fin r → Fin c → Dual),
      (matNormalLogProb f mean U V given).val = matNormalLogProb ⟨true, false⟩
        (fun i j => (mean i j).val) (fun i j => (U i j).val) (fun i j => (V i j).val)
        (fun i j => (given i j).val)) := by
  refine ⟨?_, ?_, ?_, ?_, ?_, ?_, ?_, ?_, ?_, ?_, ?_, ?_⟩ <;> intros <;>
    simp only [normalSample, normalLogProb, laplaceSample, laplaceLogProb, uniformSample,
      binConcreteSample, binConcreteLogProb, mvnLogProb, mvnSample, matVec, expConcreteLogProb,
      concreteLogProb, matNormalLogProb, Dual.val_add, Dual.val_sub, Dual.val_mul, Dual.val_div,
      val_ofReal, val_fexp, val_flog, val_fabs, val_fsoftplus, val_fsigmoid, val_flgamma, val_fsum,
      val_sampleParam, val_pathParam, real_sampleParam, real_pathParam, val_sq, val_logSumExp,
      val_triSolve] <;> try rfl
  simp [Uni.Normal.logProb, Fn.ofReal, Fn.exp, sq, pow_two]

/-- C46.  The same for the distributions whose modelled formula leaves out a mask: on the support, where the
mask adds nothing, the values are the log probabilities of C01. -/
theorem C46_values_on_support (f : Flags) :
    (∀ mean logstd given : Dual, 0 ≤ given.val →
      ((foldNormalLogProb f mean logstd given).val : EReal) =
        Uni.FoldNormal.logProb mean.val logstd.val given.val) ∧
    (∀ a b given : Dual, a.val < b.val → a.val ≤ given.val → given.val < b.val →
      ((uniformLogProb f a b given).val : EReal) = Uni.Uniform.logProb a.val b.val given.val) ∧
    (∀ alpha beta given : Dual,
      (gammaLogProb f alpha beta given).val = Uni.Gamma.logProb alpha.val beta.val given.val) ∧
    (∀ (alpha beta : Dual) (g dg : ℝ),
      (inverseGammaSample alpha beta g dg).val = Uni.InverseGamma.sample (g / beta.val)) := by
  refine ⟨fun m l x hx => ?_, fun a b x h h1 h2 => ?_, fun a b x => ?_, fun a b g dg => ?_⟩
  · simp only [foldNormalLogProb, Dual.val_add, Dual.val_sub, Dual.val_mul, val_ofReal, val_fexp,
      val_fsoftplus, val_pathParam, val_sq, Uni.FoldNormal.logProb, Uni.ind, ge_iff_le, hx, if_true]
    simp [Uni.elog, Fn.exp, Fn.softplus, sq, pow_two]
  · have hp : 0 < b.val - a.val := by linarith
    simp only [uniformLogProb, val_flog, Dual.val_mul, Dual.val_div, Dual.val_sub, val_ofReal]
    rw [Uni.Uniform.logProb, Uni.elog, Uni.Uniform.prob, Uni.ind, if_pos ⟨h1, h2⟩,
      ENNReal.log_ofReal_of_pos (by positivity)]
    rfl
  · simp only [gammaLogProb, Dual.val_add, Dual.val_sub, Dual.val_mul, val_ofReal, val_flog,
      val_flgamma]
    rfl
  · rfl

/-- C46.  The gradient of a log probability at a sample is the path gradient, which is all that
`use_path_derivative=True` keeps, plus the direct one, here for the univariate distributions. -/
theorem C46_full_is_path_plus_direct (r : Bool) :
    (∀ mean logstd given : Dual, (normalLogProb ⟨r, false⟩ mean logstd given).der =
      (normalLogProb ⟨r, true⟩ mean logstd given).der +
        (normalLogProb ⟨r, false⟩ mean logstd (const given.val)).der) ∧
    (∀ loc scale given : Dual, (laplaceLogProb ⟨r, false⟩ loc scale given).der =
      (laplaceLogProb ⟨r, true⟩ loc scale given).der +
        (laplaceLogProb ⟨r, false⟩ loc scale (const given.val)).der) ∧
    (∀ t l given : Dual, (binConcreteLogProb ⟨r, false⟩ t l given).der =
      (binConcreteLogProb ⟨r, true⟩ t l given).der +
        (binConcreteLogProb ⟨r, false⟩ t l (const given.val)).der) := by
  refine ⟨fun m l x => ?_, fun a b x => ?_, fun t l x => ?_⟩
  · simp [normalLogProb, Flags.pathParam, Fn.ofReal, Fn.exp, Fn.stop, sq]
    ring
  · simp [laplaceLogProb, Flags.pathParam, Fn.ofReal, Fn.log, Fn.abs, Fn.stop]
    by_cases hb : b.val = 0
    · simp [hb]
    · field_simp
      ring
  · simp [binConcreteLogProb, Flags.pathParam, Fn.ofReal, Fn.log, Fn.softplus, Fn.stop]
    ring

/-- C46.  The expected gradient of the `sgvb` cost of the elbo is the same with the full gradient of
`log q` and with its path part only.  `T e` is the sample for noise `e`, with law `q = exp lq`; `path e`
is the derivative of `log q` through the sample and `lq' z` the direct one, the score. -/
theorem C46_path_unbiased {Z E : Type*} [MeasurableSpace Z] [MeasurableSpace E] {μ : Measure Z}
    {ν : Measure E} [IsProbabilityMeasure ν] {lp lq : ℝ → Z → ℝ} {lp' lq' : Z → ℝ} {θ : ℝ}
    (h : ElboFamily μ lp lq lp' lq' θ) (T : E → Z) (hT : Measurable T)
    (hlaw : ν.map T = law μ fun z => Real.exp (lq θ z)) (logp : E → Dual) (path : E → ℝ) (K : ℕ) :
    ∫ e, (elboSgvb (fun k => logp (e k)) (fun k => ⟨lq θ (T (e k)), path (e k) + lq' (T (e k))⟩)).der
        ∂(Measure.pi fun _ : Fin (K + 1) => ν) =
      ∫ e, (elboSgvb (fun k => logp (e k)) (fun k => ⟨lq θ (T (e k)), path (e k)⟩)).der
        ∂(Measure.pi fun _ : Fin (K + 1) => ν) := by
  obtain ⟨si, s0⟩ := h.score_zero
  rw [← hlaw] at si s0
  have si' : Integrable (fun e => lq' (T e)) ν := si.comp_measurable hT
  have s0' : ∫ e, lq' (T e) ∂ν = 0 := by
    rw [← s0, integral_map hT.aemeasurable si.1]
  set A : (Fin (K + 1) → E) → ℝ := fun e =>
    (elboSgvb (fun k => logp (e k)) (fun k => ⟨lq θ (T (e k)), path (e k)⟩)).der with hA
  set B : (Fin (K + 1) → E) → ℝ := fun e => (∑ k, lq' (T (e k))) / ((K + 1 : ℕ) : ℝ) with hB
  have iB : Integrable B (Measure.pi fun _ : Fin (K + 1) => ν) :=
    (integrable_finsetSum _ fun k _ =>
      integrable_comp_eval (μ := fun _ : Fin (K + 1) => ν) (i := k) si').div_const _
  have zB : ∫ e, B e ∂(Measure.pi fun _ : Fin (K + 1) => ν) = 0 := by
    simp only [hB]
    rw [integral_div, integral_finsetSum _ fun k _ =>
      integrable_comp_eval (μ := fun _ : Fin (K + 1) => ν) (i := k) si']
    have e : ∀ k : Fin (K + 1), ∫ e, lq' (T (e k)) ∂(Measure.pi fun _ : Fin (K + 1) => ν) = 0 :=
      fun k => (integral_comp_eval (μ := fun _ : Fin (K + 1) => ν) (i := k) si'.1).trans s0'
    simp [e]
  have split : ∀ e : Fin (K + 1) → E, (elboSgvb (fun k => logp (e k))
      (fun k => ⟨lq θ (T (e k)), path (e k) + lq' (T (e k))⟩)).der = A e + B e := by
    intro e
    simp only [hA, hB, elboSgvb_der, ← sub_sub, Finset.sum_sub_distrib]
    ring
  simp only [split]
  by_cases iA : Integrable A (Measure.pi fun _ : Fin (K + 1) => ν)
  · rw [integral_add iA iB, zB, add_zero]
  · rw [integral_undef iA, integral_undef]
    intro hAB
    apply iA
    have := hAB.sub iB
    refine this.congr (Filter.Eventually.of_forall fun e => ?_)
    simp

/-! ### Where the switches do not act -/

/-- C46.  `Gamma` reports `is_reparameterized=False`, and still a gradient reaches `beta` through every
nonzero sample. -/
theorem C46_gamma_sample_leaks (alpha beta g dg : ℝ) (hb : 0 < beta) (hg : 0 < g) :
    (gammaSample (⟨alpha, 0⟩ : Dual) ⟨beta, 1⟩ g dg).der < 0 := by
  simp only [gammaSample, GammaDraw.draw, Dual.der_div]
  have : 0 < g / beta ^ 2 := by positivity
  have e : (dg * 0 * beta - g * 1) / beta ^ 2 = -(g / beta ^ 2) := by ring
  rw [e]
  linarith

/-- C46.  So does `InverseGamma`. -/
theorem C46_inverseGamma_sample_leaks (alpha beta g dg : ℝ) (hb : 0 < beta) (hg : 0 < g) :
    0 < (inverseGammaSample (⟨alpha, 0⟩ : Dual) ⟨beta, 1⟩ g dg).der := by
  have h1 := C46_gamma_sample_leaks alpha beta g dg hb hg
  simp only [inverseGammaSample, Dual.der_div, val_ofReal]
  have h2 : (gammaSample (⟨alpha, 0⟩ : Dual) ⟨beta, 1⟩ g dg).val = g / beta := rfl
  have h3 : (Fn.ofReal 1 : Dual).der = 0 := rfl
  rw [h2, h3]
  have : 0 < (g / beta) ^ 2 := by positivity
  apply div_pos _ this
  linarith

/-- C46.  `Gamma` accepts `use_path_derivative=True` and ignores it: the log probability of a constant
still has a gradient in `beta`. -/
theorem C46_gamma_path_ignored (f : Flags) (alpha beta x : ℝ) (hb : 0 < beta) (h : alpha ≠ beta * x) :
    (gammaLogProb f (const alpha) ⟨beta, 1⟩ (const x)).der ≠ 0 := by
  simp [gammaLogProb, Fn.log, Fn.lgamma, Fn.ofReal]
  intro e
  apply h
  field_simp at e
  linarith

/-- C46.  So does `Uniform`. -/
theorem C46_uniform_path_ignored (f : Flags) (a b x : ℝ) (h : a < b) :
    (uniformLogProb f (const a) ⟨b, 1⟩ (const x)).der = -(1 / (b - a)) := by
  have : b - a ≠ 0 := by linarith
  simp [uniformLogProb, Fn.log, Fn.ofReal]
  field_simp

/-- C46.  So does `Dirichlet`: with two components the gradient in the first concentration is
`digamma (a + b) - digamma a + log x`, whatever the switch. -/
theorem C46_dirichlet_path_ignored (f : Flags) (a b x y : ℝ) :
    (dirichletLogProb f ![(⟨a, 1⟩ : Dual), const b] ![const x, const y]).der =
      deriv Uni.lgamma (a + b) - deriv Uni.lgamma a + Real.log x := by
  simp [dirichletLogProb, lbeta, Fn.sum, Fn.lgamma, Fn.log, Fn.ofReal]

end ZhuSuan.Num

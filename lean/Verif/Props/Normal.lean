import Mathlib.Probability.Distributions.Gaussian.Real
import Verif.Lemmas.Measure
import Verif.Model.Univariate

/-!
# C18 Normal, C19 FoldNormal

The reference is Mathlib's Gaussian `gaussianPDFReal mean var` / `gaussianReal mean var`.
-/

set_option autoImplicit false

open MeasureTheory ProbabilityTheory Set
open scoped ENNReal NNReal

namespace ZhuSuan.Uni

/-- The variance of a positive standard deviation. -/
noncomputable def sq (s : ℝ) : ℝ≥0 := NNReal.mk (s ^ 2) (sq_nonneg s)

theorem sq_ne_zero {s : ℝ} (hs : 0 < s) : sq s ≠ 0 := by
  intro h
  have : s ^ 2 = 0 := congrArg NNReal.toReal h
  have := pow_pos hs 2
  linarith

theorem exp_normal_core {s : ℝ} (hs : 0 < s) (d : ℝ) :
    Real.exp (-0.5 * Real.log (2 * Real.pi) - Real.log s - 0.5 * Real.exp (-2 * Real.log s) * d ^ 2) =
      (√(2 * Real.pi * s ^ 2))⁻¹ * Real.exp (-d ^ 2 / (2 * s ^ 2)) := by
  have h2 : (0 : ℝ) < 2 * Real.pi := by positivity
  have e1 : Real.exp (-2 * Real.log s) = (s ^ 2)⁻¹ := by
    rw [show -2 * Real.log s = -(2 * Real.log s) by ring, Real.exp_neg,
      show 2 * Real.log s = Real.log s + Real.log s by ring, Real.exp_add, Real.exp_log hs]
    ring_nf
  rw [e1, sub_eq_add_neg, Real.exp_add]
  congr 1
  · rw [Real.exp_sub, Real.exp_log hs, Real.sqrt_mul h2.le, Real.sqrt_sq hs.le, mul_inv,
      div_eq_mul_inv]
    congr 1
    rw [Real.sqrt_eq_rpow, Real.rpow_def_of_pos h2, ← Real.exp_neg]
    congr 1; ring
  · congr 1
    field_simp
    ring

/-- A positive standard deviation, however it was passed. -/
def StdArg.Valid : StdArg → Prop
  | .std s => 0 < s
  | .logstd _ => True

theorem StdArg.pos {a : StdArg} (h : a.Valid) : 0 < a.getStd := by
  cases a with
  | std s => exact h
  | logstd l => exact Real.exp_pos l

theorem StdArg.log_std {a : StdArg} : a.getLogstd = Real.log a.getStd := by
  cases a <;> simp [getLogstd, getStd]

/-- `Normal.prob` is the density of `N(mean, std²)`, whether `std` or `logstd` was passed. -/
theorem C18_density (mean : ℝ) (a : StdArg) (ha : a.Valid) (x : ℝ) :
    Real.exp (Normal.logProb mean a.getLogstd x) = gaussianPDFReal mean (sq a.getStd) x := by
  have h := exp_normal_core (StdArg.pos ha) (x - mean)
  rw [← StdArg.log_std] at h
  exact h

/-- Passing `logstd` or the corresponding `std` gives the same distribution. -/
theorem C18_std_logstd (s : ℝ) (hs : 0 < s) :
    (StdArg.std s).getStd = (StdArg.logstd (Real.log s)).getStd ∧
    (StdArg.std s).getLogstd = (StdArg.logstd (Real.log s)).getLogstd := by
  simp [StdArg.getStd, StdArg.getLogstd, Real.exp_log hs]

/-- `Normal.prob` integrates to 1, and `log_prob` is its logarithm. -/
theorem C18_total (mean : ℝ) (a : StdArg) (ha : a.Valid) :
    ∫ x, Real.exp (Normal.logProb mean a.getLogstd x) = 1 ∧
    ∀ x, Normal.logProb mean a.getLogstd x = Real.log (gaussianPDFReal mean (sq a.getStd) x) := by
  refine ⟨?_, fun x => ?_⟩
  · simp_rw [C18_density mean a ha]
    exact integral_gaussianPDFReal_eq_one mean (sq_ne_zero (StdArg.pos ha))
  · rw [← C18_density mean a ha, Real.log_exp]

/-- Samples, drawn from a standard normal source, have exactly the density `Normal.prob`. -/
theorem C18_sampler (mean : ℝ) (a : StdArg) (ha : a.Valid) :
    (gaussianReal 0 1).map (Normal.sample mean a.getStd) =
      volume.withDensity (fun x => ENNReal.ofReal (Real.exp (Normal.logProb mean a.getLogstd x))) := by
  have h1 : Normal.sample mean a.getStd = (fun x => x + mean) ∘ (fun z => z * a.getStd) := rfl
  rw [h1, ← Measure.map_map (by fun_prop) (by fun_prop), gaussianReal_map_mul_const,
    gaussianReal_map_add_const]
  have : gaussianReal (a.getStd * 0 + mean) (NNReal.mk (a.getStd ^ 2) (sq_nonneg _) * 1) =
      gaussianReal mean (sq a.getStd) := by
    simp [sq]
  rw [this, gaussianReal_of_var_ne_zero _ (sq_ne_zero (StdArg.pos ha))]
  congr 1
  funext x
  rw [C18_density mean a ha]; rfl

/-- Hypotheses met: `std = 2`. -/
example : (StdArg.std 2).Valid ∧ (StdArg.logstd (-1)).Valid := ⟨by norm_num [StdArg.Valid], trivial⟩

/-! ## FoldNormal -/

theorem lintegral_fold (f : ℝ → ℝ≥0∞) (hf : Measurable f) :
    ∫⁻ x, f x = ∫⁻ x in Ici 0, (f x + f (-x)) := by
  have h1 : ∫⁻ x in Iio 0, f x = ∫⁻ x in Ici 0, f (-x) := by
    have e : Iio (0 : ℝ) = (fun x => -x) '' Ioi 0 := by simp
    rw [e, lintegral_image_eq_lintegral_abs_deriv_mul measurableSet_Ioi
      (fun x _ => (hasDerivAt_neg x).hasDerivWithinAt) (fun a _ b _ h => neg_injective h)]
    simp only [abs_neg, abs_one, ENNReal.ofReal_one, one_mul]
    exact setLIntegral_congr Ioi_ae_eq_Ici
  rw [← lintegral_add_compl f (measurableSet_Ici (a := (0 : ℝ))), compl_Ici, h1,
    lintegral_add_left hf]

theorem elog_ind (p : Prop) : (p → elog (ind p) = 0) ∧ (¬ p → elog (ind p) = ⊥) := by
  constructor <;> intro h <;> simp [elog, ind, h]

theorem foldNormal_exp (mean : ℝ) (a : StdArg) (ha : a.Valid) (x : ℝ) :
    EReal.exp (FoldNormal.logProb mean a.getLogstd x) =
      (Ici 0).indicator (fun x => gaussianPDF mean (sq a.getStd) x + gaussianPDF mean (sq a.getStd) (-x))
        x := by
  have hs := StdArg.pos ha
  by_cases hx : 0 ≤ x
  · rw [indicator_of_mem (by exact hx)]
    simp only [FoldNormal.logProb]
    rw [(elog_ind (x ≥ 0)).1 hx, add_zero, EReal.exp_coe, gaussianPDF, gaussianPDF,
      ← ENNReal.ofReal_add (gaussianPDFReal_nonneg ..) (gaussianPDFReal_nonneg ..)]
    congr 1
    rw [← C18_density mean a ha, ← C18_density mean a ha, Real.exp_add, softplus,
      Real.exp_log (by positivity), mul_add, mul_one, ← Real.exp_add]
    have hc : Real.log (2 * Real.pi) = Real.log 2 + Real.log Real.pi :=
      Real.log_mul (by norm_num) Real.pi_ne_zero
    simp only [Normal.logProb, hc]
    congr 2 <;> ring
  · rw [indicator_of_notMem (by exact hx)]
    simp only [FoldNormal.logProb]
    rw [(elog_ind (x ≥ 0)).2 hx, EReal.add_bot, EReal.exp_bot]

/-- `FoldNormal.prob` is the density of `|N(mean, std²)|`; in particular it is 0 on negative numbers and
integrates to 1. -/
theorem C19_density (mean : ℝ) (a : StdArg) (ha : a.Valid) :
    (gaussianReal mean (sq a.getStd)).map (fun x => |x|) =
      volume.withDensity (fun x => EReal.exp (FoldNormal.logProb mean a.getLogstd x)) ∧
    (∀ x < 0, EReal.exp (FoldNormal.logProb mean a.getLogstd x) = 0) ∧
    ∫⁻ x, EReal.exp (FoldNormal.logProb mean a.getLogstd x) = 1 := by
  have key : (gaussianReal mean (sq a.getStd)).map (fun x => |x|) =
      volume.withDensity (fun x => EReal.exp (FoldNormal.logProb mean a.getLogstd x)) := by
    ext A hA
    have hm := measurable_gaussianPDF mean (sq a.getStd)
    rw [Measure.map_apply (by fun_prop) hA,
      gaussianReal_of_var_ne_zero _ (sq_ne_zero (StdArg.pos ha)),
      withDensity_apply _ (measurableSet_preimage (by fun_prop) hA), withDensity_apply _ hA]
    simp_rw [foldNormal_exp mean a ha]
    rw [← lintegral_indicator (measurableSet_preimage (by fun_prop) hA),
      lintegral_fold _ (hm.indicator (measurableSet_preimage (by fun_prop) hA)),
      ← lintegral_indicator hA, ← lintegral_indicator measurableSet_Ici]
    congr 1
    funext x
    by_cases hx : 0 ≤ x
    · by_cases hA' : x ∈ A <;>
        simp [indicator, hx, hA', abs_of_nonneg hx]
    · simp [indicator, hx]
  refine ⟨key, fun x hx => ?_, ?_⟩
  · rw [foldNormal_exp mean a ha, indicator_of_notMem (by simpa using hx)]
  · have h1 := congrArg (fun μ => μ univ) key
    simp only [withDensity_apply _ MeasurableSet.univ, Measure.restrict_univ] at h1
    rw [← h1, Measure.map_apply (by fun_prop) MeasurableSet.univ]
    simp

/-- The part of "samples follow `prob`" that holds: the absolute value of a sample does.  (The code does
not take the absolute value; see `C19_samples_not_folded`.) -/
theorem C19_sampler_partial (mean : ℝ) (a : StdArg) (ha : a.Valid) :
    (gaussianReal 0 1).map (fun z => |FoldNormal.sample mean a.getStd z|) =
      volume.withDensity (fun x => EReal.exp (FoldNormal.logProb mean a.getLogstd x)) := by
  rw [← (C19_density mean a ha).1]
  have h := C18_sampler mean a ha
  have e : gaussianReal mean (sq a.getStd) =
      (gaussianReal 0 1).map (Normal.sample mean a.getStd) := by
    rw [h, gaussianReal_of_var_ne_zero _ (sq_ne_zero (StdArg.pos ha))]
    congr 1; funext x; rw [C18_density mean a ha]; rfl
  rw [e, Measure.map_map (by fun_prop) (by unfold Normal.sample; fun_prop)]
  rfl

/-- The samples themselves do not follow `prob`: for all parameters they are negative with positive
probability, where `prob` is 0. -/
theorem C19_samples_not_folded (mean : ℝ) (a : StdArg) (ha : a.Valid) :
    0 < (gaussianReal 0 1).map (FoldNormal.sample mean a.getStd) (Iio 0) ∧
    volume.withDensity (fun x => EReal.exp (FoldNormal.logProb mean a.getLogstd x)) (Iio 0) = 0 := by
  constructor
  · have h : (gaussianReal 0 1).map (FoldNormal.sample mean a.getStd) =
        gaussianReal mean (sq a.getStd) := by
      have := C18_sampler mean a ha
      have e : FoldNormal.sample mean a.getStd = Normal.sample mean a.getStd := rfl
      rw [e, this, gaussianReal_of_var_ne_zero _ (sq_ne_zero (StdArg.pos ha))]
      congr 1; funext x; rw [C18_density mean a ha]; rfl
    rw [h, pos_iff_ne_zero]
    intro h0
    have := gaussianReal_absolutelyContinuous' mean (sq_ne_zero (StdArg.pos ha)) h0
    simp at this
  · rw [← (C19_density mean a ha).1, Measure.map_apply (by fun_prop) measurableSet_Iio]
    have : (fun x : ℝ => |x|) ⁻¹' Iio 0 = ∅ := by
      ext x; simp [abs_nonneg]
    rw [this]; simp

end ZhuSuan.Uni

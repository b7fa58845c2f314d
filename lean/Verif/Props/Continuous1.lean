import Mathlib.Probability.Distributions.Gamma
import Mathlib.Probability.Distributions.Beta
import Verif.Lemmas.Measure
import Verif.Props.Discrete1

/-!
# C22 Uniform, C23 Gamma, C27 InverseGamma, C28 Laplace, C29 BinConcrete, C24 Beta (density)
-/

set_option autoImplicit false

open MeasureTheory ProbabilityTheory Set
open scoped ENNReal NNReal

namespace ZhuSuan.Uni

open Meas

/-! ## Uniform -/

/-- `1/(maxval - minval)` on `[minval, maxval)`, 0 elsewhere; `log_prob` is its logarithm. -/
theorem C22_prob (lo hi x : ℝ) :
    (lo ≤ x → x < hi → Uniform.prob lo hi x = 1 / (hi - lo)) ∧
    (x < lo ∨ hi ≤ x → Uniform.prob lo hi x = 0) ∧
    EReal.exp (Uniform.logProb lo hi x) = ENNReal.ofReal (Uniform.prob lo hi x) := by
  refine ⟨fun h1 h2 => ?_, fun h => ?_, ?_⟩
  · simp [Uniform.prob, ind, h1, h2]
  · simp only [Uniform.prob, ind]
    rw [if_neg (by rintro ⟨h1, h2⟩; rcases h with h | h <;> linarith), mul_zero]
  · unfold Uniform.logProb elog; rw [ENNReal.exp_log]

theorem uniform_prob_indicator (lo hi : ℝ) :
    (fun x => ENNReal.ofReal (Uniform.prob lo hi x)) =
      (Ico lo hi).indicator (fun _ => ENNReal.ofReal (1 / (hi - lo))) := by
  funext x
  by_cases hx : x ∈ Ico lo hi
  · rw [indicator_of_mem hx, (C22_prob lo hi x).1 hx.1 hx.2]
  · rw [indicator_of_notMem hx, (C22_prob lo hi x).2.1, ENNReal.ofReal_zero]
    by_contra h
    push Not at h
    exact hx h

/-- Samples lie in `[minval, maxval)`, follow `prob`, and `prob` integrates to 1. -/
theorem C22_sampler (lo hi : ℝ) (h : lo < hi) :
    (∀ u ∈ Ico (0 : ℝ) 1, Uniform.sample lo hi u ∈ Ico lo hi) ∧
    (volume.restrict (Ico (0 : ℝ) 1)).map (Uniform.sample lo hi) =
      volume.withDensity (fun x => ENNReal.ofReal (Uniform.prob lo hi x)) ∧
    ∫⁻ x, ENNReal.ofReal (Uniform.prob lo hi x) = 1 := by
  have hd : 0 < hi - lo := by linarith
  have hmem : ∀ u ∈ Ico (0 : ℝ) 1, Uniform.sample lo hi u ∈ Ico lo hi := by
    rintro u ⟨h0, h1⟩
    unfold Uniform.sample
    constructor <;> nlinarith
  have himg : Uniform.sample lo hi '' Ico (0 : ℝ) 1 = Ico lo hi := by
    ext x
    constructor
    · rintro ⟨u, hu, rfl⟩; exact hmem u hu
    · rintro ⟨h1, h2⟩
      refine ⟨(x - lo) / (hi - lo), ⟨div_nonneg (by linarith) hd.le, ?_⟩, ?_⟩
      · rw [div_lt_one hd]; linarith
      · unfold Uniform.sample; field_simp; ring
  have hlaw : (volume.restrict (Ico (0 : ℝ) 1)).map (Uniform.sample lo hi) =
      volume.withDensity (fun x => ENNReal.ofReal (Uniform.prob lo hi x)) := by
    have h1 := map_withDensity_of_deriv (S := Ico (0 : ℝ) 1) measurableSet_Ico
      (T := Uniform.sample lo hi) (T' := fun _ => hi - lo) (p := fun _ => 1)
      (q := fun _ => ENNReal.ofReal (1 / (hi - lo)))
      (by unfold Uniform.sample; fun_prop)
      (fun u _ => by
        have := ((hasDerivAt_id u).mul_const (hi - lo)).add_const lo
        have e : Uniform.sample lo hi = fun u => id u * (hi - lo) + lo := rfl
        rw [e]
        simpa only [one_mul] using this.hasDerivWithinAt)
      (fun a _ b _ hab => by
        unfold Uniform.sample at hab
        have : a * (hi - lo) = b * (hi - lo) := by linarith
        exact mul_right_cancel₀ hd.ne' this)
      (fun u _ => by
        rw [abs_of_pos hd, ← ENNReal.ofReal_mul hd.le, mul_one_div_cancel hd.ne', ENNReal.ofReal_one])
    rw [himg] at h1
    have h2 : (volume.restrict (Ico (0 : ℝ) 1)).withDensity (fun _ => 1) =
        volume.restrict (Ico (0 : ℝ) 1) := withDensity_one
    rw [h2] at h1
    rw [h1, uniform_prob_indicator, withDensity_indicator measurableSet_Ico]
  refine ⟨hmem, hlaw, ?_⟩
  have h1 := congrArg (fun μ => μ univ) hlaw
  simp only [withDensity_apply _ MeasurableSet.univ, Measure.restrict_univ] at h1
  rw [← h1, Measure.map_apply (by unfold Uniform.sample; fun_prop) MeasurableSet.univ]
  simp

/-! ## Gamma -/

theorem exp_log_mul {x : ℝ} (hx : 0 < x) (a : ℝ) : Real.exp (a * Real.log x) = x ^ a := by
  rw [Real.rpow_def_of_pos hx, mul_comm]

/-- `Gamma.prob` is the density of Gamma(alpha, rate beta). -/
theorem C23_density (alpha beta : ℝ) (ha : 0 < alpha) (hb : 0 < beta) (x : ℝ) (hx : 0 < x) :
    Real.exp (Gamma.logProb alpha beta x) = gammaPDFReal alpha beta x := by
  unfold Gamma.logProb lgamma gammaPDFReal
  rw [if_pos hx.le, Real.exp_sub, Real.exp_add, Real.exp_sub, exp_log_mul hb, exp_log_mul hx,
    Real.exp_log (Real.Gamma_pos_of_pos ha), Real.exp_neg]
  rfl

theorem gammaMeasure_restrict (alpha beta : ℝ) (ha : 0 < alpha) (hb : 0 < beta) :
    gammaMeasure alpha beta = (volume.restrict (Ioi 0)).withDensity
      (fun x => ENNReal.ofReal (Real.exp (Gamma.logProb alpha beta x))) := by
  unfold gammaMeasure
  have h1 : gammaPDF alpha beta = (Ici 0).indicator (gammaPDF alpha beta) := by
    funext x
    by_cases hx : x ∈ Ici (0 : ℝ)
    · rw [indicator_of_mem hx]
    · rw [indicator_of_notMem hx, gammaPDF_of_neg (by simpa using hx)]
  rw [h1, withDensity_indicator measurableSet_Ici, ← restrict_Ioi_eq_restrict_Ici]
  apply withDensity_congr_ae
  filter_upwards [ae_restrict_mem measurableSet_Ioi] with x hx
  rw [C23_density alpha beta ha hb x hx]; rfl

/-- `Gamma.prob` integrates to 1 over the positive reals. -/
theorem C23_total (alpha beta : ℝ) (ha : 0 < alpha) (hb : 0 < beta) :
    ∫⁻ x in Ioi 0, ENNReal.ofReal (Real.exp (Gamma.logProb alpha beta x)) = 1 := by
  have := (isProbabilityMeasure_gammaMeasure ha hb).measure_univ
  rwa [gammaMeasure_restrict alpha beta ha hb, withDensity_apply _ MeasurableSet.univ,
    Measure.restrict_univ] at this

/-- Dividing a rate-1 draw by `beta` (which is what `tf.random_gamma(beta=...)` does) has this law. -/
theorem C23_sampler (alpha beta : ℝ) (ha : 0 < alpha) (hb : 0 < beta) :
    (gammaMeasure alpha 1).map (fun g => g / beta) =
      (volume.restrict (Ioi 0)).withDensity
        (fun x => ENNReal.ofReal (Real.exp (Gamma.logProb alpha beta x))) := by
  rw [gammaMeasure_restrict alpha 1 ha one_pos]
  have himg : (fun g : ℝ => g / beta) '' Ioi 0 = Ioi 0 := by
    ext x; constructor
    · rintro ⟨u, hu, rfl⟩; exact div_pos hu hb
    · intro hx; exact ⟨x * beta, mul_pos hx hb, by field_simp⟩
  have h := map_withDensity_of_deriv (S := Ioi (0 : ℝ)) measurableSet_Ioi
    (T := fun g => g / beta) (T' := fun _ => 1 / beta)
    (p := fun x => ENNReal.ofReal (Real.exp (Gamma.logProb alpha 1 x)))
    (q := fun x => ENNReal.ofReal (Real.exp (Gamma.logProb alpha beta x))) (by fun_prop)
    (fun u _ => ((hasDerivAt_id u).div_const beta).hasDerivWithinAt)
    (fun a _ b _ hab => by
      have : a / beta = b / beta := hab
      field_simp at this; exact this)
    (fun u hu => by
      have hu' : 0 < u := hu
      rw [abs_of_pos (by positivity), ← ENNReal.ofReal_mul (by positivity)]
      congr 1
      have e : 1 / beta = Real.exp (-Real.log beta) := by rw [Real.exp_neg, Real.exp_log hb, one_div]
      rw [e, ← Real.exp_add]
      congr 1
      unfold Gamma.logProb
      rw [Real.log_div hu'.ne' hb.ne', Real.log_one, mul_div_cancel₀ _ hb.ne']
      ring)
  rw [himg] at h
  exact h

/-! ## InverseGamma -/

/-- `InverseGamma.prob` is the density of `1/G`, `G` following Gamma(alpha, rate beta), as sampled. -/
theorem C27_sampler (alpha beta : ℝ) (ha : 0 < alpha) (hb : 0 < beta) :
    (gammaMeasure alpha beta).map InverseGamma.sample =
      (volume.restrict (Ioi 0)).withDensity
        (fun x => ENNReal.ofReal (Real.exp (InverseGamma.logProb alpha beta x))) := by
  rw [gammaMeasure_restrict alpha beta ha hb]
  have himg : InverseGamma.sample '' Ioi 0 = Ioi 0 := by
    ext x; constructor
    · rintro ⟨u, hu, rfl⟩; have hu' : 0 < u := hu; exact one_div_pos.2 hu'
    · intro hx; have hx' : 0 < x := hx; exact ⟨1 / x, mem_Ioi.2 (one_div_pos.2 hx'), by simp [InverseGamma.sample]⟩
  have h := map_withDensity_of_deriv (S := Ioi (0 : ℝ)) measurableSet_Ioi
    (T := InverseGamma.sample) (T' := fun u => -(u ^ 2)⁻¹)
    (p := fun x => ENNReal.ofReal (Real.exp (Gamma.logProb alpha beta x)))
    (q := fun x => ENNReal.ofReal (Real.exp (InverseGamma.logProb alpha beta x)))
    (by unfold InverseGamma.sample; fun_prop)
    (fun u hu => by
      have := (hasDerivAt_inv (ne_of_gt hu)).hasDerivWithinAt (s := Ioi (0 : ℝ))
      have e : InverseGamma.sample = fun y => y⁻¹ := by funext y; simp [InverseGamma.sample]
      rw [e]; exact this)
    (fun a _ b _ hab => by
      simpa [InverseGamma.sample] using hab)
    (fun u hu => by
      have hu' : 0 < u := hu
      rw [abs_neg, abs_of_pos (by positivity), ← ENNReal.ofReal_mul (by positivity)]
      congr 1
      have e : (u ^ 2)⁻¹ = Real.exp (-(2 * Real.log u)) := by
        rw [Real.exp_neg, show 2 * Real.log u = Real.log u + Real.log u by ring, Real.exp_add,
          Real.exp_log hu']
        ring_nf
      rw [e, ← Real.exp_add]
      congr 1
      unfold InverseGamma.logProb Gamma.logProb InverseGamma.sample
      rw [one_div, Real.log_inv]
      field_simp
      ring)
  rw [himg] at h
  exact h

/-- `InverseGamma.prob` integrates to 1. -/
theorem C27_total (alpha beta : ℝ) (ha : 0 < alpha) (hb : 0 < beta) :
    ∫⁻ x in Ioi 0, ENNReal.ofReal (Real.exp (InverseGamma.logProb alpha beta x)) = 1 := by
  have h1 := congrArg (fun μ => μ univ) (C27_sampler alpha beta ha hb)
  simp only [withDensity_apply _ MeasurableSet.univ, Measure.restrict_univ] at h1
  have := isProbabilityMeasure_gammaMeasure ha hb
  rw [← h1, Measure.map_apply (by unfold InverseGamma.sample; fun_prop) MeasurableSet.univ]
  simp

/-! ## Laplace -/

theorem laplace_pos (loc scale u : ℝ) (hu : 0 < u) :
    Laplace.sample loc scale u = loc - scale * Real.log (1 - u) := by
  unfold Laplace.sample
  rw [sign_pos hu, abs_of_pos hu]; simp [sub_eq_add_neg]

theorem laplace_neg (loc scale u : ℝ) (hu : u < 0) :
    Laplace.sample loc scale u = loc + scale * Real.log (1 + u) := by
  unfold Laplace.sample
  rw [sign_neg hu, abs_of_neg hu]; simp

theorem measurable_laplace (loc scale : ℝ) : Measurable (Laplace.sample loc scale) := by
  have e : Laplace.sample loc scale = fun u => if 0 < u then loc - scale * Real.log (1 - u)
      else if u < 0 then loc + scale * Real.log (1 + u) else loc := by
    funext u
    split_ifs with h1 h2
    · exact laplace_pos loc scale u h1
    · exact laplace_neg loc scale u h2
    · have : u = 0 := le_antisymm (not_lt.1 h1) (not_lt.1 h2)
      subst this; simp [Laplace.sample]
  rw [e]
  exact Measurable.ite measurableSet_Ioi (by fun_prop)
    (Measurable.ite measurableSet_Iio (by fun_prop) measurable_const)

/-- `Laplace.prob` is the density of the inverse-CDF sampler applied to a uniform draw on `(-1, 1)`. -/
theorem C28_sampler (loc scale : ℝ) (hs : 0 < scale) :
    ((volume.restrict (Ioo (-1 : ℝ) 1)).withDensity (fun _ => ENNReal.ofReal (1 / 2))).map
        (Laplace.sample loc scale) =
      volume.withDensity (fun x => ENNReal.ofReal (Real.exp (Laplace.logProb loc scale x))) := by
  set S : Set ℝ := Ioo (-1) 0 ∪ Ioo 0 1 with hSdef
  have hSm : MeasurableSet S := measurableSet_Ioo.union measurableSet_Ioo
  have hS0 : (Ioo (-1 : ℝ) 1) =ᵐ[volume] S := by
    have : S = Ioo (-1 : ℝ) 1 \ {0} := by
      ext u; simp only [hSdef, mem_union, mem_Ioo, mem_diff, mem_singleton_iff]
      constructor
      · rintro (⟨a, b⟩ | ⟨a, b⟩)
        · exact ⟨⟨a, by linarith⟩, b.ne⟩
        · exact ⟨⟨by linarith, b⟩, a.ne'⟩
      · rintro ⟨⟨a, b⟩, c⟩
        rcases lt_or_gt_of_ne c with c | c
        · exact .inl ⟨a, c⟩
        · exact .inr ⟨c, b⟩
    rw [this]
    exact (diff_null_ae_eq_self (by simp)).symm
  have himg : Laplace.sample loc scale '' S = {loc}ᶜ := by
    ext x
    simp only [mem_image, mem_compl_iff, mem_singleton_iff]
    constructor
    · rintro ⟨u, hu | hu, rfl⟩
      · rw [laplace_neg _ _ _ hu.2]
        have : Real.log (1 + u) < 0 := Real.log_neg (by linarith [hu.1]) (by linarith [hu.2])
        have := mul_neg_of_pos_of_neg hs this
        intro h; linarith
      · rw [laplace_pos _ _ _ hu.1]
        have : Real.log (1 - u) < 0 := Real.log_neg (by linarith [hu.2]) (by linarith [hu.1])
        have := mul_neg_of_pos_of_neg hs this
        intro h; linarith
    · intro hx
      rcases lt_or_gt_of_ne hx with h | h
      · have h1 : Real.exp ((x - loc) / scale) < 1 := by
          rw [Real.exp_lt_one_iff]; exact div_neg_of_neg_of_pos (by linarith) hs
        have h2 := Real.exp_pos ((x - loc) / scale)
        refine ⟨Real.exp ((x - loc) / scale) - 1, .inl ⟨by linarith, by linarith⟩, ?_⟩
        rw [laplace_neg _ _ _ (by linarith)]
        rw [show 1 + (Real.exp ((x - loc) / scale) - 1) = Real.exp ((x - loc) / scale) by ring,
          Real.log_exp]
        field_simp; ring
      · have h1 : Real.exp (-((x - loc) / scale)) < 1 := by
          rw [Real.exp_lt_one_iff, neg_lt_zero]; exact div_pos (by linarith) hs
        have h2 := Real.exp_pos (-((x - loc) / scale))
        refine ⟨1 - Real.exp (-((x - loc) / scale)), .inr ⟨by linarith, by linarith⟩, ?_⟩
        rw [laplace_pos _ _ _ (by linarith)]
        rw [show 1 - (1 - Real.exp (-((x - loc) / scale))) = Real.exp (-((x - loc) / scale)) by ring,
          Real.log_exp]
        field_simp; ring
  have h := map_withDensity_of_deriv (S := S) hSm
    (T := Laplace.sample loc scale) (T' := fun u => scale / (1 - |u|))
    (p := fun _ => ENNReal.ofReal (1 / 2))
    (q := fun x => ENNReal.ofReal (Real.exp (Laplace.logProb loc scale x)))
    (measurable_laplace loc scale)
    (fun u hu => by
      apply HasDerivAt.hasDerivWithinAt
      rcases hu with hu | hu
      · have h1 : HasDerivAt (fun v => loc + scale * Real.log (1 + v)) (scale / (1 - |u|)) u := by
          have := (((hasDerivAt_id u).const_add 1).log
            (show (1 : ℝ) + id u ≠ 0 by have := hu.1; simp; linarith)).const_mul scale |>.const_add loc
          refine HasDerivAt.congr_deriv this ?_
          rw [abs_of_neg hu.2]; simp [div_eq_mul_inv]
        apply h1.congr_of_eventuallyEq
        filter_upwards [Iio_mem_nhds hu.2] with v hv
        exact laplace_neg _ _ _ hv
      · have h1 : HasDerivAt (fun v => loc - scale * Real.log (1 - v)) (scale / (1 - |u|)) u := by
          have := (((hasDerivAt_id u).const_sub 1).log
            (show (1 : ℝ) - id u ≠ 0 by have := hu.2; simp; linarith)).const_mul scale |>.const_sub loc
          refine HasDerivAt.congr_deriv this ?_
          rw [abs_of_pos hu.1]; simp only [id]; ring
        apply h1.congr_of_eventuallyEq
        filter_upwards [Ioi_mem_nhds hu.1] with v hv
        exact laplace_pos _ _ _ hv)
    (by
      rintro a ha b hb hab
      have pa : ∀ u ∈ Ioo (-1 : ℝ) 0, Laplace.sample loc scale u < loc := by
        intro u hu
        rw [laplace_neg _ _ _ hu.2]
        have : Real.log (1 + u) < 0 := Real.log_neg (by linarith [hu.1]) (by linarith [hu.2])
        have := mul_neg_of_pos_of_neg hs this
        linarith
      have pb : ∀ u ∈ Ioo (0 : ℝ) 1, loc < Laplace.sample loc scale u := by
        intro u hu
        rw [laplace_pos _ _ _ hu.1]
        have : Real.log (1 - u) < 0 := Real.log_neg (by linarith [hu.2]) (by linarith [hu.1])
        have := mul_neg_of_pos_of_neg hs this
        linarith
      rcases ha with ha | ha <;> rcases hb with hb | hb
      · rw [laplace_neg _ _ _ ha.2, laplace_neg _ _ _ hb.2] at hab
        have := mul_left_cancel₀ hs.ne' (add_left_cancel hab)
        have := Real.log_injOn_pos (mem_Ioi.2 (by linarith [ha.1])) (mem_Ioi.2 (by linarith [hb.1])) this
        linarith
      · have := pa a ha; have := pb b hb; linarith
      · have := pb a ha; have := pa b hb; linarith
      · rw [laplace_pos _ _ _ ha.1, laplace_pos _ _ _ hb.1] at hab
        have h3 : scale * Real.log (1 - a) = scale * Real.log (1 - b) := by linarith
        have := mul_left_cancel₀ hs.ne' h3
        have := Real.log_injOn_pos (mem_Ioi.2 (by linarith [ha.2])) (mem_Ioi.2 (by linarith [hb.2])) this
        linarith)
    (fun u hu => by
      have hlt : |u| < 1 := by
        rw [abs_lt]; rcases hu with hu | hu
        · exact ⟨hu.1, by linarith [hu.2]⟩
        · exact ⟨by linarith [hu.1], hu.2⟩
      have h1 : 0 < 1 - |u| := by linarith
      have habs : |Laplace.sample loc scale u - loc| = -(scale * Real.log (1 - |u|)) := by
        have hl : Real.log (1 - |u|) ≤ 0 := Real.log_nonpos h1.le (by linarith [abs_nonneg u])
        have hm : scale * Real.log (1 - |u|) ≤ 0 := mul_nonpos_of_nonneg_of_nonpos hs.le hl
        rcases hu with hu | hu
        · rw [laplace_neg _ _ _ hu.2]
          have : 1 + u = 1 - |u| := by rw [abs_of_neg hu.2]; ring
          rw [this, add_sub_cancel_left, abs_of_nonpos hm]
        · rw [laplace_pos _ _ _ hu.1]
          have : 1 - u = 1 - |u| := by rw [abs_of_pos hu.1]
          rw [this, sub_sub_cancel_left, abs_of_nonneg (by linarith)]
      have hT : 0 < scale / (1 - |u|) := div_pos hs h1
      rw [abs_of_pos hT, ← ENNReal.ofReal_mul hT.le]
      congr 1
      unfold Laplace.logProb
      rw [habs, Real.exp_sub, Real.exp_sub, Real.exp_neg, Real.exp_log two_pos, Real.exp_log hs,
        neg_div, mul_div_cancel_left₀ _ hs.ne', Real.exp_neg, Real.exp_log h1]
      field_simp)
  rw [Measure.restrict_congr_set hS0, h, himg, Measure.restrict_congr_set (t := univ), Measure.restrict_univ]
  rw [ae_eq_univ]
  simp

/-- `Laplace.prob` integrates to 1. -/
theorem C28_total (loc scale : ℝ) (hs : 0 < scale) :
    ∫⁻ x, ENNReal.ofReal (Real.exp (Laplace.logProb loc scale x)) = 1 := by
  have h1 := congrArg (fun μ => μ univ) (C28_sampler loc scale hs)
  simp only [withDensity_apply _ MeasurableSet.univ, Measure.restrict_univ] at h1
  rw [← h1, Measure.map_apply (measurable_laplace loc scale) MeasurableSet.univ, preimage_univ,
    withDensity_apply _ MeasurableSet.univ, Measure.restrict_univ, setLIntegral_const, Real.volume_Ioo,
    ← ENNReal.ofReal_mul (by norm_num)]
  norm_num

/-! ## BinConcrete -/

theorem log_sigmoid_sub (y : ℝ) :
    Real.log (sigmoid y) - Real.log (1 - sigmoid y) = y := by
  rw [one_sub_sigmoid, sigmoid_eq]
  have := Real.exp_pos y
  rw [Real.log_div (by positivity) (by positivity), Real.log_div (by positivity) (by positivity),
    Real.log_exp, Real.log_one]
  ring

theorem hasDerivAt_sigmoid (y : ℝ) : HasDerivAt sigmoid (sigmoid y * (1 - sigmoid y)) y := by
  have h1 : HasDerivAt (fun y => 1 + Real.exp (-y)) (Real.exp (-y) * -1) y :=
    ((hasDerivAt_neg y).exp).const_add 1
  have h2 := h1.inv (by positivity)
  have e : sigmoid = fun y => (1 + Real.exp (-y))⁻¹ := by funext y; simp [sigmoid]
  rw [e]
  refine HasDerivAt.congr_deriv h2 ?_
  have := Real.exp_pos (-y)
  have h3 : (1 + Real.exp (-y)) ≠ 0 := by positivity
  field_simp
  ring

theorem sigmoid_inj {a b : ℝ} (h : sigmoid a = sigmoid b) : a = b := by
  have h1 := log_sigmoid_sub a
  rw [h, log_sigmoid_sub b] at h1
  exact h1.symm

theorem sigmoid_logit {x : ℝ} (h0 : 0 < x) (h1 : x < 1) :
    sigmoid (Real.log x - Real.log (1 - x)) = x := by
  have h2 : 0 < 1 - x := by linarith
  rw [sigmoid, neg_sub, Real.exp_sub, Real.exp_log h0, Real.exp_log h2]
  field_simp
  ring

/-- `BinConcrete.prob` is the density, on `(0, 1)`, of `sigmoid((logits + logistic noise)/temperature)`
as sampled from a uniform draw. -/
theorem C29_sampler (temperature logits : ℝ) (ht : 0 < temperature) :
    (volume.restrict (Ioo (0 : ℝ) 1)).map (BinConcrete.sample temperature logits) =
      (volume.restrict (Ioo (0 : ℝ) 1)).withDensity
        (fun x => ENNReal.ofReal (Real.exp (BinConcrete.logProb temperature logits x))) := by
  have himg : BinConcrete.sample temperature logits '' Ioo (0 : ℝ) 1 = Ioo 0 1 := by
    ext x; constructor
    · rintro ⟨u, _, rfl⟩; exact ⟨sigmoid_pos _, sigmoid_lt_one _⟩
    · rintro ⟨h0, h1⟩
      refine ⟨sigmoid (temperature * (Real.log x - Real.log (1 - x)) - logits),
        ⟨sigmoid_pos _, sigmoid_lt_one _⟩, ?_⟩
      simp only [BinConcrete.sample]
      rw [log_sigmoid_sub, add_sub_cancel, mul_div_cancel_left₀ _ ht.ne', sigmoid_logit h0 h1]
  have h := map_withDensity_of_deriv (S := Ioo (0 : ℝ) 1) measurableSet_Ioo
    (T := BinConcrete.sample temperature logits)
    (T' := fun u => BinConcrete.sample temperature logits u *
      (1 - BinConcrete.sample temperature logits u) * ((1 / u + 1 / (1 - u)) / temperature))
    (p := fun _ => 1)
    (q := fun x => ENNReal.ofReal (Real.exp (BinConcrete.logProb temperature logits x)))
    (by
      unfold BinConcrete.sample sigmoid
      fun_prop)
    (fun u hu => by
      apply HasDerivAt.hasDerivWithinAt
      have hu0 : u ≠ 0 := hu.1.ne'
      have hu1 : 1 - u ≠ 0 := by have := hu.2; intro h; linarith
      have h1 : HasDerivAt (fun v => (logits + (Real.log v - Real.log (1 - v))) / temperature)
          ((1 / u + 1 / (1 - u)) / temperature) u := by
        have a1 := (hasDerivAt_id u).log hu0
        have a2 := ((hasDerivAt_id u).const_sub 1).log hu1
        have := ((a1.sub a2).const_add logits).div_const temperature
        refine HasDerivAt.congr_deriv this ?_
        simp only [id]; ring
      exact (hasDerivAt_sigmoid _).comp u h1)
    (fun a ha b hb hab => by
      have h1 := sigmoid_inj hab
      have h2 : Real.log a - Real.log (1 - a) = Real.log b - Real.log (1 - b) := by
        field_simp at h1; linarith
      rw [← sigmoid_logit ha.1 ha.2, ← sigmoid_logit hb.1 hb.2, h2])
    (fun u hu => by
      have hu0 : 0 < u := hu.1
      have hu1 : 0 < 1 - u := by linarith [hu.2]
      set x := BinConcrete.sample temperature logits u with hx
      have hx0 : 0 < x := sigmoid_pos _
      have hx1 : 0 < 1 - x := by have := sigmoid_lt_one ((logits + (Real.log u - Real.log (1 - u))) / temperature); linarith [show x < 1 from this]
      have hlogit : Real.log x - Real.log (1 - x) =
          (logits + (Real.log u - Real.log (1 - u))) / temperature := log_sigmoid_sub _
      have hpos : 0 < x * (1 - x) * ((1 / u + 1 / (1 - u)) / temperature) := by positivity
      rw [abs_of_pos hpos, ← ENNReal.ofReal_mul hpos.le, ← ENNReal.ofReal_one]
      congr 1
      simp only [BinConcrete.logProb]
      rw [hlogit, mul_div_cancel₀ _ ht.ne', add_sub_cancel_left]
      have e1 : Real.exp (Real.log u - Real.log (1 - u)) = u / (1 - u) := by
        rw [Real.exp_sub, Real.exp_log hu0, Real.exp_log hu1]
      have e2 : softplus (Real.log u - Real.log (1 - u)) = -Real.log (1 - u) := by
        unfold softplus
        rw [e1, show 1 + u / (1 - u) = (1 - u)⁻¹ by field_simp; ring, Real.log_inv]
      rw [e2, Real.exp_sub, Real.exp_add, Real.exp_sub, Real.exp_sub, Real.exp_log ht,
        Real.exp_log hx0, Real.exp_log hx1, e1,
        show 2 * -Real.log (1 - u) = -(Real.log (1 - u) + Real.log (1 - u)) by ring, Real.exp_neg,
        Real.exp_add, Real.exp_log hu1]
      field_simp
      ring)
  rw [himg] at h
  have h2 : (volume.restrict (Ioo (0 : ℝ) 1)).withDensity (fun _ => 1) =
      volume.restrict (Ioo (0 : ℝ) 1) := withDensity_one
  rwa [h2] at h

/-- `BinConcrete.prob` integrates to 1 over `(0, 1)`, and samples lie in `(0, 1)`. -/
theorem C29_total (temperature logits : ℝ) (ht : 0 < temperature) :
    ∫⁻ x in Ioo 0 1, ENNReal.ofReal (Real.exp (BinConcrete.logProb temperature logits x)) = 1 ∧
    ∀ u, BinConcrete.sample temperature logits u ∈ Ioo (0 : ℝ) 1 := by
  refine ⟨?_, fun u => ⟨sigmoid_pos _, sigmoid_lt_one _⟩⟩
  have h1 := congrArg (fun μ => μ univ) (C29_sampler temperature logits ht)
  simp only [withDensity_apply _ MeasurableSet.univ, Measure.restrict_univ] at h1
  rw [← h1, Measure.map_apply (by unfold BinConcrete.sample sigmoid; fun_prop) MeasurableSet.univ]
  simp

/-! ## Beta (density) -/

/-- `Beta.prob` is the density of Beta(alpha, beta). -/
theorem C24_density (alpha beta : ℝ) (ha : 0 < alpha) (hb : 0 < beta) (x : ℝ) (hx0 : 0 < x)
    (hx1 : x < 1) : Real.exp (Beta.logProb alpha beta x) = betaPDFReal alpha beta x := by
  have h1 : 0 < 1 - x := by linarith
  unfold Beta.logProb lgamma betaPDFReal ProbabilityTheory.beta
  rw [if_pos ⟨hx0, hx1⟩, Real.exp_sub, Real.exp_add, exp_log_mul hx0, exp_log_mul h1, Real.exp_sub,
    Real.exp_add, Real.exp_log (Real.Gamma_pos_of_pos ha), Real.exp_log (Real.Gamma_pos_of_pos hb),
    Real.exp_log (Real.Gamma_pos_of_pos (add_pos ha hb))]
  have := Real.Gamma_pos_of_pos ha
  have := Real.Gamma_pos_of_pos hb
  have := Real.Gamma_pos_of_pos (add_pos ha hb)
  field_simp

/-- `Beta.prob` integrates to 1 over `(0, 1)`. -/
theorem C24_total (alpha beta : ℝ) (ha : 0 < alpha) (hb : 0 < beta) :
    ∫⁻ x in Ioo 0 1, ENNReal.ofReal (Real.exp (Beta.logProb alpha beta x)) = 1 := by
  rw [← lintegral_betaPDF_eq_one ha hb, ← lintegral_indicator measurableSet_Ioo]
  congr 1
  funext x
  by_cases hx : x ∈ Ioo (0 : ℝ) 1
  · rw [indicator_of_mem hx, C24_density alpha beta ha hb x hx.1 hx.2]; rfl
  · rw [indicator_of_notMem hx]
    rcases le_or_gt x 0 with h | h
    · rw [betaPDF_eq_zero_of_nonpos h]
    · rw [betaPDF_eq_zero_of_one_le (by by_contra h'; exact hx ⟨h, not_le.1 h'⟩)]

/-- Non-trivial instances of the hypotheses. -/
example : (0 : ℝ) < 1 / 2 ∧ (0 : ℝ) < 3 ∧ (-1 : ℝ) < 2 := by norm_num

end ZhuSuan.Uni

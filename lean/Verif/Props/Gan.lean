import Verif.Model.Gan
import Verif.Props.Continuous1
import Verif.Props.Discrete1
import Verif.Props.ExampleUtils
import Verif.Props.Minibatch
import Verif.Spec.Gan
import Mathlib.InformationTheory.KullbackLeibler.Basic
import Mathlib.MeasureTheory.Integral.Pi
import Mathlib.Probability.Distributions.Gaussian.Real
import Mathlib.Topology.MetricSpace.Lipschitz

/-!
# C103: adversarial nets
-/

set_option autoImplicit false

open MeasureTheory InformationTheory

namespace ZhuSuan.Gan

open Minibatch ExUtils Shape

/-! ## What the discriminator learns -/

section
variable {X : Type} [MeasurableSpace X] (P Q : Measure X)

theorem mix_comm : mix P Q = mix Q P := by rw [mix, mix, add_comm]

theorem ac_mix : P ≪ mix P Q := by
  intro s hs
  rw [mix, Measure.smul_apply, Measure.add_apply, smul_eq_mul, mul_eq_zero] at hs
  rcases hs with h | h
  · norm_num at h
  · exact (add_eq_zero.1 h).1

/-- The density of `P` relative to the mixture. -/
noncomputable def dens (x : X) : ℝ := (P.rnDeriv (mix P Q) x).toReal

theorem dens_nonneg (x : X) : 0 ≤ dens P Q x := ENNReal.toReal_nonneg

theorem dens_meas : Measurable (dens P Q) := (Measure.measurable_rnDeriv _ _).ennreal_toReal

variable [IsProbabilityMeasure P] [IsProbabilityMeasure Q]

theorem mix_prob : IsProbabilityMeasure (mix P Q) := by
  constructor
  rw [mix, Measure.smul_apply, Measure.add_apply, measure_univ, measure_univ, one_add_one_eq_two, smul_eq_mul]
  exact ENNReal.inv_mul_cancel (by norm_num) (by norm_num)

theorem dens_add : ∀ᵐ x ∂mix P Q, dens P Q x + dens Q P x = 2 := by
  have := mix_prob P Q
  have h1 := Measure.rnDeriv_add P Q (mix P Q)
  have e : P + Q = (mix P Q).withDensity fun _ => 2 := by
    rw [withDensity_const, mix, smul_smul, ENNReal.mul_inv_cancel (by norm_num) (by norm_num), one_smul]
  have h2 : (P + Q).rnDeriv (mix P Q) =ᵐ[mix P Q] fun _ => 2 := by
    rw [e]
    exact Measure.rnDeriv_withDensity _ measurable_const
  filter_upwards [h1, h2, P.rnDeriv_ne_top (mix P Q), Q.rnDeriv_ne_top (mix P Q)] with x a b c d
  rw [b, Pi.add_apply] at a
  unfold dens
  rw [mix_comm Q P, ← ENNReal.toReal_add c d, ← a]
  rfl

theorem dens_le : ∀ᵐ x ∂mix P Q, dens P Q x ≤ 2 := by
  filter_upwards [dens_add P Q] with x hx
  linarith [dens_nonneg Q P x]

theorem ent_bound {a : ℝ} (h0 : 0 ≤ a) (h2 : a ≤ 2) : -1 ≤ a * Real.log a ∧ a * Real.log a ≤ a * Real.log 2 := by
  rcases h0.eq_or_lt with h | h
  · simp [← h]
  constructor
  · have := Real.one_sub_inv_le_log_of_pos h
    have h3 : a * (1 - a⁻¹) ≤ a * Real.log a := mul_le_mul_of_nonneg_left this h0
    rw [mul_sub, mul_inv_cancel₀ h.ne'] at h3
    linarith
  · exact mul_le_mul_of_nonneg_left (Real.log_le_log h h2) h0

theorem ent_int : Integrable (fun x => dens P Q x * Real.log (dens P Q x)) (mix P Q) := by
  have := mix_prob P Q
  refine Integrable.of_bound ((dens_meas P Q).mul (dens_meas P Q).log).aestronglyMeasurable 2 ?_
  filter_upwards [dens_le P Q] with x hx
  obtain ⟨h1, h2⟩ := ent_bound (dens_nonneg P Q x) hx
  have h3 : Real.log 2 ≤ 1 := by linarith [Real.log_le_sub_one_of_pos (show (0 : ℝ) < 2 by norm_num)]
  have h4 : dens P Q x * Real.log 2 ≤ 2 * 1 :=
    mul_le_mul hx h3 (Real.log_nonneg (by norm_num)) (by norm_num)
  rw [Real.norm_eq_abs, abs_le]
  constructor <;> linarith

theorem kl_mix : (klDiv P (mix P Q)).toReal = ∫ x, dens P Q x * Real.log (dens P Q x) ∂mix P Q := by
  have := mix_prob P Q
  rw [toReal_klDiv_of_measure_eq (ac_mix P Q) (by rw [measure_univ, measure_univ])]
  exact (integral_toReal_rnDeriv_mul (ac_mix P Q) (f := llr P (mix P Q))).symm

theorem kl_mix_ne_top : klDiv P (mix P Q) ≠ ⊤ := by
  have := mix_prob P Q
  refine klDiv_ne_top (ac_mix P Q) ?_
  rw [← integrable_rnDeriv_smul_iff (ac_mix P Q)]
  exact ent_int P Q

theorem jsd_eq : jsd P Q = (∫ x, (dens P Q x * Real.log (dens P Q x) + dens Q P x * Real.log (dens Q P x)) ∂mix P Q) / 2 := by
  have h := ent_int Q P
  rw [mix_comm] at h
  rw [integral_add (ent_int P Q) h, jsd, kl_mix]
  have h2 := kl_mix Q P
  rw [mix_comm] at h2
  rw [h2]

/-- The Jensen–Shannon divergence is between 0 and `log 2`, and it is 0 for equal distributions only. -/
theorem C103_jsd : 0 ≤ jsd P Q ∧ jsd P Q ≤ Real.log 2 ∧ (jsd P Q = 0 ↔ P = Q) := by
  have := mix_prob P Q
  refine ⟨by unfold jsd; positivity, ?_, ?_⟩
  · have h := ent_int Q P
    rw [mix_comm] at h
    have hle : ∫ x, (dens P Q x * Real.log (dens P Q x) + dens Q P x * Real.log (dens Q P x)) ∂mix P Q ≤
        ∫ _, 2 * Real.log 2 ∂mix P Q := by
      refine integral_mono_ae ((ent_int P Q).add h) (integrable_const _) ?_
      filter_upwards [dens_add P Q] with x hx
      have h1 := (ent_bound (dens_nonneg P Q x) (by linarith [dens_nonneg Q P x])).2
      have h2 := (ent_bound (dens_nonneg Q P x) (by linarith [dens_nonneg P Q x])).2
      calc _ ≤ dens P Q x * Real.log 2 + dens Q P x * Real.log 2 := add_le_add h1 h2
        _ = 2 * Real.log 2 := by rw [← add_mul, hx]
    rw [integral_const, probReal_univ, one_smul] at hle
    rw [jsd_eq]
    linarith
  · constructor
    · intro h
      have h0 : (klDiv P (mix P Q)).toReal = 0 := by
        have h1 : 0 ≤ (klDiv P (mix P Q)).toReal := ENNReal.toReal_nonneg
        have h2 : 0 ≤ (klDiv Q (mix P Q)).toReal := ENNReal.toReal_nonneg
        unfold jsd at h
        linarith
      have h1 : klDiv P (mix P Q) = 0 := ((ENNReal.toReal_eq_zero_iff _).1 h0).resolve_right (kl_mix_ne_top P Q)
      have h2 : P = mix P Q := klDiv_eq_zero_iff.1 h1
      ext s hs
      have h3 : P s = 2⁻¹ * (P s + Q s) := by
        conv_lhs => rw [h2]
        rw [mix, Measure.smul_apply, Measure.add_apply, smul_eq_mul]
      have h4 : (2 : ENNReal) * P s = P s + Q s := by
        conv_lhs => rw [h3]
        rw [← mul_assoc, ENNReal.mul_inv_cancel (by norm_num) (by norm_num), one_mul]
      rw [two_mul] at h4
      exact (ENNReal.add_right_inj (measure_ne_top P s)).1 h4
    · rintro rfl
      have e : mix P P = P := by
        rw [mix, ← two_smul ENNReal P, smul_smul, ENNReal.inv_mul_cancel (by norm_num) (by norm_num), one_smul]
      rw [jsd, e, klDiv_self]
      simp

theorem gibbs {p q s : ℝ} (hp : 0 ≤ p) (hq : 0 ≤ q) (h : p + q = 2) (h0 : 0 < s) (h1 : s < 1) :
    p * -Real.log s + q * -Real.log (1 - s) + (p * Real.log p + q * Real.log q) - 2 * Real.log 2 =
      2 * s * klFun (p / (2 * s)) + 2 * (1 - s) * klFun (q / (2 * (1 - s))) := by
  have key : ∀ {a r : ℝ}, 0 ≤ a → 0 < r → 2 * r * klFun (a / (2 * r)) = a * Real.log a - a * Real.log 2 - a * Real.log r + 2 * r - a := by
    intro a r ha hr
    unfold klFun
    rcases ha.eq_or_lt with h | h
    · simp [← h]
    · rw [Real.log_div h.ne' (by positivity), Real.log_mul (by norm_num) hr.ne']
      field_simp
      ring
  rw [key hp h0, key hq (by linarith : 0 < 1 - s)]
  linear_combination (Real.log 2 + 1) * h

theorem softplus_sigmoid (a : ℝ) :
    Real.log (1 + Real.exp (-a)) = -Real.log (1 / (1 + Real.exp (-a))) ∧
      Real.log (1 + Real.exp a) = -Real.log (1 - 1 / (1 + Real.exp (-a))) ∧
      0 < 1 / (1 + Real.exp (-a)) ∧ 1 / (1 + Real.exp (-a)) < 1 := by
  have h := Real.exp_pos (-a)
  refine ⟨?_, ?_, by positivity, ?_⟩
  · rw [one_div, Real.log_inv, neg_neg]
  · have e : 1 - 1 / (1 + Real.exp (-a)) = (1 + Real.exp a)⁻¹ := by
      have h2 := Real.exp_pos a
      have h3 : Real.exp (-a) * Real.exp a = 1 := by rw [← Real.exp_add]; simp
      field_simp
      linarith
    rw [e, Real.log_inv, neg_neg]
  · rw [div_lt_one (by positivity)]
    linarith

/-- The expected loss of the discriminator is at least `log 2` minus the Jensen–Shannon divergence of the data and the generated images.
It is that much if and only if the sigmoid of its output is the probability that the image comes from the data. -/
theorem C103_discriminator (D : X → ℝ) (hP : Integrable (fun x => Real.log (1 + Real.exp (-D x))) P)
    (hQ : Integrable (fun x => Real.log (1 + Real.exp (D x))) Q) :
    Real.log 2 - jsd P Q ≤ logLoss P Q D ∧
      (logLoss P Q D = Real.log 2 - jsd P Q ↔
        ∀ᵐ x ∂mix P Q, 1 / (1 + Real.exp (-D x)) = (P.rnDeriv (mix P Q) x).toReal / 2) := by
  have := mix_prob P Q
  have := mix_prob Q P
  let s : X → ℝ := fun x => 1 / (1 + Real.exp (-D x))
  let F : X → ℝ := fun x =>
    2 * s x * klFun (dens P Q x / (2 * s x)) + 2 * (1 - s x) * klFun (dens Q P x / (2 * (1 - s x)))
  have hs : ∀ x, 0 < s x ∧ s x < 1 := fun x => (softplus_sigmoid (D x)).2.2
  have iP : Integrable (fun x => dens P Q x * Real.log (1 + Real.exp (-D x))) (mix P Q) :=
    (integrable_rnDeriv_smul_iff (ac_mix P Q)).2 hP
  have iQ : Integrable (fun x => dens Q P x * Real.log (1 + Real.exp (D x))) (mix P Q) := by
    rw [mix_comm P Q]
    exact (integrable_rnDeriv_smul_iff (ac_mix Q P)).2 hQ
  have ent2 := ent_int Q P
  rw [mix_comm] at ent2
  have eP : ∫ x, Real.log (1 + Real.exp (-D x)) ∂P = ∫ x, dens P Q x * Real.log (1 + Real.exp (-D x)) ∂mix P Q :=
    (integral_toReal_rnDeriv_mul (ac_mix P Q)).symm
  have eQ : ∫ x, Real.log (1 + Real.exp (D x)) ∂Q = ∫ x, dens Q P x * Real.log (1 + Real.exp (D x)) ∂mix P Q := by
    rw [mix_comm P Q]
    exact (integral_toReal_rnDeriv_mul (ac_mix Q P)).symm
  have hF : ∀ᵐ x ∂mix P Q, dens P Q x * Real.log (1 + Real.exp (-D x)) + dens Q P x * Real.log (1 + Real.exp (D x)) +
      (dens P Q x * Real.log (dens P Q x) + dens Q P x * Real.log (dens Q P x)) - 2 * Real.log 2 = F x := by
    filter_upwards [dens_add P Q] with x hx
    rw [(softplus_sigmoid (D x)).1, (softplus_sigmoid (D x)).2.1]
    exact gibbs (dens_nonneg P Q x) (dens_nonneg Q P x) hx (hs x).1 (hs x).2
  have i12 := iP.add iQ
  have i34 := (ent_int P Q).add ent2
  have iF' := (i12.add i34).sub (integrable_const (2 * Real.log 2))
  have iF : Integrable F (mix P Q) := iF'.congr hF
  have gap : logLoss P Q D - (Real.log 2 - jsd P Q) = (∫ x, F x ∂mix P Q) / 2 := by
    have e1 : ∫ x, F x ∂mix P Q = ∫ x, (dens P Q x * Real.log (1 + Real.exp (-D x)) + dens Q P x * Real.log (1 + Real.exp (D x)) +
      (dens P Q x * Real.log (dens P Q x) + dens Q P x * Real.log (dens Q P x)) - 2 * Real.log 2) ∂mix P Q :=
      (integral_congr_ae hF).symm
    have e2 := integral_sub (i12.add i34) (integrable_const (μ := mix P Q) (2 * Real.log 2))
    have e3 := integral_add i12 i34
    have e4 := integral_add iP iQ
    simp only [Pi.add_apply] at e2 e3 e4
    rw [e1, e2, e3, e4, integral_const, probReal_univ, one_smul, jsd_eq, logLoss, eP, eQ]
    ring
  have F0 : ∀ x, 0 ≤ F x := fun x => by
    have h1 := klFun_nonneg (div_nonneg (dens_nonneg P Q x) (mul_nonneg zero_le_two (hs x).1.le))
    have h2 := klFun_nonneg (div_nonneg (dens_nonneg Q P x) (mul_nonneg zero_le_two (sub_nonneg.2 (hs x).2.le)))
    have h3 := (hs x).1
    have h4 := sub_pos.2 (hs x).2
    show 0 ≤ 2 * s x * klFun _ + 2 * (1 - s x) * klFun _
    positivity
  have hnn : 0 ≤ ∫ x, F x ∂mix P Q := integral_nonneg F0
  refine ⟨by linarith, ?_⟩
  have step : logLoss P Q D = Real.log 2 - jsd P Q ↔ ∫ x, F x ∂mix P Q = 0 := by
    constructor
    · intro h; linarith
    · intro h; linarith
  rw [step, integral_eq_zero_iff_of_nonneg F0 iF]
  constructor
  · intro h
    filter_upwards [h] with x hx
    have hx' : 2 * s x * klFun (dens P Q x / (2 * s x)) + 2 * (1 - s x) * klFun (dens Q P x / (2 * (1 - s x))) = 0 := hx
    have h3 := (hs x).1
    have h4 := sub_pos.2 (hs x).2
    have h0 : 0 ≤ dens P Q x / (2 * s x) := div_nonneg (dens_nonneg P Q x) (by positivity)
    have h1 := klFun_nonneg h0
    have h2 := klFun_nonneg (div_nonneg (dens_nonneg Q P x) (mul_nonneg zero_le_two h4.le))
    have h5 : 2 * s x * klFun (dens P Q x / (2 * s x)) = 0 := by
      have : 0 ≤ 2 * s x * klFun (dens P Q x / (2 * s x)) := by positivity
      have : 0 ≤ 2 * (1 - s x) * klFun (dens Q P x / (2 * (1 - s x))) := by positivity
      linarith
    have h6 : klFun (dens P Q x / (2 * s x)) = 0 := by
      rcases mul_eq_zero.1 h5 with h | h
      · linarith
      · exact h
    rw [klFun_eq_zero_iff h0, div_eq_one_iff_eq (by positivity)] at h6
    show s x = dens P Q x / 2
    linarith
  · intro h
    filter_upwards [h, dens_add P Q] with x hx h2
    have hx' : s x = dens P Q x / 2 := hx
    have h3 := (hs x).1
    have h4 := sub_pos.2 (hs x).2
    show 2 * s x * klFun (dens P Q x / (2 * s x)) + 2 * (1 - s x) * klFun (dens Q P x / (2 * (1 - s x))) = 0
    rw [show dens P Q x = 2 * s x by linarith, show dens Q P x = 2 * (1 - s x) by linarith, div_self (by positivity),
      div_self (by positivity), klFun_one]
    simp

/-- If data and generated images have positive densities then the log ratio of them is the best output of the discriminator. -/
theorem C103_optimal (μ : Measure X) [SigmaFinite μ] (p q : X → ℝ) (hp : Measurable p) (hq : Measurable q) (p0 : ∀ x, 0 < p x)
    (q0 : ∀ x, 0 < q x) (eP : P = μ.withDensity fun x => ENNReal.ofReal (p x))
    (eQ : Q = μ.withDensity fun x => ENNReal.ofReal (q x)) :
    let D := fun x => Real.log (p x / q x)
    Integrable (fun x => Real.log (1 + Real.exp (-D x))) P ∧ Integrable (fun x => Real.log (1 + Real.exp (D x))) Q ∧
      logLoss P Q D = Real.log 2 - jsd P Q := by
  intro D
  have := mix_prob P Q
  have hD : Measurable D := (hp.div hq).log
  have main : ∀ {p q : X → ℝ}, Measurable p → Measurable q → (∀ x, 0 < p x) → (∀ x, 0 < q x) →
      IsProbabilityMeasure (μ.withDensity fun x => ENNReal.ofReal (q x)) →
      Integrable (fun x => Real.log (1 + Real.exp (-Real.log (p x / q x)))) (μ.withDensity fun x => ENNReal.ofReal (p x)) := by
    intro p q hp hq p0 q0 hQ
    have e : ∀ x, Real.exp (-Real.log (p x / q x)) = q x / p x := fun x => by
      rw [Real.exp_neg, Real.exp_log (div_pos (p0 x) (q0 x)), inv_div]
    simp only [e]
    have iq : Integrable q μ := by
      refine ⟨hq.aestronglyMeasurable, ?_⟩
      rw [hasFiniteIntegral_iff_ofReal (Filter.Eventually.of_forall fun x => (q0 x).le)]
      have := hQ.measure_univ
      rw [withDensity_apply _ MeasurableSet.univ, Measure.restrict_univ] at this
      rw [this]
      exact ENNReal.one_lt_top
    rw [integrable_withDensity_iff hp.ennreal_ofReal (Filter.Eventually.of_forall fun x => ENNReal.ofReal_lt_top)]
    refine iq.mono' (((measurable_const.add (hq.div hp)).log.mul hp.ennreal_ofReal.ennreal_toReal).aestronglyMeasurable)
      (Filter.Eventually.of_forall fun x => ?_)
    have h1 : 0 < q x / p x := div_pos (q0 x) (p0 x)
    have h2 : 0 ≤ Real.log (1 + q x / p x) := Real.log_nonneg (by linarith)
    have h3 : Real.log (1 + q x / p x) ≤ q x / p x := by
      have := Real.log_le_sub_one_of_pos (show 0 < 1 + q x / p x by linarith)
      linarith
    rw [ENNReal.toReal_ofReal (p0 x).le, Real.norm_eq_abs, abs_of_nonneg (mul_nonneg h2 (p0 x).le)]
    calc _ ≤ q x / p x * p x := mul_le_mul_of_nonneg_right h3 (p0 x).le
      _ = q x := div_mul_cancel₀ _ (p0 x).ne'
  have iP : Integrable (fun x => Real.log (1 + Real.exp (-D x))) P := by
    rw [eP]
    exact main hp hq p0 q0 (eQ ▸ inferInstance)
  have iQ : Integrable (fun x => Real.log (1 + Real.exp (D x))) Q := by
    have h := main hq hp q0 p0 (eP ▸ inferInstance)
    rw [← eQ] at h
    refine h.congr (Filter.Eventually.of_forall fun x => ?_)
    show Real.log (1 + Real.exp (-Real.log (q x / p x))) = Real.log (1 + Real.exp (Real.log (p x / q x)))
    rw [← Real.log_inv, inv_div]
  refine ⟨iP, iQ, ((C103_discriminator P Q D iP iQ).2).2 ?_⟩
  have eM : mix P Q = μ.withDensity fun x => ENNReal.ofReal ((p x + q x) / 2) := by
    have e : (fun x => ENNReal.ofReal ((p x + q x) / 2)) =
        (2⁻¹ : ENNReal) • ((fun x => ENNReal.ofReal (p x)) + fun x => ENNReal.ofReal (q x)) := by
      funext x
      rw [Pi.smul_apply, Pi.add_apply, ← ENNReal.ofReal_add (p0 x).le (q0 x).le, div_eq_inv_mul,
        ENNReal.ofReal_mul (by norm_num), ENNReal.ofReal_inv_of_pos (by norm_num), smul_eq_mul]
      norm_num
    rw [e, withDensity_smul _ (hp.ennreal_ofReal.add hq.ennreal_ofReal), withDensity_add_left hp.ennreal_ofReal, mix, eP, eQ]
  have hm : Measurable fun x => ENNReal.ofReal ((p x + q x) / 2) := ((hp.add hq).div_const 2).ennreal_ofReal
  have hr : Measurable fun x => ENNReal.ofReal (2 * p x / (p x + q x)) := ((hp.const_mul 2).div (hp.add hq)).ennreal_ofReal
  have eP' : P = (mix P Q).withDensity fun x => ENNReal.ofReal (2 * p x / (p x + q x)) := by
    rw [eM, ← withDensity_mul _ hm hr, eP]
    congr 1
    funext x
    have h1 := p0 x
    have h2 := q0 x
    rw [Pi.mul_apply, ← ENNReal.ofReal_mul (by positivity)]
    congr 1
    field_simp
  have hd : P.rnDeriv (mix P Q) =ᵐ[mix P Q] fun x => ENNReal.ofReal (2 * p x / (p x + q x)) := by
    have h := Measure.rnDeriv_withDensity (mix P Q) hr
    rwa [← eP'] at h
  filter_upwards [hd] with x hx
  have h1 := p0 x
  have h2 := q0 x
  rw [hx, ENNReal.toReal_ofReal (by positivity)]
  show 1 / (1 + Real.exp (-Real.log (p x / q x))) = _
  rw [Real.exp_neg, Real.exp_log (div_pos h1 h2), inv_div]
  field_simp

end

/-! ## What the critic measures -/

/-- What a critic that is Lipschitz measures is at most its constant times the mean distance under any coupling, so it is at most that
constant times the Wasserstein distance. -/
theorem C103_critic {X : Type} [PseudoMetricSpace X] [MeasurableSpace X] [OpensMeasurableSpace X] (P Q : Measure X) (π : Measure (X × X))
    (h : Coupling P Q π) (f : X → ℝ) (κ : NNReal) (hf : LipschitzWith κ f) (iP : Integrable f P) (iQ : Integrable f Q)
    (id : Integrable (fun z : X × X => dist z.1 z.2) π) :
    (∫ x, f x ∂P) - ∫ x, f x ∂Q ≤ κ * ∫ z, dist z.1 z.2 ∂π := by
  obtain ⟨h1, h2⟩ := h
  rw [← h1] at iP ⊢
  rw [← h2] at iQ ⊢
  rw [integral_map measurable_fst.aemeasurable iP.aestronglyMeasurable,
    integral_map measurable_snd.aemeasurable iQ.aestronglyMeasurable]
  have i1 : Integrable (fun z : X × X => f z.1) π := (integrable_map_measure iP.aestronglyMeasurable measurable_fst.aemeasurable).1 iP
  have i2 : Integrable (fun z : X × X => f z.2) π := (integrable_map_measure iQ.aestronglyMeasurable measurable_snd.aemeasurable).1 iQ
  rw [← integral_sub i1 i2, ← integral_const_mul]
  refine integral_mono (i1.sub i2) (id.const_mul _) fun z => ?_
  have := hf.dist_le_mul z.1 z.2
  rw [Real.dist_eq] at this
  exact (le_abs_self _).trans this

/-! ## Towers -/

section
variable {X Z : Type}

theorem slices_mono (l : List X) (e : ℕ → ℕ) (h0 : e 0 = 0) (he : Monotone e) (k : ℕ) :
    (List.range k).flatMap (fun t => slice l (e t) (e (t + 1))) = l.take (e k) := by
  induction k with
  | zero => simp [h0]
  | succ k ih =>
    rw [List.range_succ, List.flatMap_append, ih]
    simp only [List.flatMap_cons, List.flatMap_nil, List.append_nil, slice]
    conv_rhs => rw [← List.take_append_drop (e k) (l.take (e (k + 1)))]
    rw [List.take_take, min_eq_left (he (Nat.le_succ k))]

theorem tower_length (x : List X) {g i : ℕ} (hi : i < g) :
    (tower x g i).length = (i + 1) * x.length / g - i * x.length / g := by
  have h : (i + 1) * x.length / g ≤ x.length := by
    refine Nat.div_le_of_le_mul ?_
    exact Nat.mul_le_mul_right _ hi
  rw [tower, slice, List.length_drop, List.length_take, min_eq_left h]

/-- The towers share out the rows of the batch, in order.  No two towers differ by more than one row, and they get equally many if the number
of towers divides the number of rows. -/
theorem C103_towers (x : List X) (g : ℕ) (hg : 0 < g) :
    ((List.finRange g).flatMap fun i : Fin g => tower x g i) = x ∧
      (∀ i < g, (tower x g i).length = x.length / g ∨ (tower x g i).length = x.length / g + 1) ∧
      (g ∣ x.length → ∀ i < g, (tower x g i).length = x.length / g) := by
  refine ⟨?_, fun i hi => ?_, fun hd i hi => ?_⟩
  · have h := slices_mono x (fun t => t * x.length / g) (by simp)
      (fun a b hab => Nat.div_le_div_right (Nat.mul_le_mul_right _ hab)) g
    have e : ((List.finRange g).flatMap fun i : Fin g => tower x g i) = ((List.finRange g).map Fin.val).flatMap fun i => tower x g i := by
      rw [List.flatMap_map]
    rw [e, List.map_coe_finRange_eq_range]
    refine h.trans ?_
    simp only [Nat.mul_div_cancel_left _ hg, List.take_length]
  · rw [tower_length x hi, add_mul, one_mul]
    have h1 : i * x.length / g + x.length / g ≤ (i * x.length + x.length) / g := Nat.div_add_div_le_add_div
    have h2 : (i * x.length + x.length) / g ≤ i * x.length / g + x.length / g + 1 := by
      rw [Nat.add_div hg]
      split <;> omega
    generalize (i * x.length + x.length) / g = c at *
    generalize i * x.length / g = d at *
    generalize x.length / g = e at *
    omega
  · obtain ⟨m, hm⟩ := hd
    rw [tower_length x hi, hm, Nat.mul_div_cancel_left _ hg, show (i + 1) * (g * m) = g * ((i + 1) * m) by ring,
      show i * (g * m) = g * (i * m) by ring, Nat.mul_div_cancel_left _ hg, Nat.mul_div_cancel_left _ hg, add_mul, one_mul]
    omega

/-- In training every batch has `k` rows for each tower. -/
theorem C103_batches {n : ℕ} (a : Fin n → X) (k g t : ℕ) (hg : 0 < g) (ht : t < itersDown n (k * g)) :
    (batch a (k * g) t).length = k * g ∧ ∀ i < g, (tower (batch a (k * g) t) g i).length = k := by
  have h := (C92_cover_down a (k * g)).2 t ht
  refine ⟨h, fun i hi => ?_⟩
  rw [(C103_towers _ g hg).2.2 (by rw [h]; exact Dvd.intro_left k rfl) i hi, h, Nat.mul_div_cancel _ hg]

theorem sum_flatMap' {ι : Type} (l : ι → List ℝ) (is : List ι) : (is.flatMap l).sum = (is.map fun i => (l i).sum).sum := by
  induction is with
  | nil => rfl
  | cons i is ih => rw [List.flatMap_cons, List.sum_append, ih, List.map_cons, List.sum_cons]

theorem mean_towers {g m : ℕ} (l : Fin (g + 1) → List ℝ) (hl : ∀ i, (l i).length = m) :
    (∑ i, mean (l i)) / (g + 1 : ℕ) = mean ((List.finRange (g + 1)).flatMap l) := by
  have e1 : ((List.finRange (g + 1)).flatMap l).sum = ∑ i, (l i).sum := by
    rw [sum_flatMap', ← Fin.sum_univ_def]
  have e2 : ((List.finRange (g + 1)).flatMap l).length = (g + 1) * m := by
    rw [List.length_flatMap, ← Fin.sum_univ_def]
    simp [hl]
  unfold mean
  rw [e1, e2]
  simp only [hl]
  rw [← Finset.sum_div, div_div, mul_comm (m : ℝ)]
  push_cast
  rfl

theorem average_two {g : ℕ} (a b : Fin (g + 1) → ℝ) :
    averageLosses ((List.finRange (g + 1)).map fun i => [scalar (a i), scalar (b i)]) =
      .ok [scalar ((∑ i, a i) / (g + 1 : ℕ)), scalar ((∑ i, b i) / (g + 1 : ℕ))] := by
  obtain ⟨res, h1, h2⟩ := C67_average_losses (m := 2) (fun t : Fin (g + 1) => ![scalar (a t), scalar (b t)])
    (fun i t => by fin_cases i <;> rfl)
  have e : (fun t : Fin (g + 1) => (List.finRange 2).map ![scalar (a t), scalar (b t)]) = fun i => [scalar (a i), scalar (b i)] := by
    funext t
    rfl
  rw [e] at h1
  rw [h1]
  have f : List.finRange 2 = [0, 1] := rfl
  rw [f] at h2
  rcases h2 with _ | ⟨⟨p1, p2⟩, _ | ⟨⟨q1, q2⟩, _ | _⟩⟩
  rename_i u v
  congr 2
  · cases u
    unfold scalar
    congr 1
    funext idx
    exact p2 idx
  · cases v
    unfold scalar
    congr 2
    funext idx
    exact q2 idx

/-- What the losses have in common: they are averages over the rows. -/
def Averages (L : List X → List Z → ℝ) : Prop :=
  ∀ (g m : ℕ) (x : Fin (g + 1) → List X) (z : Fin (g + 1) → List Z), (∀ i, (x i).length = m) → (∀ i, (z i).length = m) →
    (∑ i, L (x i) (z i)) / (g + 1 : ℕ) = L ((List.finRange (g + 1)).flatMap x) ((List.finRange (g + 1)).flatMap z)

theorem averages_mean (φ : Z → ℝ) : Averages fun (_ : List X) z => mean (z.map φ) := by
  intro g m x z _ hz
  simp only
  rw [mean_towers (fun i => (z i).map φ) (fun i => by rw [List.length_map, hz]), List.map_flatMap]

theorem averages_mean' (φ : X → ℝ) : Averages fun x (_ : List Z) => mean (x.map φ) := by
  intro g m x z hx _
  simp only
  rw [mean_towers (fun i => (x i).map φ) (fun i => by rw [List.length_map, hx]), List.map_flatMap]

theorem averages_gen (D : X → ℝ) (G : Z → X) : Averages fun (_ : List X) z => genLoss ((z.map G).map D) := by
  have h := averages_mean (X := X) fun w => Uni.sigmoidCrossEntropy 1 (D (G w))
  intro g m x z hx hz
  have := h g m x z hx hz
  simp only [genLoss, List.map_map] at this ⊢
  exact this

theorem averages_wgen (D : X → ℝ) (G : Z → X) : Averages fun (_ : List X) z => wGenLoss ((z.map G).map D) := by
  have h := averages_mean (X := X) fun w => D (G w)
  intro g m x z hx hz
  have := h g m x z hx hz
  simp only [wGenLoss, List.map_map] at this ⊢
  rw [Finset.sum_neg_distrib, neg_div, neg_inj]
  exact this

theorem averages_disc (D : X → ℝ) (G : Z → X) : Averages fun x z => discLoss (x.map D) ((z.map G).map D) := by
  have h0 := averages_mean (X := X) fun w => Uni.sigmoidCrossEntropy 0 (D (G w))
  have h1 := averages_mean' (Z := Z) fun w => Uni.sigmoidCrossEntropy 1 (D w)
  intro g m x z hx hz
  have e0 := h0 g m x z hx hz
  have e1 := h1 g m x z hx hz
  simp only [discLoss, List.map_map] at e0 e1 ⊢
  rw [← Finset.sum_div, Finset.sum_add_distrib, div_right_comm, add_div]
  exact congrArg (· / 2) (congrArg₂ (· + ·) e1 e0)

theorem sum_zipWith_sub : ∀ a b : List ℝ, a.length = b.length → (List.zipWith (· - ·) a b).sum = a.sum - b.sum
  | [], [], _ => by simp
  | [], _ :: _, h => by simp at h
  | _ :: _, [], h => by simp at h
  | x :: a, y :: b, h => by
    rw [List.zipWith_cons_cons, List.sum_cons, List.sum_cons, List.sum_cons, sum_zipWith_sub a b (by simpa using h)]
    ring

/-- With as many generated images as images the loss is the difference of the means. -/
theorem wDiscLoss_eq (a b : List ℝ) (h : a.length = b.length) : wDiscLoss a b = mean b - mean a := by
  unfold wDiscLoss mean
  rw [sum_zipWith_sub a b h, List.length_zipWith, h, min_self]
  ring

theorem averages_wdisc (D : X → ℝ) (G : Z → X) : Averages fun x z => wDiscLoss (x.map D) ((z.map G).map D) := by
  have h0 := averages_mean (X := X) fun w => D (G w)
  have h1 := averages_mean' (Z := Z) D
  intro g m x z hx hz
  have e0 := h0 g m x z hx hz
  have e1 := h1 g m x z hx hz
  have l1 : ((List.finRange (g + 1)).flatMap x).length = ((List.finRange (g + 1)).flatMap z).length := by
    rw [List.length_flatMap, List.length_flatMap]
    simp only [hx, hz]
  simp only at e0 e1 ⊢
  rw [wDiscLoss_eq _ _ (by simp only [List.length_map]; exact l1)]
  simp only [List.map_map]
  have e : ∀ i, wDiscLoss ((x i).map D) ((z i).map (D ∘ G)) = mean ((z i).map fun w => D (G w)) - mean ((x i).map D) := fun i =>
    wDiscLoss_eq _ _ (by rw [List.length_map, List.length_map, hx, hz])
  simp only [e]
  rw [Finset.sum_sub_distrib, sub_div, e0, e1]
  rfl

theorem whole {L : List X → List Z → ℝ} (hL : Averages L) {x : List X} {g : ℕ} (hg : g + 1 ∣ x.length)
    {z : Fin (g + 1) → List Z} (hz : ∀ i, (z i).length = (tower x (g + 1) i).length) :
    (∑ i : Fin (g + 1), L (tower x (g + 1) i) (z i)) / (g + 1 : ℕ) = L x ((List.finRange (g + 1)).flatMap z) := by
  obtain ⟨h1, _, h2⟩ := C103_towers x (g + 1) (Nat.succ_pos g)
  have h := hL g _ (fun i => tower x (g + 1) i) z (fun i => h2 hg i i.2) (fun i => (hz i).trans (h2 hg i i.2))
  rwa [h1] at h

/-- The averages of the losses over the towers are the losses of the whole batch, when the networks treat the rows separately. -/
theorem C103_losses (D : X → ℝ) (G : Z → X) (x : List X) (_hx : x ≠ []) {g : ℕ} (hg : g + 1 ∣ x.length) (z : Fin (g + 1) → List Z)
    (hz : ∀ i, (z i).length = (tower x (g + 1) i).length) :
    let zs := (List.finRange (g + 1)).flatMap z
    let nets : Nets X Z := ⟨List.map D, List.map G⟩
    losses nets x (g + 1) z = .ok [scalar (genLoss (nets.disc (nets.gen zs))), scalar (discLoss (nets.disc x) (nets.disc (nets.gen zs)))] ∧
    wLosses nets x (g + 1) z =
      .ok [scalar (wGenLoss (nets.disc (nets.gen zs))), scalar (wDiscLoss (nets.disc x) (nets.disc (nets.gen zs)))] := by
  intro zs nets
  have a1 := whole (averages_gen D G) hg hz
  have a2 := whole (averages_disc D G) hg hz
  have b1 := whole (averages_wgen D G) hg hz
  have b2 := whole (averages_wdisc D G) hg hz
  constructor
  · refine (average_two _ _).trans ?_
    rw [← a1, ← a2]
  · refine (average_two _ _).trans ?_
    rw [← b1, ← b2]

/-- The averages of the gradients over the towers are the gradients of the losses of the whole batch: that of the discriminator for the
variables of the discriminator and that of the generator for the variables of the generator.  `grad i j` is the gradient that tower `i` finds
for variable `j`. -/
theorem C103_gradients {m : ℕ} (isDisc : Fin m → Bool) (D : (Fin m → ℝ) → X → ℝ) (G : (Fin m → ℝ) → Z → X) (θ : Fin m → ℝ)
    (x : List X) (_hx : x ≠ []) {g : ℕ} (hg : g + 1 ∣ x.length) (z : Fin (g + 1) → List Z)
    (hz : ∀ i, (z i).length = (tower x (g + 1) i).length) (lossD : List ℝ → List ℝ → ℝ) (lossG : List ℝ → ℝ)
    (hl : (lossD = discLoss ∧ lossG = genLoss) ∨ (lossD = wDiscLoss ∧ lossG = wGenLoss)) (grad : Fin (g + 1) → Fin m → ℝ)
    (hgrad : ∀ i j, HasDerivAt (fun s =>
      let w := Function.update θ j s
      let gen := ((z i).map (G w)).map (D w)
      if isDisc j then lossD ((tower x (g + 1) i).map (D w)) gen else lossG gen) (grad i j) (θ j)) :
    ∃ res, averageGradients ((List.finRange (g + 1)).map fun i => (List.finRange m).map fun j => (some (scalar (grad i j)), j)) = .ok res ∧
      res.map Prod.snd = List.finRange m ∧
      List.Forall₂ (fun p j => HasDerivAt (fun s =>
        let w := Function.update θ j s
        let gen := (((List.finRange (g + 1)).flatMap z).map (G w)).map (D w)
        if isDisc j then lossD (x.map (D w)) gen else lossG gen) (p.1.val []) (θ j)) res (List.finRange m) := by
  obtain ⟨res, h1, h2, h3⟩ := C67_average_gradients (fun i j => some (scalar (grad i j))) (fun (_ : Fin (g + 1)) (j : Fin m) => j)
    (fun j => Or.inr ⟨[], fun t => ⟨_, rfl, rfl⟩⟩)
  have ef' : ((List.finRange m).filter fun j => (some (scalar (grad 0 j))).isSome) = List.finRange m := by simp
  rw [ef'] at h2 h3
  refine ⟨res, h1, by simpa using h2, h3.imp fun p j hp => ?_⟩
  have hd := HasDerivAt.fun_sum (u := Finset.univ) fun i _ => hgrad i j
  have hd2 := hd.div_const ((g + 1 : ℕ) : ℝ)
  have ep : p.1.val [] = (∑ i, grad i j) / (g + 1 : ℕ) := hp []
  rw [ep]
  refine hd2.congr_of_eventuallyEq (Filter.Eventually.of_forall fun s => ?_)
  simp only
  rcases hl with ⟨rfl, rfl⟩ | ⟨rfl, rfl⟩ <;> cases isDisc j
  · exact (whole (averages_gen _ _) hg hz).symm
  · exact (whole (averages_disc _ _) hg hz).symm
  · exact (whole (averages_wgen _ _) hg hz).symm
  · exact (whole (averages_wdisc _ _) hg hz).symm

end

/-! ## Expected losses -/

section
variable {X : Type} [MeasurableSpace X]

theorem latent_meas {d : ℕ} : Measurable (latent (d := d)) := by
  unfold latent Uni.Uniform.sample
  fun_prop

theorem uniform_law : (volume.restrict (Set.Ico (0 : ℝ) 1)).map (Uni.Uniform.sample (-1) 1) =
    (2⁻¹ : ENNReal) • volume.restrict (Set.Ico (-1 : ℝ) 1) := by
  rw [(Uni.C22_sampler (-1) 1 (by norm_num)).2.1, Uni.uniform_prob_indicator, withDensity_indicator measurableSet_Ico, withDensity_const]
  congr 1
  rw [show (1 : ℝ) / (1 - -1) = 2⁻¹ by norm_num, ENNReal.ofReal_inv_of_pos (by norm_num)]
  norm_num

theorem unif_prob : IsProbabilityMeasure (volume.restrict (Set.Ico (0 : ℝ) 1)) := ⟨by simp⟩

/-- The latent vectors have independent entries that are uniform between -1 and 1. -/
theorem C103_latent (d : ℕ) : (Measure.pi fun _ : Fin d => volume.restrict (Set.Ico (0 : ℝ) 1)).map latent =
    Measure.pi fun _ : Fin d => (2⁻¹ : ENNReal) • volume.restrict (Set.Ico (-1 : ℝ) 1) := by
  have := unif_prob
  have hm : Measurable (Uni.Uniform.sample (-1) 1) := by unfold Uni.Uniform.sample; fun_prop
  have : ∀ _ : Fin d, SigmaFinite ((volume.restrict (Set.Ico (0 : ℝ) 1)).map (Uni.Uniform.sample (-1) 1)) := fun _ => by
    have := Measure.isProbabilityMeasure_map (μ := volume.restrict (Set.Ico (0 : ℝ) 1)) hm.aemeasurable
    infer_instance
  have h := Measure.pi_map_pi (μ := fun _ : Fin d => volume.restrict (Set.Ico (0 : ℝ) 1)) (f := fun _ => Uni.Uniform.sample (-1) 1)
    (fun _ => hm.aemeasurable)
  simp only [uniform_law] at h
  exact h

theorem generated_eq {d : ℕ} (G : (Fin d → ℝ) → X) (hG : Measurable G) :
    generated G = (Measure.pi fun _ : Fin d => volume.restrict (Set.Ico (0 : ℝ) 1)).map fun u => G (latent u) := by
  rw [generated, ← C103_latent, Measure.map_map hG latent_meas]
  rfl

theorem generated_prob {d : ℕ} (G : (Fin d → ℝ) → X) (hG : Measurable G) : IsProbabilityMeasure (generated G) := by
  have := unif_prob
  rw [generated_eq G hG]
  exact Measure.isProbabilityMeasure_map (hG.comp latent_meas).aemeasurable

theorem mean_ofFn {b : ℕ} (f : Fin b → ℝ) : mean (List.ofFn f) = (∑ i, f i) / b := by
  rw [mean, List.sum_ofFn, List.length_ofFn]

/-- A mean over the generated images of a batch is an unbiased estimate. -/
theorem gen_mean {b d : ℕ} (hb : 0 < b) (G : (Fin d → ℝ) → X) (hG : Measurable G) (φ : X → ℝ) (hφ : Integrable φ (generated G)) :
    Integrable (fun u : Fin b → Fin d → ℝ => mean (List.ofFn fun i => φ (G (latent (u i))))) (draws b d) ∧
    ∫ u : Fin b → Fin d → ℝ, mean (List.ofFn fun i => φ (G (latent (u i)))) ∂draws b d = ∫ y, φ y ∂generated G := by
  have := unif_prob
  have hm : Measurable fun u : Fin d → ℝ => G (latent u) := hG.comp latent_meas
  rw [generated_eq G hG] at hφ ⊢
  have i1 : Integrable (fun u : Fin d → ℝ => φ (G (latent u))) (Measure.pi fun _ : Fin d => volume.restrict (Set.Ico (0 : ℝ) 1)) :=
    (integrable_map_measure hφ.aestronglyMeasurable hm.aemeasurable).1 hφ
  have i2 : ∀ i : Fin b, Integrable (fun u : Fin b → Fin d → ℝ => φ (G (latent (u i)))) (draws b d) := fun i =>
    integrable_comp_eval (μ := fun _ : Fin b => Measure.pi fun _ : Fin d => volume.restrict (Set.Ico (0 : ℝ) 1)) (i := i) i1
  have e2 : ∀ i : Fin b, ∫ u : Fin b → Fin d → ℝ, φ (G (latent (u i))) ∂draws b d =
      ∫ u, φ (G (latent u)) ∂(Measure.pi fun _ : Fin d => volume.restrict (Set.Ico (0 : ℝ) 1)) := fun i =>
    integral_comp_eval (μ := fun _ : Fin b => Measure.pi fun _ : Fin d => volume.restrict (Set.Ico (0 : ℝ) 1)) (i := i)
      i1.aestronglyMeasurable
  simp only [mean_ofFn]
  refine ⟨(integrable_finsetSum _ fun i _ => i2 i).div_const _, ?_⟩
  rw [integral_div, integral_finsetSum _ fun i _ => i2 i]
  simp only [e2]
  rw [Finset.sum_const, Finset.card_univ, Fintype.card_fin, nsmul_eq_mul, integral_map hm.aemeasurable hφ.aestronglyMeasurable]
  have : (b : ℝ) ≠ 0 := by positivity
  field_simp

theorem empirical_integral {n : ℕ} (x : Fin n → X) (φ : X → ℝ) (hφ : Measurable φ) :
    ∫ y, φ y ∂empirical x = (∑ i, φ (x i)) / n := by
  rw [empirical, integral_smul_measure, integral_finsetSum_measure fun i _ => by
    exact (integrable_dirac' hφ.stronglyMeasurable (by simp))]
  simp only [integral_dirac' _ _ hφ.stronglyMeasurable]
  rw [ENNReal.toReal_inv, ENNReal.toReal_natCast, smul_eq_mul]
  ring

theorem sce_one (a : ℝ) : Uni.sigmoidCrossEntropy 1 a = Real.log (1 + Real.exp (-a)) := by
  rw [Uni.sigmoidCrossEntropy_eq, Uni.softplus]
  have : 1 + Real.exp a = Real.exp a * (1 + Real.exp (-a)) := by
    rw [mul_add, mul_one, ← Real.exp_add]; simp; ring
  rw [this, Real.log_mul (by positivity) (by positivity), Real.log_exp]
  ring

theorem sce_zero (a : ℝ) : Uni.sigmoidCrossEntropy 0 a = Real.log (1 + Real.exp a) := by
  rw [Uni.sigmoidCrossEntropy_eq, Uni.softplus]
  ring

/-- Over a random shuffle of the data and random latent vectors the expected loss of the discriminator is its expected log loss in telling the
data from the generated images, and the expected loss of the generator is the expected loss of the discriminator's being fooled. -/
theorem C103_expected {n b t d : ℕ} (x : Fin n → X) (hb : 0 < b) (ht : t < itersDown n b) (D : X → ℝ) (hD : Measurable D)
    (G : (Fin d → ℝ) → X) (hG : Measurable G) (h1 : Integrable (fun y => Real.log (1 + Real.exp (-D y))) (generated G))
    (h0 : Integrable (fun y => Real.log (1 + Real.exp (D y))) (generated G)) :
    (∫ σ, ∫ u, discLoss ((batch (fun i => x (σ i)) b t).map D) (List.ofFn fun i : Fin b => D (G (latent (u i)))) ∂draws b d ∂uniform n =
      logLoss (empirical x) (generated G) D) ∧
    ∫ u, genLoss (List.ofFn fun i : Fin b => D (G (latent (u i)))) ∂draws b d = ∫ y, Real.log (1 + Real.exp (-D y)) ∂generated G := by
  have := unif_prob
  have : IsProbabilityMeasure (draws b d) := by unfold draws; infer_instance
  have ht' : t < itersUp n b := lt_of_lt_of_le ht (Nat.div_le_div_right (by omega))
  have hlog : Measurable fun y => Real.log (1 + Real.exp (-D y)) := (measurable_const.add hD.neg.exp).log
  obtain ⟨i0, e0⟩ := gen_mean hb G hG _ h0
  obtain ⟨_, e1⟩ := gen_mean hb G hG _ h1
  constructor
  · have e : ∀ σ : Equiv.Perm (Fin n),
        ∫ u, discLoss ((batch (fun i => x (σ i)) b t).map D) (List.ofFn fun i : Fin b => D (G (latent (u i)))) ∂draws b d =
        (mean ((batch (fun i => x (σ i)) b t).map fun y => Real.log (1 + Real.exp (-D y))) +
          ∫ y, Real.log (1 + Real.exp (D y)) ∂generated G) / 2 := by
      intro σ
      unfold discLoss
      simp only [List.map_map, List.map_ofFn, Function.comp_def, sce_one, sce_zero]
      rw [integral_div, integral_add (integrable_const _) i0, integral_const, probReal_univ, one_smul, e0]
    simp only [e]
    have hp : IsProbabilityMeasure (uniform n) := by unfold uniform; infer_instance
    rw [integral_div, integral_add (Integrable.of_finite) (integrable_const _), C92_unbiased_mean x b t hb ht', integral_const,
      probReal_univ, one_smul, logLoss, empirical_integral x _ hlog]
  · unfold genLoss
    simp only [List.map_ofFn, Function.comp_def, sce_one]
    exact e1

/-- The expected `w_distance` is the difference of the critic's means over the data and over the generated images, and the expected loss of
the generator is minus the latter. -/
theorem C103_wgan_expected {n b t d : ℕ} (x : Fin n → X) (hb : 0 < b) (ht : t < itersDown n b) (f : X → ℝ) (hf : Measurable f)
    (G : (Fin d → ℝ) → X) (hG : Measurable G) (h : Integrable f (generated G)) :
    (∫ σ, ∫ u, wDistance (wDiscLoss ((batch (fun i => x (σ i)) b t).map f) (List.ofFn fun i : Fin b => f (G (latent (u i)))))
      ∂draws b d ∂uniform n = (∫ y, f y ∂empirical x) - ∫ y, f y ∂generated G) ∧
    ∫ u, wGenLoss (List.ofFn fun i : Fin b => f (G (latent (u i)))) ∂draws b d = -∫ y, f y ∂generated G := by
  have := unif_prob
  have : IsProbabilityMeasure (draws b d) := by unfold draws; infer_instance
  have ht' : t < itersUp n b := lt_of_lt_of_le ht (Nat.div_le_div_right (by omega))
  obtain ⟨i0, e0⟩ := gen_mean hb G hG _ h
  constructor
  · have e : ∀ σ : Equiv.Perm (Fin n),
        ∫ u, wDistance (wDiscLoss ((batch (fun i => x (σ i)) b t).map f) (List.ofFn fun i : Fin b => f (G (latent (u i))))) ∂draws b d =
        mean ((batch (fun i => x (σ i)) b t).map f) - ∫ y, f y ∂generated G := by
      intro σ
      have e2 : ∀ u : Fin b → Fin d → ℝ,
          wDistance (wDiscLoss ((batch (fun i => x (σ i)) b t).map f) (List.ofFn fun i : Fin b => f (G (latent (u i))))) =
          mean ((batch (fun i => x (σ i)) b t).map f) - mean (List.ofFn fun i : Fin b => f (G (latent (u i)))) := fun u => by
        rw [wDistance, wDiscLoss_eq _ _ (by rw [List.length_map, List.length_ofFn, (C92_cover_down _ b).2 t ht]), neg_sub]
      simp only [e2]
      rw [integral_sub (integrable_const _) i0, integral_const, probReal_univ, one_smul, e0]
    simp only [e]
    have hp : IsProbabilityMeasure (uniform n) := by unfold uniform; infer_instance
    rw [integral_sub (Integrable.of_finite) (integrable_const _), C92_unbiased_mean x b t hb ht', integral_const,
      probReal_univ, one_smul, empirical_integral x _ hf]
  · unfold wGenLoss
    rw [integral_neg, e0]

end

/-! ## Clipping -/

/-- After every iteration all variables of the critic are between -0.01 and 0.01.  The clipping leaves those that were there as they are, and
it leaves the generator alone. -/
theorem C103_clip {D G : Type} (infer : ℕ → Vars D G → Vars D G) (v : Vars D G) (t : ℕ) :
    let before := infer t (train infer v t)
    let after := train infer v (t + 1)
    (∀ d, |after.disc d| ≤ 0.01) ∧ (∀ d, |before.disc d| ≤ 0.01 → after.disc d = before.disc d) ∧
      (∀ d, ∀ w : ℝ, |w| ≤ 0.01 → |after.disc d - before.disc d| ≤ |w - before.disc d|) ∧ after.gen = before.gen := by
  intro before after
  have e : ∀ d, after.disc d = max (min (before.disc d) 0.01) (-0.01) := fun d => rfl
  refine ⟨fun d => ?_, fun d h => ?_, fun d w h => ?_, rfl⟩
  · rw [e, abs_le]
    exact ⟨le_max_right _ _, max_le (min_le_right _ _) (by norm_num)⟩
  · rw [abs_le] at h
    rw [e, min_eq_left h.2, max_eq_left h.1]
  · rw [abs_le] at h
    rw [e]
    rcases le_total (before.disc d) (-0.01) with h1 | h1
    · rw [min_eq_left (by linarith), max_eq_right h1, abs_of_nonneg (by linarith), abs_of_nonneg (by linarith)]
      linarith
    · rcases le_total (before.disc d) 0.01 with h2 | h2
      · rw [min_eq_left h2, max_eq_left h1]
        simp
      · rw [min_eq_right h2, max_eq_left (by norm_num), abs_of_nonpos (by linarith), abs_of_nonpos (by linarith)]
        linarith

/-! ## The hypotheses can be met -/

example : tower [1, 2, 3, 4, 5] 2 0 = [1, 2] ∧ tower [1, 2, 3, 4, 5] 2 1 = [3, 4, 5] := by decide

example : tower [1, 2, 3, 4] 2 1 = [3, 4] ∧ (1 + 1 ∣ [1, 2, 3, 4].length) ∧
    ∀ i : Fin 2, (![[5, 6], [7, 8]] i).length = (tower [1, 2, 3, 4] 2 i).length := by decide

/-- Two normal distributions have positive densities. -/
example : let P := ProbabilityTheory.gaussianReal 0 1
    let Q := ProbabilityTheory.gaussianReal 1 1
    logLoss P Q (fun x => Real.log (ProbabilityTheory.gaussianPDFReal 0 1 x / ProbabilityTheory.gaussianPDFReal 1 1 x)) =
      Real.log 2 - jsd P Q := by
  intro P Q
  have hd : ∀ m : ℝ, ProbabilityTheory.gaussianReal m 1 = volume.withDensity fun x => ENNReal.ofReal (ProbabilityTheory.gaussianPDFReal m 1 x) :=
    fun m => ProbabilityTheory.gaussianReal_of_var_ne_zero m one_ne_zero
  exact (C103_optimal P Q volume (ProbabilityTheory.gaussianPDFReal 0 1) (ProbabilityTheory.gaussianPDFReal 1 1)
    (ProbabilityTheory.measurable_gaussianPDFReal 0 1) (ProbabilityTheory.measurable_gaussianPDFReal 1 1)
    (fun x => ProbabilityTheory.gaussianPDFReal_pos 0 1 x one_ne_zero) (fun x => ProbabilityTheory.gaussianPDFReal_pos 1 1 x one_ne_zero)
    (hd 0) (hd 1)).2.2

/-- A bounded output of the discriminator has integrable losses. -/
example (x : Fin 4 → ℝ) :
    ∫ σ, ∫ u, discLoss ((batch (fun i => x (σ i)) 2 1).map Real.sin) (List.ofFn fun i : Fin 2 => Real.sin (latent (u i) 0)) ∂draws 2 3
      ∂uniform 4 = logLoss (empirical x) (generated fun z : Fin 3 → ℝ => z 0) Real.sin := by
  have := generated_prob (fun z : Fin 3 → ℝ => z 0) (measurable_pi_apply 0)
  have key : ∀ s : ℝ → ℝ, Continuous s → (∀ y, |s y| ≤ 1) →
      Integrable (fun y => Real.log (1 + Real.exp (s y))) (generated fun z : Fin 3 → ℝ => z 0) := by
    intro s hs h1
    have hm : Measurable fun y => Real.log (1 + Real.exp (s y)) := (measurable_const.add hs.measurable.exp).log
    refine Integrable.of_bound hm.aestronglyMeasurable (Real.exp 1) (Filter.Eventually.of_forall fun y => ?_)
    have h2 := Real.exp_pos (s y)
    have h3 : Real.exp (s y) ≤ Real.exp 1 := Real.exp_le_exp.2 ((le_abs_self _).trans (h1 y))
    have h4 := Real.log_le_sub_one_of_pos (show 0 < 1 + Real.exp (s y) by linarith)
    rw [Real.norm_eq_abs, abs_of_nonneg (Real.log_nonneg (by linarith))]
    linarith
  exact (C103_expected x (by norm_num) (by decide) Real.sin Real.measurable_sin (fun z : Fin 3 → ℝ => z 0) (measurable_pi_apply 0)
    (key (fun y => -Real.sin y) Real.continuous_sin.neg fun y => by rw [abs_neg]; exact Real.abs_sin_le_one y)
    (key Real.sin Real.continuous_sin Real.abs_sin_le_one)).1

end ZhuSuan.Gan

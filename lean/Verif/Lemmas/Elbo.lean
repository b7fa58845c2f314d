import Mathlib.InformationTheory.KullbackLeibler.Basic
import Mathlib.MeasureTheory.Integral.Pi
import Mathlib.MeasureTheory.Integral.Prod
import Verif.Spec.Elbo
import Verif.Lemmas.Dual

set_option autoImplicit false

namespace ZhuSuan.Grad
open MeasureTheory InformationTheory

variable {Z : Type*} [MeasurableSpace Z] {μ : Measure Z} {p q : Z → ℝ}

theorem isProb_law (hq0 : ∀ z, 0 ≤ q z) (hi : Integrable q μ) (h1 : ∫ z, q z ∂μ = 1) :
    IsProbabilityMeasure (law μ q) := by
  constructor
  rw [law, withDensity_apply _ MeasurableSet.univ, Measure.restrict_univ,
    ← ofReal_integral_eq_lintegral_ofReal hi (Filter.Eventually.of_forall hq0), h1, ENNReal.ofReal_one]

theorem LatentModel.isProb (h : LatentModel μ p q) : IsProbabilityMeasure (law μ q) :=
  isProb_law h.q_nonneg h.q_int h.q_one

theorem LatentModel.isProb_posterior (h : LatentModel μ p q) :
    IsProbabilityMeasure (posterior μ p) := by
  apply isProb_law (q := fun z => p z / evidence μ p)
  · exact fun z => div_nonneg (h.p_nonneg z) h.evidence_pos.le
  · exact h.p_int.div_const _
  · rw [integral_div]; exact div_self h.evidence_pos.ne'

theorem LatentModel.ae_pos (h : LatentModel μ p q) :
    ∀ᵐ z ∂(law μ q), 0 < q z ∧ 0 < p z := by
  rw [law, ae_withDensity_iff h.q_meas.ennreal_ofReal]
  refine Filter.Eventually.of_forall fun z hz => ?_
  have hq : 0 < q z := by
    by_contra hn
    exact hz (ENNReal.ofReal_eq_zero.mpr (not_lt.mp hn))
  refine ⟨hq, lt_of_le_of_ne (h.p_nonneg z) fun hp => ?_⟩
  exact hq.ne' (h.supp z hp.symm)

theorem LatentModel.law_eq (h : LatentModel μ p q) :
    law μ q = (posterior μ p).withDensity
      (fun z => ENNReal.ofReal (q z * evidence μ p / p z)) := by
  have hE := h.evidence_pos
  have m1 : Measurable (fun z => ENNReal.ofReal (p z / evidence μ p)) :=
    (h.p_meas.div_const _).ennreal_ofReal
  have m2 : Measurable (fun z => ENNReal.ofReal (q z * evidence μ p / p z)) :=
    ((h.q_meas.mul_const _).div h.p_meas).ennreal_ofReal
  rw [posterior, ← withDensity_mul _ m1 m2, law]
  congr 1
  funext z
  simp only [Pi.mul_apply]
  rw [← ENNReal.ofReal_mul (div_nonneg (h.p_nonneg z) hE.le)]
  congr 1
  by_cases hp : p z = 0
  · simp [hp, h.supp z hp]
  · field_simp

theorem LatentModel.ac (h : LatentModel μ p q) : law μ q ≪ posterior μ p := by
  rw [h.law_eq]; exact withDensity_absolutelyContinuous _ _

theorem LatentModel.llr_eq (h : LatentModel μ p q) :
    llr (law μ q) (posterior μ p) =ᵐ[law μ q]
      fun z => Real.log (evidence μ p) - (Real.log (p z) - Real.log (q z)) := by
  haveI := h.isProb_posterior
  have m2 : Measurable (fun z => ENNReal.ofReal (q z * evidence μ p / p z)) :=
    ((h.q_meas.mul_const _).div h.p_meas).ennreal_ofReal
  have hr := Measure.rnDeriv_withDensity (posterior μ p) m2
  rw [← h.law_eq] at hr
  have hr' := h.ac.ae_le hr
  filter_upwards [hr', h.ae_pos] with z hz hpos
  have hE := h.evidence_pos
  rw [llr, hz, ENNReal.toReal_ofReal (by have := hpos.1; have := hpos.2; positivity),
    Real.log_div (mul_pos hpos.1 hE).ne' hpos.2.ne', Real.log_mul hpos.1.ne' hE.ne']
  ring

end ZhuSuan.Grad

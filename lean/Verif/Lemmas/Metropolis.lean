import Mathlib.MeasureTheory.Measure.Lebesgue.Basic
import Mathlib.MeasureTheory.Measure.WithDensity
import Mathlib.Analysis.SpecialFunctions.Exp
import Mathlib.MeasureTheory.Function.SpecialFunctions.Basic

/-!
# Metropolis test after a volume-preserving involution
-/

set_option autoImplicit false

open MeasureTheory Set
open scoped ENNReal

namespace ZhuSuan.Meas

/-- Accepting the involution with probability `min 1 (exp (H x - H (Φ x)))` leaves `exp (-H)` invariant. -/
theorem metropolis {X : Type*} [MeasurableSpace X] {μ : Measure X} {Φ : X → X}
    (hΦ : MeasurePreserving Φ μ μ) (hi : ∀ x, Φ (Φ x) = x) {H : X → ℝ} (hH : Measurable H)
    {F : X → ℝ≥0∞} (hF : Measurable F) :
    ∫⁻ x, ENNReal.ofReal (Real.exp (-H x)) *
      (ENNReal.ofReal (Real.exp (min (H x - H (Φ x)) 0)) * F (Φ x) +
        ENNReal.ofReal (1 - Real.exp (min (H x - H (Φ x)) 0)) * F x) ∂μ =
    ∫⁻ x, ENNReal.ofReal (Real.exp (-H x)) * F x ∂μ := by
  set m : X → ℝ≥0∞ := fun x => ENNReal.ofReal (min (Real.exp (-H x)) (Real.exp (-H (Φ x)))) with hm
  set r : X → ℝ≥0∞ := fun x => ENNReal.ofReal (Real.exp (-H x)) *
    ENNReal.ofReal (1 - Real.exp (min (H x - H (Φ x)) 0)) with hr
  have hHΦ : Measurable fun x => H (Φ x) := hH.comp hΦ.measurable
  have hFΦ : Measurable fun x => F (Φ x) := hF.comp hΦ.measurable
  have mm : Measurable m := by
    have := (Real.measurable_exp.comp hH.neg).min (Real.measurable_exp.comp hHΦ.neg)
    exact this.ennreal_ofReal
  have mr : Measurable r := by
    have h1 : Measurable fun x => Real.exp (-H x) := Real.measurable_exp.comp hH.neg
    have h2 : Measurable fun x => 1 - Real.exp (min (H x - H (Φ x)) 0) :=
      measurable_const.sub (Real.measurable_exp.comp ((hH.sub hHΦ).min measurable_const))
    exact h1.ennreal_ofReal.mul h2.ennreal_ofReal
  have e1 : ∀ x, ENNReal.ofReal (Real.exp (-H x)) *
      ENNReal.ofReal (Real.exp (min (H x - H (Φ x)) 0)) = m x := by
    intro x
    rw [← ENNReal.ofReal_mul (Real.exp_pos _).le, ← Real.exp_add, hm]
    congr 1
    rcases le_total (H x) (H (Φ x)) with h | h
    · rw [min_eq_left (by linarith), min_eq_right (Real.exp_le_exp.2 (by linarith))]
      congr 1; ring
    · rw [min_eq_right (by linarith), min_eq_left (Real.exp_le_exp.2 (by linarith))]
      congr 1; ring
  have hle : ∀ x, Real.exp (min (H x - H (Φ x)) 0) ≤ 1 := fun x =>
    Real.exp_le_one_iff.2 (min_le_right _ _)
  have e2 : ∀ x, m x + r x = ENNReal.ofReal (Real.exp (-H x)) := by
    intro x
    rw [← e1, hr, ← mul_add, ← ENNReal.ofReal_add (Real.exp_pos _).le (by linarith [hle x])]
    rw [show Real.exp (min (H x - H (Φ x)) 0) + (1 - Real.exp (min (H x - H (Φ x)) 0)) = 1 by ring,
      ENNReal.ofReal_one, mul_one]
  have e3 : ∀ x, m (Φ x) = m x := fun x => by
    simp only [hm]
    rw [hi, min_comm]
  have lhs : ∀ x, ENNReal.ofReal (Real.exp (-H x)) *
      (ENNReal.ofReal (Real.exp (min (H x - H (Φ x)) 0)) * F (Φ x) +
        ENNReal.ofReal (1 - Real.exp (min (H x - H (Φ x)) 0)) * F x) =
      m (Φ x) * F (Φ x) + r x * F x := by
    intro x
    rw [mul_add, ← mul_assoc, e1, e3, ← mul_assoc]
  have hmF : Measurable fun x => m x * F x := mm.mul hF
  have hmFΦ : Measurable fun x => m (Φ x) * F (Φ x) := hmF.comp hΦ.measurable
  have hrF : Measurable fun x => r x * F x := mr.mul hF
  rw [lintegral_congr lhs, lintegral_add_left hmFΦ]
  rw [hΦ.lintegral_comp hmF, ← lintegral_add_left hmF]
  refine lintegral_congr fun x => ?_
  rw [← add_mul, e2]

/-- A uniform draw below `a` selects `F₁`. -/
theorem lintegral_uniform_select {a : ℝ} (h0 : 0 ≤ a) (h1 : a ≤ 1) (F₁ F₀ : ℝ≥0∞) :
    ∫⁻ u in Ico (0 : ℝ) 1, (Iio a).indicator (fun _ => F₁) u + (Ici a).indicator (fun _ => F₀) u =
      ENNReal.ofReal a * F₁ + ENNReal.ofReal (1 - a) * F₀ := by
  rw [lintegral_add_left (measurable_const.indicator measurableSet_Iio),
    lintegral_indicator measurableSet_Iio, lintegral_indicator measurableSet_Ici,
    setLIntegral_const, setLIntegral_const, Measure.restrict_apply measurableSet_Iio,
    Measure.restrict_apply measurableSet_Ici]
  have e1 : Iio a ∩ Ico (0 : ℝ) 1 = Ico 0 a := by
    ext u; simp only [mem_inter_iff, mem_Iio, mem_Ico]; constructor <;> rintro ⟨h2, h3⟩
    · exact ⟨h3.1, h2⟩
    · exact ⟨h3, h2, lt_of_lt_of_le h3 h1⟩
  have e2 : Ici a ∩ Ico (0 : ℝ) 1 = Ico a 1 := by
    ext u; simp only [mem_inter_iff, mem_Ici, mem_Ico]; constructor <;> rintro ⟨h2, h3⟩
    · exact ⟨h2, h3.2⟩
    · exact ⟨h2, h0.trans h2, h3⟩
  rw [e1, e2, Real.volume_Ico, Real.volume_Ico, sub_zero, mul_comm F₁, mul_comm F₀]

end ZhuSuan.Meas

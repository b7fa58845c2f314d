import Mathlib.MeasureTheory.Measure.Lebesgue.EqHaar
import Mathlib.MeasureTheory.Measure.Prod
import Mathlib.MeasureTheory.Measure.WithDensity
import Verif.Lemmas.PiMeasure

/-!
# The law of a normalised vector

`(t, v)` has density `p`, with `t + σ v > 0` where `p` lives (`σ` is the sum of the entries of `v`).  The
law of `v / (t + σ v)` has the density `x ↦ ∫ sⁿ p (s (1 - σ x), s x) ds`.
-/

set_option autoImplicit false

open MeasureTheory Set Module
open scoped ENNReal

namespace ZhuSuan.Meas

variable {E : Type*} [NormedAddCommGroup E] [NormedSpace ℝ E] [FiniteDimensional ℝ E]
  [MeasurableSpace E] [BorelSpace E] (μ : Measure E) [μ.IsAddHaarMeasure]

theorem lintegral_smul {s : ℝ} (hs : 0 < s) (F : E → ℝ≥0∞) (hF : Measurable F) :
    ∫⁻ v, F v ∂μ = ENNReal.ofReal (s ^ finrank ℝ E) * ∫⁻ x, F (s • x) ∂μ := by
  have h := Measure.map_addHaar_smul μ hs.ne'
  have e : ∫⁻ x, F (s • x) ∂μ = ∫⁻ y, F y ∂(Measure.map (s • ·) μ) :=
    (lintegral_map hF (measurable_const_smul s)).symm
  have hp : 0 < s ^ finrank ℝ E := pow_pos hs _
  rw [e, h, lintegral_smul_measure, abs_of_pos (inv_pos.2 hp), smul_eq_mul, ← mul_assoc,
    ← ENNReal.ofReal_mul hp.le, mul_inv_cancel₀ hp.ne', ENNReal.ofReal_one, one_mul]

theorem normalise_law (σ : E →L[ℝ] ℝ) (p : ℝ × E → ℝ≥0∞) (hp : Measurable p)
    (hpos : ∀ t v, p (t, v) ≠ 0 → 0 < t + σ v) :
    (((volume : Measure ℝ).prod μ).withDensity p).map (fun z : ℝ × E => (z.1 + σ z.2)⁻¹ • z.2) =
      μ.withDensity fun x => ∫⁻ s in Ioi (0 : ℝ),
        ENNReal.ofReal (s ^ finrank ℝ E) * p (s * (1 - σ x), s • x) := by
  have hT : Measurable fun z : ℝ × E => (z.1 + σ z.2)⁻¹ • z.2 := by
    have : Measurable fun z : ℝ × E => σ z.2 := σ.continuous.measurable.comp measurable_snd
    exact ((measurable_fst.add this).inv).smul measurable_snd
  ext A hA
  set h : E → ℝ≥0∞ := A.indicator 1 with hh
  have hhm : Measurable h := measurable_one.indicator hA
  have hσ : Measurable fun v : E => σ v := σ.continuous.measurable
  -- left hand side
  have L : ((((volume : Measure ℝ).prod μ).withDensity p).map
      (fun z : ℝ × E => (z.1 + σ z.2)⁻¹ • z.2)) A =
      ∫⁻ v, (∫⁻ t : ℝ, h ((t + σ v)⁻¹ • v) * p (t, v)) ∂μ := by
    rw [Measure.map_apply hT hA, withDensity_apply _ (hT hA), ← lintegral_indicator (hT hA)]
    have e : ∀ z : ℝ × E, ((fun z : ℝ × E => (z.1 + σ z.2)⁻¹ • z.2) ⁻¹' A).indicator p z =
        h ((z.1 + σ z.2)⁻¹ • z.2) * p z := by
      intro z
      by_cases hz : (z.1 + σ z.2)⁻¹ • z.2 ∈ A
      · rw [indicator_of_mem (by exact hz), hh, indicator_of_mem hz]; simp
      · rw [indicator_of_notMem (by exact hz), hh, indicator_of_notMem hz]; simp
    simp only [e]
    have mz : Measurable fun z : ℝ × E => h ((z.1 + σ z.2)⁻¹ • z.2) * p z := (hhm.comp hT).mul hp
    rw [lintegral_prod_symm _ mz.aemeasurable]
  have step1 : ∀ v, ∫⁻ t : ℝ, h ((t + σ v)⁻¹ • v) * p (t, v) =
      ∫⁻ s : ℝ, h (s⁻¹ • v) * p (s - σ v, v) := by
    intro v
    rw [← lintegral_sub_right_eq_self (fun t => h ((t + σ v)⁻¹ • v) * p (t, v)) (σ v)]
    simp only [sub_add_cancel]
  have m1 : Measurable fun z : E × ℝ => h (z.2⁻¹ • z.1) * p (z.2 - σ z.1, z.1) := by
    refine (hhm.comp (measurable_snd.inv.smul measurable_fst)).mul (hp.comp ?_)
    exact (measurable_snd.sub (hσ.comp measurable_fst)).prodMk measurable_fst
  have step2 : ∫⁻ v, (∫⁻ s : ℝ, h (s⁻¹ • v) * p (s - σ v, v)) ∂μ =
      ∫⁻ s : ℝ, ∫⁻ v, h (s⁻¹ • v) * p (s - σ v, v) ∂μ :=
    lintegral_lintegral_swap m1.aemeasurable
  have step3 : ∀ s : ℝ, ∫⁻ v, h (s⁻¹ • v) * p (s - σ v, v) ∂μ =
      (Ioi (0 : ℝ)).indicator (fun s => ∫⁻ x, h x * (ENNReal.ofReal (s ^ finrank ℝ E) *
        p (s * (1 - σ x), s • x)) ∂μ) s := by
    intro s
    by_cases hs : 0 < s
    · rw [indicator_of_mem (by exact hs)]
      have mF : Measurable fun v => h (s⁻¹ • v) * p (s - σ v, v) :=
        m1.comp (measurable_id.prodMk measurable_const)
      have mG : Measurable fun x => h (s⁻¹ • s • x) * p (s - σ (s • x), s • x) :=
        mF.comp (measurable_const_smul s)
      rw [lintegral_smul μ hs _ mF, ← lintegral_const_mul _ mG]
      refine lintegral_congr fun x => ?_
      have e1 : s⁻¹ • s • x = x := by rw [smul_smul, inv_mul_cancel₀ hs.ne', one_smul]
      have e2 : s - σ (s • x) = s * (1 - σ x) := by simp; ring
      rw [e1, e2]
      ring
    · rw [indicator_of_notMem (by exact hs)]
      refine (lintegral_congr fun v => ?_).trans lintegral_zero
      have : p (s - σ v, v) = 0 := by
        by_contra hne
        have := hpos _ _ hne
        simp only [sub_add_cancel] at this
        exact hs this
      rw [this, mul_zero]
  have m2 : Measurable fun z : ℝ × E => h z.2 * (ENNReal.ofReal (z.1 ^ finrank ℝ E) *
      p (z.1 * (1 - σ z.2), z.1 • z.2)) := by
    refine (hhm.comp measurable_snd).mul (((measurable_fst.pow_const _).ennreal_ofReal).mul
      (hp.comp ?_))
    exact (measurable_fst.mul (measurable_const.sub (hσ.comp measurable_snd))).prodMk
      (measurable_fst.smul measurable_snd)
  rw [L, lintegral_congr step1, step2, lintegral_congr step3, lintegral_indicator measurableSet_Ioi,
    lintegral_lintegral_swap m2.aemeasurable, withDensity_apply _ hA, ← lintegral_indicator hA]
  refine lintegral_congr fun x => ?_
  have m3 : Measurable fun s : ℝ => ENNReal.ofReal (s ^ finrank ℝ E) * p (s * (1 - σ x), s • x) := by
    refine ((measurable_id.pow_const _).ennreal_ofReal).mul (hp.comp ?_)
    exact (measurable_id.mul measurable_const).prodMk (measurable_id.smul measurable_const)
  rw [lintegral_const_mul _ m3]
  by_cases hx : x ∈ A
  · rw [hh, indicator_of_mem hx, indicator_of_mem hx]; simp
  · rw [hh, indicator_of_notMem hx, indicator_of_notMem hx]; simp

end ZhuSuan.Meas

import Mathlib.Analysis.Calculus.ParametricIntegral
import Mathlib.Analysis.Calculus.Deriv.Mul
import Mathlib.MeasureTheory.Integral.Bochner.SumMeasure
import Verif.Spec.Score
import Verif.Props.Elbo

set_option autoImplicit false

namespace ZhuSuan.Grad
open MeasureTheory Dual

variable {Z : Type*} [MeasurableSpace Z]

theorem law_integral (μ : Measure Z) (q : Z → ℝ) (hm : Measurable q) (h0 : ∀ z, 0 ≤ q z)
    (f : Z → ℝ) : ∫ z, f z ∂(law μ q) = ∫ z, q z * f z ∂μ := by
  rw [law, integral_withDensity_eq_integral_toReal_smul hm.ennreal_ofReal
    (Filter.Eventually.of_forall fun z => ENNReal.ofReal_lt_top)]
  simp [ENNReal.toReal_ofReal, h0]

/-- The expected score is zero. -/
theorem ElboFamily.score_zero {μ : Measure Z} {lp lq : ℝ → Z → ℝ} {lp' lq' : Z → ℝ} {θ : ℝ}
    (h : ElboFamily μ lp lq lp' lq' θ) :
    Integrable lq' (law μ fun z => Real.exp (lq θ z)) ∧
      ∫ z, lq' z ∂(law μ fun z => Real.exp (lq θ z)) = 0 := by
  refine ⟨by simpa using h.score.int_sF, ?_⟩
  have h1 := h.score.leibniz
  have : (fun t => ∫ _, (1 : ℝ) ∂(law μ fun z => Real.exp (lq t z))) = fun _ => 1 := by
    funext t
    have := h.prob t
    simp
  rw [this] at h1
  simpa using h1.unique (hasDerivAt_const θ (1 : ℝ))

/-- A function of one sample with mean zero is uncorrelated with any function of the others. -/
theorem integral_score_mul_rest (ν : Measure Z) [IsProbabilityMeasure ν] {K : ℕ} (s : Z → ℝ)
    (hs : ∫ z, s z ∂ν = 0) (j : Fin (K + 1)) (g : (Fin K → Z) → ℝ) :
    ∫ z : Fin (K + 1) → Z, s (z j) * g (fun i => z (j.succAbove i)) ∂(Measure.pi fun _ => ν) = 0 := by
  have h1 := measurePreserving_piFinSuccAbove (fun _ : Fin (K + 1) => ν) j
  have h2 := h1.integral_comp' (g := fun w : Z × (Fin K → Z) => s w.1 * g w.2)
  rw [integral_prod_mul (μ := ν) (ν := Measure.pi fun _ : Fin K => ν) s g, hs, zero_mul] at h2
  exact h2

theorem integrable_score_mul_rest (ν : Measure Z) [IsProbabilityMeasure ν] {K : ℕ} (s : Z → ℝ)
    (hs : Integrable s ν) (j : Fin (K + 1)) (g : (Fin K → Z) → ℝ)
    (hg : Integrable g (Measure.pi fun _ => ν)) :
    Integrable (fun z : Fin (K + 1) → Z => s (z j) * g (fun i => z (j.succAbove i)))
      (Measure.pi fun _ => ν) := by
  have h1 := measurePreserving_piFinSuccAbove (fun _ : Fin (K + 1) => ν) j
  exact h1.integrable_comp_of_integrable (hs.mul_prod hg)

/-! ### Finite spaces -/

section finite
variable [Fintype Z] [MeasurableSingletonClass Z]

theorem law_real_singleton (q : Z → ℝ) (h0 : ∀ z, 0 ≤ q z) (z : Z) :
    (law Measure.count q).real {z} = q z := by
  rw [Measure.real, law, withDensity_apply _ (measurableSet_singleton z)]
  simp [ENNReal.toReal_ofReal (h0 z)]

theorem law_finite_integral (q : Z → ℝ) (h0 : ∀ z, 0 ≤ q z) [IsFiniteMeasure (law Measure.count q)]
    (f : Z → ℝ) : ∫ z, f z ∂(law Measure.count q) = ∑ z, q z * f z := by
  rw [integral_fintype Integrable.of_finite]
  exact Finset.sum_congr rfl fun z _ => by rw [law_real_singleton q h0, smul_eq_mul]

theorem samples_finite_integral {K : ℕ} (q : Z → ℝ) (h0 : ∀ z, 0 ≤ q z)
    [IsProbabilityMeasure (law Measure.count q)] (f : (Fin K → Z) → ℝ) :
    ∫ z, f z ∂(samples Measure.count q K) = ∑ z : Fin K → Z, (∏ k, q (z k)) * f z := by
  rw [integral_fintype Integrable.of_finite]
  refine Finset.sum_congr rfl fun z _ => ?_
  rw [smul_eq_mul, Measure.real, Measure.pi_singleton, ENNReal.toReal_prod]
  congr 1
  exact Finset.prod_congr rfl fun k _ => law_real_singleton q h0 (z k)

theorem isProb_count (q : Z → ℝ) (h0 : ∀ z, 0 ≤ q z) (h1 : ∑ z, q z = 1) :
    IsProbabilityMeasure (law Measure.count q) :=
  isProb_law h0 Integrable.of_finite (by rw [integral_count, h1])

/-- On a finite space every differentiable family is regular. -/
theorem scoreRegular_finite {K : ℕ} (lq : ℝ → Z → ℝ) (lq' : Z → ℝ) (θ : ℝ)
    (dq : ∀ z, HasDerivAt (fun t => lq t z) (lq' z) θ) (h1 : ∀ t, ∑ z, Real.exp (lq t z) = 1)
    (F : ℝ → (Fin K → Z) → ℝ) (F' : (Fin K → Z) → ℝ)
    (dF : ∀ z, HasDerivAt (fun t => F t z) (F' z) θ) :
    ScoreRegular (fun t => samples Measure.count (fun z => Real.exp (lq t z)) K)
      (fun z => ∑ k, lq' (z k)) F F' θ := by
  have hp : ∀ t, IsProbabilityMeasure (law (Measure.count : Measure Z) fun z => Real.exp (lq t z)) :=
    fun t => isProb_count _ (fun z => (Real.exp_pos _).le) (h1 t)
  refine ⟨Integrable.of_finite, Integrable.of_finite, ?_⟩
  have e : ∀ (t : ℝ) (f : (Fin K → Z) → ℝ),
      ∫ z, f z ∂(samples Measure.count (fun z => Real.exp (lq t z)) K) =
        ∑ z : Fin K → Z, Real.exp (∑ k, lq t (z k)) * f z := by
    intro t f
    rw [samples_finite_integral _ fun z => (Real.exp_pos _).le]
    simp only [Real.exp_sum]
  simp only [e]
  refine HasDerivAt.fun_sum fun z _ => ?_
  have hs : HasDerivAt (fun t => ∑ k, lq t (z k)) (∑ k, lq' (z k)) θ :=
    HasDerivAt.fun_sum fun k _ => dq (z k)
  exact (hs.exp.mul (dF z)).congr_deriv (by ring)

theorem scoreRegular_finite_one (lq : ℝ → Z → ℝ) (lq' : Z → ℝ) (θ : ℝ)
    (dq : ∀ z, HasDerivAt (fun t => lq t z) (lq' z) θ) (h1 : ∀ t, ∑ z, Real.exp (lq t z) = 1)
    (F : ℝ → Z → ℝ) (F' : Z → ℝ)
    (dF : ∀ z, HasDerivAt (fun t => F t z) (F' z) θ) :
    ScoreRegular (fun t => law Measure.count (fun z => Real.exp (lq t z))) lq' F F' θ := by
  have hp : ∀ t, IsProbabilityMeasure (law (Measure.count : Measure Z) fun z => Real.exp (lq t z)) :=
    fun t => isProb_count _ (fun z => (Real.exp_pos _).le) (h1 t)
  refine ⟨Integrable.of_finite, Integrable.of_finite, ?_⟩
  have e : ∀ (t : ℝ) (f : Z → ℝ),
      ∫ z, f z ∂(law Measure.count (fun z => Real.exp (lq t z))) = ∑ z, Real.exp (lq t z) * f z :=
    fun t f => law_finite_integral _ (fun z => (Real.exp_pos _).le) f
  simp only [e]
  exact HasDerivAt.fun_sum fun z _ => ((dq z).exp.mul (dF z)).congr_deriv (by ring)

theorem elboFamily_finite (lp lq : ℝ → Z → ℝ) (lp' lq' : Z → ℝ) (θ : ℝ)
    (dp : ∀ z, HasDerivAt (fun t => lp t z) (lp' z) θ)
    (dq : ∀ z, HasDerivAt (fun t => lq t z) (lq' z) θ) (h1 : ∀ t, ∑ z, Real.exp (lq t z) = 1) :
    ElboFamily Measure.count lp lq lp' lq' θ := by
  have hp : ∀ t, IsProbabilityMeasure (law (Measure.count : Measure Z) fun z => Real.exp (lq t z)) :=
    fun t => isProb_count _ (fun z => (Real.exp_pos _).le) (h1 t)
  exact ⟨dp, dq, hp,
    scoreRegular_finite_one lq lq' θ dq h1 _ _ fun z => hasDerivAt_const θ (1 : ℝ),
    scoreRegular_finite_one lq lq' θ dq h1 _ _ fun z => (dp z).sub (dq z),
    fun t => Integrable.of_finite⟩

end finite

/-! ### A domination condition in general -/

/-- Regularity from a bound, uniform near the parameter, on the derivative of `exp (lq t z) * F t z`. -/
theorem scoreRegular_of_dominated (μ : Measure Z) (lq : ℝ → Z → ℝ) (lq' : ℝ → Z → ℝ)
    (F F' : ℝ → Z → ℝ) (θ ε : ℝ) (hε : 0 < ε) (bound : Z → ℝ) (hb : Integrable bound μ)
    (mq : ∀ t, Measurable (lq t)) (mF : ∀ t, Measurable (F t)) (ms : Measurable (lq' θ))
    (mF' : Measurable (F' θ))
    (dq : ∀ z, ∀ t ∈ Set.Ioo (θ - ε) (θ + ε), HasDerivAt (fun t => lq t z) (lq' t z) t)
    (dF : ∀ z, ∀ t ∈ Set.Ioo (θ - ε) (θ + ε), HasDerivAt (fun t => F t z) (F' t z) t)
    (hbound : ∀ z, ∀ t ∈ Set.Ioo (θ - ε) (θ + ε),
      |Real.exp (lq t z) * (lq' t z * F t z + F' t z)| ≤ bound z)
    (hint : Integrable (fun z => Real.exp (lq θ z) * F θ z) μ)
    (hF' : Integrable (fun z => Real.exp (lq θ z) * F' θ z) μ) :
    ScoreRegular (fun t => law μ fun z => Real.exp (lq t z)) (lq' θ) F (F' θ) θ := by
  have hmem : Set.Ioo (θ - ε) (θ + ε) ∈ nhds θ := Ioo_mem_nhds (by linarith) (by linarith)
  have key := hasDerivAt_integral_of_dominated_loc_of_deriv_le (μ := μ) (x₀ := θ)
    (F := fun t z => Real.exp (lq t z) * F t z)
    (F' := fun t z => Real.exp (lq t z) * (lq' t z * F t z + F' t z)) (bound := bound) hmem
    (Filter.Eventually.of_forall fun t => ((mq t).exp.mul (mF t)).aestronglyMeasurable) hint
    ((mq θ).exp.mul ((ms.mul (mF θ)).add mF')).aestronglyMeasurable
    (Filter.Eventually.of_forall fun z t ht => hbound z t ht) hb
    (Filter.Eventually.of_forall fun z t ht =>
      ((dq z t ht).exp.mul (dF z t ht)).congr_deriv (by ring))
  have hl : ∀ (t : ℝ) (f : Z → ℝ), ∫ z, f z ∂(law μ fun z => Real.exp (lq t z)) =
      ∫ z, Real.exp (lq t z) * f z ∂μ := fun t f =>
    law_integral μ _ (mq t).exp (fun z => (Real.exp_pos _).le) f
  have hi : ∀ f : Z → ℝ, Integrable f (law μ fun z => Real.exp (lq θ z)) ↔
      Integrable (fun z => Real.exp (lq θ z) * f z) μ := by
    intro f
    rw [law, integrable_withDensity_iff (mq θ).exp.ennreal_ofReal
      (Filter.Eventually.of_forall fun z => ENNReal.ofReal_lt_top)]
    simp [ENNReal.toReal_ofReal, (Real.exp_pos _).le, mul_comm]
  refine ⟨?_, (hi _).mpr hF', ?_⟩
  · rw [hi]
    refine (key.1.sub hF').congr (Filter.Eventually.of_forall fun z => ?_)
    simp only [Pi.sub_apply]; ring
  · simp only [hl]
    exact key.2

end ZhuSuan.Grad

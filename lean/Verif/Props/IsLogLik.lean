import Mathlib.Probability.StrongLaw
import Mathlib.Probability.ProductMeasure
import Mathlib.Probability.Independence.InfinitePi
import Verif.Props.Elbo

/-!
# C71: `is_loglikelihood` estimates the log likelihood

`is_loglikelihood` (`evaluation.py` 20–54) is modelled by `isLoglikelihood` in `Model/Estimators.lean`: the
log mean exp of `log p - log q` over the proposal's samples.
-/

set_option autoImplicit false

namespace ZhuSuan.Grad
open MeasureTheory ProbabilityTheory Dual

variable {Z : Type*} [MeasurableSpace Z] {μ : Measure Z} {p q : Z → ℝ} {logp logq : Z → Dual}

theorem weight_eq (h : LatentModel μ p q) (hsupp : ∀ z, q z = 0 → p z = 0) :
    ∫ z, Real.exp (Real.log (p z) - Real.log (q z)) ∂(law μ q) = evidence μ p := by
  have m : Measurable fun z => ENNReal.ofReal (Real.exp (Real.log (p z) - Real.log (q z))) :=
    ((h.p_meas.log.sub h.q_meas.log).exp).ennreal_ofReal
  rw [integral_eq_lintegral_of_nonneg_ae (Filter.Eventually.of_forall fun z => (Real.exp_pos _).le)
    h.weight_int.1, law, lintegral_withDensity_eq_lintegral_mul _ h.q_meas.ennreal_ofReal m, evidence,
    integral_eq_lintegral_of_nonneg_ae (Filter.Eventually.of_forall h.p_nonneg) h.p_int.1]
  congr 1
  refine lintegral_congr fun z => ?_
  simp only [Pi.mul_apply]
  rw [← ENNReal.ofReal_mul (h.q_nonneg z)]
  congr 1
  by_cases hq0 : q z = 0
  · rw [hq0, zero_mul, hsupp z hq0]
  · have hq := lt_of_le_of_ne (h.q_nonneg z) (Ne.symm hq0)
    have hp : 0 < p z := lt_of_le_of_ne (h.p_nonneg z) fun e => hq0 (h.supp z e.symm)
    rw [Real.exp_sub, Real.exp_log hp, Real.exp_log hq]
    field_simp

theorem exp_isLoglikelihood {K : ℕ} (a b : Fin (K + 1) → Dual) :
    Real.exp (isLoglikelihood a b) = (∑ k, Real.exp ((a k).val - (b k).val)) / (K + 1 : ℕ) := by
  rw [isLoglikelihood, iwObjective_val, LME, Real.exp_log]
  have := sum_exp_pos' (fun k => (a k).val - (b k).val)
  positivity

/-- **C71.** Whatever the number of samples, the exponential of the estimate is an unbiased estimate of the
likelihood, if the proposal covers the model's latent values. -/
theorem C71_unbiased_likelihood (h : LatentModel μ p q) (hsupp : ∀ z, q z = 0 → p z = 0)
    (hp : ∀ z, (logp z).val = Real.log (p z)) (hq : ∀ z, (logq z).val = Real.log (q z)) (K : ℕ) :
    ∫ z, Real.exp (isLoglikelihood (fun k => logp (z k)) (fun k => logq (z k)))
      ∂(samples μ q (K + 1)) = evidence μ p := by
  have := h.isProb
  simp only [exp_isLoglikelihood, hp, hq]
  rw [integral_div, integral_finsetSum]
  · have e : ∀ k : Fin (K + 1), ∫ z, Real.exp (Real.log (p (z k)) - Real.log (q (z k)))
        ∂(samples μ q (K + 1)) = evidence μ p := fun k => by
      rw [← weight_eq h hsupp]
      exact integral_comp_eval (μ := fun _ : Fin (K + 1) => law μ q) (i := k) h.weight_int.1
    simp only [e]
    simp
    field_simp
  · exact fun k _ => integrable_comp_eval (μ := fun _ : Fin (K + 1) => law μ q) (i := k) h.weight_int

theorem exp_isLoglikelihood_integrable (h : LatentModel μ p q)
    (hp : ∀ z, (logp z).val = Real.log (p z)) (hq : ∀ z, (logq z).val = Real.log (q z)) (K : ℕ) :
    Integrable (fun z => Real.exp (isLoglikelihood (fun k => logp (z k)) (fun k => logq (z k))))
      (samples μ q (K + 1)) := by
  have := h.isProb
  simp only [exp_isLoglikelihood, hp, hq]
  exact (integrable_finsetSum _ fun k _ =>
    integrable_comp_eval (μ := fun _ : Fin (K + 1) => law μ q) (i := k) h.weight_int).div_const _

/-- **C71.** The estimate is a stochastic lower bound, with any proposal: it exceeds the log likelihood by `b`
with probability at most `exp (-b)`. -/
theorem C71_stochastic_lower_bound (h : LatentModel μ p q)
    (hp : ∀ z, (logp z).val = Real.log (p z)) (hq : ∀ z, (logq z).val = Real.log (q z)) (K : ℕ) (b : ℝ) :
    (samples μ q (K + 1)).real {z | Real.log (evidence μ p) + b ≤
      isLoglikelihood (fun k => logp (z k)) (fun k => logq (z k))} ≤ Real.exp (-b) := by
  have := h.isProb
  have hE := h.evidence_pos
  have hint := exp_isLoglikelihood_integrable h hp hq K
  have hset : {z : Fin (K + 1) → Z | Real.log (evidence μ p) + b ≤
      isLoglikelihood (fun k => logp (z k)) (fun k => logq (z k))} =
      {z | evidence μ p * Real.exp b ≤
        Real.exp (isLoglikelihood (fun k => logp (z k)) (fun k => logq (z k)))} := by
    ext z
    simp only [Set.mem_setOf_eq]
    rw [← Real.exp_le_exp, Real.exp_add, Real.exp_log hE]
  have hm := mul_meas_ge_le_integral_of_nonneg
    (Filter.Eventually.of_forall fun z : Fin (K + 1) → Z => (Real.exp_pos
      (isLoglikelihood (fun k => logp (z k)) (fun k => logq (z k)))).le) hint
    (evidence μ p * Real.exp b)
  have hle : ∫ z, Real.exp (isLoglikelihood (fun k => logp (z k)) (fun k => logq (z k)))
      ∂(samples μ q (K + 1)) ≤ evidence μ p := by
    simp only [exp_isLoglikelihood, hp, hq]
    rw [integral_div, integral_finsetSum]
    · have e : ∀ k : Fin (K + 1), ∫ z, Real.exp (Real.log (p (z k)) - Real.log (q (z k)))
          ∂(samples μ q (K + 1)) = ∫ z, Real.exp (Real.log (p z) - Real.log (q z)) ∂(law μ q) :=
        fun k => integral_comp_eval (μ := fun _ : Fin (K + 1) => law μ q) (i := k) h.weight_int.1
      simp only [e]
      simp only [Finset.sum_const, Finset.card_univ, Fintype.card_fin, nsmul_eq_mul]
      rw [mul_div_cancel_left₀ _ (by positivity)]
      exact h.integral_weight
    · exact fun k _ =>
        integrable_comp_eval (μ := fun _ : Fin (K + 1) => law μ q) (i := k) h.weight_int
  rw [hset]
  have hpos : 0 < evidence μ p * Real.exp b := by positivity
  rw [Real.exp_neg]
  have h3 := hm.trans hle
  rw [← le_div_iff₀' hpos] at h3
  refine h3.trans (le_of_eq ?_)
  field_simp

/-- The strong law for a function of independent samples of `q`. -/
theorem slln {Ω : Type*} [MeasurableSpace Ω] {P : Measure Ω} (X : ℕ → Ω → Z)
    (hX : ∀ i, Measurable (X i)) (hind : Pairwise fun i j => IndepFun (X i) (X j) P)
    (hlaw : ∀ i, P.map (X i) = law μ q) (f : Z → ℝ) (fm : Measurable f) (fi : Integrable f (law μ q)) :
    ∀ᵐ ω ∂P, Filter.Tendsto (fun n : ℕ => (∑ i ∈ Finset.range n, f (X i ω)) / n) Filter.atTop
      (nhds (∫ z, f z ∂(law μ q))) := by
  have e : ∫ z, f z ∂(law μ q) = P[fun ω => f (X 0 ω)] := by
    rw [← hlaw 0, integral_map (hX 0).aemeasurable fm.aestronglyMeasurable]
  rw [e]
  refine strong_law_ae_real (fun i ω => f (X i ω)) ?_ ?_ ?_
  · have := hlaw 0 ▸ fi
    exact this.comp_measurable (hX 0)
  · intro i j hij
    exact (hind hij).comp fm fm
  · intro i
    refine (IdentDistrib.comp ⟨(hX i).aemeasurable, (hX 0).aemeasurable, ?_⟩ fm)
    rw [hlaw i, hlaw 0]

/-- **C71.** As the number of samples grows, the estimate converges almost surely to the log likelihood. -/
theorem C71_consistent {Ω : Type*} [MeasurableSpace Ω] {P : Measure Ω}
    (h : LatentModel μ p q) (hsupp : ∀ z, q z = 0 → p z = 0)
    (hp : ∀ z, (logp z).val = Real.log (p z)) (hq : ∀ z, (logq z).val = Real.log (q z))
    (X : ℕ → Ω → Z) (hX : ∀ i, Measurable (X i)) (hind : Pairwise fun i j => IndepFun (X i) (X j) P)
    (hlaw : ∀ i, P.map (X i) = law μ q) :
    ∀ᵐ ω ∂P, Filter.Tendsto (fun K : ℕ => isLoglikelihood (fun k : Fin (K + 1) => logp (X k ω))
        (fun k => logq (X k ω))) Filter.atTop (nhds (Real.log (evidence μ p))) := by
  have hs := slln (μ := μ) (q := q) X hX hind hlaw
    (fun z => Real.exp (Real.log (p z) - Real.log (q z)))
    ((h.p_meas.log.sub h.q_meas.log).exp) h.weight_int
  rw [weight_eq h hsupp] at hs
  filter_upwards [hs] with ω hω
  have h1 := (Filter.tendsto_add_atTop_iff_nat 1).2 hω
  have h2 := (Real.continuousAt_log h.evidence_pos.ne').tendsto.comp h1
  refine h2.congr fun K => ?_
  simp only [Function.comp, isLoglikelihood, iwObjective_val, LME, hp, hq]
  rw [Finset.sum_range (fun i => Real.exp (Real.log (p (X i ω)) - Real.log (q (X i ω))))]

/-- Independent samples exist: the coordinates of the infinite product. -/
example (h : LatentModel μ p q) : ∃ (P : Measure (ℕ → Z)) (X : ℕ → (ℕ → Z) → Z),
    (∀ i, Measurable (X i)) ∧ (Pairwise fun i j => IndepFun (X i) (X j) P) ∧
    ∀ i, P.map (X i) = law μ q := by
  have := h.isProb
  refine ⟨Measure.infinitePi (fun _ => law μ q), fun i x => x i, fun i => measurable_pi_apply i, ?_, ?_⟩
  · have hi : iIndepFun (fun i (x : ℕ → Z) => x i) (Measure.infinitePi (fun _ : ℕ => law μ q)) := by
      exact iIndepFun_infinitePi (fun i => measurable_id)
    intro i j hij
    exact hi.indepFun hij
  · intro i
    exact (measurePreserving_eval_infinitePi (fun _ : ℕ => law μ q) i).map_eq

/-- A concrete case meets the hypotheses: two latent values, joint `(3/8, 1/8)`, proposal `(2/3, 1/3)`. -/
example : ∃ (p q : Bool → ℝ) (logp logq : Bool → Dual), LatentModel (Measure.count : Measure Bool) p q ∧
    (∀ z, q z = 0 → p z = 0) ∧ (∀ z, (logp z).val = Real.log (p z)) ∧
    (∀ z, (logq z).val = Real.log (q z)) ∧ p true ≠ q true := by
  refine ⟨fun z => if z then 1 / 8 else 3 / 8, fun z => if z then 1 / 3 else 2 / 3,
    fun z => ⟨Real.log (if z then 1 / 8 else 3 / 8), 0⟩, fun z => ⟨Real.log (if z then 1 / 3 else 2 / 3), 0⟩,
    (finite_model (Z := Bool) _ _ (fun z => by cases z <;> norm_num) (fun z => by cases z <;> norm_num)
      (by simp; norm_num)).1, fun z => by cases z <;> norm_num, fun z => rfl, fun z => rfl, by norm_num⟩

end ZhuSuan.Grad

import Mathlib.Probability.Distributions.Gaussian.Real
import Verif.Lemmas.Score

/-!
# C41, C42, C44, C45: the surrogate costs

The parameter is one real number `t`, a coordinate of any parameter vector.  The gradient that TensorFlow
computes from a cost is its `Dual` derivative at `θ`.
-/

set_option autoImplicit false

namespace ZhuSuan.Grad
open MeasureTheory Dual

variable {Z E : Type*} [MeasurableSpace Z] [MeasurableSpace E]

/-! ### C41 -/

theorem elboSgvb_der {K : ℕ} (a b : Fin K → Dual) :
    (elboSgvb a b).der = -((∑ k, ((a k).der - (b k).der)) / K) := by
  simp only [elboSgvb, elboObjective, der_neg, reduceMean_der, entropyTerm, der_add, sub_eq_add_neg]

theorem iwObjective_der {K : ℕ} (a b : Fin (K + 1) → Dual) :
    (iwObjective a b).der =
      ∑ i, Real.exp ((a i).val - (b i).val) / (∑ j, Real.exp ((a j).val - (b j).val)) *
        ((a i).der - (b i).der) := by
  simp only [iwObjective, logMeanExp_der, entropyTerm, val_add, val_neg, der_add, der_neg,
    sub_eq_add_neg]

/-- C41.  On given noise the gradient of the `sgvb` cost of the elbo is minus that of the objective, as a
function of the parameter through the reparameterised samples. -/
theorem C41_elbo_pathwise {K : ℕ} (lp lq : ℝ → Fin K → ℝ) (lp' lq' : Fin K → ℝ) (θ : ℝ)
    (hp : ∀ k, HasDerivAt (fun t => lp t k) (lp' k) θ)
    (hq : ∀ k, HasDerivAt (fun t => lq t k) (lq' k) θ) :
    HasDerivAt (fun t => -(elboObjective (fun k => const (lp t k)) (fun k => const (lq t k))).val)
      (elboSgvb (fun k => ⟨lp θ k, lp' k⟩) (fun k => ⟨lq θ k, lq' k⟩)).der θ := by
  rw [elboSgvb_der]
  simp only [elboObjective_val, val_const]
  exact ((HasDerivAt.fun_sum fun k _ => (hp k).sub (hq k)).div_const _).neg

/-- C41, the same for the importance weighted objective. -/
theorem C41_iw_pathwise {K : ℕ} (lp lq : ℝ → Fin (K + 1) → ℝ) (lp' lq' : Fin (K + 1) → ℝ) (θ : ℝ)
    (hp : ∀ k, HasDerivAt (fun t => lp t k) (lp' k) θ)
    (hq : ∀ k, HasDerivAt (fun t => lq t k) (lq' k) θ) :
    HasDerivAt (fun t => -(iwObjective (fun k => const (lp t k)) (fun k => const (lq t k))).val)
      (iwSgvb (fun k => ⟨lp θ k, lp' k⟩) (fun k => ⟨lq θ k, lq' k⟩)).der θ := by
  simp only [iwSgvb, der_neg, iwObjective_der, iwObjective_val, val_const]
  exact (hasDerivAt_LME (fun t k => lp t k - lq t k) (fun k => lp' k - lq' k) θ
    fun k => (hp k).sub (hq k)).neg

/-- Samples `T t e` of noise `e` with law `ν`, and log densities differentiable along them, near `θ`, with
an integrable bound on the derivative of their difference. -/
structure Reparam (ν : Measure E) (T : ℝ → E → Z) (lp lq : ℝ → Z → ℝ) (lp' lq' : ℝ → E → ℝ)
    (bound : E → ℝ) (θ ε : ℝ) : Prop where
  pos : 0 < ε
  dp : ∀ e, ∀ t ∈ Set.Ioo (θ - ε) (θ + ε), HasDerivAt (fun t => lp t (T t e)) (lp' t e) t
  dq : ∀ e, ∀ t ∈ Set.Ioo (θ - ε) (θ + ε), HasDerivAt (fun t => lq t (T t e)) (lq' t e) t
  meas : ∀ t, Measurable fun e => lp t (T t e) - lq t (T t e)
  meas' : Measurable fun e => lp' θ e - lq' θ e
  int : Integrable (fun e => lp θ (T θ e) - lq θ (T θ e)) ν
  bound_le : ∀ e, ∀ t ∈ Set.Ioo (θ - ε) (θ + ε), |lp' t e - lq' t e| ≤ bound e
  bound_int : Integrable bound ν

section
variable {ν : Measure E} [IsProbabilityMeasure ν] {T : ℝ → E → Z} {lp lq : ℝ → Z → ℝ}
  {lp' lq' : ℝ → E → ℝ} {bound : E → ℝ} {θ ε : ℝ}

theorem integrable_LME {K : ℕ} (f : E → ℝ) (hm : Measurable f) (hi : Integrable f ν) :
    Integrable (fun e : Fin (K + 1) → E => LME (fun k => f (e k))) (Measure.pi fun _ => ν) := by
  have hsum : Integrable (fun e : Fin (K + 1) → E => ∑ k, |f (e k)|) (Measure.pi fun _ => ν) :=
    integrable_finsetSum _ fun k _ =>
      integrable_comp_eval (μ := fun _ : Fin (K + 1) => ν) (i := k) hi.abs
  refine hsum.mono' ?_ (Filter.Eventually.of_forall fun e => ?_)
  · unfold LME
    exact (Measurable.log (Measurable.div_const (Finset.measurable_sum _ fun k _ =>
      (hm.comp (measurable_pi_apply k)).exp) _)).aestronglyMeasurable
  · set M := ∑ k, |f (e k)|
    have hk : ∀ k, |f (e k)| ≤ M := fun k =>
      Finset.single_le_sum (f := fun k => |f (e k)|) (fun i _ => abs_nonneg _) (Finset.mem_univ k)
    have hc : (0 : ℝ) < ((K + 1 : ℕ) : ℝ) := by positivity
    have hup : (∑ k, Real.exp (f (e k))) / ((K + 1 : ℕ) : ℝ) ≤ Real.exp M := by
      rw [div_le_iff₀ hc]
      calc ∑ k, Real.exp (f (e k)) ≤ ∑ _k : Fin (K + 1), Real.exp M :=
            Finset.sum_le_sum fun k _ => Real.exp_le_exp.mpr ((le_abs_self _).trans (hk k))
        _ = _ := by simp [mul_comm]
    have hlow : Real.exp (-M) ≤ (∑ k, Real.exp (f (e k))) / ((K + 1 : ℕ) : ℝ) := by
      rw [le_div_iff₀ hc]
      calc _ = ∑ _k : Fin (K + 1), Real.exp (-M) := by simp [mul_comm]
        _ ≤ _ := Finset.sum_le_sum fun k _ => Real.exp_le_exp.mpr
            ((neg_le_neg (hk k)).trans (neg_abs_le _))
    rw [Real.norm_eq_abs, abs_le, LME]
    constructor
    · rw [Real.le_log_iff_exp_le ((Real.exp_pos _).trans_le hlow)]; exact hlow
    · rw [Real.log_le_iff_le_exp ((Real.exp_pos _).trans_le hlow)]; exact hup

theorem softmax_abs_le {K : ℕ} (x d b : Fin (K + 1) → ℝ) (h : ∀ i, |d i| ≤ b i) :
    |∑ i, Real.exp (x i) / (∑ j, Real.exp (x j)) * d i| ≤ ∑ i, b i := by
  have hs := sum_exp_pos' x
  refine (Finset.abs_sum_le_sum_abs _ _).trans (Finset.sum_le_sum fun i _ => ?_)
  rw [abs_mul, abs_of_nonneg (by positivity)]
  have h1 : Real.exp (x i) / (∑ j, Real.exp (x j)) ≤ 1 := by
    rw [div_le_one hs]
    exact Finset.single_le_sum (f := fun j => Real.exp (x j)) (fun j _ => (Real.exp_pos _).le)
      (Finset.mem_univ i)
  calc _ ≤ 1 * |d i| := mul_le_mul_of_nonneg_right h1 (abs_nonneg _)
    _ ≤ b i := by rw [one_mul]; exact h i

/-- C41.  The expected gradient of the `sgvb` cost of the elbo is the gradient of minus the expected
objective, for any number of samples. -/
theorem C41_elbo_unbiased (h : Reparam ν T lp lq lp' lq' bound θ ε) (K : ℕ) :
    HasDerivAt (fun t => -∫ e : Fin (K + 1) → E, (elboObjective
        (fun k => const (lp t (T t (e k)))) (fun k => const (lq t (T t (e k))))).val
        ∂(Measure.pi fun _ => ν))
      (∫ e : Fin (K + 1) → E, (elboSgvb (fun k => ⟨lp θ (T θ (e k)), lp' θ (e k)⟩)
        (fun k => ⟨lq θ (T θ (e k)), lq' θ (e k)⟩)).der ∂(Measure.pi fun _ => ν)) θ := by
  have hmem : Set.Ioo (θ - ε) (θ + ε) ∈ nhds θ :=
    Ioo_mem_nhds (by linarith [h.pos]) (by linarith [h.pos])
  simp only [elboObjective_val, val_const, elboSgvb_der]
  rw [integral_neg]
  have key := hasDerivAt_integral_of_dominated_loc_of_deriv_le
    (μ := Measure.pi fun _ : Fin (K + 1) => ν) (x₀ := θ)
    (F := fun t e => (∑ k, (lp t (T t (e k)) - lq t (T t (e k)))) / ((K + 1 : ℕ) : ℝ))
    (F' := fun t e => (∑ k, (lp' t (e k) - lq' t (e k))) / ((K + 1 : ℕ) : ℝ))
    (bound := fun e => (∑ k, bound (e k)) / ((K + 1 : ℕ) : ℝ)) hmem
    (Filter.Eventually.of_forall fun t => (Measurable.div_const (Finset.measurable_sum _ fun k _ =>
      (h.meas t).comp (measurable_pi_apply k)) _).aestronglyMeasurable)
    ((integrable_finsetSum _ fun k _ =>
      integrable_comp_eval (μ := fun _ : Fin (K + 1) => ν) (i := k) h.int).div_const _)
    (Measurable.div_const (Finset.measurable_sum _ fun k _ =>
      h.meas'.comp (measurable_pi_apply k)) _).aestronglyMeasurable
    (Filter.Eventually.of_forall fun e t ht => by
      rw [Real.norm_eq_abs, abs_div, abs_of_pos (by positivity : (0 : ℝ) < ((K + 1 : ℕ) : ℝ))]
      exact div_le_div_of_nonneg_right ((Finset.abs_sum_le_sum_abs _ _).trans
        (Finset.sum_le_sum fun k _ => h.bound_le (e k) t ht)) (by positivity))
    ((integrable_finsetSum _ fun k _ =>
      integrable_comp_eval (μ := fun _ : Fin (K + 1) => ν) (i := k) h.bound_int).div_const _)
    (Filter.Eventually.of_forall fun e t ht =>
      (HasDerivAt.fun_sum fun k _ => (h.dp (e k) t ht).sub (h.dq (e k) t ht)).div_const _)
  exact key.2.neg

/-- C41, the same for the importance weighted objective. -/
theorem C41_iw_unbiased (h : Reparam ν T lp lq lp' lq' bound θ ε) (K : ℕ) :
    HasDerivAt (fun t => -∫ e : Fin (K + 1) → E, (iwObjective
        (fun k => const (lp t (T t (e k)))) (fun k => const (lq t (T t (e k))))).val
        ∂(Measure.pi fun _ => ν))
      (∫ e : Fin (K + 1) → E, (iwSgvb (fun k => ⟨lp θ (T θ (e k)), lp' θ (e k)⟩)
        (fun k => ⟨lq θ (T θ (e k)), lq' θ (e k)⟩)).der ∂(Measure.pi fun _ => ν)) θ := by
  have hmem : Set.Ioo (θ - ε) (θ + ε) ∈ nhds θ :=
    Ioo_mem_nhds (by linarith [h.pos]) (by linarith [h.pos])
  simp only [iwObjective_val, val_const, iwSgvb, der_neg, iwObjective_der]
  rw [integral_neg]
  have mx : ∀ (k : Fin (K + 1)), Measurable fun e : Fin (K + 1) → E =>
      Real.exp (lp θ (T θ (e k)) - lq θ (T θ (e k))) := fun k =>
    ((h.meas θ).comp (measurable_pi_apply k)).exp
  have h1 : ∀ t, AEStronglyMeasurable (fun e : Fin (K + 1) → E =>
      LME (fun k => lp t (T t (e k)) - lq t (T t (e k)))) (Measure.pi fun _ => ν) := by
    intro t
    unfold LME
    exact (Measurable.log (Measurable.div_const (Finset.measurable_sum _ fun k _ =>
      ((h.meas t).comp (measurable_pi_apply k)).exp) _)).aestronglyMeasurable
  have h2 : Measurable fun e : Fin (K + 1) → E =>
      ∑ i, Real.exp (lp θ (T θ (e i)) - lq θ (T θ (e i))) /
      (∑ j, Real.exp (lp θ (T θ (e j)) - lq θ (T θ (e j)))) * (lp' θ (e i) - lq' θ (e i)) := by
    refine Finset.measurable_sum _ fun i _ => ?_
    exact ((mx i).div (Finset.measurable_sum _ fun j _ => mx j)).mul
      (h.meas'.comp (measurable_pi_apply i))
  have h3 : Integrable (fun e : Fin (K + 1) → E => ∑ k, bound (e k)) (Measure.pi fun _ => ν) :=
    integrable_finsetSum _ fun k _ =>
      integrable_comp_eval (μ := fun _ : Fin (K + 1) => ν) (i := k) h.bound_int
  have h4 : ∀ (e : Fin (K + 1) → E), ∀ t ∈ Set.Ioo (θ - ε) (θ + ε),
      HasDerivAt (fun t => LME (fun k => lp t (T t (e k)) - lq t (T t (e k))))
      (∑ i, Real.exp (lp t (T t (e i)) - lq t (T t (e i))) /
      (∑ j, Real.exp (lp t (T t (e j)) - lq t (T t (e j)))) * (lp' t (e i) - lq' t (e i))) t :=
    fun e t ht => hasDerivAt_LME (fun t k => lp t (T t (e k)) - lq t (T t (e k)))
      (fun k => lp' t (e k) - lq' t (e k)) t fun k => (h.dp (e k) t ht).sub (h.dq (e k) t ht)
  have h5 : ∀ (e : Fin (K + 1) → E), ∀ t ∈ Set.Ioo (θ - ε) (θ + ε),
      ‖∑ i, Real.exp (lp t (T t (e i)) - lq t (T t (e i))) /
      (∑ j, Real.exp (lp t (T t (e j)) - lq t (T t (e j)))) * (lp' t (e i) - lq' t (e i))‖ ≤
      ∑ k, bound (e k) := by
    intro e t ht
    rw [Real.norm_eq_abs]
    exact softmax_abs_le (fun k => lp t (T t (e k)) - lq t (T t (e k)))
      (fun k => lp' t (e k) - lq' t (e k)) (fun k => bound (e k)) fun i => h.bound_le (e i) t ht
  have h6 : Integrable (fun e : Fin (K + 1) → E =>
      LME (fun k => lp θ (T θ (e k)) - lq θ (T θ (e k)))) (Measure.pi fun _ => ν) :=
    integrable_LME (fun e => lp θ (T θ e) - lq θ (T θ e)) (h.meas θ) h.int
  have key := hasDerivAt_integral_of_dominated_loc_of_deriv_le
    (μ := Measure.pi fun _ : Fin (K + 1) => ν) (x₀ := θ)
    (F := fun t e => LME (fun k => lp t (T t (e k)) - lq t (T t (e k))))
    (F' := fun t e => ∑ i, Real.exp (lp t (T t (e i)) - lq t (T t (e i))) /
      (∑ j, Real.exp (lp t (T t (e j)) - lq t (T t (e j)))) * (lp' t (e i) - lq' t (e i)))
    (bound := fun e => ∑ k, bound (e k)) hmem
    (Filter.Eventually.of_forall h1) h6 h2.aestronglyMeasurable
    (Filter.Eventually.of_forall h5) h3 (Filter.Eventually.of_forall h4)
  exact key.2.neg

end

/-- A concrete case: standard normal noise, sample `θ + e`, log joint `-z²/2`, log posterior
`-(z - θ)²/2`. -/
example (θ : ℝ) : Reparam (ProbabilityTheory.gaussianReal 0 1) (fun t e => t + e)
    (fun _ z => -(z ^ 2) / 2) (fun t z => -((z - t) ^ 2) / 2) (fun t e => -(t + e)) (fun _ _ => 0)
    (fun e => |θ| + 1 + |e|) θ 1 := by
  have i1 : Integrable (fun e : ℝ => e) (ProbabilityTheory.gaussianReal 0 1) :=
    (ProbabilityTheory.memLp_id_gaussianReal 1).integrable le_rfl
  have i2 : Integrable (fun e : ℝ => e ^ 2) (ProbabilityTheory.gaussianReal 0 1) :=
    (ProbabilityTheory.memLp_id_gaussianReal 2).integrable_sq
  refine ⟨one_pos, fun e t _ => ?_, fun e t _ => ?_, fun t => by fun_prop, by fun_prop, ?_, ?_, ?_⟩
  · have := ((((hasDerivAt_id t).add_const e).pow 2).neg).div_const 2
    exact this.congr_deriv (by simp; ring)
  · simpa using hasDerivAt_const t (-(e ^ 2) / 2)
  · refine (((integrable_const (-(θ ^ 2) / 2)).add (i1.const_mul (-θ)))).congr
      (Filter.Eventually.of_forall fun e => ?_)
    simp; ring
  · intro e t ht
    rw [sub_zero, abs_neg]
    have h1 := abs_add_le t e
    have h2 : |t| ≤ |θ| + 1 := by
      have h3 : |t - θ| ≤ 1 := by rw [abs_le]; constructor <;> linarith [ht.1, ht.2]
      have h4 := abs_add_le θ (t - θ)
      simp at h4; linarith
    linarith
  · exact (integrable_const _).add i1.abs

end ZhuSuan.Grad

import Mathlib.Analysis.Convex.SpecificFunctions.Basic
import Mathlib.Analysis.Convex.Jensen
import Mathlib.MeasureTheory.Constructions.Pi
import Verif.Lemmas.Elbo

/-!
# C39 and C40: what the elbo and the importance weighted objective bound

`logp z` and `logq z` are what `log_joint` and the variational net return for a latent value `z`, as
`Dual`s whose values are the logarithms of the densities of a `LatentModel`.  The `K` samples along the
sample axis are independent with law `q`.
-/

set_option autoImplicit false

namespace ZhuSuan.Grad
open MeasureTheory InformationTheory Dual

variable {Z : Type*} [MeasurableSpace Z] {μ : Measure Z} {p q : Z → ℝ} {logp logq : Z → Dual}

/-- The `K` independent samples along the sample axis. -/
noncomputable abbrev samples (μ : Measure Z) (q : Z → ℝ) (K : ℕ) : Measure (Fin K → Z) :=
  Measure.pi (fun _ => law μ q)

theorem elboObjective_val {K : ℕ} (a b : Fin K → Dual) :
    (elboObjective a b).val = (∑ k, ((a k).val - (b k).val)) / K := by
  simp only [elboObjective, reduceMean_val, entropyTerm, val_add, val_neg, sub_eq_add_neg]

theorem iwObjective_val {K : ℕ} (a b : Fin (K + 1) → Dual) :
    (iwObjective a b).val = LME (fun k => (a k).val - (b k).val) := by
  simp only [iwObjective, logMeanExp_val, entropyTerm, val_add, val_neg, sub_eq_add_neg, LME]

/-- C39.  The expectation of the elbo objective over any number of samples is the log evidence minus the
Kullback–Leibler divergence from the posterior. -/
theorem C39_elbo_gap (h : LatentModel μ p q) (hp : ∀ z, (logp z).val = Real.log (p z))
    (hq : ∀ z, (logq z).val = Real.log (q z))
    (hi : Integrable (fun z => Real.log (p z) - Real.log (q z)) (law μ q)) (K : ℕ) :
    klDiv (law μ q) (posterior μ p) ≠ ⊤ ∧
    ∫ z, (elboObjective (fun k => logp (z k)) (fun k => logq (z k))).val ∂(samples μ q (K + 1)) =
      Real.log (evidence μ p) - (klDiv (law μ q) (posterior μ p)).toReal := by
  have := h.isProb
  have := h.isProb_posterior
  have hllr : Integrable (llr (law μ q) (posterior μ p)) (law μ q) :=
    ((integrable_const _).sub hi).congr h.llr_eq.symm
  refine ⟨klDiv_ne_top h.ac hllr, ?_⟩
  rw [toReal_klDiv_of_measure_eq h.ac (by simp), integral_congr_ae h.llr_eq,
    integral_sub (integrable_const _) hi]
  simp only [elboObjective_val, hp, hq]
  rw [integral_div, integral_finsetSum]
  · have e : ∀ k : Fin (K + 1), ∫ z, (Real.log (p (z k)) - Real.log (q (z k))) ∂(samples μ q (K + 1)) =
        ∫ z, (Real.log (p z) - Real.log (q z)) ∂(law μ q) := fun k =>
      integral_comp_eval (μ := fun _ : Fin (K + 1) => law μ q) (i := k) hi.1
    simp only [e]
    simp
    field_simp
  · exact fun k _ => integrable_comp_eval (μ := fun _ : Fin (K + 1) => law μ q) (i := k) hi

/-- C39.  The expected elbo is at most the log evidence. -/
theorem C39_elbo_le (h : LatentModel μ p q) (hp : ∀ z, (logp z).val = Real.log (p z))
    (hq : ∀ z, (logq z).val = Real.log (q z))
    (hi : Integrable (fun z => Real.log (p z) - Real.log (q z)) (law μ q)) (K : ℕ) :
    ∫ z, (elboObjective (fun k => logp (z k)) (fun k => logq (z k))).val ∂(samples μ q (K + 1)) ≤
      Real.log (evidence μ p) := by
  rw [(C39_elbo_gap h hp hq hi K).2]
  have := ENNReal.toReal_nonneg (a := klDiv (law μ q) (posterior μ p))
  linarith

/-- C39.  The bound is attained exactly when `q` is the posterior. -/
theorem C39_elbo_eq_iff (h : LatentModel μ p q) (hp : ∀ z, (logp z).val = Real.log (p z))
    (hq : ∀ z, (logq z).val = Real.log (q z))
    (hi : Integrable (fun z => Real.log (p z) - Real.log (q z)) (law μ q)) (K : ℕ) :
    ∫ z, (elboObjective (fun k => logp (z k)) (fun k => logq (z k))).val ∂(samples μ q (K + 1)) =
      Real.log (evidence μ p) ↔ law μ q = posterior μ p := by
  have := h.isProb
  have := h.isProb_posterior
  obtain ⟨ht, he⟩ := C39_elbo_gap h hp hq hi K
  rw [he, ← klDiv_eq_zero_iff]
  constructor
  · intro e
    have : (klDiv (law μ q) (posterior μ p)).toReal = 0 := by linarith
    exact ((ENNReal.toReal_eq_zero_iff _).mp this).resolve_right ht
  · intro e; simp [e]

/-! ### C40 -/

theorem log_mean_ge {K : ℕ} (x : Fin (K + 1) → ℝ) (hx : ∀ i, 0 < x i) :
    (∑ i, Real.log (x i)) / (K + 1 : ℕ) ≤ Real.log ((∑ i, x i) / (K + 1 : ℕ)) := by
  have hk : ((K + 1 : ℕ) : ℝ) ≠ 0 := by positivity
  have := strictConcaveOn_log_Ioi.concaveOn.le_map_sum (t := Finset.univ)
    (w := fun _ : Fin (K + 1) => 1 / ((K + 1 : ℕ) : ℝ)) (p := x)
    (fun _ _ => by positivity) (by simp; field_simp) (fun i _ => hx i)
  simp only [smul_eq_mul, ← Finset.mul_sum] at this
  rw [one_div, ← div_eq_inv_mul, ← div_eq_inv_mul] at this
  exact this

/-- C40.  On the same samples the importance weighted objective is at least the elbo. -/
theorem C40_above_elbo {K : ℕ} (a b : Fin (K + 1) → Dual) :
    (elboObjective a b).val ≤ (iwObjective a b).val := by
  rw [elboObjective_val, iwObjective_val, LME]
  have := log_mean_ge (fun k => Real.exp ((a k).val - (b k).val)) (fun _ => Real.exp_pos _)
  simpa using this

/-- The average of the objective on the sets with one sample left out. -/
theorem LME_leave_one_out {K : ℕ} (x : Fin (K + 2) → ℝ) :
    (∑ j : Fin (K + 2), LME (fun i => x (j.succAbove i))) / (K + 2 : ℕ) ≤ LME x := by
  unfold LME
  have hsum : ∀ j : Fin (K + 2), ∑ i : Fin (K + 1), Real.exp (x (j.succAbove i)) =
      ∑ i, Real.exp (x i) - Real.exp (x j) := by
    intro j; rw [Fin.sum_univ_succAbove (fun i => Real.exp (x i)) j]; ring
  refine (log_mean_ge (K := K + 1)
    (fun j => (∑ i : Fin (K + 1), Real.exp (x (j.succAbove i))) / (K + 1 : ℕ))
    (fun j => by have := sum_exp_pos' (fun i => x (j.succAbove i)); positivity)).trans ?_
  apply le_of_eq
  congr 2
  rw [← Finset.sum_div]
  simp only [hsum, Finset.sum_sub_distrib]
  simp
  field_simp
  ring

theorem LatentModel.lintegral_weight (h : LatentModel μ p q) :
    ∫⁻ z, ENNReal.ofReal (Real.exp (Real.log (p z) - Real.log (q z))) ∂(law μ q) ≤
      ENNReal.ofReal (evidence μ p) := by
  have m : Measurable fun z => ENNReal.ofReal (Real.exp (Real.log (p z) - Real.log (q z))) :=
    ((h.p_meas.log.sub h.q_meas.log).exp).ennreal_ofReal
  rw [law, lintegral_withDensity_eq_lintegral_mul _ h.q_meas.ennreal_ofReal m, evidence,
    ofReal_integral_eq_lintegral_ofReal h.p_int (Filter.Eventually.of_forall h.p_nonneg)]
  refine lintegral_mono fun z => ?_
  simp only [Pi.mul_apply]
  rw [← ENNReal.ofReal_mul (h.q_nonneg z)]
  apply ENNReal.ofReal_le_ofReal
  by_cases hq0 : q z = 0
  · rw [hq0, zero_mul]; exact h.p_nonneg z
  · have hq := lt_of_le_of_ne (h.q_nonneg z) (Ne.symm hq0)
    have hp : 0 < p z := lt_of_le_of_ne (h.p_nonneg z) fun e => hq0 (h.supp z e.symm)
    rw [Real.exp_sub, Real.exp_log hp, Real.exp_log hq]
    exact le_of_eq (by field_simp)

theorem LatentModel.weight_int (h : LatentModel μ p q) :
    Integrable (fun z => Real.exp (Real.log (p z) - Real.log (q z))) (law μ q) := by
  refine ⟨(h.p_meas.log.sub h.q_meas.log).exp.aestronglyMeasurable, ?_⟩
  rw [hasFiniteIntegral_iff_ofReal (Filter.Eventually.of_forall fun z => (Real.exp_pos _).le)]
  exact h.lintegral_weight.trans_lt ENNReal.ofReal_lt_top

theorem LatentModel.integral_weight (h : LatentModel μ p q) :
    ∫ z, Real.exp (Real.log (p z) - Real.log (q z)) ∂(law μ q) ≤ evidence μ p := by
  rw [integral_eq_lintegral_of_nonneg_ae (Filter.Eventually.of_forall fun z => (Real.exp_pos _).le)
    h.weight_int.1]
  exact ENNReal.toReal_le_of_le_ofReal h.evidence_pos.le h.lintegral_weight

theorem iw_measurable (h : LatentModel μ p q) (K : ℕ) :
    Measurable fun z : Fin (K + 1) → Z =>
      LME (fun k => Real.log (p (z k)) - Real.log (q (z k))) := by
  unfold LME
  refine Measurable.log (Measurable.div_const (Finset.measurable_sum _ fun k _ => ?_) _)
  exact ((h.p_meas.comp (measurable_pi_apply k)).log.sub
    (h.q_meas.comp (measurable_pi_apply k)).log).exp

/-- The importance weighted objective is integrable when the elbo is. -/
theorem iw_integrable (h : LatentModel μ p q)
    (hi : Integrable (fun z => Real.log (p z) - Real.log (q z)) (law μ q)) (K : ℕ) :
    Integrable (fun z : Fin (K + 1) → Z => LME (fun k => Real.log (p (z k)) - Real.log (q (z k))))
      (samples μ q (K + 1)) := by
  have := h.isProb
  have hlow : Integrable (fun z : Fin (K + 1) → Z =>
      (∑ k, (Real.log (p (z k)) - Real.log (q (z k)))) / (K + 1 : ℕ)) (samples μ q (K + 1)) :=
    (integrable_finsetSum _ fun k _ =>
      integrable_comp_eval (μ := fun _ : Fin (K + 1) => law μ q) (i := k) hi).div_const _
  have hup : Integrable (fun z : Fin (K + 1) → Z =>
      (∑ k, Real.exp (Real.log (p (z k)) - Real.log (q (z k)))) / (K + 1 : ℕ)) (samples μ q (K + 1)) :=
    (integrable_finsetSum _ fun k _ =>
      integrable_comp_eval (μ := fun _ : Fin (K + 1) => law μ q) (i := k) h.weight_int).div_const _
  refine (hlow.abs.add hup).mono' (iw_measurable h K).aestronglyMeasurable
    (Filter.Eventually.of_forall fun z => ?_)
  have h1 := log_mean_ge (fun k => Real.exp (Real.log (p (z k)) - Real.log (q (z k))))
    (fun _ => Real.exp_pos _)
  simp only [Real.log_exp] at h1
  have hpos := sum_exp_pos' (fun k => Real.log (p (z k)) - Real.log (q (z k)))
  have hpos' : 0 < (∑ k, Real.exp (Real.log (p (z k)) - Real.log (q (z k)))) / ((K + 1 : ℕ) : ℝ) := by
    positivity
  have h2 := Real.log_le_sub_one_of_pos hpos'
  simp only [Pi.add_apply, Real.norm_eq_abs, LME]
  rw [abs_le]
  have := neg_abs_le ((∑ k, (Real.log (p (z k)) - Real.log (q (z k)))) / ((K + 1 : ℕ) : ℝ))
  have := abs_nonneg ((∑ k, (Real.log (p (z k)) - Real.log (q (z k)))) / ((K + 1 : ℕ) : ℝ))
  constructor <;> linarith

/-- C40.  The expectation of the importance weighted objective is at most the log evidence. -/
theorem C40_le_evidence (h : LatentModel μ p q) (hp : ∀ z, (logp z).val = Real.log (p z))
    (hq : ∀ z, (logq z).val = Real.log (q z))
    (hi : Integrable (fun z => Real.log (p z) - Real.log (q z)) (law μ q)) (K : ℕ) :
    ∫ z, (iwObjective (fun k => logp (z k)) (fun k => logq (z k))).val ∂(samples μ q (K + 1)) ≤
      Real.log (evidence μ p) := by
  have := h.isProb
  have hE := h.evidence_pos
  simp only [iwObjective_val, hp, hq]
  have hup : Integrable (fun z : Fin (K + 1) → Z =>
      (∑ k, Real.exp (Real.log (p (z k)) - Real.log (q (z k)))) / (K + 1 : ℕ)) (samples μ q (K + 1)) :=
    (integrable_finsetSum _ fun k _ =>
      integrable_comp_eval (μ := fun _ : Fin (K + 1) => law μ q) (i := k) h.weight_int).div_const _
  have hval : ∫ z : Fin (K + 1) → Z,
      (∑ k, Real.exp (Real.log (p (z k)) - Real.log (q (z k)))) / (K + 1 : ℕ) ∂(samples μ q (K + 1)) ≤
      evidence μ p := by
    rw [integral_div, integral_finsetSum _ fun k _ =>
      integrable_comp_eval (μ := fun _ : Fin (K + 1) => law μ q) (i := k) h.weight_int]
    have e : ∀ k : Fin (K + 1), ∫ z, Real.exp (Real.log (p (z k)) - Real.log (q (z k)))
          ∂(samples μ q (K + 1)) =
        ∫ z, Real.exp (Real.log (p z) - Real.log (q z)) ∂(law μ q) := fun k =>
      integral_comp_eval (μ := fun _ : Fin (K + 1) => law μ q) (i := k) h.weight_int.1
    simp only [e]
    simp
    rw [mul_div_cancel_left₀ _ (by positivity)]
    exact h.integral_weight
  calc _ ≤ ∫ z : Fin (K + 1) → Z, (Real.log (evidence μ p) +
        ((∑ k, Real.exp (Real.log (p (z k)) - Real.log (q (z k)))) / (K + 1 : ℕ) / evidence μ p - 1))
        ∂(samples μ q (K + 1)) := by
        refine integral_mono (iw_integrable h hi K)
          ((integrable_const _).add ((hup.div_const _).sub (integrable_const _))) fun z => ?_
        have hpos := sum_exp_pos' (fun k => Real.log (p (z k)) - Real.log (q (z k)))
        have hpos' : 0 < (∑ k, Real.exp (Real.log (p (z k)) - Real.log (q (z k)))) /
          ((K + 1 : ℕ) : ℝ) := by positivity
        have h2 := Real.log_le_sub_one_of_pos (div_pos hpos' hE)
        rw [Real.log_div hpos'.ne' hE.ne'] at h2
        simp only [LME]
        linarith
    _ ≤ Real.log (evidence μ p) := by
        have hd : Integrable (fun z : Fin (K + 1) → Z =>
            (∑ k, Real.exp (Real.log (p (z k)) - Real.log (q (z k)))) / (K + 1 : ℕ) / evidence μ p - 1)
            (samples μ q (K + 1)) := (hup.div_const _).sub (integrable_const _)
        rw [integral_add (integrable_const _) hd,
          integral_sub (hup.div_const _) (integrable_const _), integral_div]
        simp only [integral_const, probReal_univ, one_smul]
        have := (div_le_one hE).mpr hval
        linarith

theorem measurePreserving_removeNth (ν : Measure Z) [IsProbabilityMeasure ν] (K : ℕ)
    (j : Fin (K + 1)) :
    MeasurePreserving (fun (z : Fin (K + 1) → Z) (i : Fin K) => z (j.succAbove i))
      (Measure.pi fun _ => ν) (Measure.pi fun _ => ν) := by
  have h1 := measurePreserving_piFinSuccAbove (fun _ : Fin (K + 1) => ν) j
  have h2 := (measurePreserving_snd (μ := ν) (ν := Measure.pi fun _ : Fin K => ν))
  exact h2.comp h1

/-- C40.  The expectation does not decrease when a sample is added. -/
theorem C40_monotone_step (h : LatentModel μ p q) (hp : ∀ z, (logp z).val = Real.log (p z))
    (hq : ∀ z, (logq z).val = Real.log (q z))
    (hi : Integrable (fun z => Real.log (p z) - Real.log (q z)) (law μ q)) (K : ℕ) :
    ∫ z, (iwObjective (fun k => logp (z k)) (fun k => logq (z k))).val ∂(samples μ q (K + 1)) ≤
      ∫ z, (iwObjective (fun k => logp (z k)) (fun k => logq (z k))).val ∂(samples μ q (K + 2)) := by
  have := h.isProb
  simp only [iwObjective_val, hp, hq]
  set f : (Fin (K + 1) → Z) → ℝ := fun z => LME (fun k => Real.log (p (z k)) - Real.log (q (z k)))
    with hf
  have hfi : Integrable f (samples μ q (K + 1)) := iw_integrable h hi K
  have hmp := fun j => measurePreserving_removeNth (law μ q) (K + 1) j
  have hji : ∀ j : Fin (K + 2), Integrable (fun z : Fin (K + 2) → Z => f fun i => z (j.succAbove i))
      (samples μ q (K + 2)) := fun j => (hmp j).integrable_comp_of_integrable hfi
  have hje : ∀ j : Fin (K + 2), ∫ z, (f fun i => z (j.succAbove i)) ∂(samples μ q (K + 2)) =
      ∫ z, f z ∂(samples μ q (K + 1)) := by
    intro j
    have := integral_map (hmp j).measurable.aemeasurable (f := f)
      (by rw [(hmp j).map_eq]; exact hfi.1)
    rw [(hmp j).map_eq] at this
    exact this.symm
  calc _ = ∫ z : Fin (K + 2) → Z, (∑ j, f fun i => z (Fin.succAbove j i)) / (K + 2 : ℕ)
        ∂(samples μ q (K + 2)) := by
        rw [integral_div, integral_finsetSum _ fun j _ => hji j]
        simp only [hje]
        simp
        field_simp
    _ ≤ _ := integral_mono ((integrable_finsetSum _ fun j _ => hji j).div_const _)
        (iw_integrable h hi (K + 1)) fun z =>
          LME_leave_one_out (fun k => Real.log (p (z k)) - Real.log (q (z k)))

/-- C40.  The expectation is non-decreasing in the number of samples. -/
theorem C40_monotone (h : LatentModel μ p q) (hp : ∀ z, (logp z).val = Real.log (p z))
    (hq : ∀ z, (logq z).val = Real.log (q z))
    (hi : Integrable (fun z => Real.log (p z) - Real.log (q z)) (law μ q)) :
    Monotone fun K : ℕ =>
      ∫ z, (iwObjective (fun k => logp (z k)) (fun k => logq (z k))).val ∂(samples μ q (K + 1)) :=
  monotone_nat_of_le_succ fun K => C40_monotone_step h hp hq hi K

/-- C39, C40.  With one sample both objectives are the same. -/
theorem C40_one_sample (a b : Fin 1 → Dual) :
    (iwObjective a b).val = (elboObjective a b).val := by
  rw [elboObjective_val, iwObjective_val, LME]; simp

/-! ### Finite latent spaces satisfy every hypothesis -/

/-- Any positive joint and positive normalised `q` on a finite latent space. -/
theorem finite_model {Z : Type*} [Fintype Z] [MeasurableSpace Z] [MeasurableSingletonClass Z]
    (p q : Z → ℝ) (hp : ∀ z, 0 < p z) (hq : ∀ z, 0 < q z) (h1 : ∑ z, q z = 1) :
    LatentModel Measure.count p q ∧
      Integrable (fun z => Real.log (p z) - Real.log (q z)) (law Measure.count q) := by
  have hm : ∀ f : Z → ℝ, Measurable f := fun f => measurable_of_finite f
  have hne : Nonempty Z := by
    by_contra hn
    rw [not_nonempty_iff] at hn
    simp at h1
  have hl : LatentModel (Measure.count : Measure Z) p q :=
    { p_meas := hm p, q_meas := hm q, p_nonneg := fun z => (hp z).le, q_nonneg := fun z => (hq z).le
      p_int := Integrable.of_finite
      evidence_pos := by
        rw [evidence, integral_count]
        exact Finset.sum_pos (fun z _ => hp z) Finset.univ_nonempty
      q_int := Integrable.of_finite
      q_one := by rw [integral_count, h1]
      supp := fun z h => absurd h (hp z).ne' }
  have := hl.isProb
  exact ⟨hl, Integrable.of_finite⟩

/-- C39 for finite latent spaces, written with sums. -/
theorem C39_finite {Z : Type*} [Fintype Z] (p q : Z → ℝ) (hp : ∀ z, 0 < p z) (hq : ∀ z, 0 < q z)
    (h1 : ∑ z, q z = 1) :
    (∑ z, q z * (elboObjective (K := 1) (fun _ => const (Real.log (p z)))
        (fun _ => const (Real.log (q z)))).val =
      Real.log (∑ z, p z) - ∑ z, q z * Real.log (q z / (p z / ∑ y, p y))) := by
  have hne : Nonempty Z := by
    by_contra hn
    rw [not_nonempty_iff] at hn
    simp at h1
  have hE : 0 < ∑ z, p z := Finset.sum_pos (fun z _ => hp z) Finset.univ_nonempty
  simp only [elboObjective_val]
  have : ∀ z, q z * Real.log (q z / (p z / ∑ y, p y)) =
      q z * Real.log (∑ y, p y) - q z * (Real.log (p z) - Real.log (q z)) := by
    intro z
    rw [Real.log_div (hq z).ne' (div_pos (hp z) hE).ne', Real.log_div (hp z).ne' hE.ne']
    ring
  simp only [this, Finset.sum_sub_distrib, ← Finset.sum_mul, h1]
  simp

/-- A concrete case: two latent values, joint `(1/8, 3/8)`, `q` uniform. -/
example : LatentModel (Measure.count : Measure Bool) (fun z => if z then 1 / 8 else 3 / 8)
    (fun _ => 1 / 2) :=
  (finite_model (Z := Bool) (fun z => if z then 1 / 8 else 3 / 8) (fun _ => 1 / 2)
    (fun z => by cases z <;> norm_num) (fun _ => by norm_num) (by simp)).1

end ZhuSuan.Grad

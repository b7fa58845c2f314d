import Mathlib.Analysis.Calculus.ParametricIntegral
import Mathlib.Analysis.Calculus.FDeriv.Measurable
import Verif.Lemmas.PiMeasure
import Verif.Model.Lntm
import Verif.Props.Normal
import Verif.Spec.Lntm

/-!
# The probability of a document and its derivatives
-/

set_option autoImplicit false

open MeasureTheory Set ProbabilityTheory Function
open scoped ENNReal

namespace ZhuSuan.Lntm

variable {K V : ℕ}

/-! ## The simplex -/

theorem sum_exp_pos {n : ℕ} (z : Fin (n + 1) → ℝ) : 0 < ∑ j, Real.exp (z j) :=
  Finset.sum_pos (fun _ _ => Real.exp_pos _) Finset.univ_nonempty

theorem simplex_pos {n : ℕ} (z : Fin (n + 1) → ℝ) (k : Fin (n + 1)) : 0 < simplex z k :=
  div_pos (Real.exp_pos _) (sum_exp_pos z)

theorem simplex_sum {n : ℕ} (z : Fin (n + 1) → ℝ) : ∑ k, simplex z k = 1 := by
  simp only [simplex]
  rw [← Finset.sum_div, div_self (sum_exp_pos z).ne']

theorem simplex_le {n : ℕ} (z : Fin (n + 1) → ℝ) (k : Fin (n + 1)) : simplex z k ≤ 1 := by
  rw [← simplex_sum z]
  exact Finset.single_le_sum (fun j _ => (simplex_pos z j).le) (Finset.mem_univ k)

theorem continuous_simplex {n : ℕ} (k : Fin (n + 1)) : Continuous fun z : Fin (n + 1) → ℝ => simplex z k := by
  unfold simplex
  exact Continuous.div (by fun_prop) (by fun_prop) fun z => (sum_exp_pos z).ne'

theorem wordProb_pos (beta : Fin (K + 1) → Fin (V + 1) → ℝ) (eta : Fin (K + 1) → ℝ) (w : Fin (V + 1)) :
    0 < wordProb beta eta w :=
  Finset.sum_pos (fun k _ => mul_pos (simplex_pos eta k) (simplex_pos (beta k) w)) Finset.univ_nonempty

theorem wordProb_le (beta : Fin (K + 1) → Fin (V + 1) → ℝ) (eta : Fin (K + 1) → ℝ) (w : Fin (V + 1)) :
    wordProb beta eta w ≤ 1 := by
  rw [← simplex_sum eta]
  exact Finset.sum_le_sum fun k _ => mul_le_of_le_one_right (simplex_pos eta k).le (simplex_le (beta k) w)

/-- A lower bound of the probability of a word, whatever the proportions of the topics. -/
theorem wordProb_ge (beta : Fin (K + 1) → Fin (V + 1) → ℝ) : ∃ a > 0, ∀ eta w, a ≤ wordProb beta eta w := by
  obtain ⟨p, _, hp⟩ := Finset.exists_min_image (Finset.univ : Finset (Fin (K + 1) × Fin (V + 1)))
    (fun p => simplex (beta p.1) p.2) Finset.univ_nonempty
  refine ⟨simplex (beta p.1) p.2, simplex_pos _ _, fun eta w => ?_⟩
  calc simplex (beta p.1) p.2 = ∑ k, simplex eta k * simplex (beta p.1) p.2 := by rw [← Finset.sum_mul, simplex_sum, one_mul]
    _ ≤ wordProb beta eta w := Finset.sum_le_sum fun k _ => mul_le_mul_of_nonneg_left (hp (k, w) (Finset.mem_univ _))
        (simplex_pos eta k).le

theorem continuous_wordProb (w : Fin (V + 1)) :
    Continuous fun p : (Fin (K + 1) → Fin (V + 1) → ℝ) × (Fin (K + 1) → ℝ) => wordProb p.1 p.2 w := by
  unfold wordProb
  refine continuous_finsetSum _ fun k _ => Continuous.mul ((continuous_simplex k).comp continuous_snd) ?_
  exact (continuous_simplex w).comp ((continuous_apply k).comp continuous_fst)

theorem docProb_pos (beta : Fin (K + 1) → Fin (V + 1) → ℝ) (doc : List (Fin (V + 1))) (eta : Fin (K + 1) → ℝ) :
    0 < docProb beta doc eta :=
  List.prod_pos fun _ h => by
    obtain ⟨w, _, rfl⟩ := List.mem_map.1 h
    exact wordProb_pos beta eta w

theorem docProb_cons (beta : Fin (K + 1) → Fin (V + 1) → ℝ) (w : Fin (V + 1)) (doc : List (Fin (V + 1))) (eta : Fin (K + 1) → ℝ) :
    docProb beta (w :: doc) eta = wordProb beta eta w * docProb beta doc eta := by simp [docProb]

theorem docProb_le (beta : Fin (K + 1) → Fin (V + 1) → ℝ) (doc : List (Fin (V + 1))) (eta : Fin (K + 1) → ℝ) :
    docProb beta doc eta ≤ 1 := by
  induction doc with
  | nil => simp [docProb]
  | cons w doc ih =>
    rw [docProb_cons]
    exact mul_le_one₀ (wordProb_le beta eta w) (docProb_pos beta doc eta).le ih

theorem docProb_ge (beta : Fin (K + 1) → Fin (V + 1) → ℝ) (doc : List (Fin (V + 1))) : ∃ a > 0, ∀ eta, a ≤ docProb beta doc eta := by
  obtain ⟨a, ha, h⟩ := wordProb_ge beta
  refine ⟨a ^ doc.length, pow_pos ha _, fun eta => ?_⟩
  induction doc with
  | nil => simp [docProb]
  | cons w doc ih =>
    rw [docProb_cons, List.length_cons, pow_succ, mul_comm]
    exact mul_le_mul (h eta w) ih (pow_pos ha _).le (wordProb_pos beta eta w).le

theorem continuous_docProb (doc : List (Fin (V + 1))) :
    Continuous fun p : (Fin (K + 1) → Fin (V + 1) → ℝ) × (Fin (K + 1) → ℝ) => docProb p.1 doc p.2 := by
  induction doc with
  | nil => simpa [docProb] using continuous_const
  | cons w doc ih =>
    simp only [docProb_cons]
    exact (continuous_wordProb w).mul ih

theorem continuous_docProb_eta (beta : Fin (K + 1) → Fin (V + 1) → ℝ) (doc : List (Fin (V + 1))) :
    Continuous fun eta : Fin (K + 1) → ℝ => docProb beta doc eta :=
  (continuous_docProb doc).comp (continuous_const.prodMk continuous_id)

/-! ## The log probability that the code computes -/

theorem logPx_eq (beta : Fin (K + 1) → Fin (V + 1) → ℝ) (doc : List (Fin (V + 1))) (eta : Fin (K + 1) → ℝ) :
    logPx beta (counts doc) eta = Real.log (docProb beta doc eta) := by
  have h : ∀ x : Fin (V + 1) → ℝ, logPx beta x eta = ∑ v, x v * Real.log (wordProb beta eta v) := fun x => rfl
  rw [h]
  induction doc with
  | nil => simp [docProb, counts]
  | cons w doc ih =>
    rw [docProb_cons, Real.log_mul (wordProb_pos beta eta w).ne' (docProb_pos beta doc eta).ne', ← ih]
    have e : ∀ v, counts (w :: doc) v = counts doc v + if v = w then 1 else 0 := by
      intro v
      simp only [counts, List.count_cons, beq_iff_eq, eq_comm (a := w)]
      push_cast
      rfl
    simp only [e, add_mul, Finset.sum_add_distrib, ite_mul, one_mul, zero_mul, Finset.sum_ite_eq', Finset.mem_univ, if_true]
    ring

/-! ## Derivatives in `beta` -/

theorem hasDerivAt_simplex {n : ℕ} (z : Fin (n + 1) → ℝ) (v w : Fin (n + 1)) (y : ℝ) :
    HasDerivAt (fun y => simplex (update z v y) w)
      (simplex (update z v y) w * ((if w = v then 1 else 0) - simplex (update z v y) v)) y := by
  have hj : ∀ j, HasDerivAt (fun y => Real.exp (update z v y j)) (Real.exp (update z v y j) * if j = v then 1 else 0) y := by
    intro j
    by_cases h : j = v
    · subst h
      simpa using Real.hasDerivAt_exp y
    · simpa [h] using hasDerivAt_const y (Real.exp (z j))
  have hs : HasDerivAt (fun y => ∑ j, Real.exp (update z v y j)) (Real.exp (update z v y v)) y := by
    have := HasDerivAt.fun_sum fun j (_ : j ∈ Finset.univ) => hj j
    simpa using this
  have hne := (sum_exp_pos (update z v y)).ne'
  refine ((hj w).div hs hne).congr_deriv ?_
  simp only [simplex]
  field_simp

theorem hasDerivAt_wordProb (beta : Fin (K + 1) → Fin (V + 1) → ℝ) (k : Fin (K + 1)) (v w : Fin (V + 1)) (eta : Fin (K + 1) → ℝ) (y : ℝ) :
    ∃ D, HasDerivAt (fun y => wordProb (update beta k (update (beta k) v y)) eta w) D y ∧
      |D| ≤ wordProb (update beta k (update (beta k) v y)) eta w := by
  set p := simplex (update (beta k) v y) w with hp
  set D := simplex eta k * (p * ((if w = v then 1 else 0) - simplex (update (beta k) v y) v)) with hD
  refine ⟨D, ?_, ?_⟩
  · have h : ∀ k', HasDerivAt (fun y => simplex eta k' * simplex (update beta k (update (beta k) v y) k') w)
        (if k' = k then D else 0) y := by
      intro k'
      by_cases e : k' = k
      · subst e
        simpa using (hasDerivAt_simplex (beta k') v w y).const_mul (simplex eta k')
      · simpa [e] using hasDerivAt_const y (simplex eta k' * simplex (beta k') w)
    have := HasDerivAt.fun_sum fun k' (_ : k' ∈ Finset.univ) => h k'
    simp only [Finset.sum_ite_eq', Finset.mem_univ, if_true] at this
    exact this
  · have h1 : |(if w = v then (1 : ℝ) else 0) - simplex (update (beta k) v y) v| ≤ 1 := by
      have a := simplex_pos (update (beta k) v y) v
      have b := simplex_le (update (beta k) v y) v
      rw [abs_le]
      split_ifs <;> constructor <;> linarith
    have hp0 : 0 < p := simplex_pos _ _
    have h2 : |D| ≤ simplex eta k * p := by
      rw [hD, abs_mul, abs_mul, abs_of_pos (simplex_pos eta k), abs_of_pos hp0]
      exact mul_le_mul_of_nonneg_left (mul_le_of_le_one_right hp0.le h1) (simplex_pos eta k).le
    refine h2.trans ?_
    have h3 := Finset.single_le_sum (f := fun k' => simplex eta k' * simplex (update beta k (update (beta k) v y) k') w)
      (fun k' _ => (mul_pos (simplex_pos _ _) (simplex_pos _ _)).le) (Finset.mem_univ k)
    simp only [update_self] at h3
    exact h3

theorem hasDerivAt_docProb (beta : Fin (K + 1) → Fin (V + 1) → ℝ) (k : Fin (K + 1)) (v : Fin (V + 1)) (doc : List (Fin (V + 1)))
    (eta : Fin (K + 1) → ℝ) (y : ℝ) : ∃ D, HasDerivAt (fun y => docProb (update beta k (update (beta k) v y)) doc eta) D y ∧
      |D| ≤ doc.length * docProb (update beta k (update (beta k) v y)) doc eta := by
  induction doc with
  | nil => exact ⟨0, by simpa [docProb] using hasDerivAt_const y (1 : ℝ), by simp⟩
  | cons w doc ih =>
    obtain ⟨D, h1, h2⟩ := ih
    obtain ⟨E, g1, g2⟩ := hasDerivAt_wordProb beta k v w eta y
    set B := update beta k (update (beta k) v y) with hB
    have p1 := wordProb_pos B eta w
    have p2 := docProb_pos B doc eta
    refine ⟨E * docProb B doc eta + wordProb B eta w * D, ?_, ?_⟩
    · simp only [docProb_cons]
      exact g1.mul h1
    · rw [docProb_cons]
      refine (abs_add_le _ _).trans ?_
      rw [abs_mul, abs_mul, abs_of_pos p1, abs_of_pos p2, List.length_cons]
      push_cast
      nlinarith [mul_le_mul_of_nonneg_right g2 p2.le, mul_le_mul_of_nonneg_left h2 p1.le]

/-! ## The evidence -/

instance (mean sd : Fin (K + 1) → ℝ) : IsProbabilityMeasure (prior mean sd) := by
  unfold prior
  infer_instance

theorem integrable_docProb (mean sd : Fin (K + 1) → ℝ) (beta : Fin (K + 1) → Fin (V + 1) → ℝ) (doc : List (Fin (V + 1))) :
    Integrable (docProb beta doc) (prior mean sd) :=
  Integrable.of_bound (continuous_docProb_eta beta doc).aestronglyMeasurable 1
    (Filter.Eventually.of_forall fun eta => by
      rw [Real.norm_eq_abs, abs_of_pos (docProb_pos beta doc eta)]
      exact docProb_le beta doc eta)

theorem evidence_pos (mean sd : Fin (K + 1) → ℝ) (beta : Fin (K + 1) → Fin (V + 1) → ℝ) (doc : List (Fin (V + 1))) :
    0 < evidence mean sd beta doc := by
  obtain ⟨a, ha, h⟩ := docProb_ge beta doc
  calc 0 < a := ha
    _ = ∫ _, a ∂(prior mean sd) := by simp
    _ ≤ evidence mean sd beta doc := integral_mono (integrable_const a) (integrable_docProb mean sd beta doc) h

theorem measurable_posterior_density (mean sd : Fin (K + 1) → ℝ) (beta : Fin (K + 1) → Fin (V + 1) → ℝ) (doc : List (Fin (V + 1))) :
    Measurable fun eta => ENNReal.ofReal (docProb beta doc eta / evidence mean sd beta doc) :=
  ((continuous_docProb_eta beta doc).div_const _).measurable.ennreal_ofReal

instance (mean sd : Fin (K + 1) → ℝ) (beta : Fin (K + 1) → Fin (V + 1) → ℝ) (doc : List (Fin (V + 1))) :
    IsProbabilityMeasure (posterior mean sd beta doc) := by
  refine ⟨?_⟩
  have h0 := evidence_pos mean sd beta doc
  rw [posterior, withDensity_apply _ MeasurableSet.univ, Measure.restrict_univ,
    ← ofReal_integral_eq_lintegral_ofReal ((integrable_docProb mean sd beta doc).div_const _)
      (Filter.Eventually.of_forall fun eta => (div_pos (docProb_pos beta doc eta) h0).le), integral_div]
  change ENNReal.ofReal (evidence mean sd beta doc / _) = 1
  rw [div_self h0.ne', ENNReal.ofReal_one]

/-- Expectations under the posterior. -/
theorem integral_posterior (mean sd : Fin (K + 1) → ℝ) (beta : Fin (K + 1) → Fin (V + 1) → ℝ) (doc : List (Fin (V + 1)))
    (f : (Fin (K + 1) → ℝ) → ℝ) : ∫ eta, f eta ∂(posterior mean sd beta doc) =
      (∫ eta, docProb beta doc eta * f eta ∂(prior mean sd)) / evidence mean sd beta doc := by
  have h0 := evidence_pos mean sd beta doc
  rw [posterior, integral_withDensity_eq_integral_toReal_smul (measurable_posterior_density mean sd beta doc)
    (Filter.Eventually.of_forall fun _ => ENNReal.ofReal_lt_top), ← integral_div]
  refine integral_congr_ae (Filter.Eventually.of_forall fun eta => ?_)
  simp only [ENNReal.toReal_ofReal (div_pos (docProb_pos beta doc eta) h0).le, smul_eq_mul]
  ring

/-- What is integrable under the prior is so under the posterior. -/
theorem integrable_posterior (mean sd : Fin (K + 1) → ℝ) (beta : Fin (K + 1) → Fin (V + 1) → ℝ) (doc : List (Fin (V + 1)))
    {f : (Fin (K + 1) → ℝ) → ℝ} (hf : Integrable f (prior mean sd)) : Integrable f (posterior mean sd beta doc) := by
  have h0 := evidence_pos mean sd beta doc
  have hle : posterior mean sd beta doc ≤ ENNReal.ofReal (1 / evidence mean sd beta doc) • prior mean sd := by
    rw [posterior, ← withDensity_const]
    exact withDensity_mono (Filter.Eventually.of_forall fun eta =>
      ENNReal.ofReal_le_ofReal (div_le_div_of_nonneg_right (docProb_le beta doc eta) h0.le))
  exact (hf.smul_measure ENNReal.ofReal_ne_top).mono_measure hle

theorem measurable_deriv_at {X : Type} [TopologicalSpace X] [MeasurableSpace X] [OpensMeasurableSpace X] (f : X → ℝ → ℝ)
    (hc : Continuous (Function.uncurry f)) (y : ℝ) : Measurable fun x => deriv (f x) y := by
  have h := measurable_deriv_with_param hc
  have h2 : Measurable fun x : X => (x, y) := measurable_id.prodMk measurable_const
  exact h.comp h2

/-- The derivative of the evidence of a document. -/
theorem hasDerivAt_evidence (mean sd : Fin (K + 1) → ℝ) (beta : Fin (K + 1) → Fin (V + 1) → ℝ) (k : Fin (K + 1)) (v : Fin (V + 1))
    (doc : List (Fin (V + 1))) :
    Integrable (fun eta => deriv (fun y => docProb (update beta k (update (beta k) v y)) doc eta) (beta k v)) (prior mean sd) ∧
    HasDerivAt (fun y => evidence mean sd (update beta k (update (beta k) v y)) doc)
      (∫ eta, deriv (fun y => docProb (update beta k (update (beta k) v y)) doc eta) (beta k v) ∂(prior mean sd)) (beta k v) := by
  have hc : Continuous (Function.uncurry fun (eta : Fin (K + 1) → ℝ) (y : ℝ) =>
      docProb (update beta k (update (beta k) v y)) doc eta) := by
    have h0 : Continuous fun p : (Fin (K + 1) → ℝ) × ℝ => update (beta k) v p.2 := continuous_const.update v continuous_snd
    have h1 : Continuous fun p : (Fin (K + 1) → ℝ) × ℝ => (update beta k (update (beta k) v p.2), p.1) :=
      (continuous_const.update k h0).prodMk continuous_fst
    exact (continuous_docProb doc).comp h1
  have hm : Measurable fun eta => deriv (fun y => docProb (update beta k (update (beta k) v y)) doc eta) (beta k v) := 
    measurable_deriv_at (fun (eta : Fin (K + 1) → ℝ) (y : ℝ) => docProb (update beta k (update (beta k) v y)) doc eta) hc _
  refine hasDerivAt_integral_of_dominated_loc_of_deriv_le (μ := prior mean sd) (s := univ) (bound := fun _ => (doc.length : ℝ))
    (F := fun y eta => docProb (update beta k (update (beta k) v y)) doc eta)
    (F' := fun y eta => deriv (fun y => docProb (update beta k (update (beta k) v y)) doc eta) y)
    Filter.univ_mem ?_ ?_ hm.aestronglyMeasurable ?_ (integrable_const _) ?_
  · exact Filter.Eventually.of_forall fun y => (continuous_docProb_eta _ doc).aestronglyMeasurable
  · exact integrable_docProb mean sd _ doc
  · refine Filter.Eventually.of_forall fun eta y _ => ?_
    obtain ⟨D, h1, h2⟩ := hasDerivAt_docProb beta k v doc eta y
    rw [h1.deriv, Real.norm_eq_abs]
    exact h2.trans (mul_le_of_le_one_right (by positivity) (docProb_le _ doc eta))
  · refine Filter.Eventually.of_forall fun eta y _ => ?_
    obtain ⟨D, h1, h2⟩ := hasDerivAt_docProb beta k v doc eta y
    rw [h1.deriv]
    exact h1

/-- Fisher's identity. -/
theorem fisher (mean sd : Fin (K + 1) → ℝ) (beta : Fin (K + 1) → Fin (V + 1) → ℝ) (k : Fin (K + 1)) (v : Fin (V + 1))
    (doc : List (Fin (V + 1))) :
    Integrable (fun eta => gradBeta (fun beta => Real.log (docProb beta doc eta)) beta k v) (posterior mean sd beta doc) ∧
    ∫ eta, gradBeta (fun beta => Real.log (docProb beta doc eta)) beta k v ∂(posterior mean sd beta doc) =
      gradBeta (fun beta => Real.log (evidence mean sd beta doc)) beta k v ∧
    DifferentiableAt ℝ (fun y => Real.log (evidence mean sd (update beta k (update (beta k) v y)) doc)) (beta k v) := by
  obtain ⟨i1, h1⟩ := hasDerivAt_evidence mean sd beta k v doc
  have e0 : update beta k (update (beta k) v (beta k v)) = beta := by simp
  have hE := h1.log (by simpa using (evidence_pos mean sd beta doc).ne')
  have eg : ∀ eta, gradBeta (fun beta => Real.log (docProb beta doc eta)) beta k v =
      deriv (fun y => docProb (update beta k (update (beta k) v y)) doc eta) (beta k v) / docProb beta doc eta := by
    intro eta
    obtain ⟨D, h2, _⟩ := hasDerivAt_docProb beta k v doc eta (beta k v)
    have h3 := h2.log (by simpa using (docProb_pos beta doc eta).ne')
    rw [gradBeta, h3.deriv, h2.deriv, e0]
  have bound : ∀ eta, |gradBeta (fun beta => Real.log (docProb beta doc eta)) beta k v| ≤ doc.length := by
    intro eta
    obtain ⟨D, h2, h3⟩ := hasDerivAt_docProb beta k v doc eta (beta k v)
    rw [e0] at h3
    rw [eg, h2.deriv, abs_div, abs_of_pos (docProb_pos beta doc eta), div_le_iff₀ (docProb_pos beta doc eta)]
    exact h3
  have im : AEStronglyMeasurable (fun eta => gradBeta (fun beta => Real.log (docProb beta doc eta)) beta k v) (prior mean sd) := by
    simp only [eg]
    exact (i1.aestronglyMeasurable.aemeasurable.div (continuous_docProb_eta beta doc).measurable.aemeasurable).aestronglyMeasurable
  refine ⟨integrable_posterior mean sd beta doc (Integrable.of_bound im _ (Filter.Eventually.of_forall fun eta => by
    rw [Real.norm_eq_abs]; exact bound eta)), ?_, hE.differentiableAt⟩
  rw [integral_posterior, gradBeta, hE.deriv, e0]
  congr 1
  refine integral_congr_ae (Filter.Eventually.of_forall fun eta => ?_)
  simp only [eg]
  rw [mul_div_cancel₀ _ (docProb_pos beta doc eta).ne']

end ZhuSuan.Lntm

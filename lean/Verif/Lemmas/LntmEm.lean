import Verif.Lemmas.Lntm
import Verif.Lemmas.PmfStep
import Verif.Props.NetMcmc

/-!
# Densities, the EM inequality and the update of the hyper-parameters
-/

set_option autoImplicit false

open MeasureTheory Set ProbabilityTheory Function
open scoped ENNReal

namespace ZhuSuan.Lntm

variable {K V : ℕ}

/-! ## Densities -/

theorem logNormal_eq {sd : ℝ} (h : 0 < sd) (mean y : ℝ) : logNormal mean sd y = Uni.Normal.logProb mean (Real.log sd) y := by
  have e : Real.exp (Uni.Normal.logProb mean (Real.log sd) y) = gaussianPDFReal mean (var sd) y := Uni.C18_density mean (.std sd) h y
  rw [logNormal, ← e, Real.log_exp]

theorem logNormal_formula {sd : ℝ} (h : 0 < sd) (mean y : ℝ) :
    logNormal mean sd y = -(Real.log (2 * Real.pi) / 2) - Real.log sd - (y - mean) ^ 2 / (2 * sd ^ 2) := by
  rw [logNormal_eq h, Uni.Normal.logProb, show (-2 * Real.log sd) = Real.log (sd ^ 2)⁻¹ by
    rw [Real.log_inv, Real.log_pow]; push_cast; ring, Real.exp_log (inv_pos.2 (pow_pos h 2))]
  ring

theorem logPeta_eq (mean logstd eta : Fin (K + 1) → ℝ) :
    logPeta mean logstd eta = ∑ k, logNormal (mean k) (Real.exp (logstd k)) (eta k) := by
  refine Finset.sum_congr rfl fun k _ => ?_
  rw [logNormal_eq (Real.exp_pos _), Real.log_exp]

theorem eObj_eq (mean logstd : Fin (K + 1) → ℝ) (beta : Fin (K + 1) → Fin (V + 1) → ℝ) (doc : List (Fin (V + 1)))
    (eta : Fin (K + 1) → ℝ) :
    eObj mean logstd beta (counts doc) eta = logComplete mean (fun k => Real.exp (logstd k)) beta doc eta := by
  rw [eObj, logPeta_eq, logPx_eq, logComplete]

theorem continuous_logNormals (mean sd : Fin (K + 1) → ℝ) (hs : ∀ k, 0 < sd k) :
    Continuous fun eta : Fin (K + 1) → ℝ => ∑ k, logNormal (mean k) (sd k) (eta k) := by
  simp only [logNormal_formula (hs _)]
  fun_prop

theorem continuous_logComplete (mean sd : Fin (K + 1) → ℝ) (hs : ∀ k, 0 < sd k) (beta : Fin (K + 1) → Fin (V + 1) → ℝ)
    (doc : List (Fin (V + 1))) : Continuous (logComplete mean sd beta doc) :=
  (continuous_logNormals mean sd hs).add ((continuous_docProb_eta beta doc).log fun eta => (docProb_pos beta doc eta).ne')

theorem prior_density (mean sd : Fin (K + 1) → ℝ) (hs : ∀ k, 0 < sd k) : prior mean sd =
    volume.withDensity fun eta => ENNReal.ofReal (Real.exp (∑ k, logNormal (mean k) (sd k) (eta k))) := by
  have hv : ∀ k, var (sd k) ≠ 0 := fun k e => by
    have h1 : (var (sd k) : ℝ) = 0 := by rw [e]; rfl
    have h2 : (var (sd k) : ℝ) = sd k ^ 2 := rfl
    rw [h2] at h1
    exact (pow_pos (hs k) 2).ne' h1
  have e : (fun k => gaussianReal (mean k) (var (sd k))) = fun k => volume.withDensity (gaussianPDF (mean k) (var (sd k))) := by
    funext k
    exact gaussianReal_of_var_ne_zero _ (hv k)
  have hsf : ∀ k, SigmaFinite ((volume : Measure ℝ).withDensity (gaussianPDF (mean k) (var (sd k)))) := fun k => by
    rw [← gaussianReal_of_var_ne_zero _ (hv k)]; infer_instance
  rw [prior, e, Meas.pi_withDensity (fun _ => volume) (fun k => gaussianPDF (mean k) (var (sd k))) (fun _ => measurable_gaussianPDF _ _)]
  congr 1
  funext eta
  rw [Real.exp_sum, ENNReal.ofReal_prod_of_nonneg fun _ _ => (Real.exp_pos _).le]
  refine Finset.prod_congr rfl fun k _ => ?_
  rw [gaussianPDF, logNormal, Real.exp_log (gaussianPDFReal_pos _ _ _ (hv k))]

/-- The density of the posterior, up to its constant. -/
theorem posterior_density (mean sd : Fin (K + 1) → ℝ) (hs : ∀ k, 0 < sd k) (beta : Fin (K + 1) → Fin (V + 1) → ℝ)
    (doc : List (Fin (V + 1))) : posterior mean sd beta doc =
      ENNReal.ofReal (evidence mean sd beta doc)⁻¹ • volume.withDensity fun eta =>
        ENNReal.ofReal (Real.exp (logComplete mean sd beta doc eta)) := by
  have h0 := evidence_pos mean sd beta doc
  have m1 : Measurable fun eta : Fin (K + 1) → ℝ => ENNReal.ofReal (Real.exp (∑ k, logNormal (mean k) (sd k) (eta k))) :=
    (Real.continuous_exp.comp (continuous_logNormals mean sd hs)).measurable.ennreal_ofReal
  have m2 : Measurable fun eta => ENNReal.ofReal (Real.exp (logComplete mean sd beta doc eta)) :=
    (Real.continuous_exp.comp (continuous_logComplete mean sd hs beta doc)).measurable.ennreal_ofReal
  rw [posterior, prior_density mean sd hs, ← withDensity_mul _ m1 (measurable_posterior_density mean sd beta doc),
    ← withDensity_smul _ m2]
  congr 1
  funext eta
  simp only [Pi.mul_apply, Pi.smul_apply, smul_eq_mul]
  rw [← ENNReal.ofReal_mul (Real.exp_pos _).le, ← ENNReal.ofReal_mul (inv_pos.2 h0).le, logComplete, Real.exp_add,
    Real.exp_log (docProb_pos beta doc eta)]
  congr 1
  ring

/-- The evidence as an integral of the joint density. -/
theorem evidence_eq (mean sd : Fin (K + 1) → ℝ) (hs : ∀ k, 0 < sd k) (beta : Fin (K + 1) → Fin (V + 1) → ℝ)
    (doc : List (Fin (V + 1))) :
    Integrable (fun eta => Real.exp (logComplete mean sd beta doc eta)) ∧
    ∫ eta, Real.exp (logComplete mean sd beta doc eta) = evidence mean sd beta doc := by
  have m1 : Measurable fun eta : Fin (K + 1) → ℝ => ENNReal.ofReal (Real.exp (∑ k, logNormal (mean k) (sd k) (eta k))) :=
    (Real.continuous_exp.comp (continuous_logNormals mean sd hs)).measurable.ennreal_ofReal
  have hfin : ∀ᵐ eta : Fin (K + 1) → ℝ, ENNReal.ofReal (Real.exp (∑ k, logNormal (mean k) (sd k) (eta k))) < ∞ :=
    Filter.Eventually.of_forall fun _ => ENNReal.ofReal_lt_top
  have e : ∀ eta, (ENNReal.ofReal (Real.exp (∑ k, logNormal (mean k) (sd k) (eta k)))).toReal • docProb beta doc eta =
      Real.exp (logComplete mean sd beta doc eta) := fun eta => by
    rw [ENNReal.toReal_ofReal (Real.exp_pos _).le, smul_eq_mul, logComplete, Real.exp_add, Real.exp_log (docProb_pos beta doc eta)]
  constructor
  · have h := integrable_docProb mean sd beta doc
    rw [prior_density mean sd hs, integrable_withDensity_iff_integrable_smul' m1 hfin] at h
    simpa only [e] using h
  · rw [evidence, prior_density mean sd hs, integral_withDensity_eq_integral_toReal_smul m1 hfin]
    simp only [e]

/-! ## The EM inequality -/

theorem integrable_logNormals (mean sd m s : Fin (K + 1) → ℝ) (hs : ∀ k, 0 < s k) :
    Integrable (fun eta : Fin (K + 1) → ℝ => ∑ k, logNormal (m k) (s k) (eta k)) (prior mean sd) := by
  refine integrable_finsetSum _ fun k _ => ?_
  have h : Integrable (fun y : ℝ => logNormal (m k) (s k) y) (gaussianReal (mean k) (var (sd k))) := by
    simp only [logNormal_formula (hs k)]
    have h2 : MemLp (fun y : ℝ => y - m k) 2 (gaussianReal (mean k) (var (sd k))) :=
      (memLp_id_gaussianReal' 2 (by simp)).sub (memLp_const _)
    exact (integrable_const _).sub (h2.integrable_sq.div_const _)
  exact integrable_comp_eval (μ := fun k => gaussianReal (mean k) (var (sd k))) (i := k) h

theorem integrable_logDoc (mean sd : Fin (K + 1) → ℝ) (beta : Fin (K + 1) → Fin (V + 1) → ℝ) (doc : List (Fin (V + 1))) :
    Integrable (fun eta => Real.log (docProb beta doc eta)) (prior mean sd) := by
  obtain ⟨a, ha, h⟩ := docProb_ge beta doc
  refine Integrable.of_bound ((continuous_docProb_eta beta doc).log fun eta => (docProb_pos beta doc eta).ne').aestronglyMeasurable
    (-Real.log a) (Filter.Eventually.of_forall fun eta => ?_)
  rw [Real.norm_eq_abs, abs_of_nonpos (Real.log_nonpos (docProb_pos beta doc eta).le (docProb_le beta doc eta))]
  exact neg_le_neg (Real.log_le_log ha (h eta))

theorem integrable_logComplete (mean sd m s : Fin (K + 1) → ℝ) (hs : ∀ k, 0 < s k) (beta beta' : Fin (K + 1) → Fin (V + 1) → ℝ)
    (doc : List (Fin (V + 1))) : Integrable (logComplete m s beta' doc) (posterior mean sd beta doc) :=
  integrable_posterior mean sd beta doc ((integrable_logNormals mean sd m s hs).add (integrable_logDoc mean sd beta' doc))

/-- An increase of the expected log density increases the log evidence at least as much. -/
theorem em_doc (mean sd mean' sd' : Fin (K + 1) → ℝ) (hs : ∀ k, 0 < sd k) (hs' : ∀ k, 0 < sd' k)
    (beta beta' : Fin (K + 1) → Fin (V + 1) → ℝ) (doc : List (Fin (V + 1))) :
    ∫ eta, logComplete mean' sd' beta' doc eta ∂(posterior mean sd beta doc) -
      ∫ eta, logComplete mean sd beta doc eta ∂(posterior mean sd beta doc) ≤
    Real.log (evidence mean' sd' beta' doc) - Real.log (evidence mean sd beta doc) := by
  set E := evidence mean sd beta doc with hE
  set E' := evidence mean' sd' beta' doc with hE'
  set μ := posterior mean sd beta doc with hμ
  have h0 : 0 < E := evidence_pos _ _ _ _
  have h0' : 0 < E' := evidence_pos _ _ _ _
  set l := logComplete mean sd beta doc with hl
  set l' := logComplete mean' sd' beta' doc with hl'
  have i1 : Integrable l' μ := integrable_logComplete mean sd mean' sd' hs' beta beta' doc
  have i2 : Integrable l μ := integrable_logComplete mean sd mean sd hs beta beta doc
  have m2 : Measurable fun eta => ENNReal.ofReal (Real.exp (l eta)) :=
    (Real.continuous_exp.comp (continuous_logComplete mean sd hs beta doc)).measurable.ennreal_ofReal
  have hfin : ∀ᵐ eta : Fin (K + 1) → ℝ, ENNReal.ofReal (Real.exp (l eta)) < ∞ :=
    Filter.Eventually.of_forall fun _ => ENNReal.ofReal_lt_top
  have hden : μ = ENNReal.ofReal E⁻¹ • volume.withDensity fun eta => ENNReal.ofReal (Real.exp (l eta)) :=
    posterior_density mean sd hs beta doc
  obtain ⟨j1, j2⟩ := evidence_eq mean' sd' hs' beta' doc
  have e : ∀ eta, (ENNReal.ofReal (Real.exp (l eta))).toReal • Real.exp (l' eta - l eta) = Real.exp (l' eta) := fun eta => by
    rw [ENNReal.toReal_ofReal (Real.exp_pos _).le, smul_eq_mul, ← Real.exp_add]
    congr 1
    ring
  have i3 : Integrable (fun eta => Real.exp (l' eta - l eta)) μ := by
    rw [hden]
    refine Integrable.smul_measure ?_ ENNReal.ofReal_ne_top
    rw [integrable_withDensity_iff_integrable_smul' m2 hfin]
    simpa only [e] using j1
  have v3 : ∫ eta, Real.exp (l' eta - l eta) ∂μ = E' / E := by
    rw [hden, integral_smul_measure, integral_withDensity_eq_integral_toReal_smul m2 hfin]
    simp only [e]
    rw [j2, ENNReal.toReal_ofReal (inv_pos.2 h0).le, smul_eq_mul, ← hE']
    field_simp
  have hp : ∀ eta, l' eta - l eta ≤ Real.log (E' / E) + (Real.exp (l' eta - l eta) * (E / E') - 1) := by
    intro eta
    have h := Real.log_le_sub_one_of_pos (mul_pos (Real.exp_pos (l' eta - l eta)) (div_pos h0 h0'))
    rw [Real.log_mul (Real.exp_pos _).ne' (div_pos h0 h0').ne', Real.log_exp] at h
    have : Real.log (E / E') = -Real.log (E' / E) := by rw [← Real.log_inv, inv_div]
    linarith
  have i4 : Integrable (fun eta => Real.exp (l' eta - l eta) * (E / E') - 1) μ := (i3.mul_const _).sub (integrable_const _)
  have i5 : Integrable (fun eta => Real.log (E' / E) + (Real.exp (l' eta - l eta) * (E / E') - 1)) μ := (integrable_const _).add i4
  have i6 : Integrable (fun eta => l' eta - l eta) μ := i1.sub i2
  have h := integral_mono i6 i5 hp
  have r1 : ∫ eta, (l' eta - l eta) ∂μ = ∫ eta, l' eta ∂μ - ∫ eta, l eta ∂μ := integral_sub i1 i2
  have r2 : ∫ eta, (Real.log (E' / E) + (Real.exp (l' eta - l eta) * (E / E') - 1)) ∂μ = Real.log (E' / E) := by
    rw [integral_add (integrable_const _) i4, integral_sub (i3.mul_const _) (integrable_const _), integral_mul_const, v3]
    simp only [integral_const, probReal_univ, one_smul]
    field_simp
    ring
  rw [← Real.log_div h0'.ne' h0.ne', ← r1, ← r2]
  exact h

/-! ## The update of the hyper-parameters -/

section Hyper

variable {ι : Type} [Fintype ι] [Nonempty ι]

/-- The log likelihood of numbers under a normal distribution. -/
theorem sum_logNormal (y : ι → ℝ) (m s A : ℝ) (hs : 0 < s) (hA : A = (∑ i, y i) / Fintype.card ι) (D : ℝ)
    (hD : D = (∑ i, (y i - A) ^ 2) / Fintype.card ι) : ∑ i, logNormal m s (y i) =
      Fintype.card ι * (-(Real.log (2 * Real.pi) / 2) - Real.log s - (D + (A - m) ^ 2) / (2 * s ^ 2)) := by
  have hN : (Fintype.card ι : ℝ) ≠ 0 := by exact_mod_cast Fintype.card_ne_zero
  simp only [logNormal_formula hs]
  have e1 : ∑ i, y i = Fintype.card ι * A := by rw [hA]; field_simp
  have e2 : ∑ i, (y i - A) ^ 2 = Fintype.card ι * D := by rw [hD]; field_simp
  have e3 : ∑ i, (y i - m) ^ 2 = Fintype.card ι * (D + (A - m) ^ 2) := by
    have h : ∀ i, (y i - m) ^ 2 = (y i - A) ^ 2 + (2 * (A - m) * y i + (m ^ 2 - A ^ 2)) := fun i => by ring
    simp only [h, Finset.sum_add_distrib, e2, ← Finset.mul_sum, e1, Finset.sum_const, Finset.card_univ, nsmul_eq_mul]
    ring
  rw [Finset.sum_sub_distrib, ← Finset.sum_div, e3]
  simp only [Finset.sum_const, Finset.card_univ, nsmul_eq_mul]
  ring

/-- Mean and standard deviation are the best. -/
theorem normal_best (y : ι → ℝ) (m s A sd : ℝ) (hs : 0 < s) (hsd : 0 < sd) (hA : A = (∑ i, y i) / Fintype.card ι)
    (hD : sd ^ 2 = (∑ i, (y i - A) ^ 2) / Fintype.card ι) : ∑ i, logNormal m s (y i) ≤ ∑ i, logNormal A sd (y i) := by
  rw [sum_logNormal y m s A hs hA _ hD, sum_logNormal y A sd A hsd hA _ hD]
  refine mul_le_mul_of_nonneg_left ?_ (Nat.cast_nonneg _)
  have h := Real.log_le_sub_one_of_pos (div_pos (pow_pos hsd 2) (pow_pos hs 2))
  rw [Real.log_div (pow_pos hsd 2).ne' (pow_pos hs 2).ne', Real.log_pow, Real.log_pow] at h
  push_cast at h
  have h1 : (sd ^ 2 + (A - A) ^ 2) / (2 * sd ^ 2) = 1 / 2 := by field_simp; ring
  have h2 : sd ^ 2 / s ^ 2 / 2 ≤ (sd ^ 2 + (A - m) ^ 2) / (2 * s ^ 2) := by
    rw [div_div, mul_comm (s ^ 2)]
    exact div_le_div_of_nonneg_right (by nlinarith [sq_nonneg (A - m)]) (by positivity)
  rw [h1]
  linarith

/-- A slightly larger standard deviation is almost the best. -/
theorem normal_near (y : ι → ℝ) (A sd r : ℝ) (hr : 0 ≤ r) (hsd : 0 < sd) (hA : A = (∑ i, y i) / Fintype.card ι)
    (hD : sd ^ 2 = (∑ i, (y i - A) ^ 2) / Fintype.card ι) :
    ∑ i, logNormal A sd (y i) - Fintype.card ι * (3 / 2 * (r / sd) ^ 2) ≤ ∑ i, logNormal A (sd + r) (y i) := by
  have hs : 0 < sd + r := by linarith
  rw [sum_logNormal y A (sd + r) A hs hA _ hD, sum_logNormal y A sd A hsd hA _ hD, ← mul_sub]
  refine mul_le_mul_of_nonneg_left ?_ (Nat.cast_nonneg _)
  set q := r / sd with hq
  have hq0 : 0 ≤ q := div_nonneg hr hsd.le
  have er : sd + r = sd * (1 + q) := by rw [hq]; field_simp
  have h1 : (sd ^ 2 + (A - A) ^ 2) / (2 * sd ^ 2) = 1 / 2 := by field_simp; ring
  have h2 : (sd ^ 2 + (A - A) ^ 2) / (2 * (sd + r) ^ 2) = 1 / (2 * (1 + q) ^ 2) := by
    rw [er]
    field_simp
    ring
  have h3 : Real.log (sd + r) = Real.log sd + Real.log (1 + q) := by rw [er, Real.log_mul hsd.ne' (by linarith)]
  have h4 : Real.log (1 + q) ≤ q := by
    have := Real.log_le_sub_one_of_pos (show 0 < 1 + q by linarith)
    linarith
  have h5 : 1 / (2 * (1 + q) ^ 2) ≤ 1 / 2 - q + 3 / 2 * q ^ 2 := by
    rw [div_le_iff₀ (by positivity)]
    nlinarith [pow_nonneg hq0 3, pow_nonneg hq0 4]
  rw [h1, h2, h3]
  linarith

end Hyper

end ZhuSuan.Lntm

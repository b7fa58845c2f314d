import Verif.Lemmas.Gibbs
import Verif.Lemmas.PiBlocks
import Verif.Lemmas.PmfSelect
import Verif.Props.Normal

/-!
# The density of the posterior of probabilistic matrix factorization
-/

set_option autoImplicit false

open MeasureTheory Set ProbabilityTheory Function
open scoped ENNReal

namespace ZhuSuan.Pmf

open Gibbs

variable {a b c D : ℕ}

theorem mean_eq (u v : Fin D → ℝ) : mean u v = Uni.sigmoid (∑ d, u d * v d) := rfl

theorem exp_logProb {std : ℝ} (h : 0 < std) (m x : ℝ) :
    ENNReal.ofReal (Real.exp (Uni.Normal.logProb m (Real.log std) x)) = gaussianPDF m (var std) x := by
  rw [gaussianPDF]
  congr 1
  exact Uni.C18_density m (.std std) h x

/-- The standard deviation of the entries of a block. -/
def blockStd (s : Stds) : Fin a ⊕ Fin b → ℝ := Sum.elim (fun _ => s.u) (fun _ => s.v)

theorem blockStd_pos (s : Stds) (k : Fin a ⊕ Fin b) : 0 < blockStd s k := by
  cases k
  · exact s.u_pos
  · exact s.v_pos

/-- The log density of a block under the prior. -/
noncomputable def logBlock (std : ℝ) (q : Fin c × Fin D → ℝ) : ℝ := ∑ e, Uni.Normal.logProb 0 (Real.log std) (q e)

/-- The log density of a rating. -/
noncomputable def logRating (s : Stds) (x : Lat a b c D) (t : Rating) : ℝ :=
  Uni.Normal.logProb (mean (user x t.1) (movie x t.2.1)) (Real.log s.r) ((t.2.2 - 1) / 4)

/-- The log density of the vectors and the ratings. -/
noncomputable def logJ (s : Stds) (data : List Rating) (x : Lat a b c D) : ℝ :=
  ∑ k, logBlock (blockStd s k) (x k) + (data.map (logRating s x)).sum

/-! ## Continuity -/

theorem continuous_logProb (l : ℝ) : Continuous fun p : ℝ × ℝ => Uni.Normal.logProb p.1 l p.2 := by
  unfold Uni.Normal.logProb
  fun_prop

theorem continuous_logBlock (std : ℝ) : Continuous (logBlock (c := c) (D := D) std) := by
  unfold logBlock Uni.Normal.logProb
  fun_prop

theorem continuous_row {n : ℕ} (i : ℕ) (d : Fin D) : Continuous fun X : Fin n → Fin c × Fin D → ℝ => row X i d := by
  unfold row
  by_cases h : i / c < n ∧ i % c < c
  · simp only [dif_pos h]
    fun_prop
  · simp only [dif_neg h]
    exact continuous_const

theorem continuous_user (i : ℕ) (d : Fin D) : Continuous fun x : Lat a b c D => user x i d := by
  have h : Continuous fun x : Lat a b c D => (fun k => x (.inl k) : Fin a → Fin c × Fin D → ℝ) := by fun_prop
  exact (continuous_row i d).comp h

theorem continuous_movie (i : ℕ) (d : Fin D) : Continuous fun x : Lat a b c D => movie x i d := by
  have h : Continuous fun x : Lat a b c D => (fun k => x (.inr k) : Fin b → Fin c × Fin D → ℝ) := by fun_prop
  exact (continuous_row i d).comp h

theorem continuous_mean (t : Rating) : Continuous fun x : Lat a b c D => mean (user x t.1) (movie x t.2.1) := by
  unfold mean
  have h : Continuous fun x : Lat a b c D => ∑ d, user x t.1 d * movie x t.2.1 d :=
    continuous_finsetSum _ fun d _ => (continuous_user t.1 d).mul (continuous_movie t.2.1 d)
  exact continuous_const.div (continuous_const.add (Real.continuous_exp.comp h.neg)) fun x => by positivity

theorem continuous_logRating (s : Stds) (t : Rating) : Continuous fun x : Lat a b c D => logRating s x t :=
  (continuous_logProb _).comp ((continuous_mean t).prodMk continuous_const)

theorem continuous_logRatings (s : Stds) (data : List Rating) :
    Continuous fun x : Lat a b c D => (data.map (logRating s x)).sum := by
  induction data with
  | nil => simpa using continuous_const
  | cons t data ih =>
    simp only [List.map_cons, List.sum_cons]
    exact (continuous_logRating s t).add ih

theorem continuous_logJ (s : Stds) (data : List Rating) : Continuous (logJ (a := a) (b := b) (c := c) (D := D) s data) := by
  refine Continuous.add ?_ (continuous_logRatings s data)
  exact continuous_finsetSum _ fun k _ => (continuous_logBlock _).comp (continuous_apply k)

/-! ## The posterior -/

theorem likelihood_eq (s : Stds) (data : List Rating) (x : Lat a b c D) :
    likelihood s data x = ENNReal.ofReal (Real.exp (data.map (logRating s x)).sum) := by
  unfold likelihood
  induction data with
  | nil => simp
  | cons t data ih =>
    simp only [List.map_cons, List.sum_cons, List.prod_cons]
    rw [ih, Real.exp_add, ENNReal.ofReal_mul (Real.exp_pos _).le, logRating, exp_logProb s.r_pos]

theorem measurable_likelihood (s : Stds) (data : List Rating) : Measurable (likelihood (a := a) (b := b) (c := c) (D := D) s data) := by
  have h : likelihood (a := a) (b := b) (c := c) (D := D) s data =
      fun x => ENNReal.ofReal (Real.exp (data.map (logRating s x)).sum) := funext (likelihood_eq s data)
  rw [h]
  exact (Real.measurable_exp.comp (continuous_logRatings s data).measurable).ennreal_ofReal

instance (s : Stds) : IsProbabilityMeasure (prior a b c D s) := by
  unfold prior
  have : ∀ k : Fin a ⊕ Fin b, IsProbabilityMeasure (Sum.elim (fun _ : Fin a => Measure.pi fun _ : Fin c × Fin D => gaussianReal 0 (var s.u))
    (fun _ : Fin b => Measure.pi fun _ => gaussianReal 0 (var s.v)) k) := by
    rintro (k | k) <;> simp only [Sum.elim_inl, Sum.elim_inr] <;> infer_instance
  infer_instance

theorem var_ne {x : ℝ} (h : 0 < x) : var x ≠ 0 := fun e => by
  have h1 : (var x : ℝ) = 0 := by rw [e]; rfl
  have h2 : (var x : ℝ) = x ^ 2 := rfl
  rw [h2] at h1
  exact (pow_pos h 2).ne' h1

theorem block_density {std : ℝ} (h : 0 < std) : (Measure.pi fun _ : Fin c × Fin D => gaussianReal 0 (var std)) =
    volume.withDensity fun q => ENNReal.ofReal (Real.exp (logBlock std q)) := by
  have e : gaussianReal 0 (var std) = volume.withDensity (gaussianPDF 0 (var std)) := gaussianReal_of_var_ne_zero _ (var_ne h)
  have hs : SigmaFinite ((volume : Measure ℝ).withDensity (gaussianPDF 0 (var std))) := by
    rw [← e]; infer_instance
  simp only [e]
  rw [Meas.pi_withDensity (fun _ => volume) (fun _ => gaussianPDF 0 (var std)) (fun _ => measurable_gaussianPDF _ _)]
  congr 1
  funext q
  rw [logBlock, Real.exp_sum, ENNReal.ofReal_prod_of_nonneg fun _ _ => (Real.exp_pos _).le]
  exact Finset.prod_congr rfl fun e _ => (exp_logProb h 0 (q e)).symm

theorem prior_density (s : Stds) : prior a b c D s =
    volume.withDensity fun x => ENNReal.ofReal (Real.exp (∑ k, logBlock (blockStd s k) (x k))) := by
  have e : (Sum.elim (fun _ : Fin a => Measure.pi fun _ : Fin c × Fin D => gaussianReal 0 (var s.u))
      (fun _ : Fin b => Measure.pi fun _ => gaussianReal 0 (var s.v))) = fun k =>
      volume.withDensity fun q => ENNReal.ofReal (Real.exp (logBlock (blockStd s k) q)) := by
    funext k
    cases k
    · exact block_density s.u_pos
    · exact block_density s.v_pos
  rw [prior, e, Meas.pi_withDensity (fun _ => volume) (fun k q => ENNReal.ofReal (Real.exp (logBlock (blockStd s k) q)))
    (fun k => (Real.measurable_exp.comp (continuous_logBlock _).measurable).ennreal_ofReal)]
  congr 1
  funext x
  rw [Real.exp_sum, ENNReal.ofReal_prod_of_nonneg fun _ _ => (Real.exp_pos _).le]

theorem joint_eq (s : Stds) (data : List Rating) :
    (prior a b c D s).withDensity (likelihood s data) = joint (logJ s data) := by
  have m1 : Measurable fun x : Lat a b c D => ENNReal.ofReal (Real.exp (∑ k, logBlock (blockStd s k) (x k))) := by
    have : Continuous fun x : Lat a b c D => ∑ k, logBlock (blockStd s k) (x k) :=
      continuous_finsetSum _ fun k _ => (continuous_logBlock _).comp (continuous_apply k)
    exact (Real.measurable_exp.comp this.measurable).ennreal_ofReal
  rw [prior_density, ← withDensity_mul _ m1 (measurable_likelihood s data), joint]
  congr 1
  funext x
  rw [Pi.mul_apply, likelihood_eq, ← ENNReal.ofReal_mul (Real.exp_pos _).le, ← Real.exp_add, logJ]

theorem gaussianPDF_le (m : ℝ) (v : NNReal) (x : ℝ) : gaussianPDF m v x ≤ ENNReal.ofReal (√(2 * Real.pi * v))⁻¹ := by
  rw [gaussianPDF, gaussianPDFReal]
  refine ENNReal.ofReal_le_ofReal ?_
  refine mul_le_of_le_one_right (by positivity) (Real.exp_le_one_iff.2 ?_)
  rw [neg_div, neg_nonpos]
  positivity

theorem likelihood_le (s : Stds) (data : List Rating) (x : Lat a b c D) :
    likelihood s data x ≤ ENNReal.ofReal (√(2 * Real.pi * var s.r))⁻¹ ^ data.length := by
  unfold likelihood
  induction data with
  | nil => simp
  | cons t data ih =>
    simp only [List.map_cons, List.prod_cons, List.length_cons, pow_succ']
    exact mul_le_mul' (gaussianPDF_le _ _ _) ih

theorem evidence (s : Stds) (data : List Rating) : ∫⁻ x, likelihood s data x ∂(prior a b c D s) ≠ 0 ∧
    ∫⁻ x, likelihood s data x ∂(prior a b c D s) ≠ ∞ := by
  constructor
  · intro h
    rw [lintegral_eq_zero_iff (measurable_likelihood s data)] at h
    have : ∀ᵐ x ∂(prior a b c D s), False := by
      filter_upwards [h] with x hx
      rw [likelihood_eq] at hx
      simp only [Pi.zero_apply, ENNReal.ofReal_eq_zero] at hx
      exact absurd (Real.exp_pos (data.map (logRating s x)).sum) (not_lt.2 hx)
    simp only [Filter.eventually_false_iff_eq_bot, ae_eq_bot] at this
    exact IsProbabilityMeasure.ne_zero (prior a b c D s) this
  · refine ne_top_of_le_ne_top ?_ (lintegral_mono (likelihood_le s data))
    rw [lintegral_const, measure_univ, mul_one]
    exact ENNReal.pow_ne_top ENNReal.ofReal_ne_top

theorem posterior_eq (s : Stds) (data : List Rating) : posterior a b c D s data =
    (∫⁻ x, likelihood s data x ∂(prior a b c D s))⁻¹ • joint (logJ s data) := by
  rw [posterior, joint_eq]

instance posterior_prob (s : Stds) (data : List Rating) : IsProbabilityMeasure (posterior a b c D s data) := by
  obtain ⟨h0, h1⟩ := evidence (a := a) (b := b) (c := c) (D := D) s data
  refine ⟨?_⟩
  rw [posterior, Measure.smul_apply, withDensity_apply _ MeasurableSet.univ, Measure.restrict_univ, smul_eq_mul,
    ENNReal.inv_mul_cancel h0 h1]

end ZhuSuan.Pmf

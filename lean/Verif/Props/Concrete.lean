import Mathlib.MeasureTheory.Function.Jacobian
import Verif.Lemmas.LogSumExp
import Verif.Props.Simplex

/-!
# C33 Concrete and ExpConcrete

As for the Dirichlet, a point of the simplex is given by its first `n` entries.  A point of the log simplex
is given by its first `n` logarithms `y`; the last entry is `log (1 - ∑ exp y)`.
-/

set_option autoImplicit false

open MeasureTheory Set
open scoped ENNReal

namespace ZhuSuan.Num
open Meas Uni

variable {n : ℕ} (f : Flags) (logits : Fin (n + 1) → ℝ) (t : ℝ)

/-! ## Samples -/

/-- C33.  Samples of Concrete lie in the open simplex. -/
theorem C33_sample_simplex (u : Fin (n + 1) → ℝ) :
    (∀ i, 0 < concreteSample f logits t u i) ∧ ∑ i, concreteSample f logits t u i = 1 := by
  simp only [concreteSample, Fn.exp, Fn.sum]
  have h := sum_exp_pos fun i => (f.sampleParam (logits i) + Fn.ofReal (gumbel (u i))) / f.sampleParam t
  exact ⟨fun i => div_pos (Real.exp_pos _) h, by rw [← Finset.sum_div, div_self h.ne']⟩

/-- C33.  Samples of ExpConcrete are their logarithms. -/
theorem C33_sample_log (u : Fin (n + 1) → ℝ) (i : Fin (n + 1)) :
    expConcreteSample f logits t u i = Real.log (concreteSample f logits t u i) := by
  simp only [concreteSample, expConcreteSample, Fn.exp, Fn.sum, logSumExp_real]
  rw [Real.log_div (Real.exp_pos _).ne' (sum_exp_pos _).ne', Real.log_exp]

/-! ## The two densities -/

/-- C33.  The densities are related by the change of variables `x = exp y`. -/
theorem C33_change_of_variables (y : Fin (n + 1) → ℝ) :
    expConcreteLogProb f logits t y =
      concreteLogProb f logits t (fun i => Real.exp (y i)) + ∑ i, y i := by
  simp only [expConcreteLogProb, concreteLogProb, Fn.log, Real.log_exp, Fn.sum, real_pathParam,
    Finset.sum_sub_distrib]
  ring

/-- C33.  Adding a constant to the logits changes neither density. -/
theorem C33_shift (c : ℝ) (x : Fin (n + 1) → ℝ) :
    concreteLogProb f (fun i => logits i + c) t x = concreteLogProb f logits t x ∧
    expConcreteLogProb f (fun i => logits i + c) t x = expConcreteLogProb f logits t x := by
  have e : ∀ v : Fin (n + 1) → ℝ, logSumExp (fun i => logits i + c - t * v i) =
      logSumExp (fun i => logits i - t * v i) + c := by
    intro v
    rw [← logSumExp_shift]
    congr 1
    funext i
    ring
  constructor
  · simp only [concreteLogProb, real_pathParam, Fn.sum, e]
    simp only [Fn.ofReal, Finset.sum_sub_distrib, Finset.sum_add_distrib, Finset.sum_const,
      Finset.card_univ, Fintype.card_fin, nsmul_eq_mul]
    ring
  · simp only [expConcreteLogProb, real_pathParam, Fn.sum, e]
    simp only [Fn.ofReal, Finset.sum_sub_distrib, Finset.sum_add_distrib, Finset.sum_const,
      Finset.card_univ, Fintype.card_fin, nsmul_eq_mul]
    ring

/-! ## Laws -/

/-- The density of `exp ((l + gumbel u) / t)`, zero outside the positive numbers. -/
noncomputable def cdens (t l : ℝ) : ℝ → ℝ≥0∞ :=
  (Ioi 0).indicator fun y => ENNReal.ofReal
    (Real.exp (Real.log t + l - (t + 1) * Real.log y - Real.exp (l - t * Real.log y)))

theorem measurable_cdens (t l : ℝ) : Measurable (cdens t l) := by
  refine Measurable.indicator ?_ measurableSet_Ioi
  fun_prop

theorem cdens_pos {t l y : ℝ} (h : cdens t l y ≠ 0) : 0 < y := by
  by_contra hx
  exact h (indicator_of_notMem (by exact hx) _)

theorem measurable_gumbel : Measurable gumbel := by unfold gumbel; fun_prop

/-- The law of one entry before normalisation. -/
theorem gumbel_law {t : ℝ} (ht : 0 < t) (l : ℝ) :
    (volume.restrict (Ioo (0 : ℝ) 1)).map (fun u => Real.exp ((l + gumbel u) / t)) =
      volume.withDensity (cdens t l) := by
  have hlog : ∀ u ∈ Ioo (0 : ℝ) 1, 0 < -Real.log u := fun u hu => by
    have := Real.log_neg hu.1 hu.2; linarith
  have himg : (fun u => Real.exp ((l + gumbel u) / t)) '' Ioo (0 : ℝ) 1 = Ioi 0 := by
    ext y
    constructor
    · rintro ⟨u, _, rfl⟩; exact Real.exp_pos _
    · intro hy
      have hy : 0 < y := hy
      refine ⟨Real.exp (-Real.exp (l - t * Real.log y)), ⟨Real.exp_pos _, ?_⟩, ?_⟩
      · rw [Real.exp_lt_one_iff]
        have := Real.exp_pos (l - t * Real.log y); linarith
      · simp only [gumbel]
        rw [Real.log_exp, neg_neg, Real.log_exp,
          show (l + -(l - t * Real.log y)) / t = Real.log y by field_simp; ring, Real.exp_log hy]
  have h := map_withDensity_of_deriv (S := Ioo (0 : ℝ) 1) measurableSet_Ioo
    (T := fun u => Real.exp ((l + gumbel u) / t))
    (T' := fun u => Real.exp ((l + gumbel u) / t) * ((1 / (u * -Real.log u)) / t))
    (p := fun _ => 1)
    (q := fun y => ENNReal.ofReal
      (Real.exp (Real.log t + l - (t + 1) * Real.log y - Real.exp (l - t * Real.log y))))
    (Real.measurable_exp.comp ((measurable_const.add measurable_gumbel).div_const t))
    (fun u hu => by
      apply HasDerivAt.hasDerivWithinAt
      have hl := hlog u hu
      have hu0 : u ≠ 0 := hu.1.ne'
      have h1 : HasDerivAt (fun v => -Real.log v) (-(u⁻¹)) u := (Real.hasDerivAt_log hu0).neg
      have h2 := (((h1.log hl.ne').neg).const_add l).div_const t
      have h3 := h2.exp
      refine HasDerivAt.congr_deriv h3 ?_
      simp only [gumbel]
      congr 2
      field_simp)
    (fun a ha b hb hab => by
      have h1 := Real.exp_injective hab
      have h2 : gumbel a = gumbel b := by
        field_simp at h1; linarith
      simp only [gumbel, neg_inj] at h2
      have h3 := Real.log_injOn_pos (hlog a ha) (hlog b hb) h2
      exact Real.log_injOn_pos ha.1 hb.1 (neg_injective h3))
    (fun u hu => by
      have hl := hlog u hu
      have hu0 : 0 < u := hu.1
      have hpos : 0 < Real.exp ((l + gumbel u) / t) * ((1 / (u * -Real.log u)) / t) := by positivity
      rw [abs_of_pos hpos, ← ENNReal.ofReal_mul hpos.le, ← ENNReal.ofReal_one]
      congr 1
      rw [Real.log_exp]
      have e1 : l - t * ((l + gumbel u) / t) = Real.log (-Real.log u) := by
        simp only [gumbel]; field_simp; ring
      have e2 : Real.log t + l - (t + 1) * ((l + gumbel u) / t) =
          Real.log t + Real.log (-Real.log u) - (l + gumbel u) / t := by
        simp only [gumbel]; field_simp; ring
      rw [e1, e2, Real.exp_log hl, sub_neg_eq_add, Real.exp_add, Real.exp_sub, Real.exp_add,
        Real.exp_log ht, Real.exp_log hl, Real.exp_log hu0]
      have := Real.exp_pos ((l + gumbel u) / t)
      have hl' := hl.ne'
      generalize -Real.log u = r at hl' ⊢
      field_simp)
  rw [himg] at h
  have h2 : (volume.restrict (Ioo (0 : ℝ) 1)).withDensity (fun _ => 1) =
      volume.restrict (Ioo (0 : ℝ) 1) := withDensity_one
  rw [h2] at h
  rw [h, cdens, withDensity_indicator measurableSet_Ioi]

/-- The radial integral behind the Concrete law. -/
theorem concrete_radial (ht : 0 < t) (x : Fin (n + 1) → ℝ) (hx : ∀ i, 0 < x i) :
    ∫⁻ s in Ioi (0 : ℝ), ENNReal.ofReal (s ^ n) * ∏ i, cdens t (logits i) (s * x i) =
      ENNReal.ofReal (Real.exp (concreteLogProb f logits t x)) := by
  set C : ℝ := ∑ i, Real.exp (logits i - t * Real.log (x i)) with hC
  have hC0 : 0 < C := sum_exp_pos _
  set K : ℝ := (n + 1) * Real.log t + ∑ i, (logits i - (t + 1) * Real.log (x i)) with hK
  -- the integrand as a function of `s`
  set G : ℝ → ℝ≥0∞ := fun s => ENNReal.ofReal
    (Real.exp (K - (1 + (n + 1) * t) * Real.log s - C * Real.exp (-(t * Real.log s)))) with hG
  have e : ∀ s ∈ Ioi (0 : ℝ), ENNReal.ofReal (s ^ n) * ∏ i, cdens t (logits i) (s * x i) = G s := by
    intro s hs0
    have hs0 : 0 < s := hs0
    have e1 : ∀ i, cdens t (logits i) (s * x i) = ENNReal.ofReal (Real.exp (Real.log t + logits i -
        (t + 1) * Real.log (s * x i) - Real.exp (logits i - t * Real.log (s * x i)))) := fun i =>
      indicator_of_mem (show s * x i ∈ Ioi 0 from mul_pos hs0 (hx i)) _
    simp only [e1, hG]
    rw [← ENNReal.ofReal_prod_of_nonneg fun i _ => (Real.exp_pos _).le,
      ← ENNReal.ofReal_mul (by positivity), ← Real.exp_sum]
    congr 1
    have e2 : s ^ n = Real.exp (n * Real.log s) := by
      rw [Real.exp_nat_mul, Real.exp_log hs0]
    rw [e2, ← Real.exp_add]
    congr 1
    have e3 : ∀ i, Real.log t + logits i - (t + 1) * Real.log (s * x i) -
        Real.exp (logits i - t * Real.log (s * x i)) = Real.log t +
        (logits i - (t + 1) * Real.log (x i)) - (t + 1) * Real.log s -
        Real.exp (logits i - t * Real.log (x i)) * Real.exp (-(t * Real.log s)) := by
      intro i
      rw [Real.log_mul hs0.ne' (hx i).ne', ← Real.exp_add]
      ring_nf
    have e4 : ∀ (a b : Fin (n + 1) → ℝ) (c d : ℝ), ∑ i, (Real.log t + a i - c - b i * d) =
        (n + 1) * Real.log t + ∑ i, a i - (n + 1) * c - (∑ i, b i) * d := by
      intro a b c d
      simp [Finset.sum_sub_distrib, Finset.sum_add_distrib, Finset.sum_mul]
    simp only [e3]
    rw [e4 (fun i => logits i - (t + 1) * Real.log (x i))
      (fun i => Real.exp (logits i - t * Real.log (x i))), hK, hC]
    ring
  rw [setLIntegral_congr_fun measurableSet_Ioi e]
  -- substitute `s = w ^ (-1/t)`
  have himg : (fun w : ℝ => Real.exp (-(Real.log w) / t)) '' Ioi 0 = Ioi 0 := by
    ext y
    constructor
    · rintro ⟨u, _, rfl⟩; exact Real.exp_pos _
    · intro hy
      have hy : 0 < y := hy
      refine ⟨Real.exp (-(t * Real.log y)), Real.exp_pos _, ?_⟩
      simp only [Real.log_exp, neg_neg]
      rw [mul_div_cancel_left₀ _ ht.ne', Real.exp_log hy]
  have hsub := lintegral_image_eq_lintegral_abs_deriv_mul (s := Ioi (0 : ℝ)) measurableSet_Ioi
    (f := fun w => Real.exp (-(Real.log w) / t))
    (f' := fun w => Real.exp (-(Real.log w) / t) * (-(w⁻¹) / t))
    (fun w hw => by
      apply HasDerivAt.hasDerivWithinAt
      have hw : w ≠ 0 := (show 0 < w from hw).ne'
      exact (((Real.hasDerivAt_log hw).neg).div_const t).exp)
    (fun a ha b hb hab => by
      have h1 := Real.exp_injective hab
      have h2 : Real.log a = Real.log b := by
        field_simp at h1; linarith
      exact Real.log_injOn_pos ha hb h2) G
  rw [himg] at hsub
  rw [hsub]
  have e4 : ∀ w ∈ Ioi (0 : ℝ), ENNReal.ofReal |Real.exp (-(Real.log w) / t) * (-(w⁻¹) / t)| *
      G (Real.exp (-(Real.log w) / t)) =
      ENNReal.ofReal (Real.exp (K - Real.log t)) *
        ENNReal.ofReal (w ^ (((n + 1 : ℕ) : ℝ) - 1) * Real.exp (-(C * w))) := by
    intro w hw
    have hw : 0 < w := hw
    have h1 : |Real.exp (-(Real.log w) / t) * (-(w⁻¹) / t)| =
        Real.exp (-(Real.log w) / t - Real.log w - Real.log t) := by
      rw [abs_mul, abs_of_pos (Real.exp_pos _), neg_div t w⁻¹, abs_neg,
        abs_of_pos (show 0 < w⁻¹ / t by positivity), Real.exp_sub, Real.exp_sub, Real.exp_log hw,
        Real.exp_log ht]
      field_simp
    have h2 : w ^ (((n + 1 : ℕ) : ℝ) - 1) = Real.exp (n * Real.log w) := by
      rw [Nat.cast_add, Nat.cast_one, add_sub_cancel_right, Real.rpow_def_of_pos hw, mul_comm]
    simp only [hG]
    rw [← ENNReal.ofReal_mul (abs_nonneg _), ← ENNReal.ofReal_mul (Real.exp_pos _).le, h1, h2,
      ← Real.exp_add, ← Real.exp_add, ← Real.exp_add]
    congr 2
    rw [Real.log_exp, show -(t * (-Real.log w / t)) = Real.log w by field_simp, Real.exp_log hw]
    field_simp
    ring
  rw [setLIntegral_congr_fun measurableSet_Ioi e4, lintegral_const_mul _ (by fun_prop)]
  have hn : (0 : ℝ) < ((n + 1 : ℕ) : ℝ) := by positivity
  have hint := Real.integral_rpow_mul_exp_neg_mul_Ioi hn hC0
  have hval : 0 < (1 / C) ^ ((n + 1 : ℕ) : ℝ) * Real.Gamma ((n + 1 : ℕ) : ℝ) := by
    have := Real.Gamma_pos_of_pos hn
    positivity
  have hi : IntegrableOn (fun w : ℝ => w ^ (((n + 1 : ℕ) : ℝ) - 1) * Real.exp (-(C * w))) (Ioi 0) := by
    by_contra hni
    rw [integral_undef hni] at hint
    exact hval.ne hint
  rw [← ofReal_integral_eq_lintegral_ofReal hi, hint, ← ENNReal.ofReal_mul (Real.exp_pos _).le]
  · congr 1
    have hG : Real.Gamma ((n + 1 : ℕ) : ℝ) = Real.exp (lgamma ((n + 1 : ℕ) : ℝ)) := by
      rw [lgamma, Real.exp_log (Real.Gamma_pos_of_pos hn)]
    have hCp : (1 / C) ^ ((n + 1 : ℕ) : ℝ) = Real.exp (-((n + 1 : ℕ) : ℝ) * Real.log C) := by
      rw [Real.rpow_def_of_pos (by positivity), one_div, Real.log_inv]
      ring_nf
    rw [hG, hCp, ← Real.exp_add, ← Real.exp_add]
    congr 1
    simp only [concreteLogProb, real_pathParam, Fn.sum, Fn.ofReal, Fn.log, Fn.lgamma, logSumExp_real]
    rw [← hC, hK]
    have e5 : ∀ i, logits i - t * Real.log (x i) - Real.log (x i) =
        logits i - (t + 1) * Real.log (x i) := fun i => by ring
    simp only [e5]
    push_cast
    ring
  · filter_upwards [ae_restrict_mem measurableSet_Ioi] with w hw
    have : (0 : ℝ) < w := hw
    positivity

/-- The uniform draws. -/
noncomputable def uniforms (n : ℕ) : Measure (Fin (n + 1) → ℝ) :=
  Measure.pi fun _ => volume.restrict (Ioo (0 : ℝ) 1)

instance : IsProbabilityMeasure (volume.restrict (Ioo (0 : ℝ) 1)) := ⟨by simp⟩
instance : IsProbabilityMeasure (uniforms n) := by unfold uniforms; infer_instance

theorem measurable_concreteSample : Measurable fun u (i : Fin (n + 1)) => concreteSample f logits t u i := by
  refine measurable_pi_lambda _ fun i => ?_
  simp only [concreteSample, real_sampleParam, Fn.ofReal, Fn.exp, Fn.sum]
  have h : ∀ j : Fin (n + 1), Measurable fun u : Fin (n + 1) → ℝ =>
      Real.exp ((logits j + gumbel (u j)) / t) := fun j =>
    Real.measurable_exp.comp
      ((measurable_const.add (measurable_gumbel.comp (measurable_pi_apply j))).div_const t)
  exact (h i).div (Finset.measurable_sum _ fun j _ => h j)

/-- C33.  The sampler of Concrete has the density `prob`. -/
theorem C33_sampler (ht : 0 < t) :
    (uniforms n).map (fun u (j : Fin n) => concreteSample f logits t u j.castSucc) =
      (volume.restrict (openSimplex n)).withDensity fun x =>
        ENNReal.ofReal (Real.exp (concreteLogProb f logits t (simplexPoint x))) := by
  have hs : ∀ i, SigmaFinite ((volume : Measure ℝ).withDensity (cdens t (logits i))) := fun i => by
    rw [← gumbel_law ht]
    have : Measurable fun u => Real.exp ((logits i + gumbel u) / t) :=
      Real.measurable_exp.comp ((measurable_const.add measurable_gumbel).div_const t)
    have : IsProbabilityMeasure ((volume.restrict (Ioo (0 : ℝ) 1)).map
        fun u => Real.exp ((logits i + gumbel u) / t)) :=
      Measure.isProbabilityMeasure_map this.aemeasurable
    infer_instance
  have m1 : ∀ i : Fin (n + 1), Measurable fun u => Real.exp ((logits i + gumbel u) / t) := fun i =>
    Real.measurable_exp.comp ((measurable_const.add measurable_gumbel).div_const t)
  have e1 : (fun (u : Fin (n + 1) → ℝ) (j : Fin n) => concreteSample f logits t u j.castSucc) =
      (fun (y : Fin (n + 1) → ℝ) (j : Fin n) => y j.castSucc / ∑ i, y i) ∘
        fun u i => Real.exp ((logits i + gumbel (u i)) / t) := by
    funext u j
    simp [concreteSample, Fn.exp, Fn.sum, Fn.ofReal]
  have m2 : Measurable fun (y : Fin (n + 1) → ℝ) (j : Fin n) => y j.castSucc / ∑ i, y i := by
    fun_prop
  have m3 : Measurable fun (u : Fin (n + 1) → ℝ) (i : Fin (n + 1)) =>
      Real.exp ((logits i + gumbel (u i)) / t) :=
    measurable_pi_lambda _ fun i => (m1 i).comp (measurable_pi_apply i)
  have hs' : ∀ i : Fin (n + 1), SigmaFinite ((volume.restrict (Ioo (0 : ℝ) 1)).map
      fun u => Real.exp ((logits i + gumbel u) / t)) := fun i => by
    rw [gumbel_law ht]; exact hs i
  have e2 : (uniforms n).map (fun u i => Real.exp ((logits i + gumbel (u i)) / t)) =
      Measure.pi fun i => (volume : Measure ℝ).withDensity (cdens t (logits i)) := by
    rw [uniforms, Measure.pi_map_pi (μ := fun _ : Fin (n + 1) => volume.restrict (Ioo (0 : ℝ) 1))
      (f := fun i u => Real.exp ((logits i + gumbel u) / t)) (fun i => (m1 i).aemeasurable)]
    congr 1
    funext i
    exact gumbel_law ht (logits i)
  rw [e1, ← Measure.map_map m2 m3, e2, normalised_pi (fun i => cdens t (logits i))
    (fun i => measurable_cdens _ _) (fun i y h => cdens_pos h),
    ← withDensity_indicator measurableSet_openSimplex]
  congr 1
  funext x
  by_cases hx : x ∈ openSimplex n
  · rw [indicator_of_mem hx]
    obtain ⟨h1, h2⟩ := (mem_openSimplex x).1 hx
    exact concrete_radial f logits t ht (simplexPoint x) h1
  · rw [indicator_of_notMem hx]
    refine (setLIntegral_congr_fun measurableSet_Ioi fun s hs => ?_).trans lintegral_zero
    have hs : 0 < s := hs
    have : ∏ i, cdens t (logits i) (s * simplexPoint x i) = 0 := by
      by_contra hne
      apply hx
      rw [mem_openSimplex]
      refine ⟨fun i => ?_, ?_⟩
      · have := cdens_pos (Finset.prod_ne_zero_iff.1 hne i (Finset.mem_univ i))
        exact (mul_pos_iff_of_pos_left hs).1 this
      · rw [Fin.sum_univ_castSucc]
        simp [simplexPoint]
    rw [this, mul_zero]

/-- C33.  Concrete's `prob` integrates to one over the simplex. -/
theorem C33_total (ht : 0 < t) :
    ∫⁻ x in openSimplex n,
      ENNReal.ofReal (Real.exp (concreteLogProb f logits t (simplexPoint x))) = 1 := by
  have e := congrArg (fun m : Measure (Fin n → ℝ) => m Set.univ) (C33_sampler f logits t ht)
  simp only [withDensity_apply _ MeasurableSet.univ, Measure.restrict_univ] at e
  have hm : Measurable fun (u : Fin (n + 1) → ℝ) (j : Fin n) =>
      concreteSample f logits t u j.castSucc :=
    measurable_pi_lambda _ fun j =>
      (measurable_pi_apply j.castSucc).comp (measurable_concreteSample f logits t)
  rw [← e, Measure.map_apply hm MeasurableSet.univ]
  simp

/-! ## ExpConcrete -/

/-- The log-simplex point with first entries `y`. -/
noncomputable def logPoint (y : Fin n → ℝ) : Fin (n + 1) → ℝ :=
  Fin.snoc (α := fun _ => ℝ) y (Real.log (1 - ∑ i, Real.exp (y i)))

/-- The log simplex by its first entries. -/
def logSimplex (n : ℕ) : Set (Fin n → ℝ) := {y | ∑ i, Real.exp (y i) < 1}

theorem measurableSet_logSimplex : MeasurableSet (logSimplex n) :=
  measurableSet_lt (by fun_prop) measurable_const

theorem exp_logPoint {y : Fin n → ℝ} (hy : y ∈ logSimplex n) (i : Fin (n + 1)) :
    Real.exp (logPoint y i) = simplexPoint (fun j => Real.exp (y j)) i := by
  have hy : ∑ i, Real.exp (y i) < 1 := hy
  refine Fin.lastCases ?_ (fun j => ?_) i
  · simp [logPoint, simplexPoint, Real.exp_log (show 0 < 1 - ∑ i, Real.exp (y i) by linarith)]
  · simp [logPoint, simplexPoint]

/-- Coordinatewise logarithm of Lebesgue measure on the positive orthant. -/
theorem map_log_pi : (Measure.pi fun _ : Fin n => (volume : Measure ℝ).restrict (Ioi 0)).map
      (fun x i => Real.log (x i)) =
    (volume : Measure (Fin n → ℝ)).withDensity fun y => ∏ i, ENNReal.ofReal (Real.exp (y i)) := by
  have h1 : ((volume : Measure ℝ).restrict (Ioi 0)).map Real.log =
      volume.withDensity fun y => ENNReal.ofReal (Real.exp y) := by
    have himg : Real.log '' Ioi (0 : ℝ) = univ := by
      ext y
      simp only [mem_image, mem_Ioi, mem_univ, iff_true]
      exact ⟨Real.exp y, Real.exp_pos y, Real.log_exp y⟩
    have h := map_withDensity_of_deriv (S := Ioi (0 : ℝ)) measurableSet_Ioi (T := Real.log)
      (T' := fun x => x⁻¹) (p := fun _ => 1) (q := fun y => ENNReal.ofReal (Real.exp y))
      Real.measurable_log
      (fun x hx => (Real.hasDerivAt_log (show 0 < x from hx).ne').hasDerivWithinAt)
      (fun a ha b hb hab => Real.log_injOn_pos ha hb hab)
      (fun x hx => by
        have hx : 0 < x := hx
        rw [abs_of_pos (by positivity), ← ENNReal.ofReal_mul (by positivity), Real.exp_log hx,
          inv_mul_cancel₀ hx.ne', ENNReal.ofReal_one])
    rw [himg, Measure.restrict_univ] at h
    have h2 : ((volume : Measure ℝ).restrict (Ioi 0)).withDensity (fun _ => 1) =
      volume.restrict (Ioi 0) := withDensity_one
    rwa [h2] at h
  have s1 : SigmaFinite ((volume : Measure ℝ).withDensity fun y => ENNReal.ofReal (Real.exp y)) :=
    SigmaFinite.withDensity_ofReal (μ := (volume : Measure ℝ)) (f := Real.exp)
  have s2 : SigmaFinite (((volume : Measure ℝ).restrict (Ioi 0)).map Real.log) := by
    rw [h1]; exact s1
  rw [Measure.pi_map_pi (μ := fun _ : Fin n => (volume : Measure ℝ).restrict (Ioi 0))
    (f := fun _ => Real.log) (fun _ => Real.measurable_log.aemeasurable)]
  simp only [h1]
  rw [pi_withDensity (fun _ : Fin n => (volume : Measure ℝ))
    (fun _ y => ENNReal.ofReal (Real.exp y)) (fun _ => by fun_prop)]
  rfl

/-- C33.  The law of a sample of ExpConcrete.  With respect to Lebesgue measure of the first `n` entries
the density is `prob` divided by the last probability `1 - ∑ exp y`: the code's density is taken with
respect to the surface measure of the log simplex (Lebesgue measure of the log vector divided by the
differential of log-sum-exp), which is symmetric in the entries. -/
theorem C33_exp_sampler (ht : 0 < t) :
    (uniforms n).map (fun u (j : Fin n) => expConcreteSample f logits t u j.castSucc) =
      (volume.restrict (logSimplex n)).withDensity fun y =>
        ENNReal.ofReal (Real.exp (expConcreteLogProb f logits t (logPoint y)) /
          (1 - ∑ i, Real.exp (y i))) := by
  have m0 : Measurable fun (x : Fin n → ℝ) (i : Fin n) => Real.log (x i) := by fun_prop
  have m1 : Measurable fun (u : Fin (n + 1) → ℝ) (j : Fin n) =>
      concreteSample f logits t u j.castSucc :=
    measurable_pi_lambda _ fun j =>
      (measurable_pi_apply j.castSucc).comp (measurable_concreteSample f logits t)
  have e1 : (fun (u : Fin (n + 1) → ℝ) (j : Fin n) => expConcreteSample f logits t u j.castSucc) =
      (fun (x : Fin n → ℝ) (i : Fin n) => Real.log (x i)) ∘
        fun u (j : Fin n) => concreteSample f logits t u j.castSucc := by
    funext u j
    exact C33_sample_log f logits t u j.castSucc
  rw [e1, ← Measure.map_map m0 m1, C33_sampler f logits t ht]
  set p : (Fin n → ℝ) → ℝ≥0∞ := fun x =>
    ENNReal.ofReal (Real.exp (concreteLogProb f logits t (simplexPoint x))) with hp
  have mp : Measurable p := by
    have hsp : ∀ i : Fin (n + 1), Measurable fun x : Fin n → ℝ => simplexPoint x i := by
      intro i
      refine Fin.lastCases ?_ (fun j => ?_) i
      · simp only [simplexPoint, Fin.snoc_last]; fun_prop
      · simp only [simplexPoint, Fin.snoc_castSucc]; fun_prop
    simp only [hp, concreteLogProb, real_pathParam, Fn.sum, Fn.ofReal, Fn.log, Fn.lgamma, logSumExp_real]
    refine Measurable.ennreal_ofReal (Real.measurable_exp.comp ?_)
    refine (measurable_const.add (Finset.measurable_sum _ fun i _ => ?_)).sub
      (measurable_const.mul (Real.measurable_log.comp (Finset.measurable_sum _ fun i _ => ?_)))
    · have := Real.measurable_log.comp (hsp i)
      exact (measurable_const.sub (measurable_const.mul this)).sub this
    · have := Real.measurable_log.comp (hsp i)
      exact Real.measurable_exp.comp (measurable_const.sub (measurable_const.mul this))
  have e2 : (volume.restrict (openSimplex n)).withDensity p =
      (Measure.pi fun _ : Fin n => (volume : Measure ℝ).restrict (Ioi 0)).withDensity
        ((openSimplex n).indicator p) := by
    rw [← Measure.restrict_pi_pi, withDensity_indicator measurableSet_openSimplex,
      Measure.restrict_restrict measurableSet_openSimplex, ← volume_pi]
    congr 2
    ext x
    constructor
    · intro hx; exact ⟨hx, fun i _ => hx.1 i⟩
    · intro hx; exact hx.1
  have hk : Measurable fun y : Fin n → ℝ => ∏ i, ENNReal.ofReal (Real.exp (y i)) := by
    refine Finset.measurable_prod _ fun i _ => ?_
    fun_prop
  rw [e2, map_withDensity_of_map_ae m0 (S := fun y i => Real.exp (y i)) (by fun_prop) ?_
    (mp.indicator measurableSet_openSimplex) hk map_log_pi,
    ← withDensity_indicator measurableSet_logSimplex]
  · congr 1
    funext y
    by_cases hy : y ∈ logSimplex n
    · have hy1 : 0 < 1 - ∑ i, Real.exp (y i) := by
        have : ∑ i, Real.exp (y i) < 1 := hy
        linarith
      have hx : (fun i => Real.exp (y i)) ∈ openSimplex n := ⟨fun i => Real.exp_pos _, hy⟩
      rw [indicator_of_mem hy, indicator_of_mem hx, hp, C33_change_of_variables,
        ← ENNReal.ofReal_prod_of_nonneg fun i _ => (Real.exp_pos _).le,
        ← ENNReal.ofReal_mul (Finset.prod_nonneg fun i _ => (Real.exp_pos _).le)]
      congr 1
      have e3 : (fun i => Real.exp (logPoint y i)) = simplexPoint fun j => Real.exp (y j) :=
        funext (exp_logPoint hy)
      rw [e3, Real.exp_add, Fin.sum_univ_castSucc, Real.exp_add, ← Real.exp_sum]
      simp only [logPoint, Fin.snoc_castSucc, Fin.snoc_last]
      rw [Real.exp_log hy1]
      field_simp
    · have hx : (fun i => Real.exp (y i)) ∉ openSimplex n := fun h => hy h.2
      rw [indicator_of_notMem hy, indicator_of_notMem hx, mul_zero]
  · have h0 : ∀ᵐ x ∂(Measure.pi fun _ : Fin n => (volume : Measure ℝ).restrict (Ioi 0)),
        ∀ i, 0 < x i := by
      rw [ae_all_iff]
      intro i
      have h1 : ∀ᵐ x ∂((volume : Measure ℝ).restrict (Ioi 0)), 0 < x :=
        ae_restrict_mem measurableSet_Ioi
      exact (Measure.quasiMeasurePreserving_eval
        (fun _ : Fin n => (volume : Measure ℝ).restrict (Ioi 0)) i).ae h1
    filter_upwards [h0] with x hx
    funext i
    exact Real.exp_log (hx i)

/-- C33.  ExpConcrete's `prob` integrates to one over the log simplex, with respect to that surface
measure. -/
theorem C33_exp_total (ht : 0 < t) :
    ∫⁻ y in logSimplex n, ENNReal.ofReal (Real.exp (expConcreteLogProb f logits t (logPoint y)) /
      (1 - ∑ i, Real.exp (y i))) = 1 := by
  have e := congrArg (fun m : Measure (Fin n → ℝ) => m Set.univ) (C33_exp_sampler f logits t ht)
  simp only [withDensity_apply _ MeasurableSet.univ, Measure.restrict_univ] at e
  have hm : Measurable fun (u : Fin (n + 1) → ℝ) (j : Fin n) =>
      expConcreteSample f logits t u j.castSucc := by
    simp only [C33_sample_log]
    exact measurable_pi_lambda _ fun j => Real.measurable_log.comp
      ((measurable_pi_apply j.castSucc).comp (measurable_concreteSample f logits t))
  rw [← e, Measure.map_apply hm MeasurableSet.univ]
  simp

/-- C33.  With respect to Lebesgue measure of the first `n` log entries, by contrast, it integrates to
less than one: `exp log_prob` is a density only for the surface measure above. -/
theorem C33_exp_lebesgue {n : ℕ} (logits : Fin (n + 1 + 1) → ℝ) (ht : 0 < t) :
    ∫⁻ y in logSimplex (n + 1),
      ENNReal.ofReal (Real.exp (expConcreteLogProb f logits t (logPoint y))) < 1 := by
  have hfin := C33_exp_total f logits t ht
  have hm : AEMeasurable (fun y : Fin (n + 1) → ℝ =>
      ENNReal.ofReal (Real.exp (expConcreteLogProb f logits t (logPoint y)) /
        (1 - ∑ i, Real.exp (y i)))) (volume.restrict (logSimplex (n + 1))) := by
    have hlp : ∀ i : Fin (n + 1 + 1), Measurable fun y : Fin (n + 1) → ℝ => logPoint y i := by
      intro i
      refine Fin.lastCases ?_ (fun j => ?_) i
      · simp only [logPoint, Fin.snoc_last]; fun_prop
      · simp only [logPoint, Fin.snoc_castSucc]; fun_prop
    refine (Measurable.ennreal_ofReal ((Real.measurable_exp.comp ?_).div (by fun_prop))).aemeasurable
    simp only [expConcreteLogProb, real_pathParam, Fn.sum, Fn.ofReal, Fn.log, Fn.lgamma,
      logSumExp_real]
    refine (measurable_const.add (Finset.measurable_sum _ fun i _ => ?_)).sub
      (measurable_const.mul (Real.measurable_log.comp (Finset.measurable_sum _ fun i _ => ?_)))
    · exact measurable_const.sub (measurable_const.mul (hlp i))
    · exact Real.measurable_exp.comp (measurable_const.sub (measurable_const.mul (hlp i)))
  have hlt : ∀ y ∈ logSimplex (n + 1),
      ENNReal.ofReal (Real.exp (expConcreteLogProb f logits t (logPoint y))) <
      ENNReal.ofReal (Real.exp (expConcreteLogProb f logits t (logPoint y)) /
        (1 - ∑ i, Real.exp (y i))) := by
    intro y hy
    have hy : ∑ i, Real.exp (y i) < 1 := hy
    have hp : 0 < ∑ i, Real.exp (y i) := sum_exp_pos y
    have h1 : 0 < 1 - ∑ i, Real.exp (y i) := by linarith
    have h2 := Real.exp_pos (expConcreteLogProb f logits t (logPoint y))
    rw [ENNReal.ofReal_lt_ofReal_iff (by positivity), lt_div_iff₀ h1]
    nlinarith
  have hle : ∫⁻ y in logSimplex (n + 1),
      ENNReal.ofReal (Real.exp (expConcreteLogProb f logits t (logPoint y))) ≤ 1 := by
    rw [← hfin]
    exact setLIntegral_mono_ae' measurableSet_logSimplex
      (Filter.Eventually.of_forall fun y hy => (hlt y hy).le)
  have hne : (volume.restrict (logSimplex (n + 1))) ≠ 0 := by
    intro h0
    rw [h0, lintegral_zero_measure] at hfin
    exact zero_ne_one hfin
  calc _ < ∫⁻ y in logSimplex (n + 1),
        ENNReal.ofReal (Real.exp (expConcreteLogProb f logits t (logPoint y)) /
          (1 - ∑ i, Real.exp (y i))) :=
        lintegral_strict_mono hne hm (ne_top_of_le_ne_top ENNReal.one_ne_top hle)
          ((ae_restrict_mem measurableSet_logSimplex).mono fun y hy => hlt y hy)
    _ = 1 := hfin

/-- A non-trivial case: the centre of the two-entry log simplex, and a positive temperature. -/
example : (fun _ : Fin 1 => Real.log (1 / 2)) ∈ logSimplex 1 ∧ (0 : ℝ) < 2 / 3 := by
  constructor
  · show ∑ i : Fin 1, Real.exp (Real.log (1 / 2)) < 1
    rw [Real.exp_log (by norm_num)]
    norm_num
  · norm_num

end ZhuSuan.Num

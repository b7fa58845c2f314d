import Verif.Lemmas.Normalise
import Verif.Lemmas.Num
import Verif.Props.Continuous1

/-!
# C24 Beta (sampler), C32 Dirichlet

A point of the simplex with `n + 1` entries is given by its first `n` entries `x`; the last one is
`1 - ∑ x`.  Densities are with respect to Lebesgue measure of the first `n` entries.
-/

set_option autoImplicit false

open MeasureTheory ProbabilityTheory Set
open scoped ENNReal

namespace ZhuSuan.Uni
open Meas

/-- The density of a rate-one gamma draw, zero outside the positive numbers. -/
noncomputable def gdens (a : ℝ) : ℝ → ℝ≥0∞ :=
  (Ioi 0).indicator fun x => ENNReal.ofReal (Real.exp (Gamma.logProb a 1 x))

theorem measurable_gdens (a : ℝ) : Measurable (gdens a) := by
  refine Measurable.indicator ?_ measurableSet_Ioi
  unfold Gamma.logProb
  fun_prop

theorem gammaMeasure_gdens {a : ℝ} (ha : 0 < a) : gammaMeasure a 1 = volume.withDensity (gdens a) := by
  rw [gammaMeasure_restrict a 1 ha one_pos, gdens, withDensity_indicator measurableSet_Ioi]

theorem gdens_pos {a x : ℝ} (h : gdens a x ≠ 0) : 0 < x := by
  by_contra hx
  exact h (indicator_of_notMem (by exact hx) _)

/-- The radial integral behind the Beta and Dirichlet laws. -/
theorem gamma_radial (m : ℕ) (α x : Fin (m + 1) → ℝ) (hα : ∀ i, 0 < α i) (hx : ∀ i, 0 < x i)
    (hs : ∑ i, x i = 1) :
    ∫⁻ s in Ioi (0 : ℝ), ENNReal.ofReal (s ^ m) * ∏ i, gdens (α i) (s * x i) =
      ENNReal.ofReal (Real.exp (lgamma (∑ i, α i) - ∑ i, lgamma (α i) +
        ∑ i, (α i - 1) * Real.log (x i))) := by
  have hA : 0 < ∑ i, α i := Finset.sum_pos (fun i _ => hα i) Finset.univ_nonempty
  set C : ℝ := Real.exp (-∑ i, lgamma (α i) + ∑ i, (α i - 1) * Real.log (x i)) with hC
  have e : ∀ s ∈ Ioi (0 : ℝ), ENNReal.ofReal (s ^ m) * ∏ i, gdens (α i) (s * x i) =
      ENNReal.ofReal C * ENNReal.ofReal (Real.exp (-s) * s ^ ((∑ i, α i) - 1)) := by
    intro s hs0
    have hs0 : 0 < s := hs0
    have e1 : ∀ i, gdens (α i) (s * x i) =
        ENNReal.ofReal (Real.exp (Gamma.logProb (α i) 1 (s * x i))) := fun i =>
      indicator_of_mem (show s * x i ∈ Ioi 0 from mul_pos hs0 (hx i)) _
    simp only [e1]
    rw [← ENNReal.ofReal_prod_of_nonneg fun i _ => (Real.exp_pos _).le,
      ← ENNReal.ofReal_mul (by positivity), ← ENNReal.ofReal_mul (by positivity), ← Real.exp_sum]
    congr 1
    have e2 : s ^ m = Real.exp (m * Real.log s) := by
      rw [Real.exp_nat_mul, Real.exp_log hs0]
    have e3 : s ^ ((∑ i, α i) - 1) = Real.exp (((∑ i, α i) - 1) * Real.log s) := by
      rw [Real.rpow_def_of_pos hs0, mul_comm]
    rw [e2, e3, hC, ← Real.exp_add, ← Real.exp_add, ← Real.exp_add]
    congr 1
    have e4 : ∀ i, Gamma.logProb (α i) 1 (s * x i) = (α i - 1) * Real.log s - lgamma (α i) +
        (α i - 1) * Real.log (x i) - s * x i := by
      intro i
      unfold Gamma.logProb
      rw [Real.log_mul hs0.ne' (hx i).ne', Real.log_one]
      ring
    simp only [e4, Finset.sum_sub_distrib, Finset.sum_add_distrib, ← Finset.mul_sum, hs,
      ← Finset.sum_mul]
    simp only [Finset.sum_const, Finset.card_univ, Fintype.card_fin, nsmul_eq_mul, Nat.cast_add,
      Nat.cast_one]
    ring
  rw [setLIntegral_congr_fun measurableSet_Ioi e]
  have hm : Measurable fun s : ℝ =>
      ENNReal.ofReal (Real.exp (-s) * s ^ ((∑ i, α i) - 1)) := by fun_prop
  rw [lintegral_const_mul _ hm, ← ofReal_integral_eq_lintegral_ofReal
    (Real.GammaIntegral_convergent hA), ← Real.Gamma_eq_integral hA,
    ← ENNReal.ofReal_mul (Real.exp_pos _).le]
  · congr 1
    rw [← Real.exp_log (Real.Gamma_pos_of_pos hA), ← Real.exp_add]
    congr 1
    simp only [lgamma]
    ring
  · filter_upwards [ae_restrict_mem measurableSet_Ioi] with s hs0
    have : (0 : ℝ) < s := hs0
    positivity

/-! ## C24 -/

/-- C24.  The sampler `x / (x + y)` of two independent gamma draws has the density `prob` on `(0, 1)`. -/
theorem C24_sampler (alpha beta : ℝ) (ha : 0 < alpha) (hb : 0 < beta) :
    ((gammaMeasure alpha 1).prod (gammaMeasure beta 1)).map (fun z => Beta.sample z.1 z.2) =
      (volume.restrict (Ioo (0 : ℝ) 1)).withDensity
        (fun x => ENNReal.ofReal (Real.exp (Beta.logProb alpha beta x))) := by
  have i1 : IsProbabilityMeasure (gammaMeasure alpha 1) := isProbabilityMeasure_gammaMeasure ha one_pos
  have i2 : IsProbabilityMeasure (gammaMeasure beta 1) := isProbabilityMeasure_gammaMeasure hb one_pos
  have e1 : (fun z : ℝ × ℝ => Beta.sample z.1 z.2) =
      (fun z : ℝ × ℝ => (z.1 + (ContinuousLinearMap.id ℝ ℝ) z.2)⁻¹ • z.2) ∘ Prod.swap := by
    funext z
    simp [Beta.sample, div_eq_inv_mul, add_comm]
  have hT : Measurable fun z : ℝ × ℝ => (z.1 + (ContinuousLinearMap.id ℝ ℝ) z.2)⁻¹ • z.2 := by
    simp only [ContinuousLinearMap.id_apply]; fun_prop
  rw [e1, ← Measure.map_map hT measurable_swap, Measure.prod_swap, gammaMeasure_gdens ha,
    gammaMeasure_gdens hb]
  have s1 : SigmaFinite ((volume : Measure ℝ).withDensity (gdens alpha)) := by
    rw [← gammaMeasure_gdens ha]; infer_instance
  have s2 : SigmaFinite ((volume : Measure ℝ).withDensity (gdens beta)) := by
    rw [← gammaMeasure_gdens hb]; infer_instance
  rw [prod_withDensity (measurable_gdens beta) (measurable_gdens alpha),
    normalise_law volume (ContinuousLinearMap.id ℝ ℝ) (fun z => gdens beta z.1 * gdens alpha z.2)
      (((measurable_gdens beta).comp measurable_fst).mul
        ((measurable_gdens alpha).comp measurable_snd))
      (fun t v h => by
        have h1 := gdens_pos (left_ne_zero_of_mul h)
        have h2 := gdens_pos (right_ne_zero_of_mul h)
        simp only [ContinuousLinearMap.id_apply]
        exact add_pos h1 h2),
    ← withDensity_indicator measurableSet_Ioo]
  congr 1
  funext x
  simp only [ContinuousLinearMap.id_apply, Module.finrank_self, smul_eq_mul]
  by_cases hx : x ∈ Ioo (0 : ℝ) 1
  · rw [indicator_of_mem hx]
    have key : ∫⁻ s in Ioi (0 : ℝ), ENNReal.ofReal (s ^ 1) *
        ∏ i : Fin 2, gdens ((![beta, alpha] : Fin 2 → ℝ) i) (s * (![1 - x, x] : Fin 2 → ℝ) i) =
        ENNReal.ofReal (Real.exp (lgamma (∑ i : Fin 2, (![beta, alpha] : Fin 2 → ℝ) i) -
          ∑ i : Fin 2, lgamma ((![beta, alpha] : Fin 2 → ℝ) i) + ∑ i : Fin 2,
            ((![beta, alpha] : Fin 2 → ℝ) i - 1) * Real.log ((![1 - x, x] : Fin 2 → ℝ) i))) :=
      gamma_radial 1 ![beta, alpha] ![1 - x, x]
      (fun i => by fin_cases i <;> simp [ha, hb])
      (fun i => by fin_cases i <;> simp [hx.1, hx.2]) (by simp [Fin.sum_univ_two])
    simp only [Fin.prod_univ_two, Fin.sum_univ_two, Matrix.cons_val_zero, Matrix.cons_val_one] at key
    rw [key]
    congr 2
    unfold Beta.logProb
    rw [add_comm beta alpha]
    ring
  · rw [indicator_of_notMem hx]
    refine (setLIntegral_congr_fun measurableSet_Ioi fun s hs => ?_).trans lintegral_zero
    have hs : 0 < s := hs
    have : gdens beta (s * (1 - x)) * gdens alpha (s * x) = 0 := by
      by_contra hne
      have h1 := gdens_pos (left_ne_zero_of_mul hne)
      have h2 := gdens_pos (right_ne_zero_of_mul hne)
      exact hx ⟨(mul_pos_iff_of_pos_left hs).1 h2, by
        have := (mul_pos_iff_of_pos_left hs).1 h1
        linarith⟩
    rw [this, mul_zero]

/-- C24.  That law is Mathlib's Beta distribution. -/
theorem C24_law (alpha beta : ℝ) (ha : 0 < alpha) (hb : 0 < beta) :
    ((gammaMeasure alpha 1).prod (gammaMeasure beta 1)).map (fun z => Beta.sample z.1 z.2) =
      betaMeasure alpha beta := by
  rw [C24_sampler alpha beta ha hb, ← withDensity_indicator measurableSet_Ioo, betaMeasure]
  congr 1
  funext x
  by_cases hx : x ∈ Ioo (0 : ℝ) 1
  · rw [indicator_of_mem hx, C24_density alpha beta ha hb x hx.1 hx.2]; rfl
  · rw [indicator_of_notMem hx]
    rcases le_or_gt x 0 with h | h
    · rw [betaPDF_eq_zero_of_nonpos h]
    · rw [betaPDF_eq_zero_of_one_le (by by_contra h'; exact hx ⟨h, not_le.1 h'⟩)]

/-- C24.  Samples of positive draws lie in `(0, 1)`. -/
theorem C24_sample_range (x y : ℝ) (hx : 0 < x) (hy : 0 < y) : Beta.sample x y ∈ Ioo (0 : ℝ) 1 := by
  unfold Beta.sample
  refine ⟨by positivity, ?_⟩
  rw [div_lt_one (by positivity)]
  linarith

end ZhuSuan.Uni

namespace ZhuSuan.Num
open Meas Uni

variable {n : ℕ}

/-- The simplex point with first entries `x`. -/
def simplexPoint (x : Fin n → ℝ) : Fin (n + 1) → ℝ := Fin.snoc (α := fun _ => ℝ) x (1 - ∑ i, x i)

/-- The open simplex, by its first `n` entries. -/
def openSimplex (n : ℕ) : Set (Fin n → ℝ) := {x | (∀ i, 0 < x i) ∧ ∑ i, x i < 1}

theorem mem_openSimplex (x : Fin n → ℝ) :
    x ∈ openSimplex n ↔ (∀ i, 0 < simplexPoint x i) ∧ ∑ i, simplexPoint x i = 1 := by
  constructor
  · rintro ⟨h1, h2⟩
    refine ⟨fun i => ?_, ?_⟩
    · refine Fin.lastCases ?_ (fun j => ?_) i
      · simp [simplexPoint, h2]
      · simp [simplexPoint, h1 j]
    · rw [Fin.sum_univ_castSucc]
      simp [simplexPoint]
  · rintro ⟨h1, _⟩
    refine ⟨fun j => ?_, ?_⟩
    · have := h1 j.castSucc
      simpa [simplexPoint] using this
    · have := h1 (Fin.last n)
      simpa [simplexPoint] using this

theorem measurableSet_openSimplex : MeasurableSet (openSimplex n) := by
  have : openSimplex n = (⋂ i, {x : Fin n → ℝ | 0 < x i}) ∩ {x | ∑ i, x i < 1} := by
    ext x; simp [openSimplex]
  rw [this]
  refine (MeasurableSet.iInter fun i => ?_).inter ?_
  · exact measurableSet_lt measurable_const (measurable_pi_apply i)
  · exact measurableSet_lt (by fun_prop) measurable_const

/-- The sum of the entries, as a linear form. -/
noncomputable def sumForm (n : ℕ) : (Fin n → ℝ) →L[ℝ] ℝ := ∑ i, ContinuousLinearMap.proj i

@[simp] theorem sumForm_apply (x : Fin n → ℝ) : sumForm n x = ∑ i, x i := by
  simp [sumForm]

/-- The law of the first `n` entries of the normalised vector of `n + 1` independent positive entries with
densities `d i`. -/
theorem normalised_pi (d : Fin (n + 1) → ℝ → ℝ≥0∞) (hd : ∀ i, Measurable (d i))
    (hpos : ∀ i y, d i y ≠ 0 → 0 < y) [∀ i, SigmaFinite ((volume : Measure ℝ).withDensity (d i))] :
    (Measure.pi fun i => (volume : Measure ℝ).withDensity (d i)).map
        (fun y (j : Fin n) => y j.castSucc / ∑ i, y i) =
      volume.withDensity fun x => ∫⁻ s in Ioi (0 : ℝ),
        ENNReal.ofReal (s ^ n) * ∏ i, d i (s * simplexPoint x i) := by
  have hmp := measurePreserving_piFinSuccAbove (α := fun _ : Fin (n + 1) => ℝ)
    (fun _ => (volume : Measure ℝ)) (Fin.last n)
  set φ := MeasurableEquiv.piFinSuccAbove (fun _ : Fin (n + 1) => ℝ) (Fin.last n) with hφ
  set p : ℝ × (Fin n → ℝ) → ℝ≥0∞ := fun z => d (Fin.last n) z.1 * ∏ j : Fin n, d j.castSucc (z.2 j) with hp
  have hpm : Measurable p := ((hd _).comp measurable_fst).mul
    (Finset.measurable_prod _ fun j _ => (hd _).comp ((measurable_pi_apply j).comp measurable_snd))
  have e1 : (Measure.pi fun i => (volume : Measure ℝ).withDensity (d i)).map φ =
      ((volume : Measure ℝ).prod (volume : Measure (Fin n → ℝ))).withDensity p := by
    rw [pi_withDensity (fun _ => (volume : Measure ℝ)) d hd]
    have hv : Measure.map φ (Measure.pi fun _ : Fin (n + 1) => (volume : Measure ℝ)) =
        ((volume : Measure ℝ).prod (volume : Measure (Fin n → ℝ))).withDensity fun _ => 1 := by
      rw [hmp.map_eq, ← Pi.one_def, withDensity_one]
      rfl
    have hg : Measurable fun y : Fin (n + 1) → ℝ => ∏ i, d i (y i) :=
      Finset.measurable_prod _ fun i _ => (hd i).comp (measurable_pi_apply i)
    rw [map_withDensity_of_map φ.measurable φ.symm.measurable (fun y => φ.symm_apply_apply y) hg
      measurable_const hv]
    congr 1
    funext z
    rw [one_mul, Fin.prod_univ_castSucc, mul_comm]
    simp [hp, hφ, MeasurableEquiv.piFinSuccAbove, Fin.insertNthEquiv]
  have e2 : (fun (y : Fin (n + 1) → ℝ) (j : Fin n) => y j.castSucc / ∑ i, y i) =
      (fun z : ℝ × (Fin n → ℝ) => (z.1 + sumForm n z.2)⁻¹ • z.2) ∘ φ := by
    funext y j
    have h1 : (φ y).1 = y (Fin.last n) := rfl
    have h2 : ∀ j, (φ y).2 j = y j.castSucc := by
      intro j
      change y ((Fin.last n).succAbove j) = _
      rw [Fin.succAbove_last]
    simp only [Function.comp_apply, sumForm_apply, Pi.smul_apply, smul_eq_mul, h1, h2]
    rw [Fin.sum_univ_castSucc, div_eq_inv_mul, add_comm (∑ i : Fin n, y i.castSucc)]
  have hT : Measurable fun z : ℝ × (Fin n → ℝ) => (z.1 + sumForm n z.2)⁻¹ • z.2 := by
    have : Measurable fun z : ℝ × (Fin n → ℝ) => sumForm n z.2 :=
      (sumForm n).continuous.measurable.comp measurable_snd
    exact ((measurable_fst.add this).inv).smul measurable_snd
  rw [e2, ← Measure.map_map hT φ.measurable, e1]
  rw [normalise_law (volume : Measure (Fin n → ℝ)) (sumForm n) p hpm]
  · congr 1
    funext x
    refine setLIntegral_congr_fun measurableSet_Ioi fun s _ => ?_
    simp only [hp, sumForm_apply, Module.finrank_fin_fun, Pi.smul_apply, smul_eq_mul]
    rw [Fin.prod_univ_castSucc, mul_comm (d (Fin.last n) _)]
    simp [simplexPoint]
  · intro t v h
    have h1 := hpos _ _ (left_ne_zero_of_mul h)
    have h2 : ∀ j, 0 < v j := fun j =>
      hpos _ _ (Finset.prod_ne_zero_iff.1 (right_ne_zero_of_mul h) j (Finset.mem_univ j))
    have h3 : 0 ≤ ∑ j, v j := Finset.sum_nonneg fun j _ => (h2 j).le
    simp only [sumForm_apply]
    linarith

/-! ## C32 -/

/-- C32.  Samples are on the simplex: positive entries that add up to one. -/
theorem C32_sample_simplex (alpha g dg : Fin (n + 1) → ℝ) (hg : ∀ i, 0 < g i) :
    (∀ i, 0 < dirichletSample alpha g dg i) ∧ ∑ i, dirichletSample alpha g dg i = 1 := by
  have hs : 0 < ∑ i, g i := Finset.sum_pos (fun i _ => hg i) Finset.univ_nonempty
  simp only [dirichletSample, GammaDraw.draw, Fn.ofReal, Fn.sum, div_one]
  exact ⟨fun i => div_pos (hg i) hs, by rw [← Finset.sum_div, div_self hs.ne']⟩

/-- C32.  The sampler has the density `prob`: the law of the first `n` entries of a sample. -/
theorem C32_sampler (f : Flags) (alpha : Fin (n + 1) → ℝ) (ha : ∀ i, 0 < alpha i)
    (dg : Fin (n + 1) → ℝ) :
    (Measure.pi fun i => gammaMeasure (alpha i) 1).map
        (fun g (j : Fin n) => dirichletSample alpha g dg j.castSucc) =
      (volume.restrict (openSimplex n)).withDensity fun x =>
        ENNReal.ofReal (Real.exp (dirichletLogProb f alpha (simplexPoint x))) := by
  have e1 : (fun (g : Fin (n + 1) → ℝ) (j : Fin n) => dirichletSample alpha g dg j.castSucc) =
      fun y j => y j.castSucc / ∑ i, y i := by
    funext g j
    simp [dirichletSample, GammaDraw.draw, Fn.ofReal, Fn.sum]
  have hs : ∀ i, SigmaFinite ((volume : Measure ℝ).withDensity (gdens (alpha i))) := fun i => by
    rw [← gammaMeasure_gdens (ha i)]
    have := isProbabilityMeasure_gammaMeasure (ha i) one_pos
    infer_instance
  rw [e1]
  simp only [fun i => gammaMeasure_gdens (ha i)]
  rw [normalised_pi (fun i => gdens (alpha i)) (fun i => measurable_gdens _) (fun i y h => gdens_pos h),
    ← withDensity_indicator measurableSet_openSimplex]
  congr 1
  funext x
  by_cases hx : x ∈ openSimplex n
  · rw [indicator_of_mem hx]
    obtain ⟨h1, h2⟩ := (mem_openSimplex x).1 hx
    rw [gamma_radial n alpha (simplexPoint x) ha h1 h2]
    congr 2
    simp only [dirichletLogProb, lbeta, Fn.sum, Fn.lgamma, Fn.log, Fn.ofReal]
    ring
  · rw [indicator_of_notMem hx]
    refine (setLIntegral_congr_fun measurableSet_Ioi fun s hs => ?_).trans lintegral_zero
    have hs : 0 < s := hs
    have : ∏ i, gdens (alpha i) (s * simplexPoint x i) = 0 := by
      by_contra hne
      apply hx
      rw [mem_openSimplex]
      refine ⟨fun i => ?_, ?_⟩
      · have := gdens_pos (Finset.prod_ne_zero_iff.1 hne i (Finset.mem_univ i))
        exact (mul_pos_iff_of_pos_left hs).1 this
      · rw [Fin.sum_univ_castSucc]
        simp [simplexPoint]
    rw [this, mul_zero]

/-- C32.  `prob` integrates to one over the simplex. -/
theorem C32_total (f : Flags) (alpha : Fin (n + 1) → ℝ) (ha : ∀ i, 0 < alpha i) :
    ∫⁻ x in openSimplex n,
      ENNReal.ofReal (Real.exp (dirichletLogProb f alpha (simplexPoint x))) = 1 := by
  have e := congrArg (fun m : Measure (Fin n → ℝ) => m Set.univ) (C32_sampler f alpha ha 0)
  simp only [withDensity_apply _ MeasurableSet.univ, Measure.restrict_univ] at e
  rw [← e, Measure.map_apply _ MeasurableSet.univ]
  · have : ∀ i, IsProbabilityMeasure (gammaMeasure (alpha i) 1) := fun i =>
      isProbabilityMeasure_gammaMeasure (ha i) one_pos
    simp
  · simp only [dirichletSample, GammaDraw.draw, Fn.ofReal, Fn.sum]
    fun_prop

/-- C32.  The textbook form of the density: `Γ(∑ α) / ∏ Γ(α i) * ∏ x i ^ (α i - 1)`. -/
theorem C32_density (f : Flags) (alpha x : Fin (n + 1) → ℝ) (ha : ∀ i, 0 < alpha i)
    (hx : ∀ i, 0 < x i) :
    Real.exp (dirichletLogProb f alpha x) =
      Real.Gamma (∑ i, alpha i) / (∏ i, Real.Gamma (alpha i)) * ∏ i, x i ^ (alpha i - 1) := by
  have hA : 0 < ∑ i, alpha i := Finset.sum_pos (fun i _ => ha i) Finset.univ_nonempty
  simp only [dirichletLogProb, lbeta, Fn.sum, Fn.lgamma, Fn.log, Fn.ofReal, Uni.lgamma]
  rw [Real.exp_add, neg_sub, Real.exp_sub, Real.exp_log (Real.Gamma_pos_of_pos hA), Real.exp_sum,
    Real.exp_sum]
  congr 2
  · exact Finset.prod_congr rfl fun i _ => Real.exp_log (Real.Gamma_pos_of_pos (ha i))
  · funext i
    rw [Real.rpow_def_of_pos (hx i), mul_comm]

/-- A concrete case: a point in the open triangle. -/
example : (![1 / 2, 1 / 3] : Fin 2 → ℝ) ∈ openSimplex 2 := by
  refine ⟨fun i => by fin_cases i <;> norm_num, ?_⟩
  simp [Fin.sum_univ_two]
  norm_num

end ZhuSuan.Num

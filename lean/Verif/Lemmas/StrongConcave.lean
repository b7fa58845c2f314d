import Verif.Lemmas.Euclid

/-!
# Strongly concave log densities
-/

set_option autoImplicit false

open MeasureTheory ProbabilityTheory Filter Topology Set
open ZhuSuan.Sgmcmc

namespace ZhuSuan.SgWeak

variable {V : Type} {I : V → Type} [Fintype V] [∀ v, Fintype (I v)]

theorem pd_dot (l : Lat I → ℝ) (x d : Lat I) : fderiv ℝ l x d = dot (pd l x) d := by
  rw [lin_sum (fderiv ℝ l x) d]
  simp only [dot, pd, mul_comm]

theorem LogDens.int_iff {l : Lat I → ℝ} (hl : LogDens l) (u : Lat I → ℝ) :
    Integrable u (posterior l) ↔ Integrable fun x => u x * Real.exp (l x) := by
  have hZ := hl.norm_pos
  have hm : Measurable fun x => Real.exp (l x) / ∫ y, Real.exp (l y) :=
    (Real.continuous_exp.comp hl.smooth.continuous).measurable.div_const _
  rw [posterior, integrable_withDensity_iff_integrable_smul' hm.ennreal_ofReal
    (Eventually.of_forall fun x => ENNReal.ofReal_lt_top)]
  have e : (fun x => (ENNReal.ofReal (Real.exp (l x) / ∫ y, Real.exp (l y))).toReal • u x) =
      fun x => (∫ y, Real.exp (l y))⁻¹ • (u x * Real.exp (l x)) := by
    ext x
    rw [ENNReal.toReal_ofReal (div_nonneg (Real.exp_pos _).le hZ.le), smul_eq_mul, smul_eq_mul]
    ring
  rw [e, integrable_fun_smul_iff (inv_ne_zero hZ.ne')]

theorem gl_eq (x : Lat I) : gl x = -(nsq x / 2) := by
  simp only [gl, nsq, Finset.sum_neg_distrib, Finset.sum_div]

/-- The factor of the fourth moment. -/
noncomputable def quart (x : Lat I) : ℝ := (1 + nsq x) ^ 2

theorem quart_cont : Continuous (quart (I := I)) := by
  unfold quart
  exact (continuous_const.add continuous_nsq).pow 2

theorem quart_normals : Integrable (quart (I := I)) (normals I) := by
  have h4 : Integrable (fun z : Lat I => ‖z‖ ^ 4) (normals I) := by
    have := (id_memLp (I := I) 4).integrable_norm_pow (by norm_num)
    simpa using this
  refine (((integrable_const (2 : ℝ)).add (h4.const_mul (2 * dim I ^ 2)))).mono' quart_cont.aestronglyMeasurable
    (Eventually.of_forall fun z => ?_)
  have h := nsq_le_norm z
  have h0 := nsq_nonneg z
  have h2 : nsq z ^ 2 ≤ (dim I * ‖z‖ ^ 2) ^ 2 := pow_le_pow_left₀ h0 h 2
  rw [quart, Real.norm_of_nonneg (by positivity)]
  simp only [Pi.add_apply]
  nlinarith [sq_nonneg (nsq z - 1)]

namespace StrongConcave

variable {l : Lat I → ℝ} {m L : ℝ} (hl : StrongConcave l m L)
include hl

theorem grad_cont : Continuous (pd l) :=
  continuous_pi fun _ => continuous_pi fun _ => (hl.smooth.continuous_fderiv (by norm_num)).clm_apply continuous_const

theorem line (x d : Lat I) (t : ℝ) : HasDerivAt (fun t : ℝ => l (x + t • d)) (dot (pd l (x + t • d)) d) t := by
  have h1 : HasDerivAt (fun t : ℝ => x + t • d) d t := by
    simpa using ((hasDerivAt_id t).smul_const d).const_add x
  rw [← pd_dot]
  exact ((hl.smooth.differentiable (by norm_num) (x + t • d)).hasFDerivAt).comp_hasDerivAt t h1

theorem upper (x : Lat I) : l x ≤ l 0 + dot (pd l 0) x - m / 2 * nsq x := by
  set φ : ℝ → ℝ := fun t => l (0 + t • x) - t * dot (pd l 0) x + t ^ 2 * (m / 2 * nsq x) with hφ
  have hd : ∀ t, HasDerivAt φ (dot (pd l (0 + t • x)) x - dot (pd l 0) x + 2 * t * (m / 2 * nsq x)) t := by
    intro t
    have h1 : HasDerivAt (fun t : ℝ => t * dot (pd l 0) x) (dot (pd l 0) x) t := by
      simpa using (hasDerivAt_id t).mul_const (dot (pd l 0) x)
    have h2 : HasDerivAt (fun t : ℝ => t ^ 2 * (m / 2 * nsq x)) (2 * t * (m / 2 * nsq x)) t := by
      simpa using (hasDerivAt_pow 2 t).mul_const (m / 2 * nsq x)
    exact ((hl.line 0 x t).sub h1).add h2
  have ha : AntitoneOn φ (Icc 0 1) := by
    refine antitoneOn_of_deriv_nonpos (convex_Icc 0 1) (fun t _ => (hd t).continuousAt.continuousWithinAt)
      (fun t _ => (hd t).differentiableAt.differentiableWithinAt) fun t ht => ?_
    rw [interior_Icc] at ht
    rw [(hd t).deriv]
    have h := hl.concave (0 + t • x) 0
    rw [sub_zero, zero_add, dot_smul_right, nsq_smul, dot_sub_left] at h
    rw [zero_add]
    have h3 : t * (dot (pd l (t • x)) x - dot (pd l 0) x + 2 * t * (m / 2 * nsq x)) ≤ 0 := by nlinarith
    by_contra h4
    push Not at h4
    linarith [mul_pos ht.1 h4]
  have := ha (left_mem_Icc.2 zero_le_one) (right_mem_Icc.2 zero_le_one) zero_le_one
  simp only [hφ, one_smul, zero_smul, add_zero, zero_add] at this
  norm_num at this
  linarith

theorem upper_gauss (x : Lat I) : l x ≤ l 0 + m⁻¹ * nsq (pd l 0) + gl (√(m / 2) • x) := by
  have hm := hl.pos
  have h1 := hl.upper x
  have h2 := two_dot_le (c := 2 / m) (by positivity) (pd l 0) x
  rw [gl_eq, nsq_smul, Real.sq_sqrt (by positivity)]
  have e : (2 / m)⁻¹ = m / 2 := by rw [inv_div]
  rw [e] at h2
  have e2 : 2 / m * nsq (pd l 0) = 2 * (m⁻¹ * nsq (pd l 0)) := by ring
  rw [e2] at h2
  linarith

theorem quart_exp : Integrable fun x => quart x * Real.exp (l x) := by
  have hm := hl.pos
  have h1 : Integrable fun x : Lat I => quart x * Real.exp (gl x) := by
    rw [← gl_dens.int_iff, ← normals_eq]
    exact quart_normals
  set c := √(m / 2) with hc
  have hc0 : 0 < c := Real.sqrt_pos.2 (by positivity)
  have h2 := h1.comp_smul (R := c) hc0.ne'
  set K : ℝ := (1 + (c⁻¹) ^ 2) ^ 2 * Real.exp (l 0 + m⁻¹ * nsq (pd l 0)) with hK
  refine (h2.const_mul K).mono' (quart_cont.mul (Real.continuous_exp.comp hl.smooth.continuous)).aestronglyMeasurable
    (Eventually.of_forall fun x => ?_)
  have hq : quart x ≤ (1 + (c⁻¹) ^ 2) ^ 2 * quart (c • x) := by
    unfold quart
    rw [← mul_pow, nsq_smul]
    have hn := nsq_nonneg x
    refine pow_le_pow_left₀ (by positivity) ?_ 2
    have : (c⁻¹) ^ 2 * (c ^ 2 * nsq x) = nsq x := by
      field_simp
    have h5 : 0 ≤ c ^ 2 * nsq x := by positivity
    have h6 : 0 ≤ (c⁻¹) ^ 2 := by positivity
    nlinarith
  have h0 : 0 ≤ quart x := sq_nonneg _
  rw [Real.norm_of_nonneg (mul_nonneg h0 (Real.exp_pos _).le)]
  have h3 := Real.exp_le_exp.2 (hl.upper_gauss x)
  rw [Real.exp_add] at h3
  calc quart x * Real.exp (l x) ≤ ((1 + (c⁻¹) ^ 2) ^ 2 * quart (c • x)) *
        (Real.exp (l 0 + m⁻¹ * nsq (pd l 0)) * Real.exp (gl (c • x))) :=
        mul_le_mul hq h3 (Real.exp_pos _).le (h0.trans hq)
    _ = _ := by rw [hK]; ring

theorem dens : LogDens l := by
  refine ⟨hl.smooth, hl.quart_exp.mono' (Real.continuous_exp.comp hl.smooth.continuous).aestronglyMeasurable
    (Eventually.of_forall fun x => ?_)⟩
  rw [Real.norm_of_nonneg (Real.exp_pos _).le]
  refine le_mul_of_one_le_left (Real.exp_pos _).le ?_
  have := nsq_nonneg x
  unfold quart
  nlinarith

theorem quart_post : Integrable quart (posterior l) := (hl.dens.int_iff _).2 hl.quart_exp

theorem memLp_post : MemLp (fun x : Lat I => x) 2 (posterior l) := by
  refine memLp_of_nsq (by fun_prop) hl.quart_post fun x => ?_
  have := nsq_nonneg x
  unfold quart
  nlinarith

theorem grad_le (x : Lat I) : nsq (pd l x) ≤ 2 * nsq (pd l 0) + 2 * L ^ 2 * nsq x := by
  have h := nsq_add_le (pd l 0) (pd l x - pd l 0)
  rw [add_sub_cancel] at h
  have h2 := hl.lip x 0
  rw [sub_zero] at h2
  linarith

end StrongConcave

end ZhuSuan.SgWeak

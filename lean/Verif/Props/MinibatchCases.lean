import Verif.Props.MinibatchSgmcmc

/-!
# C92: a case

Bayesian logistic regression with a standard normal prior meets the hypotheses of C92, for all data, batch sizes and epochs.
-/

set_option autoImplicit false

open MeasureTheory ProbabilityTheory Filter Topology Set
open ZhuSuan.SgWeak ZhuSuan.Weak ZhuSuan.Sgmcmc

namespace ZhuSuan.Minibatch

variable {n : ℕ} {V : Type} {I : V → Type} [Fintype V] [∀ v, Fintype (I v)]

/-- A smaller density. -/
theorem posterior_le {l m : Lat I → ℝ} (hl : LogDens l) (hm : LogDens m) (h : ∀ x, l x ≤ m x) :
    posterior l ≤ ENNReal.ofReal ((∫ y, Real.exp (m y)) / ∫ y, Real.exp (l y)) • posterior m := by
  have hZ := hl.norm_pos
  have hM := hm.norm_pos
  have mm : Measurable fun x => ENNReal.ofReal (Real.exp (m x) / ∫ y, Real.exp (m y)) :=
    ((Real.continuous_exp.comp hm.smooth.continuous).measurable.div_const _).ennreal_ofReal
  unfold posterior
  rw [← withDensity_smul _ mm]
  refine withDensity_mono (Eventually.of_forall fun x => ?_)
  simp only [Pi.smul_apply, smul_eq_mul]
  rw [← ENNReal.ofReal_mul (by positivity)]
  refine ENNReal.ofReal_le_ofReal ?_
  rw [div_mul_div_comm, mul_comm, mul_div_mul_right _ _ hM.ne']
  exact div_le_div_of_nonneg_right (Real.exp_le_exp.2 (h x)) hZ.le

/-- The linear predictor. -/
noncomputable def score (x : Lat I) : Lat I →L[ℝ] ℝ :=
  ∑ v, ∑ i, x v i • ((ContinuousLinearMap.proj i).comp (ContinuousLinearMap.proj (R := ℝ) (φ := fun v => I v → ℝ) v))

theorem score_apply (x w : Lat I) : score x w = ∑ v, ∑ i, x v i * w v i := by
  simp [score]

theorem score_unit (x : Lat I) (v : V) (i : I v) : score x (unit v i) = x v i := by
  rw [score_apply]
  classical
  simp only [unit]
  rw [Finset.sum_eq_single v, Finset.sum_eq_single i]
  · simp
  · intro j _ hj
    simp [Pi.single_eq_of_ne hj]
  · simp
  · intro w _ hw
    refine Finset.sum_eq_zero fun j _ => ?_
    simp [Pi.single_eq_of_ne hw]
  · simp

/-- The log probability of a label `y`, 1 or −1. -/
noncomputable def logistic (d : Lat I × ℝ) (w : Lat I) : ℝ := Real.log (Real.sigmoid (d.2 * score d.1 w))

theorem logistic_le (d : Lat I × ℝ) (w : Lat I) : logistic d w ≤ 0 :=
  Real.log_nonpos (Real.sigmoid_nonneg _) (Real.sigmoid_le_one _)

theorem logistic_smooth (d : Lat I × ℝ) : ContDiff ℝ 1 (logistic d) := by
  have h : ContDiff ℝ 1 fun w => Real.sigmoid (d.2 * score d.1 w) :=
    (contDiff_sigmoid.of_le le_top).comp (contDiff_const.mul (score d.1).contDiff)
  exact h.log fun w => (Real.sigmoid_pos _).ne'

theorem logistic_pd (d : Lat I × ℝ) (w : Lat I) (v : V) (i : I v) :
    pd (logistic d) w v i = (1 - Real.sigmoid (d.2 * score d.1 w)) * (d.2 * d.1 v i) := by
  have h1 : HasFDerivAt (fun w => d.2 * score d.1 w) (d.2 • score d.1) w := (score d.1).hasFDerivAt.const_mul d.2
  have h2 := HasDerivAt.comp_hasFDerivAt (h₂ := Real.sigmoid) (f := fun w => d.2 * score d.1 w) w
    (Real.hasDerivAt_sigmoid (d.2 * score d.1 w)) h1
  have h3 : fderiv ℝ (logistic d) w = _ := (HasFDerivAt.log h2 (Real.sigmoid_pos (d.2 * score d.1 w)).ne').fderiv
  rw [pd, h3]
  have := (Real.sigmoid_pos (d.2 * score d.1 w)).ne'
  simp only [_root_.smul_apply, smul_eq_mul, score_unit, Function.comp_apply]
  field_simp

theorem comp_le (z : Lat I) (v : V) (i : I v) : |z v i| ≤ ‖z‖ := (norm_le_pi_norm (z v) i).trans (norm_le_pi_norm z v)

theorem logistic_bound (d : Lat I × ℝ) (w : Lat I) : ‖pd (logistic d) w‖ ≤ |d.2| * ‖d.1‖ := by
  refine (pi_norm_le_iff_of_nonneg (by positivity)).2 fun v => (pi_norm_le_iff_of_nonneg (by positivity)).2 fun i => ?_
  rw [logistic_pd, Real.norm_eq_abs, abs_mul, abs_mul]
  have h0 := Real.sigmoid_nonneg (d.2 * score d.1 w)
  have h1 := Real.sigmoid_le_one (d.2 * score d.1 w)
  have h2 : |1 - Real.sigmoid (d.2 * score d.1 w)| ≤ 1 := abs_le.2 ⟨by linarith, by linarith⟩
  exact (mul_le_of_le_one_left (by positivity) h2).trans (mul_le_mul_of_nonneg_left (comp_le _ v i) (abs_nonneg _))

theorem sigmoid_lip (a b : ℝ) : |Real.sigmoid a - Real.sigmoid b| ≤ |a - b| := by
  have h := convex_univ.norm_image_sub_le_of_norm_hasDerivWithin_le (f := Real.sigmoid) (C := 1) (x := b) (y := a)
    (fun x _ => (Real.hasDerivAt_sigmoid x).hasDerivWithinAt) (fun x _ => ?_) (mem_univ _) (mem_univ _)
  · simpa using h
  · have h0 := Real.sigmoid_nonneg x
    have h1 := Real.sigmoid_le_one x
    rw [Real.norm_of_nonneg (mul_nonneg h0 (by linarith))]
    nlinarith

theorem logistic_lip (d : Lat I × ℝ) (w u : Lat I) :
    ‖pd (logistic d) w - pd (logistic d) u‖ ≤ |d.2| * ‖score d.1‖ * (|d.2| * ‖d.1‖) * ‖w - u‖ := by
  refine (pi_norm_le_iff_of_nonneg (by positivity)).2 fun v => (pi_norm_le_iff_of_nonneg (by positivity)).2 fun i => ?_
  rw [Pi.sub_apply, Pi.sub_apply, logistic_pd, logistic_pd, ← sub_mul, Real.norm_eq_abs, abs_mul, abs_mul]
  have h1 : |1 - Real.sigmoid (d.2 * score d.1 w) - (1 - Real.sigmoid (d.2 * score d.1 u))| ≤ |d.2| * (‖score d.1‖ * ‖w - u‖) := by
    rw [show 1 - Real.sigmoid (d.2 * score d.1 w) - (1 - Real.sigmoid (d.2 * score d.1 u)) =
      Real.sigmoid (d.2 * score d.1 u) - Real.sigmoid (d.2 * score d.1 w) by ring]
    refine (sigmoid_lip _ _).trans ?_
    rw [← mul_sub, ← map_sub, abs_mul, norm_sub_rev]
    exact mul_le_mul_of_nonneg_left ((score d.1).le_opNorm _) (abs_nonneg _)
  calc _ ≤ |d.2| * (‖score d.1‖ * ‖w - u‖) * (|d.2| * ‖d.1‖) :=
        mul_le_mul h1 (mul_le_mul_of_nonneg_left (comp_le _ v i) (abs_nonneg _)) (by positivity) (by positivity)
    _ = _ := by ring

theorem logistic_dens (s : Arrays n (Lat I) ℝ) : LogDens (full s gl logistic) := by
  have hs : ContDiff ℝ 1 (full s gl (logistic (I := I))) := gl_smooth.add (ContDiff.sum fun i _ => logistic_smooth _)
  refine ⟨hs, (gl_dens (I := I)).int.mono' (Real.continuous_exp.comp hs.continuous).aestronglyMeasurable
    (Eventually.of_forall fun x => ?_)⟩
  rw [Real.norm_of_nonneg (Real.exp_pos _).le]
  exact Real.exp_le_exp.2 (add_le_of_nonpos_right (Finset.sum_nonpos fun i _ => logistic_le _ _))

theorem pd_gl (x : Lat I) : pd gl x = -x := by
  ext v i
  exact gl_deriv x v i

theorem logistic_prior_int (s : Arrays n (Lat I) ℝ) : Integrable (pd gl) (posterior (full s (gl (I := I)) logistic)) := by
  have e : (pd (gl (I := I))) = fun x => -x := funext pd_gl
  rw [e]
  have h1 : Integrable (fun x : Lat I => -x) (posterior (gl (I := I))) := by
    rw [← normals_eq]
    exact ((id_memLp (I := I) 1).integrable (by simp)).neg
  have hle := posterior_le (logistic_dens s) gl_dens fun x =>
    add_le_of_nonpos_right (Finset.sum_nonpos fun i _ => logistic_le (s.x i, s.y i) x)
  exact (h1.smul_measure ENNReal.ofReal_ne_top).mono_measure hle

theorem logistic_lik_int (s : Arrays n (Lat I) ℝ) (i : Fin n) :
    Integrable (pd (logistic (s.x i, s.y i))) (posterior (full s (gl (I := I)) logistic)) := by
  have _ := (logistic_dens s).prob
  exact (integrable_const (|s.y i| * ‖s.x i‖)).mono' (pd_cont (logistic_smooth _)).aestronglyMeasurable
    (Eventually.of_forall fun w => logistic_bound (s.x i, s.y i) w)

example (s : Arrays n (Lat I) ℝ) (perms : List (Equiv.Perm (Fin n))) {b t : ℕ} (hb : 0 < b) (ht : t < itersUp n b)
    {f : Lat I → ℝ} (hf : ContDiff ℝ 3 f) (hc : HasCompactSupport f) :
    Tendsto (fun lr : ℝ => ((∫ a : Lat I × Equiv.Perm (Fin n) × Lat I,
        f (fun v => sgld lr (pd (logJoint n gl logistic (((s.epochs perms).permute a.2.1).feed b t))) a.2.2 v a.1)
          ∂(posterior (full s gl logistic)).prod ((uniform n).prod (normals I))) -
        ∫ x, f x ∂posterior (full s gl logistic)) / lr) (𝓝[>] 0) (𝓝 0) :=
  C92_sgld s perms hb ht gl_smooth logistic_smooth (logistic_dens s) (logistic_prior_int s) (logistic_lik_int s) hf hc

example (s : Arrays n (Lat I) ℝ) (perms : List (Equiv.Perm (Fin n))) {b t : ℕ} (hb : 0 < b) (ht : t < itersUp n b)
    (now : V → Bool) {f : Lat I × Lat I → ℝ} (hf : ContDiff ℝ 3 f) (hc : HasCompactSupport f) :
    Tendsto (fun h : ℝ => ((∫ a : HDraws I (Equiv.Perm (Fin n)), f (hScaled h fun v =>
        sghmc2 (h ^ 2) (2 * h) 0 (pd (logJoint n gl logistic (((s.epochs perms).permute a.2.1).feed b t))) now a.1.2.2 a.2.2 v
          (hState h a.1.1 a.1.2.1)) ∂hDraws (full s gl logistic) (uniform n)) -
        ∫ x, f x ∂(posterior (full s gl logistic)).prod (normals I)) / h) (𝓝[>] 0) (𝓝 0) := by
  set Λ : ℝ := 1 + ∑ i, |s.y i| * ‖score (s.x i)‖ * (|s.y i| * ‖s.x i‖) with hΛ
  have hsum : 0 ≤ ∑ i, |s.y i| * ‖score (s.x i)‖ * (|s.y i| * ‖s.x i‖) := Finset.sum_nonneg fun i _ => by positivity
  refine C92_sghmc s perms hb ht gl_smooth logistic_smooth (logistic_dens s) (logistic_prior_int s) (logistic_lik_int s)
    (Λ := Λ) (by positivity) (fun x y => ?_) (fun i x y => ?_) now (by norm_num) hf hc
  · rw [pd_gl, pd_gl, neg_sub_neg, norm_sub_rev]
    exact le_mul_of_one_le_left (norm_nonneg _) (by linarith)
  · refine (logistic_lip (s.x i, s.y i) x y).trans (mul_le_mul_of_nonneg_right ?_ (norm_nonneg _))
    have := Finset.single_le_sum (f := fun i => |s.y i| * ‖score (s.x i)‖ * (|s.y i| * ‖s.x i‖)) (fun i _ => by positivity)
      (Finset.mem_univ i)
    simp only at this ⊢
    linarith

/-- Rows and batches of three and two. -/
example : (batch ![10, 20, 30] 2 0 = [10, 20]) ∧ batch ![10, 20, 30] 2 1 = [30] ∧ itersUp 3 2 = 2 ∧ itersDown 3 2 = 1 := by
  refine ⟨rfl, rfl, rfl, rfl⟩

end ZhuSuan.Minibatch

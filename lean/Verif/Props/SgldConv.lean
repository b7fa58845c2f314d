import Verif.Lemmas.SgldNear
import Verif.Props.MinibatchCases
import Mathlib.Analysis.PSeries

/-!
# C93: SGLD in a training loop converges to the posterior

With a learning rate that decreases to zero slowly enough, as in the paper the class implements, the distribution of the latent
variables converges to the posterior when the log joint is strongly concave with Lipschitz gradients.  The batches of an epoch come
from one shuffle of the rows, so the gradient estimates of its iterations depend on each other and on the latent variables.
-/

set_option autoImplicit false

open MeasureTheory ProbabilityTheory Filter Topology Set
open ZhuSuan.Sgmcmc ZhuSuan.SgldLoop ZhuSuan.Minibatch

namespace ZhuSuan.SgWeak

variable {V : Type} {I : V → Type} [Fintype V] [∀ v, Fintype (I v)] {Ω : Type} [MeasurableSpace Ω]
  {l : Lat I → ℝ} {m L : ℝ} {G : ℕ → Ω → Lat I → Lat I} {P : Measure Ω} [IsProbabilityMeasure P] {T : ℕ}

omit [IsProbabilityMeasure P] in
theorem steps_prob (hE : Estimates P G T l L) {J : Measure (Ω × Lat I)} [IsProbabilityMeasure J] (lr : ℝ) {t : ℕ} (ht : t ≤ T) :
    IsProbabilityMeasure (steps lr G J t) := by
  induction t with
  | zero =>
    rw [steps]
    infer_instance
  | succ t ih =>
    have _ := ih (by omega)
    rw [steps]
    exact Measure.isProbabilityMeasure_map (sgld_meas (hE.meas t ht) lr).aemeasurable

theorem starts_prob (hE : Estimates P G T l L) {μ : Measure (Lat I)} [IsProbabilityMeasure μ] (lr : ℕ → ℝ) (e : ℕ) :
    IsProbabilityMeasure (starts lr G P T μ e) := by
  induction e with
  | zero =>
    rw [starts]
    infer_instance
  | succ e ih =>
    have _ := steps_prob hE (J := P.prod (starts lr G P T μ e)) (lr e) le_rfl
    rw [starts]
    exact Measure.isProbabilityMeasure_map measurable_snd.aemeasurable

/-- With learning rates that decrease to zero and whose sum is infinite, the distribution of the latent variables of SGLD gets as
close to the posterior as one likes, in every iteration of all late enough epochs. -/
theorem C93_distance (hl : StrongConcave l m L) (hE : Estimates P G T l L) (hT : 0 < T) {μ : Measure (Lat I)} [IsProbabilityMeasure μ]
    (hμ : MemLp id 2 μ) {lr : ℕ → ℝ} (h0 : ∀ e, 0 < lr e) (hz : Tendsto lr atTop (𝓝 0)) (hs : ¬ Summable lr) {δ : ℝ} (hδ : 0 < δ) :
    ∀ᶠ e in atTop, ∀ t ≤ T, Near ((steps (lr e) G (P.prod (starts lr G P T μ e)) t).map Prod.snd) (posterior l) δ :=
  near_decay hl hE hT hμ h0 hz hs hδ

/-- The mean of every function of at most quadratic growth, so also the means and the covariances of the latent variables,
converges to its posterior mean.  `t e` is any iteration of epoch `e`. -/
theorem C93_means (hl : StrongConcave l m L) (hE : Estimates P G T l L) (hT : 0 < T) {μ : Measure (Lat I)} [IsProbabilityMeasure μ]
    (hμ : MemLp id 2 μ) {lr : ℕ → ℝ} (h0 : ∀ e, 0 < lr e) (hz : Tendsto lr atTop (𝓝 0)) (hs : ¬ Summable lr)
    {t : ℕ → ℕ} (ht : ∀ e, t e ≤ T) {f : Lat I → ℝ} (hf : Quadratic f) :
    Tendsto (fun e => ∫ a, f a.2 ∂steps (lr e) G (P.prod (starts lr G P T μ e)) (t e)) atTop (𝓝 (∫ x, f x ∂posterior l)) := by
  have _ := hl.dens.prob
  have h := near_quadratic (μ := fun e => (steps (lr e) G (P.prod (starts lr G P T μ e)) (t e)).map Prod.snd) hl.memLp_post
    (fun δ hδ => (near_decay hl hE hT hμ h0 hz hs hδ).mono fun e he => he (t e) (ht e)) hf
  refine h.congr fun e => ?_
  exact integral_map measurable_snd.aemeasurable hf.cont.aestronglyMeasurable

/-- The distribution of the latent variables converges to the posterior in distribution. -/
theorem C93_distribution (hl : StrongConcave l m L) (hE : Estimates P G T l L) (hT : 0 < T) {μ : Measure (Lat I)}
    [IsProbabilityMeasure μ] (hμ : MemLp id 2 μ) {lr : ℕ → ℝ} (h0 : ∀ e, 0 < lr e) (hz : Tendsto lr atTop (𝓝 0)) (hs : ¬ Summable lr)
    {t : ℕ → ℕ} (ht : ∀ e, t e ≤ T) {f : Lat I → ℝ} (hf : Continuous f) {B : ℝ} (hB : ∀ x, |f x| ≤ B) :
    Tendsto (fun e => ∫ a, f a.2 ∂steps (lr e) G (P.prod (starts lr G P T μ e)) (t e)) atTop (𝓝 (∫ x, f x ∂posterior l)) := by
  have _ := hl.dens.prob
  have _ : ∀ e, IsProbabilityMeasure ((steps (lr e) G (P.prod (starts lr G P T μ e)) (t e)).map Prod.snd) := fun e => by
    have _ := starts_prob hE (μ := μ) lr e
    have _ := steps_prob hE (J := P.prod (starts lr G P T μ e)) (lr e) (ht e)
    exact Measure.isProbabilityMeasure_map measurable_snd.aemeasurable
  have h := near_weak (μ := fun e => (steps (lr e) G (P.prod (starts lr G P T μ e)) (t e)).map Prod.snd) hl.memLp_post
    (fun δ hδ => (near_decay hl hE hT hμ h0 hz hs hδ).mono fun e he => he (t e) (ht e)) hf hB
  refine h.congr fun e => ?_
  exact integral_map measurable_snd.aemeasurable hf.aestronglyMeasurable

/-- With a constant learning rate, if it is small enough, the distribution gets and stays as close to the posterior as one likes.
How small does not depend on the initial values. -/
theorem C93_constant (hl : StrongConcave l m L) (hE : Estimates P G T l L) (hT : 0 < T) {δ : ℝ} (hδ : 0 < δ) :
    ∃ bound > 0, ∀ lr, 0 < lr → lr < bound → ∀ μ : Measure (Lat I), IsProbabilityMeasure μ → MemLp id 2 μ →
      ∀ᶠ e in atTop, ∀ t ≤ T, Near ((steps lr G (P.prod (starts (fun _ => lr) G P T μ e)) t).map Prod.snd) (posterior l) δ := by
  obtain ⟨b, hb, h⟩ := mem_nhdsGT_iff_exists_Ioo_subset.1 (near_const hl hE hT hδ)
  exact ⟨b, hb, fun lr h0 h1 => h ⟨h0, h1⟩⟩

/-! The functions of the theorem contain the latent variables and their products. -/

theorem quadratic_value (v : V) (i : I v) : Quadratic fun x : Lat I => x v i := by
  refine ⟨1, fun x y => ?_⟩
  have h1 := comp_le_norm (x - y) v i
  have h2 : (1 : ℝ) ≤ 1 * (1 + ‖x‖ + ‖y‖) := by linarith [norm_nonneg x, norm_nonneg y]
  exact h1.trans (le_mul_of_one_le_left (norm_nonneg _) h2)

theorem quadratic_product (v : V) (i : I v) (w : V) (j : I w) : Quadratic fun x : Lat I => x v i * x w j := by
  refine ⟨1, fun x y => ?_⟩
  have h1 := comp_le_norm (x - y) v i
  have h2 := comp_le_norm (x - y) w j
  have h3 := comp_le_norm y v i
  have h4 := comp_le_norm x w j
  have e : x v i * x w j - y v i * y w j = (x - y) v i * x w j + y v i * (x - y) w j := by
    simp only [Pi.sub_apply]
    ring
  rw [e]
  refine (abs_add_le _ _).trans ?_
  rw [abs_mul, abs_mul]
  have h5 := mul_le_mul h1 h4 (abs_nonneg _) (norm_nonneg _)
  have h6 := mul_le_mul h3 h2 (abs_nonneg _) (norm_nonneg _)
  have := norm_nonneg (x - y)
  linarith

/-- Rates that decrease like `1 / (e + 1)` meet the conditions. -/
theorem harmonic {c : ℝ} (hc : 0 < c) : (∀ e : ℕ, 0 < c / (e + 1 : ℝ)) ∧ Tendsto (fun e : ℕ => c / (e + 1 : ℝ)) atTop (𝓝 0) ∧
    ¬ Summable fun e : ℕ => c / (e + 1 : ℝ) := by
  refine ⟨fun e => by positivity, tendsto_const_div_atTop_nhds_zero_nat c |>.comp (tendsto_add_atTop_nat 1) |>.congr fun e => by simp,
    fun h => ?_⟩
  have h1 : Summable fun e : ℕ => ((e + 1 : ℕ) : ℝ)⁻¹ := (h.mul_left c⁻¹).congr fun e => by
    push_cast
    field_simp
  exact Real.not_summable_natCast_inv ((summable_nat_add_iff 1).1 h1)

end ZhuSuan.SgWeak

namespace ZhuSuan.SgldLoop

open ZhuSuan.SgWeak

variable {V : Type} {I : V → Type} [Fintype V] [∀ v, Fintype (I v)] {X Y : Type} {n : ℕ}

theorem uniform_mul (σ : Equiv.Perm (Fin n)) : (uniform n).map (σ * ·) = uniform n := by
  have _ : Countable (Equiv.Perm (Fin n)) := Finite.to_countable
  refine Measure.ext_of_singleton fun τ => ?_
  have e : (σ * ·) ⁻¹' {τ} = {σ⁻¹ * τ} := by
    ext ρ
    simp [eq_inv_mul_iff_mul_eq]
  rw [Measure.map_apply measurable_from_top MeasurableSpace.measurableSet_top, e, uniform,
    PMF.toMeasure_apply_singleton _ _ MeasurableSpace.measurableSet_top,
    PMF.toMeasure_apply_singleton _ _ MeasurableSpace.measurableSet_top]
  simp

omit [Fintype V] [∀ v, Fintype (I v)] in
/-- After the shuffle the order of the rows is uniform and independent of the latent variables. -/
theorem shuffle_law (J : Measure (Equiv.Perm (Fin n) × Lat I)) [IsProbabilityMeasure J] :
    shuffle J = (uniform n).prod (J.map Prod.snd) := by
  have _ : Countable (Equiv.Perm (Fin n)) := Finite.to_countable
  have p1 : MeasurePreserving (Prod.snd : Equiv.Perm (Fin n) × Lat I → Lat I) J (J.map Prod.snd) := ⟨measurable_snd, rfl⟩
  have _ : IsProbabilityMeasure (J.map Prod.snd) := Measure.isProbabilityMeasure_map measurable_snd.aemeasurable
  have hm : Measurable (Function.uncurry fun (a : Equiv.Perm (Fin n) × Lat I) (σ : Equiv.Perm (Fin n)) => a.1 * σ) := by
    have h : Measurable fun p : Equiv.Perm (Fin n) × Equiv.Perm (Fin n) => p.1 * p.2 := measurable_of_countable _
    have h2 : Measurable fun p : (Equiv.Perm (Fin n) × Lat I) × Equiv.Perm (Fin n) => (p.1.1, p.2) := by fun_prop
    exact h.comp h2
  have p2 := p1.skew_product (μc := uniform n) (μd := uniform n) hm (Eventually.of_forall fun a => uniform_mul a.1)
  have p3 : MeasurePreserving (Prod.swap : Lat I × Equiv.Perm (Fin n) → _) ((J.map Prod.snd).prod (uniform n))
      ((uniform n).prod (J.map Prod.snd)) := Measure.measurePreserving_swap
  exact (p3.comp p2).map_eq

/-- The conditions on the model: the log prior and the log likelihood of every row are smooth with Lipschitz gradients, and the
log joint of all the data is strongly concave. -/
structure Conditions (s : Arrays n X Y) (prior : Lat I → ℝ) (lik : X × Y → Lat I → ℝ) (m Λ : ℝ) : Prop where
  prior_smooth : ContDiff ℝ 1 prior
  lik_smooth : ∀ d, ContDiff ℝ 1 (lik d)
  pos : 0 < m
  nonneg : 0 ≤ Λ
  prior_lip : ∀ x y, ‖pd prior x - pd prior y‖ ≤ Λ * ‖x - y‖
  lik_lip : ∀ i x y, ‖pd (lik (s.x i, s.y i)) x - pd (lik (s.x i, s.y i)) y‖ ≤ Λ * ‖x - y‖
  concave : ∀ x y, dot (pd (full s prior lik) x - pd (full s prior lik) y) (x - y) ≤ -m * nsq (x - y)

variable {s : Arrays n X Y} {prior : Lat I → ℝ} {lik : X × Y → Lat I → ℝ} {m Λ : ℝ}

theorem norm_nsq {g h : Lat I} {C : ℝ} (k : ‖g‖ ≤ C * ‖h‖) : nsq g ≤ (√(dim I) * C) ^ 2 * nsq h := by
  have h1 := nsq_le_norm g
  have h2 := norm_sq_le h
  have h3 : ‖g‖ ^ 2 ≤ C ^ 2 * ‖h‖ ^ 2 := by
    rw [← mul_pow]
    exact pow_le_pow_left₀ (norm_nonneg _) k 2
  have h4 : (√(dim I)) ^ 2 = dim I := Real.sq_sqrt dim_nonneg
  rw [mul_pow, h4]
  have h5 : C ^ 2 * ‖h‖ ^ 2 ≤ C ^ 2 * nsq h := mul_le_mul_of_nonneg_left h2 (sq_nonneg C)
  have h6 := mul_le_mul_of_nonneg_left (h3.trans h5) (dim_nonneg (I := I))
  linarith

theorem full_pd (hp : ContDiff ℝ 1 prior) (hk : ∀ d, ContDiff ℝ 1 (lik d)) (x : Lat I) :
    pd (full s prior lik) x = pd prior x + ∑ i, pd (lik (s.x i, s.y i)) x := by
  have h := (((hp.differentiable (by norm_num)) x).hasFDerivAt.add
    (HasFDerivAt.fun_sum (u := Finset.univ) fun i _ => ((hk (s.x i, s.y i)).differentiable (by norm_num) x).hasFDerivAt)).fderiv
  have h' : fderiv ℝ (full s prior lik) x = _ := h
  ext v i
  rw [show pd (full s prior lik) x v i = fderiv ℝ (full s prior lik) x (unit v i) from rfl, h']
  simp only [_root_.add_apply, _root_.sum_apply, pd, Pi.add_apply, Finset.sum_apply]

theorem Conditions.strong (h : Conditions s prior lik m Λ) : StrongConcave (full s prior lik) m (√(dim I) * (Λ + Λ * n)) := by
  refine ⟨h.prior_smooth.add (ContDiff.sum fun i _ => h.lik_smooth _), h.pos, fun x y => norm_nsq ?_, h.concave⟩
  rw [full_pd h.prior_smooth h.lik_smooth, full_pd h.prior_smooth h.lik_smooth, add_sub_add_comm, ← Finset.sum_sub_distrib]
  refine (norm_add_le _ _).trans ?_
  have h1 : ‖∑ i, (pd (lik (s.x i, s.y i)) x - pd (lik (s.x i, s.y i)) y)‖ ≤ ∑ _ : Fin n, Λ * ‖x - y‖ :=
    norm_sum_le_of_le _ fun i _ => h.lik_lip i x y
  rw [Finset.sum_const, Finset.card_univ, Fintype.card_fin, nsmul_eq_mul] at h1
  have h2 := h.prior_lip x y
  linarith

theorem meas_swap {A B C : Type} [MeasurableSpace A] [MeasurableSpace B] [MeasurableSpace C] {f : A → B → C}
    (h : Measurable fun a : B × A => f a.2 a.1) : Measurable fun a : A × B => f a.1 a.2 := h.comp measurable_swap

theorem Conditions.estimates (h : Conditions s prior lik m Λ) {b : ℕ} (hb : 0 < b) :
    Estimates (uniform n) (batchGrads s b prior lik) (itersSub n b) (full s prior lik) (√(dim I) * (Λ + Λ * n)) := by
  have e : ∀ t, batchGrads s b prior lik t = batchGrad s [] b t prior lik := fun t => rfl
  refine ⟨fun t _ => ?_, fun t ht => ?_, fun t _ => uniform_int _, fun t _ σ x y => ?_⟩
  · have h1 := batchGrad_measurable s [] b t h.prior_smooth h.lik_smooth
    simp only [e]
    exact meas_swap (f := batchGrad s [] b t prior lik) h1
  · rw [e]
    exact batchGrad_unbiased s [] hb ((C92_iters_up n b hb).1 ▸ ht) h.prior_smooth h.lik_smooth
  · rw [e]
    exact norm_nsq (batchGrad_lip s [] b t h.prior_smooth h.lik_smooth h.nonneg h.prior_lip h.lik_lip σ x y)

/-- The latent variables in the loop with one shuffle after the other are distributed as with independent orders of the rows. -/
theorem loop_law (h : Conditions s prior lik m Λ) {b : ℕ} (hb : 0 < b) (lr : ℕ → ℝ) {μ : Measure (Lat I)} [IsProbabilityMeasure μ] (e : ℕ) :
    IsProbabilityMeasure (loop s b prior lik lr μ e) ∧
    (loop s b prior lik lr μ e).map Prod.snd = starts lr (batchGrads s b prior lik) (uniform n) (itersSub n b) μ e := by
  have hE := h.estimates hb
  induction e with
  | zero =>
    rw [loop, starts]
    exact ⟨inferInstance, measurePreserving_snd.map_eq⟩
  | succ e ih =>
    obtain ⟨h1, h2⟩ := ih
    have _ := starts_prob hE (μ := μ) lr e
    rw [loop, starts, shuffle_law, h2]
    exact ⟨steps_prob hE (lr e) le_rfl, rfl⟩

theorem loop_shuffle (h : Conditions s prior lik m Λ) {b : ℕ} (hb : 0 < b) (lr : ℕ → ℝ) {μ : Measure (Lat I)} [IsProbabilityMeasure μ]
    (e : ℕ) : shuffle (loop s b prior lik lr μ e) =
      (uniform n).prod (starts lr (batchGrads s b prior lik) (uniform n) (itersSub n b) μ e) := by
  obtain ⟨h1, h2⟩ := loop_law h hb lr (μ := μ) e
  rw [shuffle_law, h2]

theorem iters_pos {b : ℕ} (hb : 0 < b) (hn : 0 < n) : 0 < itersSub n b := by
  rw [(C92_iters_up n b hb).1, lt_up hb]
  omega

/-- The loop of the example with SGLD: with learning rates that decrease to zero and whose sum is infinite, the means of all
functions of at most quadratic growth converge to their posterior means given all the data, for any size of the batches. -/
theorem C93_minibatch_means (h : Conditions s prior lik m Λ) {b : ℕ} (hb : 0 < b) (hn : 0 < n) {μ : Measure (Lat I)}
    [IsProbabilityMeasure μ] (hμ : MemLp id 2 μ) {lr : ℕ → ℝ} (h0 : ∀ e, 0 < lr e) (hz : Tendsto lr atTop (𝓝 0)) (hs : ¬ Summable lr)
    {t : ℕ → ℕ} (ht : ∀ e, t e ≤ itersSub n b) {f : Lat I → ℝ} (hf : Quadratic f) :
    Tendsto (fun e => ∫ a, f a.2 ∂steps (lr e) (batchGrads s b prior lik) (shuffle (loop s b prior lik lr μ e)) (t e)) atTop
      (𝓝 (∫ x, f x ∂posterior (full s prior lik))) := by
  simp only [loop_shuffle h hb]
  exact C93_means h.strong (h.estimates hb) (iters_pos hb hn) hμ h0 hz hs ht hf

/-- The loop of the example with SGLD converges to the posterior given all the data in distribution. -/
theorem C93_minibatch_distribution (h : Conditions s prior lik m Λ) {b : ℕ} (hb : 0 < b) (hn : 0 < n) {μ : Measure (Lat I)}
    [IsProbabilityMeasure μ] (hμ : MemLp id 2 μ) {lr : ℕ → ℝ} (h0 : ∀ e, 0 < lr e) (hz : Tendsto lr atTop (𝓝 0)) (hs : ¬ Summable lr)
    {t : ℕ → ℕ} (ht : ∀ e, t e ≤ itersSub n b) {f : Lat I → ℝ} (hf : Continuous f) {B : ℝ} (hB : ∀ x, |f x| ≤ B) :
    Tendsto (fun e => ∫ a, f a.2 ∂steps (lr e) (batchGrads s b prior lik) (shuffle (loop s b prior lik lr μ e)) (t e)) atTop
      (𝓝 (∫ x, f x ∂posterior (full s prior lik))) := by
  simp only [loop_shuffle h hb]
  exact C93_distribution h.strong (h.estimates hb) (iters_pos hb hn) hμ h0 hz hs ht hf hB

/-- With a small constant learning rate the loop of the example gets and stays close to the posterior given all the data. -/
theorem C93_minibatch_constant (h : Conditions s prior lik m Λ) {b : ℕ} (hb : 0 < b) (hn : 0 < n) {δ : ℝ} (hδ : 0 < δ) :
    ∃ bound > 0, ∀ lr, 0 < lr → lr < bound → ∀ μ : Measure (Lat I), IsProbabilityMeasure μ → MemLp id 2 μ →
      ∀ᶠ e in atTop, ∀ t ≤ itersSub n b,
        Near ((steps lr (batchGrads s b prior lik) (shuffle (loop s b prior lik (fun _ => lr) μ e)) t).map Prod.snd)
          (posterior (full s prior lik)) δ := by
  obtain ⟨c, hc, k⟩ := C93_constant h.strong (h.estimates hb) (iters_pos hb hn) hδ
  refine ⟨c, hc, fun lr h0 h1 μ _ hμ => ?_⟩
  simp only [loop_shuffle h hb]
  exact k lr h0 h1 μ inferInstance hμ

/-! Logistic regression with standard normal weights meets the conditions. -/

theorem logistic_concave (d : Lat I × ℝ) (x y : Lat I) : dot (pd (logistic d) x - pd (logistic d) y) (x - y) ≤ 0 := by
  have e : dot (pd (logistic d) x - pd (logistic d) y) (x - y) =
      (Real.sigmoid (d.2 * score d.1 y) - Real.sigmoid (d.2 * score d.1 x)) * (d.2 * score d.1 x - d.2 * score d.1 y) := by
    rw [← mul_sub, ← map_sub, score_apply (x := d.1) (w := x - y)]
    set A := Real.sigmoid (d.2 * score d.1 y) with hA
    set B := Real.sigmoid (d.2 * score d.1 x) with hB
    rw [dot, Finset.mul_sum, Finset.mul_sum]
    refine Finset.sum_congr rfl fun v _ => ?_
    rw [Finset.mul_sum, Finset.mul_sum]
    refine Finset.sum_congr rfl fun i _ => ?_
    rw [Pi.sub_apply, Pi.sub_apply, logistic_pd, logistic_pd, ← hA, ← hB, Pi.sub_apply, Pi.sub_apply]
    ring
  rw [e]
  rcases le_total (d.2 * score d.1 x) (d.2 * score d.1 y) with h | h
  · exact mul_nonpos_of_nonneg_of_nonpos (sub_nonneg.2 (Real.sigmoid_monotone h)) (sub_nonpos.2 h)
  · exact mul_nonpos_of_nonpos_of_nonneg (sub_nonpos.2 (Real.sigmoid_monotone h)) (sub_nonneg.2 h)

theorem dot_sum_left {J : Type} (u : Finset J) (g : J → Lat I) (z : Lat I) : dot (∑ j ∈ u, g j) z = ∑ j ∈ u, dot (g j) z := by
  classical
  induction u using Finset.induction_on with
  | empty => simp [dot]
  | insert j u hj ih => rw [Finset.sum_insert hj, Finset.sum_insert hj, dot_add_left, ih]

theorem logistic_model (s : Arrays n (Lat I) ℝ) : ∃ Λ, Conditions s (gl (I := I)) logistic 1 Λ := by
  have nn : ∀ i, 0 ≤ |s.y i| * ‖score (s.x i)‖ * (|s.y i| * ‖s.x i‖) := fun i => by positivity
  refine ⟨1 + ∑ i, |s.y i| * ‖score (s.x i)‖ * (|s.y i| * ‖s.x i‖), gl_smooth, logistic_smooth, one_pos,
    add_nonneg zero_le_one (Finset.sum_nonneg fun i _ => nn i), fun x y => ?_, fun i x y => ?_, fun x y => ?_⟩
  · rw [pd_gl, pd_gl, ← neg_sub', norm_neg]
    exact le_mul_of_one_le_left (norm_nonneg _) (le_add_of_nonneg_right (Finset.sum_nonneg fun i _ => nn i))
  · refine (logistic_lip (s.x i, s.y i) x y).trans (mul_le_mul_of_nonneg_right ?_ (norm_nonneg _))
    have := Finset.single_le_sum (f := fun i => |s.y i| * ‖score (s.x i)‖ * (|s.y i| * ‖s.x i‖)) (fun i _ => nn i) (Finset.mem_univ i)
    linarith
  · rw [full_pd gl_smooth logistic_smooth, full_pd gl_smooth logistic_smooth, add_sub_add_comm, ← Finset.sum_sub_distrib, dot_add_left,
      pd_gl, pd_gl, dot_sum_left]
    have h1 : ∑ i, dot (pd (logistic (s.x i, s.y i)) x - pd (logistic (s.x i, s.y i)) y) (x - y) ≤ 0 :=
      Finset.sum_nonpos fun i _ => logistic_concave _ _ _
    have h2 : dot (-x - -y) (x - y) = -1 * nsq (x - y) := by
      simp only [dot, nsq, Pi.sub_apply, Pi.neg_apply, Finset.mul_sum]
      refine Finset.sum_congr rfl fun v _ => Finset.sum_congr rfl fun i _ => ?_
      ring
    rw [h2]
    linarith

example (s : Arrays n (Lat I) ℝ) {b : ℕ} (hb : 0 < b) (hn : 0 < n) {c : ℝ} (hc : 0 < c) (v : V) (i : I v) :
    Tendsto (fun e : ℕ => ∫ a, a.2 v i ∂steps (c / (e + 1)) (batchGrads s b gl logistic)
        (shuffle (loop s b gl logistic (fun e => c / (e + 1)) (normals I) e)) (itersSub n b)) atTop
      (𝓝 (∫ x, x v i ∂posterior (full s gl logistic))) := by
  obtain ⟨Λ, h⟩ := logistic_model s
  obtain ⟨h0, hz, hs⟩ := harmonic hc
  exact C93_minibatch_means h hb hn (id_memLp 2) h0 hz hs (fun _ => le_rfl) (quadratic_value v i)

end ZhuSuan.SgldLoop

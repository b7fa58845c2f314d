import Verif.Lemmas.GaussLatent
import Verif.Model.Dropout
import Verif.Props.Discrete2
import Verif.Props.Minibatch
import Verif.Spec.Dropout

/-!
# Variational dropout (C102)
-/

set_option autoImplicit false

open MeasureTheory ProbabilityTheory InformationTheory

namespace ZhuSuan.Dropout

open Minibatch Vae

/-! ## Normal priors and normal variational distributions -/

section
variable {ι : Type} [Fintype ι]

/-- The log density of a normal distribution relative to another one satisfies the hypotheses of the theorems about the objectives. -/
theorem latent {f : (ι → ℝ) → ℝ} (hf : Lik f) (m₀ l₀ m l : ι → ℝ) :
    let r := fun w => logNormals m l w - logNormals m₀ l₀ w
    Grad.LatentModel ((normals ι).map (draw m₀ l₀)) (fun z => Real.exp (f z)) (fun z => Real.exp (r z)) ∧
      Grad.law ((normals ι).map (draw m₀ l₀)) (fun z => Real.exp (r z)) = (normals ι).map (draw m l) ∧
      Integrable f ((normals ι).map (draw m l)) ∧ Integrable r ((normals ι).map (draw m l)) := by
  intro r
  have hP : ∀ a c, IsProbabilityMeasure ((normals ι).map (draw a c)) := fun a c => by
    have : IsProbabilityMeasure (normals ι) := by unfold normals; infer_instance
    exact Measure.isProbabilityMeasure_map (measurable_draw a c).aemeasurable
  have := hP m₀ l₀
  have cr : Continuous r := (continuous_logNormals m l).sub (continuous_logNormals m₀ l₀)
  have hlaw : Grad.law ((normals ι).map (draw m₀ l₀)) (fun z => Real.exp (r z)) = (normals ι).map (draw m l) := by
    rw [draw_law, draw_law, Grad.law, ← withDensity_mul _ ((continuous_logNormals m₀ l₀).rexp.measurable.ennreal_ofReal)
      cr.rexp.measurable.ennreal_ofReal]
    congr 1
    funext w
    simp only [Pi.mul_apply, r]
    rw [← ENNReal.ofReal_mul (Real.exp_pos _).le, ← Real.exp_add]
    congr 2
    ring
  have hr1 : ∫⁻ w, ENNReal.ofReal (Real.exp (r w)) ∂((normals ι).map (draw m₀ l₀)) = 1 := by
    have := (hP m l).measure_univ
    rwa [← hlaw, Grad.law, withDensity_apply _ MeasurableSet.univ, Measure.restrict_univ] at this
  have ir : Integrable (fun w => Real.exp (r w)) ((normals ι).map (draw m₀ l₀)) := by
    refine ⟨cr.rexp.aestronglyMeasurable, ?_⟩
    rw [hasFiniteIntegral_iff_ofReal (Filter.Eventually.of_forall fun w => (Real.exp_pos _).le), hr1]
    exact ENNReal.one_lt_top
  obtain ⟨C, hC⟩ := hf.bdd
  have il : Integrable (fun z => Real.exp (f z)) ((normals ι).map (draw m₀ l₀)) :=
    Integrable.of_bound hf.cont.rexp.aestronglyMeasurable (Real.exp C) (Filter.Eventually.of_forall fun w => by
      rw [Real.norm_eq_abs, abs_of_pos (Real.exp_pos _)]
      exact Real.exp_le_exp.2 (hC w))
  have hg : ∀ (g : (ι → ℝ) → ℝ) (c : ℝ) (k : ℕ), Continuous g → 0 ≤ c → (∀ z, |g z| ≤ c * (1 + ‖z‖) ^ k) →
      Integrable g ((normals ι).map (draw m l)) := by
    intro g c k g1 h0 h
    rw [integrable_map_measure g1.aestronglyMeasurable (measurable_draw m l).aemeasurable]
    exact integrable_encoded tame_id m l g1.measurable h0 h
  refine ⟨⟨hf.cont.rexp.measurable, cr.rexp.measurable, fun w => (Real.exp_pos _).le, fun w => (Real.exp_pos _).le, il, ?_, ir, ?_,
    fun w h => absurd h (Real.exp_pos _).ne'⟩, hlaw, ?_, ?_⟩
  · rw [Grad.evidence, integral_pos_iff_support_of_nonneg (fun w => (Real.exp_pos _).le) il]
    have : Function.support (fun z => Real.exp (f z)) = Set.univ := by
      ext w
      simp only [Function.mem_support, Set.mem_univ, iff_true]
      exact (Real.exp_pos _).ne'
    rw [this, measure_univ]
    exact one_pos
  · rw [integral_eq_lintegral_of_nonneg_ae (Filter.Eventually.of_forall fun w => (Real.exp_pos _).le) cr.rexp.aestronglyMeasurable, hr1]
    rfl
  · obtain ⟨c, k, hc, hk⟩ := hf.growth
    exact hg f c k hf.cont hc hk
  · obtain ⟨c1, hc1, h1⟩ := logNormals_growth m l
    obtain ⟨c2, hc2, h2⟩ := logNormals_growth m₀ l₀
    exact hg r (c1 + c2) 2 cr (by positivity) fun z => (abs_sub _ _).trans (by rw [add_mul]; exact add_le_add (h1 z) (h2 z))

/-- The evidence lower bound of a likelihood with a normal prior and a normal variational distribution. -/
theorem gap {f : (ι → ℝ) → ℝ} (hf : Lik f) (m₀ l₀ m l : ι → ℝ) :
    let p := (normals ι).map (draw m₀ l₀)
    let q := (normals ι).map (draw m l)
    klDiv q (Grad.posterior p fun z => Real.exp (f z)) ≠ ⊤ ∧
    ∫ z, f z + logNormals m₀ l₀ z - logNormals m l z ∂q =
      Real.log (Grad.evidence p fun z => Real.exp (f z)) - (klDiv q (Grad.posterior p fun z => Real.exp (f z))).toReal := by
  intro p q
  obtain ⟨hM, hlaw, i1, i2⟩ := latent hf m₀ l₀ m l
  have g := Grad.C39_elbo_gap (logp := fun z => .const (f z)) (logq := fun z => .const (logNormals m l z - logNormals m₀ l₀ z)) hM
    (fun z => (Real.log_exp _).symm) (fun z => (Real.log_exp _).symm) (by
      simp only [Real.log_exp, hlaw]
      exact i1.sub i2) 0
  rw [Grad.samples, hlaw] at g
  refine ⟨g.1, g.2.symm.trans ?_ |>.symm⟩
  simp only [Grad.elboObjective_val]
  have hq : IsProbabilityMeasure q := by
    have : IsProbabilityMeasure (normals ι) := by unfold normals; infer_instance
    exact Measure.isProbabilityMeasure_map (measurable_draw m l).aemeasurable
  have := integral_comp_eval (μ := fun _ : Fin (0 + 1) => q) (i := 0)
    (f := fun z => f z + logNormals m₀ l₀ z - logNormals m l z) ?_
  · rw [← this]
    refine integral_congr_ae (Filter.Eventually.of_forall fun z => ?_)
    show (∑ k : Fin (0 + 1), (f (z k) - (logNormals m l (z k) - logNormals m₀ l₀ (z k)))) / ((0 + 1 : ℕ) : ℝ) = _
    rw [Fin.sum_univ_one]
    push_cast
    ring
  · exact (hf.cont.add (continuous_logNormals _ _)).sub (continuous_logNormals _ _) |>.aestronglyMeasurable

/-- The divergence of the variational distribution from the prior. -/
theorem gap_prior (m₀ l₀ m l : ι → ℝ) :
    let p := (normals ι).map (draw m₀ l₀)
    let q := (normals ι).map (draw m l)
    klDiv q p ≠ ⊤ ∧ Integrable (fun z => logNormals m₀ l₀ z - logNormals m l z) q ∧
      ∫ z, logNormals m₀ l₀ z - logNormals m l z ∂q = - (klDiv q p).toReal := by
  intro p q
  have hf : Lik (fun _ : ι → ℝ => (0 : ℝ)) := ⟨continuous_const, ⟨0, fun _ => le_rfl⟩, ⟨0, 0, le_rfl, fun z => by simp⟩⟩
  have hp : IsProbabilityMeasure p := by
    have : IsProbabilityMeasure (normals ι) := by unfold normals; infer_instance
    exact Measure.isProbabilityMeasure_map (measurable_draw _ _).aemeasurable
  have e1 : Grad.evidence p (fun _ => Real.exp 0) = 1 := by simp [Grad.evidence]
  have e2 : Grad.posterior p (fun _ => Real.exp 0) = p := by
    rw [Grad.posterior, e1]
    simp
  obtain ⟨g1, g2⟩ := gap hf m₀ l₀ m l
  obtain ⟨-, -, -, i⟩ := latent hf m₀ l₀ m l
  rw [e2] at g1
  rw [e2, e1, Real.log_one, zero_sub] at g2
  refine ⟨g1, i.neg.congr (Filter.Eventually.of_forall fun z => ?_), ?_⟩
  · simp
  · simpa using g2

end

/-! ## The net -/

section
variable {R : Type} [Fintype R] {L : ℕ} {sizes : ℕ → ℕ}

theorem relu_relu {m : ℕ} (h : Fin m → ℝ) : relu (relu h) = relu h := by
  funext j
  simp [relu]

theorem hidden_succ (net : Net sizes) (tr : Bool) (x : R → Fin (sizes 0) → ℝ) (e : R → Noise L sizes → ℝ) (l : ℕ) (r : R)
    (j : Fin (sizes (l + 1))) :
    hidden net tr x e (l + 1) r j =
      max (batchNorm (net l) tr (matmul (net l) fun r i => hidden net tr x e l r i * epsAt (e r) l i) r j) 0 := by
  rw [hidden]
  split
  · show relu (relu (batchNorm (net l) tr (matmul (net l) fun r i => hidden net tr x e l r i * epsAt (e r) l i) r)) j = _
    rw [relu_relu]
    rfl
  · rfl

theorem batchVar_nonneg {k : ℕ} (a : R → Fin k → ℝ) (j : Fin k) : 0 ≤ batchVar a j := by
  unfold batchVar
  positivity

theorem batchVar_eq {k : ℕ} (a : R → Fin k → ℝ) (j : Fin k) (hR : Nonempty R) :
    batchVar a j = (∑ r, a r j ^ 2) / Fintype.card R - batchMean a j ^ 2 := by
  have hc : (Fintype.card R : ℝ) ≠ 0 := by exact_mod_cast Fintype.card_ne_zero
  have h1 : ∑ r, a r j = Fintype.card R * batchMean a j := by unfold batchMean; field_simp
  have h2 : ∑ r, (a r j - batchMean a j) ^ 2 = ∑ r, a r j ^ 2 - Fintype.card R * batchMean a j ^ 2 := by
    simp only [sub_sq, Finset.sum_add_distrib, Finset.sum_sub_distrib, Finset.sum_const, Finset.card_univ, nsmul_eq_mul]
    rw [← Finset.sum_mul, ← Finset.mul_sum, h1]
    ring
  rw [batchVar, h2]
  field_simp

theorem hidden_train (net : Net sizes) (x : R → Fin (sizes 0) → ℝ) (e : R → Noise L sizes → ℝ) (l : ℕ) (r : R) (j : Fin (sizes l)) :
    hidden net true x e l r j = forwardAll (fun l => (net l).kernel) (fun l => (net l).beta) (fun r => noiseAt (e r)) x l r j := by
  induction l generalizing r with
  | zero => rfl
  | succ l ih =>
    rw [hidden_succ, forwardAll, max_comm]
    have ea : ∀ s (j : Fin (sizes (l + 1))), matmul (net l) (fun r i => hidden net true x e l r i * epsAt (e r) l i) s j =
        ∑ i, noiseAt (e s) l i * forwardAll (fun l => (net l).kernel) (fun l => (net l).beta) (fun r => noiseAt (e r)) x l s i *
          (net l).kernel i j := by
      intro s j
      refine Finset.sum_congr rfl fun i _ => ?_
      simp only [ih]
      show _ * noiseAt (e s) l i * _ = _
      ring
    simp only [batchNorm, if_true]
    rw [batchVar_eq _ _ ⟨r⟩]
    simp only [batchMean, ea]

theorem hidden_eval (net : Net sizes) (x : R → Fin (sizes 0) → ℝ) (e : R → Noise L sizes → ℝ) (l : ℕ) (r : R) (j : Fin (sizes l)) :
    hidden net false x e l r j = forward (fun l => (net l).kernel) (fun l => (net l).beta) (fun l => (net l).movingMean)
      (fun l => (net l).movingVar) (noiseAt (e r)) (x r) l j := by
  induction l generalizing r with
  | zero => rfl
  | succ l ih =>
    rw [hidden_succ, forward, max_comm]
    have ea : ∀ s (j : Fin (sizes (l + 1))), matmul (net l) (fun r i => hidden net false x e l r i * epsAt (e r) l i) s j =
        ∑ i, noiseAt (e s) l i * forward (fun l => (net l).kernel) (fun l => (net l).beta) (fun l => (net l).movingMean)
          (fun l => (net l).movingVar) (noiseAt (e s)) (x s) l i * (net l).kernel i j := by
      intro s j
      refine Finset.sum_congr rfl fun i _ => ?_
      simp only [ih]
      show _ * noiseAt (e s) l i * _ = _
      ring
    simp only [batchNorm, ea]
    simp

theorem continuous_epsAt (l : ℕ) (i : Fin (sizes l)) : Continuous fun e : Noise L sizes → ℝ => epsAt e l i := by
  unfold epsAt
  split <;> fun_prop

theorem abs_epsAt (e : Noise L sizes → ℝ) (l : ℕ) (i : Fin (sizes l)) : |epsAt e l i| ≤ ‖e‖ := by
  unfold epsAt
  split
  · exact norm_le_pi_norm e _
  · simp

theorem continuous_hidden (net : Net sizes) (tr : Bool) (x : R → Fin (sizes 0) → ℝ) (l : ℕ) (r : R) (j : Fin (sizes l)) :
    Continuous fun e : R → Noise L sizes → ℝ => hidden net tr x e l r j := by
  induction l generalizing r with
  | zero => exact continuous_const
  | succ l ih =>
    simp only [hidden_succ]
    have ha : ∀ (s : R) (j : Fin (sizes (l + 1))), Continuous fun e : R → Noise L sizes → ℝ =>
        matmul (net l) (fun r i => hidden net tr x e l r i * epsAt (e r) l i) s j := fun s j =>
      continuous_finsetSum _ fun i _ => (((ih s i).mul ((continuous_epsAt l i).comp (continuous_apply s)))).mul continuous_const
    refine Continuous.max ?_ continuous_const
    cases tr with
    | false =>
      simp only [batchNorm, Bool.false_eq_true, if_false]
      exact (((ha r j).sub continuous_const).div_const _).add continuous_const
    | true =>
      simp only [batchNorm, if_true]
      have hm : Continuous fun e : R → Noise L sizes → ℝ =>
          batchMean (matmul (net l) (fun r i => hidden net true x e l r i * epsAt (e r) l i)) j :=
        (continuous_finsetSum _ fun s _ => ha s j).div_const _
      have hv : Continuous fun e : R → Noise L sizes → ℝ =>
          batchVar (matmul (net l) (fun r i => hidden net true x e l r i * epsAt (e r) l i)) j :=
        (continuous_finsetSum _ fun s _ => ((ha s j).sub hm).pow 2).div_const _
      refine (((ha r j).sub hm).div (Real.continuous_sqrt.comp (hv.add continuous_const)) fun e => ?_).add continuous_const
      have h1 := batchVar_nonneg (matmul (net l) (fun r i => hidden net true x e l r i * epsAt (e r) l i)) j
      have h2 : 0 < batchVar (matmul (net l) (fun r i => hidden net true x e l r i * epsAt (e r) l i)) j + 0.001 := by linarith
      exact (Real.sqrt_pos.2 h2).ne'

theorem hidden_growth (net : Net sizes) (tr : Bool) (x : R → Fin (sizes 0) → ℝ) (l : ℕ) :
    ∃ c : ℝ, 0 ≤ c ∧ ∀ (e : R → Noise L sizes → ℝ) (r : R) (j : Fin (sizes l)), |hidden net tr x e l r j| ≤ c * (1 + ‖e‖) ^ l := by
  induction l with
  | zero =>
    refine ⟨‖x‖, norm_nonneg _, fun e r j => ?_⟩
    rw [pow_zero, mul_one]
    exact (norm_le_pi_norm (x r) j).trans (norm_le_pi_norm x r)
  | succ l ih =>
    obtain ⟨c, hc, h⟩ := ih
    set a : (R → Noise L sizes → ℝ) → R → Fin (sizes (l + 1)) → ℝ := fun e =>
      matmul (net l) (fun r i => hidden net tr x e l r i * epsAt (e r) l i) with hadef
    -- the constants of the units
    have key : ∀ j : Fin (sizes (l + 1)), ∃ C : ℝ, 0 ≤ C ∧ ∀ (e : R → Noise L sizes → ℝ) (r : R),
        |batchNorm (net l) tr (a e) r j| ≤ C * (1 + ‖e‖) ^ (l + 1) := by
      intro j
      set A := c * ∑ i, |(net l).kernel i j| with hA
      have hA0 : 0 ≤ A := by positivity
      have ha : ∀ e s, |a e s j| ≤ A * (1 + ‖e‖) ^ (l + 1) := by
        intro e s
        have h1 : |a e s j| ≤ ∑ i, (c * (1 + ‖e‖) ^ l * (1 + ‖e‖)) * |(net l).kernel i j| := by
          refine (Finset.abs_sum_le_sum_abs _ _).trans (Finset.sum_le_sum fun i _ => ?_)
          rw [abs_mul, abs_mul]
          refine mul_le_mul_of_nonneg_right (mul_le_mul (h e s i) ?_ (abs_nonneg _) (by positivity)) (abs_nonneg _)
          exact (abs_epsAt _ _ _).trans ((norm_le_pi_norm e s).trans (by linarith))
        rw [← Finset.mul_sum] at h1
        refine h1.trans (le_of_eq ?_)
        rw [hA]
        ring
      have hP : ∀ e : R → Noise L sizes → ℝ, 1 ≤ (1 + ‖e‖) ^ (l + 1) := fun e => one_le_pow₀ (by linarith [norm_nonneg e])
      cases tr with
      | false =>
        refine ⟨(A + |(net l).movingMean j|) * (Real.sqrt ((net l).movingVar j + 0.001))⁻¹ + |(net l).beta j|, by positivity, fun e r => ?_⟩
        simp only [batchNorm, Bool.false_eq_true, if_false]
        refine (abs_add_le _ _).trans ?_
        rw [add_mul]
        refine add_le_add ?_ (le_mul_of_one_le_right (abs_nonneg _) (hP e))
        rw [abs_div, abs_of_nonneg (Real.sqrt_nonneg _), div_eq_mul_inv, mul_right_comm]
        refine mul_le_mul_of_nonneg_right ((abs_sub _ _).trans ?_) (by positivity)
        rw [add_mul]
        exact add_le_add (ha e r) (le_mul_of_one_le_right (abs_nonneg _) (hP e))
      | true =>
        refine ⟨(A + A) * (Real.sqrt 0.001)⁻¹ + |(net l).beta j|, by positivity, fun e r => ?_⟩
        simp only [batchNorm, if_true]
        refine (abs_add_le _ _).trans ?_
        rw [add_mul]
        refine add_le_add ?_ (le_mul_of_one_le_right (abs_nonneg _) (hP e))
        rw [abs_div, abs_of_nonneg (Real.sqrt_nonneg _), div_eq_mul_inv, mul_right_comm]
        have hm : |batchMean (a e) j| ≤ A * (1 + ‖e‖) ^ (l + 1) := by
          have hcard : (0 : ℝ) < Fintype.card R := by exact_mod_cast Fintype.card_pos_iff.2 ⟨r⟩
          rw [batchMean, abs_div, Nat.abs_cast, div_le_iff₀ hcard]
          refine (Finset.abs_sum_le_sum_abs _ _).trans ((Finset.sum_le_sum fun s _ => ha e s).trans (le_of_eq ?_))
          rw [Finset.sum_const, Finset.card_univ, nsmul_eq_mul]
          ring
        refine mul_le_mul ((abs_sub _ _).trans ?_) ?_ (by positivity) (by positivity)
        · rw [add_mul]
          exact add_le_add (ha e r) hm
        · refine inv_anti₀ (Real.sqrt_pos.2 (by norm_num)) (Real.sqrt_le_sqrt ?_)
          linarith [batchVar_nonneg (a e) j]
    choose C hC0 hC using key
    refine ⟨∑ j, C j, Finset.sum_nonneg fun j _ => hC0 j, fun e r j => ?_⟩
    rw [hidden_succ]
    have h1 : |batchNorm (net l) tr (a e) r j| ≤ (∑ j, C j) * (1 + ‖e‖) ^ (l + 1) :=
      (hC j e r).trans (mul_le_mul_of_nonneg_right (Finset.single_le_sum (fun j _ => hC0 j) (Finset.mem_univ j)) (by positivity))
    refine le_trans ?_ h1
    rw [abs_of_nonneg (le_max_right _ _)]
    exact max_le (le_abs_self _) (abs_nonneg _)

end

/-! ## The noise -/

section
variable {L : ℕ} {sizes : ℕ → ℕ}

theorem std_pos (a : ℝ) : 0 < std a := by
  have : 0 < Uni.sigmoid a := by unfold Uni.sigmoid; positivity
  exact Real.sqrt_pos.2 (by linarith)

theorem std_sq (a : ℝ) : std a ^ 2 = Uni.sigmoid a + 1e-10 := by
  have : 0 < Uni.sigmoid a := by unfold Uni.sigmoid; positivity
  exact Real.sq_sqrt (by linarith)

theorem sample_eq (α z : Noise L sizes → ℝ) : sample α z = draw (fun _ => 1) (fun j => Real.log (std (α j))) z := by
  funext j
  simp only [sample, draw, Real.exp_log (std_pos _)]

theorem logPe_eq (e : Noise L sizes → ℝ) : logPe e = logNormals (fun _ => 1) (fun _ => 0) e := by simp [logPe, logNormals]

theorem measurable_sample (α : Noise L sizes → ℝ) : Measurable (sample α) := by
  rw [funext (sample_eq α)]
  exact measurable_draw _ _

/-- The variances of the variational distribution. -/
noncomputable def alphaVar (α : Noise L sizes → ℝ) (j : Noise L sizes) : NNReal := (Uni.sigmoid (α j) + 1e-10).toNNReal

theorem coe_alphaVar (α : Noise L sizes → ℝ) (j : Noise L sizes) : (alphaVar α j : ℝ) = Uni.sigmoid (α j) + 1e-10 :=
  Real.coe_toNNReal _ (by rw [← std_sq]; positivity)

/-- **C102.** The samples of the noise have the normal distribution with mean one and variance `sigmoid(logit_alpha) + 1e-10`. -/
theorem C102_noise (α : Noise L sizes → ℝ) : (normals (Noise L sizes)).map (sample α) = ones (alphaVar α) := by
  rw [funext (sample_eq α), draw_normal, ones]
  congr 1
  funext j
  congr 1
  rw [← NNReal.coe_inj, coe_alphaVar, ← std_sq, Real.exp_log (std_pos _)]
  rfl

theorem prior_law : (normals (Noise L sizes)).map (draw (fun _ => 1) fun _ => 0) = ones fun _ => 1 := by
  rw [draw_normal, ones]
  congr 1
  funext j
  congr 1
  rw [← NNReal.coe_inj]
  simp [Uni.sq]

/-- **C102.** The divergence of the variational distribution from the prior. -/
theorem C102_kl (α : Noise L sizes → ℝ) :
    klDiv (ones (alphaVar α)) (ones fun _ => 1) ≠ ⊤ ∧
    (klDiv (ones (alphaVar α)) (ones fun _ => 1)).toReal =
      ∑ j, (Uni.sigmoid (α j) + 1e-10 - 1 - Real.log (Uni.sigmoid (α j) + 1e-10)) / 2 := by
  obtain ⟨g1, g2, g3⟩ := gap_prior (fun _ : Noise L sizes => 1) (fun _ => 0) (fun _ => 1) (fun j => Real.log (std (α j)))
  have hq : (normals (Noise L sizes)).map (draw (fun _ => 1) (fun j => Real.log (std (α j)))) = ones (alphaVar α) := by
    rw [← C102_noise, funext (sample_eq α)]
  rw [hq, prior_law] at g1 g3
  refine ⟨g1, ?_⟩
  have cD : Continuous fun z : Noise L sizes → ℝ => logNormals (fun _ => 1) (fun _ => 0) z -
      logNormals (fun _ => 1) (fun j => Real.log (std (α j))) z := (continuous_logNormals _ _).sub (continuous_logNormals _ _)
  rw [← neg_eq_iff_eq_neg.2 g3, ← hq, integral_map (measurable_draw _ _).aemeasurable cD.aestronglyMeasurable]
  have e : ∀ z : Noise L sizes → ℝ, logNormals (fun _ => 1) (fun _ => 0) (draw (fun _ => 1) (fun j => Real.log (std (α j))) z) -
      logNormals (fun _ => 1) (fun j => Real.log (std (α j))) (draw (fun _ => 1) (fun j => Real.log (std (α j))) z) =
      ∑ j, (Real.log (std (α j)) + (1 - std (α j) ^ 2) / 2 * z j ^ 2) := by
    intro z
    rw [logNormals, logNormals, ← Finset.sum_sub_distrib]
    refine Finset.sum_congr rfl fun j _ => ?_
    have h := std_pos (α j)
    simp only [draw, Uni.Normal.logProb, Uni.Normal.sample, Real.exp_log h]
    rw [show Real.exp (-2 * Real.log (std (α j))) = (std (α j) ^ 2)⁻¹ by
      rw [← Real.exp_log (pow_pos h 2), ← Real.exp_neg, Real.log_pow]; norm_num]
    have h' := h.ne'
    field_simp
    norm_num
    ring
  simp only [e]
  have i1 : Integrable (fun x : ℝ => x ^ 2) (gaussianReal 0 1) := (memLp_id_gaussianReal' 2 (by simp)).integrable_sq
  have h1 : ∫ x, x ^ 2 ∂(gaussianReal 0 1) = 1 := by
    have := variance_id_gaussianReal (μ := 0) (v := 1)
    rw [variance_of_integral_eq_zero (by fun_prop) (by simp)] at this
    simpa using this
  have i2 : ∀ j, Integrable (fun z : Noise L sizes → ℝ => Real.log (std (α j)) + (1 - std (α j) ^ 2) / 2 * z j ^ 2) (normals (Noise L sizes)) :=
    fun j => (integrable_const _).add ((integrable_comp_eval (μ := fun _ : Noise L sizes => gaussianReal 0 1) (i := j) i1).const_mul _)
  rw [integral_finsetSum _ fun j _ => i2 j, ← Finset.sum_neg_distrib]
  refine Finset.sum_congr rfl fun j _ => ?_
  have h2 : ∫ z : Noise L sizes → ℝ, z j ^ 2 ∂(normals (Noise L sizes)) = 1 :=
    (integral_comp_eval (μ := fun _ : Noise L sizes => gaussianReal 0 1) (i := j) (f := fun x => x ^ 2) i1.aestronglyMeasurable).trans h1
  have hP : IsProbabilityMeasure (normals (Noise L sizes)) := by unfold normals; infer_instance
  have i3 : Integrable (fun z : Noise L sizes → ℝ => (1 - std (α j) ^ 2) / 2 * z j ^ 2) (normals (Noise L sizes)) :=
    (integrable_comp_eval (μ := fun _ : Noise L sizes => gaussianReal 0 1) (i := j) i1).const_mul _
  rw [integral_add (integrable_const _) i3, integral_const_mul, h2, ← std_sq, Real.log_pow]
  simp
  ring

end

/-! ## The bound -/

section
variable {L c K b : ℕ} {sizes : ℕ → ℕ}

/-- The standard normal draws of all particles and rows. -/
noncomputable def draws (L : ℕ) (sizes : ℕ → ℕ) (K b : ℕ) : Measure (Fin K × Fin b → Noise L sizes → ℝ) :=
  Measure.pi fun _ => normals (Noise L sizes)

instance : IsProbabilityMeasure (normals (Noise L sizes)) := by unfold normals; infer_instance
instance : IsProbabilityMeasure (draws L sizes K b) := by unfold draws; infer_instance
instance (v : Noise L sizes → NNReal) : IsProbabilityMeasure (ones v) := by unfold ones; infer_instance

theorem measurable_samples {R : Type} (α : Noise L sizes → ℝ) : Measurable fun (z : R → Noise L sizes → ℝ) r => sample α (z r) :=
  measurable_pi_lambda _ fun r => (measurable_sample α).comp (measurable_pi_apply r)

/-- The noise of the particles and rows is independent. -/
theorem samples_law (α : Noise L sizes → ℝ) :
    (draws L sizes K b).map (fun z r => sample α (z r)) = Measure.pi fun _ => ones (alphaVar α) := by
  have := Measure.pi_map_pi (μ := fun _ : Fin K × Fin b => normals (Noise L sizes)) (f := fun _ => sample α)
    fun _ => (measurable_sample α).aemeasurable
  rw [draws, this]
  simp only [C102_noise]

theorem memLp_samples (α : Noise L sizes → ℝ) (p : ℕ) : MemLp (fun z r => sample α (z r)) p (draws L sizes K b) := by
  have h2 : ∀ r, MemLp (fun z : Fin K × Fin b → Noise L sizes → ℝ => ‖sample α (z r)‖) p (draws L sizes K b) := fun r => by
    have h1 : MemLp (sample α) p (normals (Noise L sizes)) := by
      rw [funext (sample_eq α)]
      exact memLp_draw _ _ p
    exact (h1.comp_measurePreserving (measurePreserving_eval (fun _ : Fin K × Fin b => normals (Noise L sizes)) r)).norm
  refine (memLp_finsetSum Finset.univ fun r _ => h2 r).mono (measurable_samples α).aestronglyMeasurable
    (Filter.Eventually.of_forall fun z => ?_)
  rw [Real.norm_of_nonneg (Finset.sum_nonneg fun j _ => norm_nonneg _)]
  exact (pi_norm_le_iff_of_nonneg (Finset.sum_nonneg fun j _ => norm_nonneg _)).2 fun j =>
    Finset.single_le_sum (f := fun j => ‖sample α (z j)‖) (fun j _ => norm_nonneg _) (Finset.mem_univ j)

theorem logProb_eq (l : Fin (c + 1) → ℝ) (y : Fin (c + 1)) : Num.categoricalLogProb l y = Real.log (Num.softmax l y) := by
  rw [← (Num.C21_mass l y).1, Real.log_exp]

theorem abs_logSoftmax (l : Fin (c + 1) → ℝ) (y : Fin (c + 1)) {M : ℝ} (h : ∀ j, |l j| ≤ M) :
    |Real.log (Num.softmax l y)| ≤ Real.log (c + 1) + 2 * M := by
  have hs : 0 < ∑ j, Real.exp (l j) := Num.sum_exp_pos l
  rw [Num.softmax, Real.log_div (Real.exp_pos _).ne' hs.ne', Real.log_exp]
  have h1 : ∑ j, Real.exp (l j) ≤ (c + 1) * Real.exp M := by
    refine (Finset.sum_le_sum fun j _ => Real.exp_le_exp.2 ((le_abs_self _).trans (h j))).trans (le_of_eq ?_)
    simp
  have h2 : Real.log (∑ j, Real.exp (l j)) ≤ Real.log (c + 1) + M := by
    refine (Real.log_le_log hs h1).trans (le_of_eq ?_)
    rw [Real.log_mul (by positivity) (Real.exp_pos _).ne', Real.log_exp]
  have h3 : l y ≤ Real.log (∑ j, Real.exp (l j)) := by
    rw [Real.le_log_iff_exp_le hs]
    exact Finset.single_le_sum (f := fun j => Real.exp (l j)) (fun j _ => (Real.exp_pos _).le) (Finset.mem_univ y)
  have h4 := neg_le_of_abs_le (h y)
  rw [abs_of_nonpos (by linarith)]
  linarith

theorem logSoftmax_nonpos (l : Fin (c + 1) → ℝ) (y : Fin (c + 1)) : Real.log (Num.softmax l y) ≤ 0 := by
  refine Real.log_nonpos (Num.softmax_pos l y).le ?_
  rw [← Num.softmax_sum l]
  exact Finset.single_le_sum (f := Num.softmax l) (fun j _ => (Num.softmax_pos l j).le) (Finset.mem_univ y)

theorem continuous_softmax (y : Fin (c + 1)) : Continuous fun l : Fin (c + 1) → ℝ => Num.softmax l y := by
  unfold Num.softmax
  refine Continuous.div (by fun_prop) (by fun_prop) fun l => (Num.sum_exp_pos l).ne'

theorem continuous_logits (hL : sizes L = c + 1) (net : Net sizes) (tr : Bool) (x : Fin b → Fin (sizes 0) → ℝ) (r : Fin K × Fin b) :
    Continuous fun e => logits hL net tr x e r :=
  continuous_pi fun _ => continuous_hidden net tr _ L r _

theorem logits_growth (hL : sizes L = c + 1) (net : Net sizes) (tr : Bool) (x : Fin b → Fin (sizes 0) → ℝ) (y : Fin b → Fin (c + 1)) :
    ∃ C : ℝ, 0 ≤ C ∧ ∀ (e : Fin K × Fin b → Noise L sizes → ℝ) r,
      |Real.log (Num.softmax (logits hL net tr x e r) (y r.2))| ≤ C * (1 + ‖e‖) ^ L := by
  obtain ⟨C, hC, h⟩ := hidden_growth (L := L) net tr (fun r : Fin K × Fin b => x r.2) L
  have hl : 0 ≤ Real.log ((c : ℝ) + 1) := Real.log_nonneg (by linarith [(Nat.cast_nonneg c : (0 : ℝ) ≤ c)])
  refine ⟨Real.log (c + 1) + 2 * C, by positivity, fun e r => ?_⟩
  refine (abs_logSoftmax _ _ (M := C * (1 + ‖e‖) ^ L) fun j => h e r _).trans ?_
  have : 1 ≤ (1 + ‖e‖) ^ L := one_le_pow₀ (by linarith [norm_nonneg e])
  nlinarith

theorem integrable_logLik (hL : sizes L = c + 1) (net : Net sizes) (α : Noise L sizes → ℝ) (tr : Bool) (x : Fin b → Fin (sizes 0) → ℝ)
    (y : Fin b → Fin (c + 1)) (r : Fin K × Fin b) :
    Integrable (fun z => Real.log (Num.softmax (logits hL net tr x (fun r => sample α (z r)) r) (y r.2))) (draws L sizes K b) := by
  obtain ⟨C, hC, h⟩ := logits_growth (K := K) hL net tr x y
  refine integrable_poly (Z := fun z r => sample α (z r)) (memLp_samples α) ?_ C L fun z => h _ r
  have h1 : Continuous fun e : Fin K × Fin b → Noise L sizes → ℝ => Real.log (Num.softmax (logits hL net tr x e r) (y r.2)) :=
    ((continuous_softmax _).comp (continuous_logits hL net tr x r)).log fun e => (Num.softmax_pos _ _).ne'
  exact (h1.measurable.comp (measurable_samples α)).aestronglyMeasurable

theorem lowerBound_eq (hL : sizes L = c + 1) (N : ℕ) (net : Net sizes) (α : Noise L sizes → ℝ) (tr : Bool) (x : Fin b → Fin (sizes 0) → ℝ)
    (y : Fin b → Fin (c + 1)) (z : Fin K × Fin b → Noise L sizes → ℝ) :
    lowerBound hL N net α tr x y z = (∑ i : Fin b, (∑ k : Fin K,
      (Real.log (Num.softmax (logits hL net tr x (fun r => sample α (z r)) (k, i)) (y i)) * N +
        (logNormals (fun _ => 1) (fun _ => 0) (sample α (z (k, i))) -
          logNormals (fun _ => 1) (fun j => Real.log (std (α j))) (sample α (z (k, i)))))) / K) / b / N := by
  simp only [lowerBound, Grad.elboObjective_val]
  congr 3
  funext i
  congr 2
  funext k
  show logPe (sample α (z (k, i))) + Num.categoricalLogProb _ _ * N - logQ α (sample α (z (k, i))) = _
  rw [logPe_eq, logProb_eq]
  show _ - logNormals (fun _ => 1) (fun j => Real.log (std (α j))) (sample α (z (k, i))) = _
  ring

/-- The expected bound, in terms of the logits of the model. -/
theorem objective (hL : sizes L = c + 1) (N : ℕ) (hN : 0 < N) (net : Net sizes) (α : Noise L sizes → ℝ) (tr : Bool)
    (x : Fin b → Fin (sizes 0) → ℝ) (y : Fin b → Fin (c + 1)) (hb : 0 < b) (hK : 0 < K) :
    Integrable (lowerBound hL N net α tr x y) (draws L sizes K b) ∧
    ∫ z, lowerBound hL N net α tr x y z ∂(draws L sizes K b) =
      (∑ r : Fin K × Fin b, ∫ z, Real.log (Num.softmax (logits hL net tr x (fun r => sample α (z r)) r) (y r.2)) ∂(draws L sizes K b)) /
        (K * b) - (klDiv (ones (alphaVar α)) (ones fun _ : Noise L sizes => 1)).toReal / N := by
  set D : (Noise L sizes → ℝ) → ℝ := fun e => logNormals (fun _ => 1) (fun _ => 0) e - logNormals (fun _ => 1) (fun j => Real.log (std (α j))) e
    with hD
  obtain ⟨g1, g2, g3⟩ := gap_prior (fun _ : Noise L sizes => 1) (fun _ => 0) (fun _ => 1) (fun j => Real.log (std (α j)))
  have hq : (normals (Noise L sizes)).map (draw (fun _ => 1) (fun j => Real.log (std (α j)))) = ones (alphaVar α) := by
    rw [← C102_noise, funext (sample_eq α)]
  rw [hq, prior_law] at g3
  rw [hq] at g2
  have cD : Continuous D := (continuous_logNormals _ _).sub (continuous_logNormals _ _)
  have iD0 : Integrable (fun z => D (sample α z)) (normals (Noise L sizes)) := by
    rw [← C102_noise] at g2
    exact (integrable_map_measure cD.aestronglyMeasurable (measurable_sample α).aemeasurable).1 g2
  have iD : ∀ r : Fin K × Fin b, Integrable (fun z => D (sample α (z r))) (draws L sizes K b) := fun r =>
    integrable_comp_eval (μ := fun _ : Fin K × Fin b => normals (Noise L sizes)) (i := r) iD0
  have eD : ∀ r : Fin K × Fin b, ∫ z, D (sample α (z r)) ∂(draws L sizes K b) =
      -(klDiv (ones (alphaVar α)) (ones fun _ : Noise L sizes => 1)).toReal := fun r => by
    rw [← g3, ← C102_noise, integral_map (measurable_sample α).aemeasurable cD.aestronglyMeasurable]
    exact integral_comp_eval (μ := fun _ : Fin K × Fin b => normals (Noise L sizes)) (i := r) (f := fun z => D (sample α z))
      iD0.aestronglyMeasurable
  have iL := fun r : Fin K × Fin b => integrable_logLik hL net α tr x y r
  have iT : ∀ r : Fin K × Fin b, Integrable (fun z => Real.log (Num.softmax (logits hL net tr x (fun r => sample α (z r)) r) (y r.2)) * N +
      D (sample α (z r))) (draws L sizes K b) := fun r => ((iL r).mul_const _).add (iD r)
  have e : ∀ z, lowerBound hL N net α tr x y z = (∑ r : Fin K × Fin b,
      (Real.log (Num.softmax (logits hL net tr x (fun r => sample α (z r)) r) (y r.2)) * N + D (sample α (z r)))) / (K * b * N) := by
    intro z
    rw [lowerBound_eq, Fintype.sum_prod_type, Finset.sum_comm, ← Finset.sum_div, div_div, div_div, mul_assoc]
  simp only [funext e]
  refine ⟨(integrable_finsetSum _ fun r _ => iT r).div_const _, ?_⟩
  rw [integral_div, integral_finsetSum _ fun r _ => iT r]
  have e2 : ∀ r : Fin K × Fin b, ∫ z, (Real.log (Num.softmax (logits hL net tr x (fun r => sample α (z r)) r) (y r.2)) * N +
      D (sample α (z r))) ∂(draws L sizes K b) =
      (∫ z, Real.log (Num.softmax (logits hL net tr x (fun r => sample α (z r)) r) (y r.2)) ∂(draws L sizes K b)) * N -
        (klDiv (ones (alphaVar α)) (ones fun _ : Noise L sizes => 1)).toReal := fun r => by
    rw [integral_add ((iL r).mul_const _) (iD r), integral_mul_const, eD r, sub_eq_add_neg]
  simp only [e2]
  rw [Finset.sum_sub_distrib, ← Finset.sum_mul, Finset.sum_const, Finset.card_univ, Fintype.card_prod, Fintype.card_fin, Fintype.card_fin,
    nsmul_eq_mul]
  have h1 : (N : ℝ) ≠ 0 := by positivity
  have h2 : (K : ℝ) ≠ 0 := by positivity
  have h3 : (b : ℝ) ≠ 0 := by positivity
  push_cast
  field_simp

/-- **C102.** What training maximizes: with `is_training`, the expected bound of a batch, over the noise, is the mean over the particles and
rows of the expected log probability of the labels, for the net that standardizes over all particles and rows of the batch, minus the
divergence of the variational distribution of the noise of *one* row from its prior, over the number of training examples.  It is so for any
layers, variables, batch and number of particles. -/
theorem C102_training (hL : sizes L = c + 1) (N : ℕ) (hN : 0 < N) (net : Net sizes) (α : Noise L sizes → ℝ) (x : Fin b → Fin (sizes 0) → ℝ)
    (y : Fin b → Fin (c + 1)) (hb : 0 < b) (hK : 0 < K) :
    let q : Measure (Noise L sizes → ℝ) := ones (alphaVar α)
    let out : (Fin K × Fin b → Noise L sizes → ℝ) → Fin K × Fin b → Fin (c + 1) → ℝ := fun e r j =>
      forwardAll (fun l => (net l).kernel) (fun l => (net l).beta) (fun r => noiseAt (e r)) (fun r => x r.2) L r (Fin.cast hL.symm j)
    Integrable (lowerBound hL N net α true x y) (draws L sizes K b) ∧
    ∫ z, lowerBound hL N net α true x y z ∂(draws L sizes K b) =
      (∑ r : Fin K × Fin b, ∫ e, Real.log (Num.softmax (out e r) (y r.2)) ∂(Measure.pi fun _ => q)) / (K * b) -
        (klDiv q (ones fun _ => 1)).toReal / N := by
  intro q out
  obtain ⟨h1, h2⟩ := objective hL N hN net α true x y hb hK
  refine ⟨h1, h2.trans ?_⟩
  congr 2
  refine Finset.sum_congr rfl fun r _ => ?_
  have eo : out = fun e => logits hL net true x e := by
    funext e r j
    exact (hidden_train net (fun r : Fin K × Fin b => x r.2) e L r _).symm
  have hc : Continuous fun e : Fin K × Fin b → Noise L sizes → ℝ => Real.log (Num.softmax (logits hL net true x e r) (y r.2)) :=
    ((continuous_softmax _).comp (continuous_logits hL net true x r)).log fun e => (Num.softmax_pos _ _).ne'
  rw [eo, ← samples_law, integral_map (measurable_samples α).aemeasurable hc.aestronglyMeasurable]

/-- The outputs of the net for one row when `is_training` is false. -/
noncomputable def evalOut (hL : sizes L = c + 1) (net : Net sizes) (e : Noise L sizes → ℝ) (x : Fin (sizes 0) → ℝ) (j : Fin (c + 1)) : ℝ :=
  forward (fun l => (net l).kernel) (fun l => (net l).beta) (fun l => (net l).movingMean) (fun l => (net l).movingVar) (noiseAt e) x L
    (Fin.cast hL.symm j)

theorem logits_eval (hL : sizes L = c + 1) (net : Net sizes) (x : Fin b → Fin (sizes 0) → ℝ) (e : Fin K × Fin b → Noise L sizes → ℝ)
    (r : Fin K × Fin b) : logits hL net false x e r = evalOut hL net (e r) (x r.2) := by
  funext j
  exact hidden_eval net (fun r : Fin K × Fin b => x r.2) e L r _

theorem evalOut_eq (hL : sizes L = c + 1) (net : Net sizes) (e : Noise L sizes → ℝ) (x : Fin (sizes 0) → ℝ) :
    evalOut hL net e x = logits (K := 1) (b := 1) hL net false (fun _ => x) (fun _ => e) (0, 0) := by
  rw [logits_eval]

theorem continuous_evalOut (hL : sizes L = c + 1) (net : Net sizes) (x : Fin (sizes 0) → ℝ) : Continuous fun e => evalOut hL net e x := by
  simp only [evalOut_eq]
  exact (continuous_logits hL net false (fun _ => x) ((0, 0) : Fin 1 × Fin 1)).comp (continuous_pi fun _ => continuous_id)

theorem lik_eval (hL : sizes L = c + 1) (net : Net sizes) (x : Fin (sizes 0) → ℝ) (y : Fin (c + 1)) :
    Lik fun e : Noise L sizes → ℝ => Real.log (Num.softmax (evalOut hL net e x) y) := by
  refine ⟨((continuous_softmax _).comp (continuous_evalOut hL net x)).log fun e => (Num.softmax_pos _ _).ne', ⟨0, fun e => logSoftmax_nonpos _ _⟩, ?_⟩
  obtain ⟨C, hC, h⟩ := logits_growth (K := 1) (b := 1) hL net false (fun _ => x) (fun _ => y)
  refine ⟨C, L, hC, fun e => ?_⟩
  have := h (fun _ => e) (0, 0)
  rw [← evalOut_eq] at this
  refine this.trans (mul_le_mul_of_nonneg_left (pow_le_pow_left₀ (by positivity) ?_ L) hC)
  have : ‖fun _ : Fin 1 × Fin 1 => e‖ ≤ ‖e‖ := (pi_norm_le_iff_of_nonneg (norm_nonneg e)).2 fun _ => le_rfl
  linarith

/-- **C102.** What the evaluation reports: without `is_training`, the rows do not affect each other.  The expected bound of a batch is the
mean over its rows of the expected log probability of the label, for the net that standardizes with the moving averages, minus the same
divergence over the number of training examples; for any number of particles. -/
theorem C102_eval (hL : sizes L = c + 1) (N : ℕ) (hN : 0 < N) (net : Net sizes) (α : Noise L sizes → ℝ) (x : Fin b → Fin (sizes 0) → ℝ)
    (y : Fin b → Fin (c + 1)) (hb : 0 < b) (hK : 0 < K) :
    let q : Measure (Noise L sizes → ℝ) := ones (alphaVar α)
    Integrable (lowerBound hL N net α false x y) (draws L sizes K b) ∧
    ∫ z, lowerBound hL N net α false x y z ∂(draws L sizes K b) =
      (∑ i, ∫ e, Real.log (Num.softmax (evalOut hL net e (x i)) (y i)) ∂q) / b - (klDiv q (ones fun _ => 1)).toReal / N := by
  intro q
  obtain ⟨h1, h2⟩ := objective hL N hN net α false x y hb hK
  refine ⟨h1, h2.trans ?_⟩
  congr 1
  have e : ∀ r : Fin K × Fin b, ∫ z, Real.log (Num.softmax (logits hL net false x (fun r => sample α (z r)) r) (y r.2)) ∂(draws L sizes K b) =
      ∫ e, Real.log (Num.softmax (evalOut hL net e (x r.2)) (y r.2)) ∂q := by
    intro r
    simp only [logits_eval]
    have hc := (lik_eval hL net (x r.2) (y r.2)).cont
    rw [show q = (normals (Noise L sizes)).map (sample α) from (C102_noise α).symm, integral_map (measurable_sample α).aemeasurable
      hc.aestronglyMeasurable]
    exact integral_comp_eval (μ := fun _ : Fin K × Fin b => normals (Noise L sizes)) (i := r)
      (f := fun z => Real.log (Num.softmax (evalOut hL net (sample α z) (x r.2)) (y r.2)))
      (hc.measurable.comp (measurable_sample α)).aestronglyMeasurable
  simp only [e]
  rw [Fintype.sum_prod_type]
  dsimp only
  rw [Finset.sum_const, Finset.card_univ, Fintype.card_fin, nsmul_eq_mul]
  have h2 : (K : ℝ) ≠ 0 := by positivity
  have h3 : (b : ℝ) ≠ 0 := by positivity
  field_simp

theorem mean_get {D : Type} (φ : D → ℝ) (l : List D) : (∑ i : Fin l.length, φ (l.get i)) / l.length = mean (l.map φ) := by
  rw [mean, List.length_map]
  congr 1
  rw [← List.sum_ofFn]
  congr 1
  exact (List.ofFn_getElem_eq_map l φ)

/-- **C102.** Without `is_training`, the expected bound of a batch of the uniformly shuffled training data is the logarithm of the evidence of
all the labels minus the divergence of the variational distribution from the posterior, both over the number of examples, for the model where
*one* noise vector is shared by all examples; in every iteration of every epoch, for any batch size. -/
theorem C102_evidence {n : ℕ} (hL : sizes L = c + 1) (net : Net sizes) (α : Noise L sizes → ℝ) (s : Arrays n (Fin (sizes 0) → ℝ) (Fin (c + 1)))
    (perms : List (Equiv.Perm (Fin n))) (bs t : ℕ) (hb : 0 < bs) (ht : t < itersUp n bs) (hK : 0 < K) :
    let p : Measure (Noise L sizes → ℝ) := ones fun _ => 1
    let q : Measure (Noise L sizes → ℝ) := ones (alphaVar α)
    let lik : (Noise L sizes → ℝ) → ℝ := fun e => ∏ i, Num.softmax (evalOut hL net e (s.x i)) (s.y i)
    klDiv q (Grad.posterior p lik) ≠ ⊤ ∧
    ∫ σ, ∫ z, feedBound hL n net α false (((s.epochs perms).permute σ).feed bs t) z
        ∂(draws L sizes K (((s.epochs perms).permute σ).feed bs t).length) ∂uniform n =
      (Real.log (Grad.evidence p lik) - (klDiv q (Grad.posterior p lik)).toReal) / n := by
  intro p q lik
  have hn : 0 < n := by
    by_contra h0
    have : n = 0 := by omega
    subst this
    have h1 : itersUp 0 bs = 0 := by unfold itersUp; rw [zero_add]; exact Nat.div_eq_of_lt (by omega)
    omega
  set φ : (Fin (sizes 0) → ℝ) × Fin (c + 1) → ℝ := fun d => ∫ e, Real.log (Num.softmax (evalOut hL net e d.1) d.2) ∂q with hφ
  have hLk : Lik fun e : Noise L sizes → ℝ => ∑ i, Real.log (Num.softmax (evalOut hL net e (s.x i)) (s.y i)) := by
    have hi := fun i => lik_eval hL net (s.x i) (s.y i)
    refine ⟨continuous_finsetSum _ fun i _ => (hi i).cont, ⟨0, fun e => Finset.sum_nonpos fun i _ => logSoftmax_nonpos _ _⟩, ?_⟩
    have h1 : ∀ i, ∃ C : ℝ, 0 ≤ C ∧ ∀ e : Noise L sizes → ℝ, |Real.log (Num.softmax (evalOut hL net e (s.x i)) (s.y i))| ≤ C * (1 + ‖e‖) ^ L := by
      intro i
      obtain ⟨C, hC, h⟩ := logits_growth (K := 1) (b := 1) hL net false (fun _ => s.x i) (fun _ => s.y i)
      refine ⟨C, hC, fun e => ?_⟩
      have := h (fun _ => e) (0, 0)
      rw [← evalOut_eq] at this
      refine this.trans (mul_le_mul_of_nonneg_left (pow_le_pow_left₀ (by positivity) ?_ L) hC)
      have : ‖fun _ : Fin 1 × Fin 1 => e‖ ≤ ‖e‖ := (pi_norm_le_iff_of_nonneg (norm_nonneg e)).2 fun _ => le_rfl
      linarith
    choose C hC h using h1
    refine ⟨∑ i, C i, L, Finset.sum_nonneg fun i _ => hC i, fun e => ?_⟩
    rw [Finset.sum_mul]
    exact (Finset.abs_sum_le_sum_abs _ _).trans (Finset.sum_le_sum fun i _ => h i e)
  have hlik : lik = fun e => Real.exp (∑ i, Real.log (Num.softmax (evalOut hL net e (s.x i)) (s.y i))) := by
    funext e
    rw [Real.exp_sum]
    exact Finset.prod_congr rfl fun i _ => (Real.exp_log (Num.softmax_pos _ _)).symm
  obtain ⟨g1, g2⟩ := gap hLk (fun _ => 1) (fun _ => 0) (fun _ => 1) (fun j => Real.log (std (α j)))
  obtain ⟨-, k2, k3⟩ := gap_prior (fun _ : Noise L sizes => 1) (fun _ => 0) (fun _ => 1) (fun j => Real.log (std (α j)))
  have hq : (normals (Noise L sizes)).map (draw (fun _ => 1) (fun j => Real.log (std (α j)))) = q := by
    show _ = ones (alphaVar α)
    rw [← C102_noise, funext (sample_eq α)]
  rw [hq, prior_law, ← hlik] at g1 g2
  rw [hq] at k2
  rw [hq, prior_law] at k3
  refine ⟨g1, ?_⟩
  have iφ : ∀ i, Integrable (fun e => Real.log (Num.softmax (evalOut hL net e (s.x i)) (s.y i))) q := fun i => by
    have := (latent (lik_eval hL net (s.x i) (s.y i)) (fun _ => 1) (fun _ => 0) (fun _ => 1) (fun j => Real.log (std (α j)))).2.2.1
    rwa [hq] at this
  have g3 : ∑ i, φ (s.x i, s.y i) - (klDiv q p).toReal = Real.log (Grad.evidence p lik) - (klDiv q (Grad.posterior p lik)).toReal := by
    rw [← g2, ← sub_eq_zero]
    simp only [add_sub_assoc]
    rw [integral_add (integrable_finsetSum _ fun i _ => iφ i) k2, integral_finsetSum _ fun i _ => iφ i, k3]
    ring
  rw [← g3]
  have e1 : ∀ σ : Equiv.Perm (Fin n), ∫ z, feedBound hL n net α false (((s.epochs perms).permute σ).feed bs t) z
      ∂(draws L sizes K (((s.epochs perms).permute σ).feed bs t).length) =
      mean ((batch (fun i => (fun j => ((s.epochs perms).x j, (s.epochs perms).y j)) (σ i)) bs t).map φ) - (klDiv q p).toReal / n := by
    intro σ
    have hl : 0 < (((s.epochs perms).permute σ).feed bs t).length := by
      rw [feed_eq]
      exact ((C92_cover _ bs hb).2 t ht).1
    rw [show (fun z => feedBound hL n net α false (((s.epochs perms).permute σ).feed bs t) z) = lowerBound hL n net α false
      (fun i => ((((s.epochs perms).permute σ).feed bs t).get i).1) (fun i => ((((s.epochs perms).permute σ).feed bs t).get i).2) from rfl,
      (C102_eval hL n hn net α _ _ hl hK).2, mean_get φ, feed_eq]
    rfl
  simp only [e1]
  rw [integral_sub (uniform_int _) (integrable_const _),
    C92_unbiased_mean (fun j => ((s.epochs perms).x j, (s.epochs perms).y j)) bs t hb ht φ, sub_div]
  congr 1
  · congr 1
    rw [epochs_eq]
    exact Equiv.sum_comp perms.prod fun i => φ (s.x i, s.y i)
  · simp [uniform]

/-- **C102.** So it is at most the logarithm of that evidence over the number of examples. -/
theorem C102_le {n : ℕ} (hL : sizes L = c + 1) (net : Net sizes) (α : Noise L sizes → ℝ) (s : Arrays n (Fin (sizes 0) → ℝ) (Fin (c + 1)))
    (perms : List (Equiv.Perm (Fin n))) (bs t : ℕ) (hb : 0 < bs) (ht : t < itersUp n bs) (hK : 0 < K) :
    ∫ σ, ∫ z, feedBound hL n net α false (((s.epochs perms).permute σ).feed bs t) z
        ∂(draws L sizes K (((s.epochs perms).permute σ).feed bs t).length) ∂uniform n ≤
      Real.log (∫ e, ∏ i, Num.softmax (evalOut hL net e (s.x i)) (s.y i) ∂(ones fun _ : Noise L sizes => 1)) / n := by
  rw [(C102_evidence hL net α s perms bs t hb ht hK).2]
  exact div_le_div_of_nonneg_right (sub_le_self _ ENNReal.toReal_nonneg) (Nat.cast_nonneg n)

/-- **C102.** The predicted probabilities of a row are nonnegative and sum to one, and without `is_training` their expected values are the
probabilities of the classes under the variational distribution of the noise. -/
theorem C102_predict (hL : sizes L = c + 1) (net : Net sizes) (α : Noise L sizes → ℝ) (x : Fin b → Fin (sizes 0) → ℝ) (i : Fin b) (hK : 0 < K) :
    (∀ tr z, (∀ j, 0 ≤ hPred (K := K) hL net α tr x z i j) ∧ ∑ j, hPred (K := K) hL net α tr x z i j = 1) ∧
    ∀ j, ∫ z, hPred (K := K) hL net α false x z i j ∂(draws L sizes K b) = ∫ e, Num.softmax (evalOut hL net e (x i)) j ∂(ones (alphaVar α)) := by
  have hK' : (K : ℝ) ≠ 0 := by positivity
  have e : ∀ tr z j, hPred (K := K) hL net α tr x z i j =
      (∑ k, Num.softmax (logits hL net tr x (fun r => sample α (z r)) (k, i)) j) / K := fun tr z j => rfl
  refine ⟨fun tr z => ⟨fun j => ?_, ?_⟩, fun j => ?_⟩
  · rw [e]
    exact div_nonneg (Finset.sum_nonneg fun k _ => (Num.softmax_pos _ _).le) (Nat.cast_nonneg K)
  · simp only [e]
    rw [← Finset.sum_div, Finset.sum_comm]
    simp only [Num.softmax_sum]
    simp [hK']
  · simp only [e, logits_eval]
    have hc : Continuous fun e => Num.softmax (evalOut hL net e (x i)) j := (continuous_softmax j).comp (continuous_evalOut hL net (x i))
    have hle : ∀ l : Fin (c + 1) → ℝ, ‖Num.softmax l j‖ ≤ 1 := fun l => by
      rw [Real.norm_of_nonneg (Num.softmax_pos l j).le, ← Num.softmax_sum l]
      exact Finset.single_le_sum (f := Num.softmax l) (fun j _ => (Num.softmax_pos l j).le) (Finset.mem_univ j)
    have i0 : Integrable (fun z => Num.softmax (evalOut hL net (sample α z) (x i)) j) (normals (Noise L sizes)) :=
      Integrable.of_bound (hc.measurable.comp (measurable_sample α)).aestronglyMeasurable 1 (Filter.Eventually.of_forall fun z => hle _)
    have i1 : ∀ k : Fin K, Integrable (fun z : Fin K × Fin b → Noise L sizes → ℝ => Num.softmax (evalOut hL net (sample α (z (k, i))) (x i)) j)
        (draws L sizes K b) := fun k =>
      integrable_comp_eval (μ := fun _ : Fin K × Fin b => normals (Noise L sizes)) (i := (k, i)) i0
    rw [integral_div, integral_finsetSum _ fun k _ => i1 k, ← C102_noise, integral_map (measurable_sample α).aemeasurable hc.aestronglyMeasurable]
    have h : ∀ k : Fin K, ∫ z : Fin K × Fin b → Noise L sizes → ℝ, Num.softmax (evalOut hL net (sample α (z (k, i))) (x i)) j ∂(draws L sizes K b) =
        ∫ z, Num.softmax (evalOut hL net (sample α z) (x i)) j ∂(normals (Noise L sizes)) := fun k =>
      integral_comp_eval (μ := fun _ : Fin K × Fin b => normals (Noise L sizes)) (i := (k, i))
        (f := fun z => Num.softmax (evalOut hL net (sample α z) (x i)) j) i0.aestronglyMeasurable
    simp only [h]
    rw [Finset.sum_const, Finset.card_univ, Fintype.card_fin, nsmul_eq_mul]
    field_simp

/-- **C102.** Finding: `layers.fully_connected` applies a rectifier by default, also in the last layer, so that no logit is negative and, with
logits at most `M`, no class can get a probability below `exp(-M)` over the number of classes. -/
theorem C102_logits (hL : sizes L = c + 1) (hL0 : 0 < L) (net : Net sizes) (tr : Bool) (x : Fin b → Fin (sizes 0) → ℝ)
    (e : Fin K × Fin b → Noise L sizes → ℝ) (r : Fin K × Fin b) :
    (∀ j, 0 ≤ logits hL net tr x e r j) ∧
    ∀ M, (∀ j, logits hL net tr x e r j ≤ M) → ∀ j, Real.exp (-M) / (c + 1) ≤ Num.softmax (logits hL net tr x e r) j := by
  have h0 : ∀ j, 0 ≤ logits hL net tr x e r j := by
    obtain ⟨l, rfl⟩ : ∃ l, L = l + 1 := ⟨L - 1, by omega⟩
    intro j
    rw [logits, hidden_succ]
    exact le_max_right _ _
  refine ⟨h0, fun M hM j => ?_⟩
  have h1 : ∑ j', Real.exp (logits hL net tr x e r j') ≤ (c + 1) * Real.exp M := by
    refine (Finset.sum_le_sum fun j' _ => Real.exp_le_exp.2 (hM j')).trans (le_of_eq ?_)
    simp
  rw [Num.softmax, div_le_div_iff₀ (by positivity) (Num.sum_exp_pos _)]
  calc Real.exp (-M) * ∑ j', Real.exp (logits hL net tr x e r j') ≤ Real.exp (-M) * ((c + 1) * Real.exp M) :=
        mul_le_mul_of_nonneg_left h1 (Real.exp_pos _).le
    _ = c + 1 := by rw [Real.exp_neg]; have := (Real.exp_pos M).ne'; field_simp
    _ ≤ Real.exp (logits hL net tr x e r j) * (c + 1) := le_mul_of_one_le_left (by positivity) (Real.one_le_exp (h0 j))

/-- **C102.** Finding: with `is_training` the logits of a row depend on the other rows of its batch, so the bound of a batch that training
uses is not the mean of bounds of its rows.  The witness is a net with one unit, two batches that share their first row, and the same
noise. -/
theorem C102_coupled : ∃ (net : Net fun _ => 1) (x x' : Fin 2 → Fin 1 → ℝ) (e : Fin 1 × Fin 2 → Noise 1 (fun _ => 1) → ℝ),
    x 0 = x' 0 ∧ logits (sizes := fun _ => 1) (c := 0) rfl net true x e (0, 0) 0 ≠ logits (sizes := fun _ => 1) (c := 0) rfl net true x' e (0, 0) 0 := by
  refine ⟨fun _ => ⟨fun _ _ => 1, fun _ => 0, fun _ => 0, fun _ => 1⟩, fun i _ => if i = 0 then 1 else 0, fun i _ => if i = 0 then 1 else 2,
    fun _ _ => 1, by simp, ?_⟩
  have hc : Fintype.card (Fin 1 × Fin 2) = 2 := by simp
  have e1 : logits (sizes := fun _ => 1) (c := 0) rfl (fun _ => ⟨fun _ _ => 1, fun _ => 0, fun _ => 0, fun _ => 1⟩ : Net fun _ => 1) true
      (fun (i : Fin 2) _ => if i = 0 then 1 else 0) (fun _ _ => 1 : Fin 1 × Fin 2 → Noise 1 (fun _ => 1) → ℝ) (0, 0) 0 =
      max ((1 / 2) / Real.sqrt (1 / 4 + 0.001)) 0 := by
    rw [logits, hidden_succ]
    simp only [batchNorm, batchVar, batchMean, matmul, hidden, epsAt, hc, Fintype.sum_prod_type]
    norm_num
  have e2 : logits (sizes := fun _ => 1) (c := 0) rfl (fun _ => ⟨fun _ _ => 1, fun _ => 0, fun _ => 0, fun _ => 1⟩ : Net fun _ => 1) true
      (fun (i : Fin 2) _ => if i = 0 then 1 else 2) (fun _ _ => 1 : Fin 1 × Fin 2 → Noise 1 (fun _ => 1) → ℝ) (0, 0) 0 =
      max ((-(1 / 2)) / Real.sqrt (1 / 4 + 0.001)) 0 := by
    rw [logits, hidden_succ]
    simp only [batchNorm, batchVar, batchMean, matmul, hidden, epsAt, hc, Fintype.sum_prod_type]
    norm_num
  rw [e1, e2]
  have h : 0 < (1 / 2) / Real.sqrt (1 / 4 + 0.001) := by positivity
  rw [max_eq_left h.le, neg_div, max_eq_right (by linarith)]
  exact h.ne'

end

/-! ## The moving averages -/

section
variable {R : Type} [Fintype R] {m k : ℕ}

/-- The moving averages of a layer that starts with mean zero and variance one, after training runs with any kernels, offsets and inputs. -/
inductive Trained : ℕ → Layer m k → Prop
  | init (kernel : Fin m → Fin k → ℝ) (beta : Fin k → ℝ) : Trained 0 ⟨kernel, beta, fun _ => 0, fun _ => 1⟩
  | step {t : ℕ} {l : Layer m k} (h : Trained t l) {R : Type} [Fintype R] (x : R → Fin m → ℝ) : Trained (t + 1) (l.update x)
  | learn {t : ℕ} {l : Layer m k} (h : Trained t l) (kernel : Fin m → Fin k → ℝ) (beta : Fin k → ℝ) :
      Trained t { l with kernel := kernel, beta := beta }

/-- **C102.** The moving variance stays positive, so that the evaluation never takes the root of a negative number. -/
theorem C102_moving {t : ℕ} {l : Layer m k} (h : Trained t l) (j : Fin k) : 0.999 ^ t ≤ l.movingVar j := by
  induction h with
  | init kernel beta => simp
  | learn h kernel beta ih => exact ih
  | @step t l h R _ x ih =>
    simp only [Layer.update]
    have := batchVar_nonneg (matmul l x) j
    rw [pow_succ]
    nlinarith

/-- **C102.** A run with `is_training` moves the averages a thousandth of the way to the moments of the batch. -/
theorem C102_update (l : Layer m k) (x : R → Fin m → ℝ) (j : Fin k) :
    (l.update x).movingMean j - batchMean (matmul l x) j = 0.999 * (l.movingMean j - batchMean (matmul l x) j) ∧
    (l.update x).movingVar j - batchVar (matmul l x) j = 0.999 * (l.movingVar j - batchVar (matmul l x) j) := by
  simp only [Layer.update]
  constructor <;> ring

end

/-- The net of the script has four layers, with 784 inputs, three hidden layers of 100 units and ten classes, and the batches have 1000
rows. -/
example : let sizes : ℕ → ℕ := fun l => if l = 0 then 784 else if l = 4 then 9 + 1 else 100
    ∀ (net : Net sizes) (α : Noise 4 sizes → ℝ) (s : Arrays 60000 (Fin (sizes 0) → ℝ) (Fin (9 + 1))),
    ∫ σ, ∫ z, feedBound (K := 100) (sizes := sizes) (L := 4) (c := 9) rfl 60000 net α false (((s.epochs []).permute σ).feed 1000 59) z
        ∂(draws 4 sizes 100 (((s.epochs []).permute σ).feed 1000 59).length) ∂uniform 60000 ≤
      Real.log (∫ e, ∏ i, Num.softmax (evalOut (sizes := sizes) (L := 4) (c := 9) rfl net e (s.x i)) (s.y i)
        ∂(ones fun _ : Noise 4 sizes => 1)) / (60000 : ℕ) := by
  intro sizes net α s
  exact C102_le (K := 100) (sizes := sizes) rfl net α s [] 1000 59 (by norm_num) (by unfold itersUp; norm_num) (by norm_num)

end ZhuSuan.Dropout

import Verif.Lemmas.GaussLatent
import Verif.Props.Discrete1
import Verif.Props.Minibatch

/-!
# Variational autoencoders (C98)
-/

set_option autoImplicit false

open MeasureTheory ProbabilityTheory InformationTheory

namespace ZhuSuan.Vae

open Transform Minibatch

/-! ## The networks -/

section
variable {m k : ℕ}

theorem continuous_dense (l : Dense m k) : Continuous l.apply := by
  unfold Dense.apply
  fun_prop

theorem continuous_relu : Continuous (relu : (Fin m → ℝ) → Fin m → ℝ) := by
  unfold relu
  fun_prop

theorem dense_growth (l : Dense m k) : ∃ c : ℝ, 0 ≤ c ∧ ∀ h, ‖l.apply h‖ ≤ c * (1 + ‖h‖) := by
  have h0 : ∀ j, 0 ≤ ∑ i, |l.kernel i j| + |l.bias j| := fun j => by positivity
  refine ⟨∑ j, (∑ i, |l.kernel i j| + |l.bias j|), by positivity, fun h => ?_⟩
  refine (pi_norm_le_iff_of_nonneg (mul_nonneg (Finset.sum_nonneg fun j _ => h0 j) (by positivity))).2 fun j => ?_
  have h1 : ‖l.apply h j‖ ≤ (∑ i, |l.kernel i j| + |l.bias j|) * (1 + ‖h‖) := by
    rw [Real.norm_eq_abs, Dense.apply]
    have h2 : |∑ i, h i * l.kernel i j| ≤ ‖h‖ * ∑ i, |l.kernel i j| := by
      rw [Finset.mul_sum]
      refine (Finset.abs_sum_le_sum_abs _ _).trans (Finset.sum_le_sum fun i _ => ?_)
      rw [abs_mul]
      exact mul_le_mul_of_nonneg_right (norm_le_pi_norm h i) (abs_nonneg _)
    have h3 := abs_add_le (∑ i, h i * l.kernel i j) (l.bias j)
    have h4 : 0 ≤ ∑ i, |l.kernel i j| := by positivity
    nlinarith [norm_nonneg h, abs_nonneg (l.bias j)]
  refine h1.trans (mul_le_mul_of_nonneg_right ?_ (by positivity))
  exact Finset.single_le_sum (f := fun j => ∑ i, |l.kernel i j| + |l.bias j|) (fun j _ => h0 j) (Finset.mem_univ j)

theorem relu_norm (h : Fin m → ℝ) : ‖relu h‖ ≤ ‖h‖ := by
  refine (pi_norm_le_iff_of_nonneg (norm_nonneg _)).2 fun j => ?_
  rw [Real.norm_eq_abs, relu, abs_of_nonneg (le_max_right _ _)]
  exact max_le ((le_abs_self _).trans (norm_le_pi_norm h j)) (norm_nonneg _)

end

section
variable {zd h1 h2 k1 k2 xd K n : ℕ}

theorem continuous_logits (g : Gen zd h1 h2 xd) : Continuous g.logits :=
  (continuous_dense _).comp (continuous_relu.comp ((continuous_dense _).comp (continuous_relu.comp (continuous_dense _))))

theorem logits_growth (g : Gen zd h1 h2 xd) : ∃ c : ℝ, 0 ≤ c ∧ ∀ z, ‖g.logits z‖ ≤ c * (1 + ‖z‖) := by
  obtain ⟨a, ha, h1⟩ := dense_growth g.l1
  obtain ⟨b, hb, h2⟩ := dense_growth g.l2
  obtain ⟨c, hc, h3⟩ := dense_growth g.l3
  refine ⟨c * (1 + b * (1 + a)), by positivity, fun z => ?_⟩
  have e1 : ‖relu (g.l1.apply z)‖ ≤ a * (1 + ‖z‖) := (relu_norm _).trans (h1 z)
  have e2 : ‖relu (g.l2.apply (relu (g.l1.apply z)))‖ ≤ b * (1 + a * (1 + ‖z‖)) :=
    (relu_norm _).trans ((h2 _).trans (mul_le_mul_of_nonneg_left (by linarith) hb))
  refine (h3 _).trans ?_
  rw [mul_assoc]
  refine mul_le_mul_of_nonneg_left ?_ hc
  have := norm_nonneg z
  have hab := mul_nonneg hb ha
  nlinarith

/-! ## The likelihood -/

theorem logistic_eq (x : ℝ) : logistic x = Uni.sigmoid x := by rw [logistic, Uni.sigmoid, one_div]

theorem exp_logLik (logits : Fin xd → ℝ) (x : Fin xd → Bool) : Real.exp (logLik logits x) = imageProb (fun d => logistic (logits d)) x := by
  rw [logLik, Real.exp_sum, imageProb]
  refine Finset.prod_congr rfl fun d _ => ?_
  obtain ⟨e1, e0, _⟩ := Uni.C20_mass (logits d)
  rw [logistic_eq]
  unfold pixels
  cases x d
  · simpa using e0
  · simpa using e1

theorem lik_eq (g : Gen zd h1 h2 xd) (x : Fin xd → Bool) : (fun z => Real.exp (logLik (g.logits z) x)) = lik g.logits x :=
  funext fun _ => exp_logLik _ _

theorem bernoulli_growth (a : ℝ) (b : Bool) : |Uni.Bernoulli.logProb a (if b then 1 else 0)| ≤ |a| + Real.log 2 ∧
    Uni.Bernoulli.logProb a (if b then 1 else 0) ≤ 0 := by
  have hsp : 0 ≤ Uni.softplus a ∧ a ≤ Uni.softplus a ∧ Uni.softplus a ≤ max a 0 + Real.log 2 := by
    unfold Uni.softplus
    refine ⟨Real.log_nonneg (by linarith [Real.exp_pos a]), ?_, ?_⟩
    · conv_lhs => rw [← Real.log_exp a]
      exact Real.log_le_log (Real.exp_pos _) (by linarith)
    · conv_rhs => rw [← Real.log_exp (max a 0), ← Real.log_mul (Real.exp_pos _).ne' (by norm_num)]
      refine Real.log_le_log (by positivity) ?_
      have h1 : Real.exp a ≤ Real.exp (max a 0) := Real.exp_le_exp.2 (le_max_left _ _)
      have h2 : 1 ≤ Real.exp (max a 0) := Real.one_le_exp (le_max_right _ _)
      linarith
  have hl : 0 < Real.log 2 := Real.log_pos (by norm_num)
  obtain ⟨p1, p2, p3⟩ := hsp
  have p4 : max a 0 ≤ |a| := max_le (le_abs_self _) (abs_nonneg _)
  have p5 := neg_abs_le a
  unfold Uni.Bernoulli.logProb
  rw [Uni.sigmoidCrossEntropy_eq]
  cases b
  · simp only [Bool.false_eq_true, if_false, mul_zero, sub_zero]
    rw [abs_le]
    refine ⟨⟨by linarith, by linarith [abs_nonneg a]⟩, by linarith⟩
  · simp only [if_true, mul_one]
    have p6 : max a 0 - a ≤ |a| := by
      rcases le_total 0 a with h | h
      · rw [max_eq_left h]; linarith [abs_nonneg a]
      · rw [max_eq_right h, abs_of_nonpos h]; linarith
    rw [abs_le]
    refine ⟨⟨by linarith, by linarith [abs_nonneg a]⟩, by linarith⟩

theorem lik_logLik (g : Gen zd h1 h2 xd) (x : Fin xd → Bool) : Lik fun z => logLik (g.logits z) x := by
  refine ⟨?_, ⟨0, fun z => Finset.sum_nonpos fun d _ => (bernoulli_growth _ _).2⟩, ?_⟩
  · unfold logLik Uni.Bernoulli.logProb
    refine continuous_finsetSum _ fun d _ => ?_
    have h : Continuous fun z => g.logits z d := (continuous_apply d).comp (continuous_logits g)
    simp only [Uni.sigmoidCrossEntropy_eq]
    unfold Uni.softplus
    have h2 : Continuous fun z => Real.log (1 + Real.exp (g.logits z d)) :=
      (continuous_const.add h.rexp).log fun z => (add_pos one_pos (Real.exp_pos _)).ne'
    exact (h2.sub (h.mul continuous_const)).neg
  · obtain ⟨c, hc, h⟩ := logits_growth g
    have hl : 0 < Real.log 2 := Real.log_pos (by norm_num)
    refine ⟨xd * (c + Real.log 2), 1, by positivity, fun z => ?_⟩
    rw [pow_one]
    have h1 : |logLik (g.logits z) x| ≤ ∑ _d : Fin xd, (c + Real.log 2) * (1 + ‖z‖) := by
      refine (Finset.abs_sum_le_sum_abs _ _).trans (Finset.sum_le_sum fun d _ => ?_)
      refine (bernoulli_growth _ _).1.trans ?_
      have : |g.logits z d| ≤ c * (1 + ‖z‖) := (norm_le_pi_norm (g.logits z) d).trans (h z)
      nlinarith [norm_nonneg z]
    refine h1.trans (le_of_eq ?_)
    rw [Finset.sum_const, Finset.card_univ, Fintype.card_fin, nsmul_eq_mul]
    ring

theorem evidence_modelProb (g : Gen zd h1 h2 xd) (x : Fin xd → Bool) :
    (Grad.evidence (normals (Fin zd)) fun z => Real.exp (logLik (g.logits z) x)) = modelProb g.logits x := by
  rw [lik_eq]; rfl

theorem posterior_eq (g : Gen zd h1 h2 xd) (x : Fin xd → Bool) :
    (Grad.posterior (normals (Fin zd)) fun z => Real.exp (logLik (g.logits z) x)) = posterior g.logits x := by
  rw [lik_eq]; rfl

/-! ## One image -/

/-- The distribution of the latent vectors that the code draws for the image `x`. -/
noncomputable def drawn (q : QNet xd k1 k2 zd) (x : Fin xd → Bool) : Measure (Fin zd → ℝ) :=
  (normals (Fin zd)).map fun e => (encode (q.mean x) (q.logstd x) q.flows e).1

/-- All flow vectors `w` are non-zero. -/
def QNet.Ok (q : QNet xd k1 k2 zd) : Prop := ∀ ps ∈ q.flows, ∀ p ∈ ps, p.w ≠ 0

/-- **C98.** Without flows the vectors drawn for an image are normal, with the mean and standard deviation that the network returns. -/
theorem C98_drawn (q : QNet xd k1 k2 zd) (h : q.flows = []) (x : Fin xd → Bool) :
    drawn q x = Measure.pi fun j => gaussianReal (q.mean x j) (Uni.sq (Real.exp (q.logstd x j))) := by
  rw [drawn, h, ← draw_normal]
  rfl

/-- **C98.** For all values of the variables of the networks and of the flows, any image and any number of particles, the expected lower bound
of the image is the logarithm of its probability under the model minus the divergence of the distribution of the vectors drawn from the
posterior. -/
theorem C98_elbo (g : Gen zd h1 h2 xd) (q : QNet xd k1 k2 zd) (hq : q.Ok) (x : Fin xd → Bool) (K : ℕ) :
    klDiv (drawn q x) (posterior g.logits x) ≠ ⊤ ∧
    ∫ e, rowElbo g q x e ∂(Measure.pi fun _ : Fin (K + 1) => normals (Fin zd)) =
      Real.log (modelProb g.logits x) - (klDiv (drawn q x) (posterior g.logits x)).toReal := by
  have := row_elbo (lik_logLik g x) (q.mean x) (q.logstd x) q.flows hq K
  rw [evidence_modelProb, posterior_eq] at this
  exact ⟨this.1, this.2.2⟩

theorem rowElbo_int (g : Gen zd h1 h2 xd) (q : QNet xd k1 k2 zd) (hq : q.Ok) (x : Fin xd → Bool) (K : ℕ) :
    Integrable (fun e => rowElbo g q x e) (Measure.pi fun _ : Fin (K + 1) => normals (Fin zd)) :=
  (row_elbo (lik_logLik g x) (q.mean x) (q.logstd x) q.flows hq K).2.1

/-- **C98.** The expected importance weighted objective of an image is a lower bound of the logarithm of its probability under the model, which
does not get worse with more particles and tends to it. -/
theorem C98_iw (g : Gen zd h1 h2 xd) (q : QNet xd k1 k2 zd) (hq : q.Ok) (x : Fin xd → Bool) :
    (∀ K : ℕ, ∫ e, rowIw g q x e ∂(Measure.pi fun _ : Fin (K + 1) => normals (Fin zd)) ≤ Real.log (modelProb g.logits x)) ∧
    (Monotone fun K : ℕ => ∫ e, rowIw g q x e ∂(Measure.pi fun _ : Fin (K + 1) => normals (Fin zd))) ∧
    Filter.Tendsto (fun K : ℕ => ∫ e, rowIw g q x e ∂(Measure.pi fun _ : Fin (K + 1) => normals (Fin zd))) Filter.atTop
      (nhds (Real.log (modelProb g.logits x))) := by
  have := row_iw (lik_logLik g x) (q.mean x) (q.logstd x) q.flows hq
  rw [evidence_modelProb] at this
  exact this

/-- **C98.** The exponential of the log likelihood that the tests estimate is, on average, the probability of the image under the model. -/
theorem C98_is (g : Gen zd h1 h2 xd) (q : QNet xd k1 k2 zd) (hq : q.Ok) (x : Fin xd → Bool) (K : ℕ) :
    ∫ e, Real.exp (rowIs g q x e) ∂(Measure.pi fun _ : Fin (K + 1) => normals (Fin zd)) = modelProb g.logits x := by
  have := row_is (lik_logLik g x) (q.mean x) (q.logstd x) q.flows hq K
  rw [evidence_modelProb] at this
  exact this

/-- **C98.** With more and more independent particles the estimate converges to the log probability of the image under the model. -/
theorem C98_is_limit (g : Gen zd h1 h2 xd) (q : QNet xd k1 k2 zd) (hq : q.Ok) (x : Fin xd → Bool) {Ω : Type} [MeasurableSpace Ω]
    {P : Measure Ω} (ε : ℕ → Ω → Fin zd → ℝ) (hε : ∀ i, Measurable (ε i)) (hind : Pairwise fun i j => IndepFun (ε i) (ε j) P)
    (hlaw : ∀ i, P.map (ε i) = normals (Fin zd)) :
    ∀ᵐ ω ∂P, Filter.Tendsto (fun K : ℕ => rowIs g q x fun k : Fin (K + 1) => ε k ω) Filter.atTop
      (nhds (Real.log (modelProb g.logits x))) := by
  have := row_is_limit (lik_logLik g x) (q.mean x) (q.logstd x) q.flows hq ε hε hind hlaw
  rw [evidence_modelProb] at this
  exact this

/-- Independent draws exist: the coordinates of an infinite product. -/
example (g : Gen zd h1 h2 xd) (q : QNet xd k1 k2 zd) (hq : q.Ok) (x : Fin xd → Bool) :=
  C98_is_limit g q hq x (P := Measure.infinitePi fun _ : ℕ => normals (Fin zd)) (fun i ω => ω i) (fun i => measurable_pi_apply i)
    (fun _ _ h => (iIndepFun_infinitePi (fun _ => measurable_id)).indepFun h) (fun i => by
      exact (measurePreserving_eval_infinitePi (fun _ : ℕ => normals (Fin zd)) i).map_eq)

/-! ## The model -/

theorem imageProb_sum {ξ : Type} [Fintype ξ] [DecidableEq ξ] (p : ξ → ℝ) : ∑ x, imageProb p x = 1 := by
  unfold imageProb
  rw [← Fintype.prod_sum (fun d (b : Bool) => if b then p d else 1 - p d)]
  simp

theorem logistic_mem (a : ℝ) : 0 < logistic a ∧ logistic a < 1 := by
  rw [logistic_eq]
  exact ⟨Uni.sigmoid_pos a, Uni.sigmoid_lt_one a⟩

theorem imageProb_nonneg {ξ : Type} [Fintype ξ] {p : ξ → ℝ} (hp : ∀ d, 0 ≤ p d ∧ p d ≤ 1) (x : ξ → Bool) : 0 ≤ imageProb p x := by
  refine Finset.prod_nonneg fun d _ => ?_
  split
  · exact (hp d).1
  · linarith [(hp d).2]

theorem integrable_lik (g : Gen zd h1 h2 xd) (x : Fin xd → Bool) : Integrable (lik g.logits x) (normals (Fin zd)) := by
  obtain ⟨_, r, _, _, hM, _⟩ := latent (lik_logLik g x) 0 0 [] (by simp)
  have := hM.p_int
  rwa [lik_eq] at this

/-- **C98.** The model is a distribution of images in which every image has positive probability. -/
theorem C98_model (g : Gen zd h1 h2 xd) : (∀ x, 0 < modelProb g.logits x) ∧ ∑ x, modelProb g.logits x = 1 := by
  constructor
  · intro x
    obtain ⟨_, r, _, _, hM, _⟩ := latent (lik_logLik g x) 0 0 [] (by simp)
    have := hM.evidence_pos
    rwa [evidence_modelProb] at this
  · unfold modelProb
    rw [← integral_finsetSum _ fun x _ => integrable_lik g x]
    have : ∀ z, ∑ x, lik g.logits x z = 1 := fun z => imageProb_sum _
    simp [this]

theorem imageProb_marginal {ξ : Type} [Fintype ξ] [DecidableEq ξ] (p : ξ → ℝ) (d : ξ) :
    ∑ x, imageProb p x * (if x d then 1 else 0) = p d := by
  have e : ∀ x, imageProb p x * (if x d then (1 : ℝ) else 0) =
      ∏ d', if d' = d then (if x d' then p d' else 0) else if x d' then p d' else 1 - p d' := by
    intro x
    unfold imageProb
    rw [← Finset.mul_prod_erase _ _ (Finset.mem_univ d), ← Finset.mul_prod_erase Finset.univ (fun d' =>
      if d' = d then (if x d' then p d' else 0) else if x d' then p d' else 1 - p d') (Finset.mem_univ d)]
    have : ∏ d' ∈ Finset.univ.erase d, (if d' = d then (if x d' then p d' else 0) else if x d' then p d' else 1 - p d') =
        ∏ d' ∈ Finset.univ.erase d, if x d' then p d' else 1 - p d' :=
      Finset.prod_congr rfl fun d' hd => by rw [if_neg (Finset.ne_of_mem_erase hd)]
    rw [this, if_pos rfl]
    cases x d <;> simp
  simp only [e]
  rw [← Fintype.prod_sum (fun d' (b : Bool) => if d' = d then (if b then p d' else 0) else if b then p d' else 1 - p d')]
  rw [Finset.prod_eq_single d]
  · simp
  · intro d' _ h
    simp [h]
  · simp

/-- **C98.** The mean of pixel `d` of the generated pictures is the probability that the pixel is one under the model. -/
theorem C98_generate (g : Gen zd h1 h2 xd) (d : Fin xd) :
    ∫ e, g.generate e d ∂(normals (Fin zd)) = ∑ x, modelProb g.logits x * (if x d then 1 else 0) := by
  unfold modelProb
  have e1 : ∀ x : Fin xd → Bool, (∫ z, lik g.logits x z ∂(normals (Fin zd))) * (if x d then (1 : ℝ) else 0) =
      ∫ z, lik g.logits x z * (if x d then 1 else 0) ∂(normals (Fin zd)) := fun x => (integral_mul_const _ _).symm
  simp only [e1]
  rw [← integral_finsetSum _ fun x _ => (integrable_lik g x).mul_const _]
  refine integral_congr_ae (Filter.Eventually.of_forall fun e => ?_)
  have h : (fun j => Uni.Normal.sample 0 1 (e j)) = e := by funext j; simp [Uni.Normal.sample]
  simp only [Gen.generate, h]
  rw [← logistic_eq]
  exact (imageProb_marginal (fun d => logistic (g.logits e d)) d).symm

/-! ## Binary images -/

instance : IsProbabilityMeasure (uniforms (Fin xd)) := by
  unfold uniforms
  have : IsProbabilityMeasure ((volume : Measure ℝ).restrict (Set.Ico (0 : ℝ) 1)) := ⟨by simp⟩
  infer_instance

theorem measurable_binarize (xInput : Fin xd → ℝ) : Measurable (binarize xInput) := by
  refine measurable_pi_lambda _ fun d => measurable_to_bool ?_
  have : (fun u => binarize xInput u d) ⁻¹' {true} = {u : Fin xd → ℝ | u d < xInput d} := by ext u; simp [binarize]
  rw [this]
  exact measurableSet_lt (measurable_pi_apply d) measurable_const

/-- **C98.** The pixels are made binary independently, each being one with its intensity. -/
theorem C98_binarize (xInput : Fin xd → ℝ) (h : ∀ d, 0 ≤ xInput d ∧ xInput d ≤ 1) (x : Fin xd → Bool) :
    (uniforms (Fin xd)).real {u | binarize xInput u = x} = imageProb xInput x := by
  have e : {u | binarize xInput u = x} = Set.univ.pi fun d => if x d then Set.Iio (xInput d) else Set.Ici (xInput d) := by
    ext u
    simp only [Set.mem_ofPred_eq, Set.mem_pi, Set.mem_univ, true_imp_iff, funext_iff, binarize]
    refine forall_congr' fun d => ?_
    cases x d <;> simp
  have hp : IsProbabilityMeasure ((volume : Measure ℝ).restrict (Set.Ico (0 : ℝ) 1)) := ⟨by simp⟩
  rw [measureReal_def, e, uniforms, Measure.pi_pi, ENNReal.toReal_prod, imageProb]
  refine Finset.prod_congr rfl fun d _ => ?_
  obtain ⟨a, b⟩ := h d
  cases x d
  · simp only [Bool.false_eq_true, if_false]
    rw [Measure.restrict_apply measurableSet_Ici]
    have : Set.Ici (xInput d) ∩ Set.Ico (0 : ℝ) 1 = Set.Ico (xInput d) 1 := by
      ext u; simp only [Set.mem_inter_iff, Set.mem_Ici, Set.mem_Ico]; constructor
      · rintro ⟨p, _, q⟩; exact ⟨p, q⟩
      · rintro ⟨p, q⟩; exact ⟨p, a.trans p, q⟩
    rw [this, Real.volume_Ico, ENNReal.toReal_ofReal (by linarith)]
  · simp only [if_true]
    rw [Measure.restrict_apply measurableSet_Iio]
    have : Set.Iio (xInput d) ∩ Set.Ico (0 : ℝ) 1 = Set.Ico 0 (xInput d) := by
      ext u; simp only [Set.mem_inter_iff, Set.mem_Iio, Set.mem_Ico]; constructor
      · rintro ⟨p, q, _⟩; exact ⟨q, p⟩
      · rintro ⟨p, q⟩; exact ⟨q, p, lt_of_lt_of_le q b⟩
    rw [this, Real.volume_Ico, sub_zero, ENNReal.toReal_ofReal a]

theorem integral_binarize (xInput : Fin xd → ℝ) (h : ∀ d, 0 ≤ xInput d ∧ xInput d ≤ 1) (φ : (Fin xd → Bool) → ℝ) :
    ∫ u, φ (binarize xInput u) ∂(uniforms (Fin xd)) = ∑ x, imageProb xInput x * φ x := by
  have hm := measurable_binarize xInput
  have hP : IsProbabilityMeasure ((uniforms (Fin xd)).map (binarize xInput)) := Measure.isProbabilityMeasure_map hm.aemeasurable
  rw [← integral_map hm.aemeasurable (measurable_of_finite φ).aestronglyMeasurable, integral_fintype (.of_finite)]
  refine Finset.sum_congr rfl fun x _ => ?_
  rw [smul_eq_mul, measureReal_def, Measure.map_apply hm (measurableSet_singleton x), ← measureReal_def, ← C98_binarize xInput h x]
  rfl

/-! ## Batches -/

/-- The noise of a batch. -/
noncomputable def noiseLaw (xd K zd b : ℕ) : Measure (Fin b → Noise xd K zd) :=
  Measure.pi fun _ => (uniforms (Fin xd)).prod (Measure.pi fun _ => normals (Fin zd))

theorem mean_zipWith {D N : Type} {b : ℕ} [MeasurableSpace N] (P : Measure N) [IsProbabilityMeasure P] (φ : D → N → ℝ)
    (l : List D) (hl : l.length = b) (hφ : ∀ d ∈ l, Integrable (φ d) P) :
    ∫ z : Fin b → N, mean (List.zipWith φ l (List.ofFn z)) ∂(Measure.pi fun _ => P) = mean (l.map fun d => ∫ z, φ d z ∂P) := by
  subst hl
  have e : ∀ z : Fin l.length → N, mean (List.zipWith φ l (List.ofFn z)) = (∑ r, φ (l.get r) (z r)) / l.length := by
    intro z
    have h1 : List.zipWith φ l (List.ofFn z) = List.ofFn fun r => φ (l.get r) (z r) := by
      apply List.ext_getElem
      · simp
      · intro i h1 h2
        simp
    rw [mean, h1, List.sum_ofFn, List.length_ofFn]
  simp only [e]
  rw [integral_div, integral_finsetSum _ fun r _ =>
    integrable_comp_eval (μ := fun _ : Fin l.length => P) (i := r) (hφ _ (List.get_mem l r))]
  rw [mean, List.length_map]
  congr 1
  rw [← List.sum_ofFn]
  congr 1
  apply List.ext_getElem
  · simp
  · intro i h1 h2
    simp only [List.getElem_ofFn, List.getElem_map, List.get_eq_getElem]
    exact integral_comp_eval (μ := fun _ : Fin l.length => P) (i := ⟨i, by simpa using h1⟩) (hφ _ (by simp)).aestronglyMeasurable

theorem integrable_binarized {N : Type} [MeasurableSpace N] (P : Measure N) [IsProbabilityMeasure P] (row : (Fin xd → Bool) → N → ℝ)
    (hr : ∀ x, Integrable (row x) P) (xInput : Fin xd → ℝ) :
    Integrable (fun z : (Fin xd → ℝ) × N => row (binarize xInput z.1) z.2) ((uniforms (Fin xd)).prod P) := by
  have e : (fun z : (Fin xd → ℝ) × N => row (binarize xInput z.1) z.2) = fun z =>
      ∑ x, (if binarize xInput z.1 = x then (1 : ℝ) else 0) * row x z.2 := by
    funext z
    simp
  rw [e]
  refine integrable_finsetSum _ fun x _ => Integrable.mul_prod (f := fun u => if binarize xInput u = x then (1 : ℝ) else 0) ?_ (hr x)
  have hm : Measurable fun u => if binarize xInput u = x then (1 : ℝ) else 0 :=
    (measurable_of_finite fun y : Fin xd → Bool => if y = x then (1 : ℝ) else 0).comp (measurable_binarize xInput)
  refine Integrable.of_bound hm.aestronglyMeasurable 1 (Filter.Eventually.of_forall fun u => ?_)
  split <;> simp

theorem batch_mem {D : Type} (a : Fin n → D) (b t : ℕ) {d : D} (h : d ∈ batch a b t) : ∃ i, d = a i := by
  have h1 : d ∈ List.ofFn a := List.mem_of_mem_take (List.mem_of_mem_drop h)
  rw [List.mem_ofFn] at h1
  obtain ⟨i, hi⟩ := h1
  exact ⟨i, hi.symm⟩

theorem train_mean (row : (Fin xd → Bool) → (Fin (K + 1) → Fin zd → ℝ) → ℝ)
    (hr : ∀ x, Integrable (row x) (Measure.pi fun _ : Fin (K + 1) => normals (Fin zd)))
    (x : Fin n → Fin xd → ℝ) (hx : ∀ i d, 0 ≤ x i d ∧ x i d ≤ 1) (b t : ℕ) (hb : 0 < b) (ht : t < itersDown n b) :
    ∫ σ, ∫ z, batchMean row (batch (fun i => x (σ i)) b t) z ∂(noiseLaw xd (K + 1) zd b) ∂(uniform n) =
      (∑ i, ∑ y, imageProb (x i) y * ∫ e, row y e ∂(Measure.pi fun _ : Fin (K + 1) => normals (Fin zd))) / n := by
  have hd : itersDown n b ≤ itersUp n b := Nat.div_le_div_right (by omega)
  rw [← C92_unbiased_mean x b t hb (ht.trans_le hd) fun xi => ∑ y, imageProb xi y * ∫ e, row y e ∂(Measure.pi fun _ : Fin (K + 1) => normals (Fin zd))]
  refine integral_congr_ae (Filter.Eventually.of_forall fun σ => ?_)
  have hl : (batch (fun i => x (σ i)) b t).length = b := (C92_cover_down _ b).2 t ht
  simp only [batchMean, noiseLaw]
  rw [mean_zipWith _ (fun xInput (z : Noise xd (K + 1) zd) => row (binarize xInput z.1) z.2) _ hl fun d _ => integrable_binarized _ row hr d]
  congr 1
  refine List.map_congr_left fun xi hxi => ?_
  obtain ⟨i, rfl⟩ := batch_mem _ _ _ hxi
  rw [integral_prod _ (integrable_binarized _ row hr _),
    integral_binarize _ (hx (σ i)) fun y => ∫ e, row y e ∂(Measure.pi fun _ : Fin (K + 1) => normals (Fin zd))]

/-- **C98.** The lower bound in training.  With a uniform shuffle (after any shuffles `π` before), the expected value of the bound of a batch,
over the shuffle, the draws that make the images binary and those of the particles, is the mean over all training images of the mean over their
binary images of the log probability under the model minus the divergence; in every iteration of the epoch, for any batch size. -/
theorem C98_train (g : Gen zd h1 h2 xd) (q : QNet xd k1 k2 zd) (hq : q.Ok) (x : Fin n → Fin xd → ℝ) (hx : ∀ i d, 0 ≤ x i d ∧ x i d ≤ 1)
    (π : Equiv.Perm (Fin n)) (b t : ℕ) (hb : 0 < b) (ht : t < itersDown n b) :
    ∫ σ, ∫ z, batchMean (rowElbo g q) (batch (fun i => x (π (σ i))) b t) z ∂(noiseLaw xd (K + 1) zd b) ∂(uniform n) =
      (∑ i, ∑ y, imageProb (x i) y *
        (Real.log (modelProb g.logits y) - (klDiv (drawn q y) (posterior g.logits y)).toReal)) / n := by
  rw [train_mean (rowElbo g q) (fun y => rowElbo_int g q hq y K) (fun i => x (π i)) (fun i => hx (π i)) b t hb ht]
  simp only [(C98_elbo g q hq _ K).2]
  rw [Equiv.sum_comp π fun i => ∑ y, imageProb (x i) y *
    (Real.log (modelProb g.logits y) - (klDiv (drawn q y) (posterior g.logits y)).toReal)]

/-- **C98.** So it is a lower bound of the mean log probability of the binary training images, on average, whatever the encoder. -/
theorem C98_train_le (g : Gen zd h1 h2 xd) (q : QNet xd k1 k2 zd) (hq : q.Ok) (x : Fin n → Fin xd → ℝ) (hx : ∀ i d, 0 ≤ x i d ∧ x i d ≤ 1)
    (π : Equiv.Perm (Fin n)) (b t : ℕ) (hb : 0 < b) (ht : t < itersDown n b) :
    ∫ σ, ∫ z, batchMean (rowElbo g q) (batch (fun i => x (π (σ i))) b t) z ∂(noiseLaw xd (K + 1) zd b) ∂(uniform n) ≤
      (∑ i, ∑ y, imageProb (x i) y * Real.log (modelProb g.logits y)) / n := by
  rw [C98_train g q hq x hx π b t hb ht]
  refine div_le_div_of_nonneg_right (Finset.sum_le_sum fun i _ => Finset.sum_le_sum fun y _ => ?_) (Nat.cast_nonneg n)
  exact mul_le_mul_of_nonneg_left (sub_le_self _ ENNReal.toReal_nonneg) (imageProb_nonneg (hx i) y)

/-- **C98.** The same for the importance weighted objective: in training, its expected value is a lower bound of the mean log probability of the
binary images and tends to it as the number of particles grows. -/
theorem C98_train_iw (g : Gen zd h1 h2 xd) (q : QNet xd k1 k2 zd) (hq : q.Ok) (x : Fin n → Fin xd → ℝ) (hx : ∀ i d, 0 ≤ x i d ∧ x i d ≤ 1)
    (π : Equiv.Perm (Fin n)) (b t : ℕ) (hb : 0 < b) (ht : t < itersDown n b) :
    let bound : ℕ → ℝ := fun K =>
      ∫ σ, ∫ z, batchMean (rowIw g q) (batch (fun i => x (π (σ i))) b t) z ∂(noiseLaw xd (K + 1) zd b) ∂(uniform n)
    let target : ℝ := (∑ i, ∑ y, imageProb (x i) y * Real.log (modelProb g.logits y)) / n
    (∀ K, bound K ≤ target) ∧ Monotone bound ∧ Filter.Tendsto bound Filter.atTop (nhds target) := by
  intro bound target
  have e : ∀ K, bound K = (∑ i, ∑ y, imageProb (x i) y *
      ∫ e, rowIw g q y e ∂(Measure.pi fun _ : Fin (K + 1) => normals (Fin zd))) / n := fun K => by
    have h := train_mean (rowIw (K := K) g q) (fun y => row_iw_int (lik_logLik g y) (q.mean y) (q.logstd y) q.flows hq K)
      (fun i => x (π i)) (fun i => hx (π i)) b t hb ht
    refine h.trans ?_
    rw [Equiv.sum_comp π fun i => ∑ y, imageProb (x i) y * ∫ e, rowIw g q y e ∂(Measure.pi fun _ : Fin (K + 1) => normals (Fin zd))]
  have hn : (0 : ℝ) ≤ n := Nat.cast_nonneg n
  refine ⟨fun K => ?_, fun K K' hK => ?_, ?_⟩
  · rw [e]
    exact div_le_div_of_nonneg_right (Finset.sum_le_sum fun i _ => Finset.sum_le_sum fun y _ =>
      mul_le_mul_of_nonneg_left ((C98_iw g q hq y).1 K) (imageProb_nonneg (hx i) y)) hn
  · rw [e, e]
    exact div_le_div_of_nonneg_right (Finset.sum_le_sum fun i _ => Finset.sum_le_sum fun y _ =>
      mul_le_mul_of_nonneg_left ((C98_iw g q hq y).2.1 hK) (imageProb_nonneg (hx i) y)) hn
  · have h : Filter.Tendsto (fun K => (∑ i, ∑ y, imageProb (x i) y *
        ∫ e, rowIw g q y e ∂(Measure.pi fun _ : Fin (K + 1) => normals (Fin zd))) / (n : ℝ)) Filter.atTop (nhds target) :=
      (tendsto_finsetSum _ fun i _ => tendsto_finsetSum _ fun y _ => ((C98_iw g q hq y).2.2).const_mul _).div_const _
    exact h.congr fun K => (e K).symm

/-- **C98.** What the tests print: the mean over the batches of the bound of the binary test images has as expected value the mean of the
log probabilities minus the divergences of the images in full batches (all of them if the batch size divides their number). -/
theorem C98_test (g : Gen zd h1 h2 xd) (q : QNet xd k1 k2 zd) (hq : q.Ok) (x : Fin n → Fin xd → Bool) (b : ℕ) (hb : 0 < b) :
    mean ((List.range (itersDown n b)).map fun t => ∫ z, testMean (rowElbo g q) (batch x b t) z
      ∂(Measure.pi fun _ : Fin b => Measure.pi fun _ : Fin (K + 1) => normals (Fin zd))) =
      mean (((List.ofFn x).take (n - n % b)).map fun y =>
        Real.log (modelProb g.logits y) - (klDiv (drawn q y) (posterior g.logits y)).toReal) := by
  rw [← C92_mean_of_means x b hb, meanOfMeans]
  congr 1
  refine List.map_congr_left fun t ht => ?_
  have hl : (batch x b t).length = b := (C92_cover_down x b).2 t (List.mem_range.1 ht)
  simp only [testMean]
  rw [mean_zipWith _ (rowElbo g q) _ hl fun y _ => rowElbo_int g q hq y K]
  simp only [(C98_elbo g q hq _ K).2]

/-- A model with two latent variables, three hidden units and two pixels, and an encoder with a flow, satisfy the hypotheses. -/
example (x : Fin 5 → Fin 2 → ℝ) (hx : ∀ i d, 0 ≤ x i d ∧ x i d ≤ 1) (l : ∀ m k, Dense m k) :=
  C98_train (K := 0) (h1 := 3) (h2 := 3) ⟨l 2 3, l 3 3, l 3 2⟩
    (⟨l 2 4, l 4 4, l 4 2, l 4 2, [[⟨0, fun _ => 1, fun _ => 2⟩], [⟨1, fun _ => 0, fun _ => 1⟩]]⟩ : QNet 2 4 4 2)
    (by
      intro ps hps p hp h
      have h0 := congrFun h 0
      simp only [List.mem_cons, List.not_mem_nil, or_false] at hps
      rcases hps with rfl | rfl <;> simp only [List.mem_cons, List.not_mem_nil, or_false] at hp <;> subst hp <;> norm_num at h0)
    x hx 1 2 1 (by norm_num) (by norm_num [itersDown])

end

end ZhuSuan.Vae

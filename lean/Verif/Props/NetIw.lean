import Verif.Model.NetIw
import Verif.Spec.NetIw
import Verif.Props.EndToEnd
import Verif.Props.IwTight

/-!
# C80: the importance weighted objective and `is_loglikelihood` on two nets
-/

set_option autoImplicit false

namespace ZhuSuan.VObj
open ZhuSuan.BN ZhuSuan.Grad
open scoped ENNReal
open MeasureTheory

variable {X : Type}

section
variable {Q P : List (Decl X)} {mq m : Option (LogJoint ((ℕ → X) → EReal))}
  {observed : Dict Name (Tensor X)} {dr : ℕ → (ℕ → X) → X} {v : VObj X ((ℕ → X) → EReal)}
  {q' : State X (Dist X X) ((ℕ → X) → EReal)} {l : (ℕ → X) → EReal}

theorem ran_length (hQ : WellFormed Q) (h : Ran Q P mq m observed dr v q' l) :
    v.vLogProbs.length = Q.length := by
  obtain ⟨sq0, s0, s0', e1, e2, e3, e4⟩ := h
  obtain ⟨sq, v1, q1, h1, h2, _, _, _, _, h3, h4, h5, h6, h7, h8⟩ := variational_facts Q hQ mq observed
  rw [h1] at e1
  cases e1
  rw [h2] at e2
  cases e2
  exact h8

/-- **C80.** With at least one latent variable and a sample axis the objective is built, and its value is the
logarithm of the mean over the samples of `exp (log p - log q)`, the objective of C70. -/
theorem C80_value (hQ : WellFormed Q) (h : Ran Q P mq m observed dr v q' l) (hne : Q ≠ []) (a K : ℕ) :
    ∃ t : (Fin (K + 1) → ℕ → X) → ℝ, iwTensor (some a) l v = .ok t ∧ isLogLik (some a) l v = .ok t ∧
      ∀ ω, t ω = Real.log ((∑ k, Real.exp (elbo l v (ω k)).toReal) / (K + 1 : ℕ)) := by
  have hl : 0 < v.vLogProbs.length := by
    rw [ran_length hQ h]
    exact List.length_pos_iff.2 hne
  refine ⟨_, by simp [iwTensor, logWeight, entropyTerm, hl]; rfl,
    by simp [isLogLik, iwTensor, logWeight, entropyTerm, hl], fun ω => ?_⟩
  simp [logMeanExp_val, Dual.const, elbo, entropyTerm, hl]

/-- **C80.** Finding: a model without latent variables makes `is_loglikelihood` fail, whereas the elbo is then
the log joint. -/
theorem C80_no_latent (hQ : WellFormed Q) (h : Ran Q P mq m observed dr v q' l) (hQ0 : Q = []) (a K : ℕ) :
    isLogLik (some a) (K := K) l v = .error .valueError ∧
      ∀ ω, elboTensor (K := K) l v ω = (∑ k, (l (ω k)).toReal) / (K + 1 : ℕ) := by
  have hl : v.vLogProbs.length = 0 := by rw [ran_length hQ h, hQ0]; rfl
  refine ⟨by simp [isLogLik, iwTensor, logWeight, entropyTerm, hl], fun ω => ?_⟩
  simp [elboTensor, elbo, entropyTerm, hl, reduceMean_val, Dual.const]

/-- **C80.** Without `axis` the objective is refused. -/
theorem C80_axis_required (K : ℕ) : isLogLik none (K := K) l v = .error .valueError := rfl

variable [MeasurableSpace X] {μ : Name → Measure X} [∀ n, SigmaFinite (μ n)] {obs : Dict Name X}

/-- The weights as a latent variable model in the sense of C39 and C40: the reference measure is the law of the
samples itself. -/
theorem weight_model (hf : Fits μ Q P obs dr) (hm : m = none ∨ m = some .unset)
    (h : Ran Q P mq m (consts obs) dr v q' l) (w0 : ℕ → X) (x0 : X)
    (hfin : evidence μ P obs x0 ≠ ⊤) (hbot : ∀ᵐ w ∂(latentLaw μ Q w0), elbo l v w ≠ ⊥) :
    LatentModel (latentLaw μ Q w0) (fun w => Real.exp (elbo l v w).toReal) (fun _ => 1) ∧
    law (latentLaw μ Q w0) (fun _ => 1) = latentLaw μ Q w0 ∧
    ENNReal.ofReal (Grad.evidence (latentLaw μ Q w0) (fun w => Real.exp (elbo l v w).toReal)) =
      ∫⁻ w, (elbo l v w).exp ∂(latentLaw μ Q w0) := by
  have hprob := latentLaw_prob μ hf.wfQ hf.measQ hf.norm w0
  have hw := (C70_weight μ hf.wfQ hf.wfP hm hf.wfObs hf.covers hf.draws hf.measQ hf.measP hf.norm h w0 x0).1
  have hmeas := elbo_exp_measurable hf.wfQ hf.wfP hm hf.wfObs hf.draws hf.measQ hf.measP h
  have hlt : ∫⁻ w, (elbo l v w).exp ∂(latentLaw μ Q w0) ≠ ⊤ := ne_top_of_le_ne_top hfin hw
  have hme : Measurable (fun w => (elbo l v w).toReal) := by
    have e : (fun w => (elbo l v w).toReal) = fun w => (ENNReal.log (elbo l v w).exp).toReal := by
      funext w
      rw [EReal.log_exp]
    rw [e]
    exact (ENNReal.measurable_log.comp hmeas).ereal_toReal
  have hexp : ∀ᵐ w ∂(latentLaw μ Q w0),
      (elbo l v w).exp = ENNReal.ofReal (Real.exp (elbo l v w).toReal) := by
    filter_upwards [hbot, ae_lt_top hmeas hlt] with w h1 h2
    have h3 : elbo l v w ≠ ⊤ := by
      intro hc; rw [hc] at h2; simp at h2
    conv_lhs => rw [← EReal.coe_toReal h3 h1]
    rfl
  have hI : Integrable (fun w => Real.exp (elbo l v w).toReal) (latentLaw μ Q w0) := by
    refine ⟨hme.exp.aestronglyMeasurable, ?_⟩
    rw [hasFiniteIntegral_iff_ofReal (Filter.Eventually.of_forall (fun _ => (Real.exp_pos _).le)),
      ← lintegral_congr_ae hexp]
    exact hlt.lt_top
  refine ⟨⟨hme.exp, measurable_const, fun _ => (Real.exp_pos _).le, fun _ => zero_le_one, hI, ?_,
    integrable_const _, by simp, fun z hz => absurd hz (Real.exp_pos _).ne'⟩, ?_, ?_⟩
  · exact integral_exp_pos hI
  · simp only [law, ENNReal.ofReal_one]
    exact withDensity_one
  · rw [Grad.evidence, ofReal_integral_eq_lintegral_ofReal hI
      (Filter.Eventually.of_forall (fun _ => (Real.exp_pos _).le)), ← lintegral_congr_ae hexp]

/-- What `isLoglikelihood` of C71 is here. -/
theorem tensor_eq (hQ : WellFormed Q) {obs : Dict Name (Tensor X)} (h : Ran Q P mq m obs dr v q' l)
    (hne : Q ≠ []) {a K : ℕ}
    {t : (Fin (K + 1) → ℕ → X) → ℝ} (ht : isLogLik (some a) l v = .ok t) (ω : Fin (K + 1) → ℕ → X) :
    t ω = isLoglikelihood (fun k => Dual.const (elbo l v (ω k)).toReal) (fun _ => Dual.const 0) := by
  obtain ⟨t', _, h2, h3⟩ := C80_value hQ h hne a K
  rw [h2] at ht
  cases ht
  rw [h3, isLoglikelihood, iwObjective_val, LME]
  simp [Dual.const]

/-- **C80.** For any two programs and any number of samples, the estimated likelihood `exp (is_loglikelihood)`
has expectation at most `p(obs)`, and exactly `p(obs)` if the proposal can produce every latent value that the
model can. -/
theorem C80_likelihood (hf : Fits μ Q P obs dr) (hm : m = none ∨ m = some .unset)
    (h : Ran Q P mq m (consts obs) dr v q' l) (hne : Q ≠ []) (w0 : ℕ → X) (x0 : X)
    (hfin : evidence μ P obs x0 ≠ ⊤) (hbot : ∀ᵐ w ∂(latentLaw μ Q w0), elbo l v w ≠ ⊥) {a K : ℕ}
    {t : (Fin (K + 1) → ℕ → X) → ℝ} (ht : isLogLik (some a) l v = .ok t) :
    ∫⁻ ω, ENNReal.ofReal (Real.exp (t ω)) ∂(manySamples μ Q w0 (K + 1)) ≤ evidence μ P obs x0 ∧
    (Supports Q P obs dr → ∫⁻ ω, ENNReal.ofReal (Real.exp (t ω)) ∂(manySamples μ Q w0 (K + 1)) =
      evidence μ P obs x0) := by
  obtain ⟨hM, hlaw, hE⟩ := weight_model hf hm h w0 x0 hfin hbot
  have hw := C70_weight μ hf.wfQ hf.wfP hm hf.wfObs hf.covers hf.draws hf.measQ hf.measP hf.norm h w0 x0
  have hu := C71_unbiased_likelihood (logp := fun w => Dual.const (elbo l v w).toReal)
    (logq := fun _ => Dual.const 0) hM (fun z hz => absurd hz one_ne_zero)
    (fun z => by simp [Dual.const]) (fun z => by simp [Dual.const]) K
  have hi := exp_isLoglikelihood_integrable (logp := fun w => Dual.const (elbo l v w).toReal)
    (logq := fun _ => Dual.const 0) hM
    (fun z => by simp [Dual.const]) (fun z => by simp [Dual.const]) K
  simp only [samples, hlaw] at hu hi
  have key : ∫⁻ ω, ENNReal.ofReal (Real.exp (t ω)) ∂(manySamples μ Q w0 (K + 1)) =
      ∫⁻ w, (elbo l v w).exp ∂(latentLaw μ Q w0) := by
    rw [← hE, ← hu, ofReal_integral_eq_lintegral_ofReal hi
      (Filter.Eventually.of_forall (fun _ => (Real.exp_pos _).le))]
    exact lintegral_congr fun ω => by rw [tensor_eq hf.wfQ h hne ht ω]
  rw [key]
  exact hw

theorem weight_le (hf : Fits μ Q P obs dr) (hm : m = none ∨ m = some .unset)
    (h : Ran Q P mq m (consts obs) dr v q' l) (w0 : ℕ → X) (x0 : X)
    (hfin : evidence μ P obs x0 ≠ ⊤) (hbot : ∀ᵐ w ∂(latentLaw μ Q w0), elbo l v w ≠ ⊥) :
    Grad.evidence (latentLaw μ Q w0) (fun w => Real.exp (elbo l v w).toReal) ≤
      (evidence μ P obs x0).toReal := by
  obtain ⟨hM, hlaw, hE⟩ := weight_model hf hm h w0 x0 hfin hbot
  have hw := (C70_weight μ hf.wfQ hf.wfP hm hf.wfObs hf.covers hf.draws hf.measQ hf.measP hf.norm h w0 x0).1
  rw [← hE] at hw
  exact (ENNReal.ofReal_le_iff_le_toReal hfin).1 hw

/-- **C80.** The expected objective is a lower bound of the log evidence, for every number of samples; more
samples never make it worse; and it is never below the elbo. -/
theorem C80_bounds (hf : Fits μ Q P obs dr) (hm : m = none ∨ m = some .unset)
    (h : Ran Q P mq m (consts obs) dr v q' l) (hne : Q ≠ []) (w0 : ℕ → X) (x0 : X)
    (hfin : evidence μ P obs x0 ≠ ⊤) (hbot : ∀ᵐ w ∂(latentLaw μ Q w0), elbo l v w ≠ ⊥)
    (hint : Integrable (fun w => (elbo l v w).toReal) (latentLaw μ Q w0)) (a : ℕ)
    (t : (K : ℕ) → (Fin (K + 1) → ℕ → X) → ℝ) (ht : ∀ K, iwTensor (some a) l v = .ok (t K)) :
    (∀ K, ∫ ω, t K ω ∂(manySamples μ Q w0 (K + 1)) ≤ Real.log (evidence μ P obs x0).toReal) ∧
    (∀ K K', K ≤ K' → ∫ ω, t K ω ∂(manySamples μ Q w0 (K + 1)) ≤
      ∫ ω, t K' ω ∂(manySamples μ Q w0 (K' + 1))) ∧
    (∀ K, ∫ w, (elbo l v w).toReal ∂(latentLaw μ Q w0) ≤ ∫ ω, t K ω ∂(manySamples μ Q w0 (K + 1))) ∧
    ∫ ω, t 0 ω ∂(manySamples μ Q w0 1) = ∫ w, (elbo l v w).toReal ∂(latentLaw μ Q w0) := by
  obtain ⟨hM, hlaw, hE⟩ := weight_model hf hm h w0 x0 hfin hbot
  have hprob := latentLaw_prob μ hf.wfQ hf.measQ hf.norm w0
  have hp : ∀ z, ((fun w => Dual.const (elbo l v w).toReal) z).val =
      Real.log ((fun w => Real.exp (elbo l v w).toReal) z) := fun z => by simp [Dual.const]
  have hq : ∀ z : ℕ → X, ((fun _ => Dual.const 0) z).val = Real.log ((fun _ : ℕ → X => (1 : ℝ)) z) :=
    fun z => by simp [Dual.const]
  have hi : Integrable (fun z => Real.log ((fun w => Real.exp (elbo l v w).toReal) z) -
      Real.log ((fun _ : ℕ → X => (1 : ℝ)) z)) (law (latentLaw μ Q w0) (fun _ => 1)) := by
    rw [hlaw]
    simpa using hint
  have e : ∀ K ω, t K ω = (iwObjective (fun k => Dual.const (elbo l v (ω k)).toReal)
      (fun _ => Dual.const 0)).val := fun K ω => tensor_eq hf.wfQ h hne (ht K) ω
  have hmono := C40_monotone hM hp hq hi
  have hle := C40_le_evidence hM hp hq hi
  simp only [samples, hlaw, ← e] at hmono hle
  have h0 : ∫ ω, t 0 ω ∂(manySamples μ Q w0 1) = ∫ w, (elbo l v w).toReal ∂(latentLaw μ Q w0) := by
    have : ∀ ω, t 0 ω = (elbo l v (ω 0)).toReal := fun ω => by
      rw [e, iwObjective_val, LME]
      simp [Dual.const]
    simp only [this]
    exact integral_comp_eval (μ := fun _ : Fin 1 => latentLaw μ Q w0) (i := 0) hint.1
  refine ⟨fun K => (hle K).trans ?_, fun K K' hk => hmono hk, fun K => ?_, h0⟩
  · exact Real.log_le_log hM.evidence_pos (weight_le hf hm h w0 x0 hfin hbot)
  · rw [← h0]
    exact hmono (Nat.zero_le K)

/-- **C80.** The expected elbo averaged over a sample axis is the expected elbo of one sample. -/
theorem C80_elbo_axis (hf : Fits μ Q P obs dr) (w0 : ℕ → X)
    (hint : Integrable (fun w => (elbo l v w).toReal) (latentLaw μ Q w0)) (K : ℕ) :
    ∫ ω, elboTensor l v ω ∂(manySamples μ Q w0 (K + 1)) =
      ∫ w, (elbo l v w).toReal ∂(latentLaw μ Q w0) := by
  have hprob := latentLaw_prob μ hf.wfQ hf.measQ hf.norm w0
  simp only [elboTensor, reduceMean_val, Dual.const, manySamples]
  rw [integral_div, integral_finsetSum]
  · have e : ∀ k : Fin (K + 1), ∫ ω, (elbo l v (ω k)).toReal
        ∂(Measure.pi fun _ : Fin (K + 1) => latentLaw μ Q w0) =
        ∫ w, (elbo l v w).toReal ∂(latentLaw μ Q w0) := fun k =>
      integral_comp_eval (μ := fun _ : Fin (K + 1) => latentLaw μ Q w0) (i := k) hint.1
    simp only [e]
    simp
    field_simp
  · exact fun k _ => integrable_comp_eval (μ := fun _ : Fin (K + 1) => latentLaw μ Q w0) (i := k) hint

/-- **C80.** The estimate exceeds the log evidence by `b` with probability at most `exp (-b)`. -/
theorem C80_overestimate (hf : Fits μ Q P obs dr) (hm : m = none ∨ m = some .unset)
    (h : Ran Q P mq m (consts obs) dr v q' l) (hne : Q ≠ []) (w0 : ℕ → X) (x0 : X)
    (hfin : evidence μ P obs x0 ≠ ⊤) (hbot : ∀ᵐ w ∂(latentLaw μ Q w0), elbo l v w ≠ ⊥) {a K : ℕ}
    {t : (Fin (K + 1) → ℕ → X) → ℝ} (ht : isLogLik (some a) l v = .ok t) (b : ℝ) :
    (manySamples μ Q w0 (K + 1)).real
      {ω | Real.log (evidence μ P obs x0).toReal + b ≤ t ω} ≤ Real.exp (-b) := by
  obtain ⟨hM, hlaw, hE⟩ := weight_model hf hm h w0 x0 hfin hbot
  have hprob := latentLaw_prob μ hf.wfQ hf.measQ hf.norm w0
  have hs := C71_stochastic_lower_bound (logp := fun w => Dual.const (elbo l v w).toReal)
    (logq := fun _ => Dual.const 0) hM
    (fun z => by simp [Dual.const]) (fun z => by simp [Dual.const]) K b
  simp only [samples, hlaw] at hs
  refine le_trans (measureReal_mono (fun ω hω => ?_) ?_) hs
  · simp only [Set.mem_setOf_eq] at hω ⊢
    rw [tensor_eq hf.wfQ h hne ht ω] at hω
    have := Real.log_le_log hM.evidence_pos (weight_le hf hm h w0 x0 hfin hbot)
    linarith
  · unfold manySamples
    exact measure_ne_top _ _

/-- **C80.** As the number of independent samples grows, the estimate converges almost surely to the log
evidence, if the proposal can produce every latent value that the model can. -/
theorem C80_consistent (hf : Fits μ Q P obs dr) (hm : m = none ∨ m = some .unset)
    (h : Ran Q P mq m (consts obs) dr v q' l) (hne : Q ≠ []) (w0 : ℕ → X) (x0 : X)
    (hfin : evidence μ P obs x0 ≠ ⊤) (hbot : ∀ᵐ w ∂(latentLaw μ Q w0), elbo l v w ≠ ⊥)
    (hsupp : Supports Q P obs dr) (a : ℕ)
    (t : (K : ℕ) → (Fin (K + 1) → ℕ → X) → ℝ) (ht : ∀ K, isLogLik (some a) l v = .ok (t K))
    {Ω : Type*} [MeasurableSpace Ω] {Pr : Measure Ω} (S : ℕ → Ω → ℕ → X) (hS : ∀ i, Measurable (S i))
    (hind : Pairwise fun i j => ProbabilityTheory.IndepFun (S i) (S j) Pr)
    (hlaw : ∀ i, Pr.map (S i) = latentLaw μ Q w0) :
    ∀ᵐ ω ∂Pr, Filter.Tendsto (fun K : ℕ => t K (fun k => S k ω)) Filter.atTop
      (nhds (Real.log (evidence μ P obs x0).toReal)) := by
  obtain ⟨hM, hlaw', hE⟩ := weight_model hf hm h w0 x0 hfin hbot
  have hw := (C70_weight μ hf.wfQ hf.wfP hm hf.wfObs hf.covers hf.draws hf.measQ hf.measP hf.norm h w0 x0).2
    hsupp
  rw [← hE] at hw
  have hEv : Grad.evidence (latentLaw μ Q w0) (fun w => Real.exp (elbo l v w).toReal) =
      (evidence μ P obs x0).toReal := by
    rw [← hw, ENNReal.toReal_ofReal hM.evidence_pos.le]
  have hc := C71_consistent (logp := fun w => Dual.const (elbo l v w).toReal)
    (logq := fun _ => Dual.const 0) hM (fun z hz => absurd hz one_ne_zero)
    (fun z => by simp [Dual.const]) (fun z => by simp [Dual.const]) S hS hind
    (fun i => by rw [hlaw i, hlaw'])
  rw [hEv] at hc
  filter_upwards [hc] with ω hω
  refine hω.congr fun K => ?_
  rw [tensor_eq hf.wfQ h hne (ht K)]

/-- **C80.** The expected objective itself converges to the log evidence as the number of samples grows, if the
proposal can produce every latent value that the model can. -/
theorem C80_tight (hf : Fits μ Q P obs dr) (hm : m = none ∨ m = some .unset)
    (h : Ran Q P mq m (consts obs) dr v q' l) (hne : Q ≠ []) (w0 : ℕ → X) (x0 : X)
    (hfin : evidence μ P obs x0 ≠ ⊤) (hbot : ∀ᵐ w ∂(latentLaw μ Q w0), elbo l v w ≠ ⊥)
    (hint : Integrable (fun w => (elbo l v w).toReal) (latentLaw μ Q w0)) (hsupp : Supports Q P obs dr) (a : ℕ)
    (t : (K : ℕ) → (Fin (K + 1) → ℕ → X) → ℝ) (ht : ∀ K, iwTensor (some a) l v = .ok (t K)) :
    Filter.Tendsto (fun K : ℕ => ∫ ω, t K ω ∂(manySamples μ Q w0 (K + 1))) Filter.atTop
      (nhds (Real.log (evidence μ P obs x0).toReal)) := by
  obtain ⟨hM, hlaw, hE⟩ := weight_model hf hm h w0 x0 hfin hbot
  have hw := (C70_weight μ hf.wfQ hf.wfP hm hf.wfObs hf.covers hf.draws hf.measQ hf.measP hf.norm h w0 x0).2
    hsupp
  rw [← hE] at hw
  have hEv : Grad.evidence (latentLaw μ Q w0) (fun w => Real.exp (elbo l v w).toReal) =
      (evidence μ P obs x0).toReal := by
    rw [← hw, ENNReal.toReal_ofReal hM.evidence_pos.le]
  have hi : Integrable (fun z => Real.log ((fun w => Real.exp (elbo l v w).toReal) z) -
      Real.log ((fun _ : ℕ → X => (1 : ℝ)) z)) (law (latentLaw μ Q w0) (fun _ => 1)) := by
    rw [hlaw]
    simpa using hint
  have hc := C40_tight (logp := fun w => Dual.const (elbo l v w).toReal)
    (logq := fun _ => Dual.const 0) hM (fun z hz => absurd hz one_ne_zero)
    (fun z => by simp [Dual.const]) (fun z => by simp [Dual.const]) hi
  rw [hEv] at hc
  refine hc.congr fun K => ?_
  simp only [samples, hlaw]
  exact integral_congr_ae (.of_forall fun ω => (tensor_eq hf.wfQ h hne (ht K) ω).symm)

omit [MeasurableSpace X] in
/-- **C80.** If the proposal is the posterior, the estimate is exact whatever is sampled, with any number of
samples. -/
theorem C80_posterior_exact (hQ : WellFormed Q) (hP : WellFormed P) (hm : m = none ∨ m = some .unset)
    (ho : observed.WF) (h : Ran Q P mq m observed dr v q' l) (hne : Q ≠ []) (c : ℝ≥0∞)
    {a K : ℕ} {t : (Fin (K + 1) → ℕ → X) → ℝ} (ht : isLogLik (some a) l v = .ok t)
    (ω : Fin (K + 1) → ℕ → X)
    (hpost : ∀ k, jointDens P (modelVals observed Q P dr (ω k)) = c * jointDens Q (ω k))
    (h0 : ∀ k, jointDens Q (ω k) ≠ 0) (ht' : ∀ k, jointDens Q (ω k) ≠ ⊤) :
    t ω = c.log.toReal := by
  obtain ⟨t', _, h2, h3⟩ := C80_value hQ h hne a K
  rw [h2] at ht
  cases ht
  rw [h3]
  have : ∀ k, elbo l v (ω k) = c.log := fun k =>
    C70_posterior_exact hQ hP hm ho h c (ω k) (hpost k) (h0 k) (ht' k)
  simp only [this]
  have hK : ((K + 1 : ℕ) : ℝ) ≠ 0 := by positivity
  simp only [Finset.sum_const, Finset.card_univ, Fintype.card_fin, nsmul_eq_mul]
  rw [mul_div_cancel_left₀ _ hK, Real.log_exp]

end

/-! ### A concrete estimate -/

/-- A proposal for the coin `z` that is not its posterior. -/
noncomputable def coinFair : List (Decl Bool) := [⟨"z", [], fun _ _ => 1 / 2⟩]

theorem coinFair_fits : Fits (fun _ => Measure.count) coinFair coins [("x", true)] (fun i w => w i) where
  wfQ := by
    refine ⟨by simp [coinFair], fun i d hd p hp => ?_⟩
    match i with
    | 0 => simp [coinFair] at hd; subst hd; simp at hp
    | n + 1 => simp [coinFair] at hd
  wfP := coins_wf
  wfObs := by simp [Dict.WF, Dict.keys]
  covers := fun n => by
    have := coin_covers n
    simpa [coinGuess, coinFair] using this
  draws := fun i => measurable_pi_apply i
  measQ := by
    intro d hd
    simp only [coinFair, List.mem_singleton] at hd
    subst hd
    exact measurable_const
  measP := coins_meas
  norm := by
    intro d hd v
    simp only [coinFair, List.mem_singleton] at hd
    subst hd
    rw [lintegral_count, tsum_bool]
    exact ENNReal.add_halves 1

theorem jointDens_one (a : Decl Bool) (x : ℕ → Bool) :
    jointDens [a] x = a.dens (a.parents.map x) (x 0) := by
  simp [jointDens]

theorem coinFair_dens (w : ℕ → Bool) : jointDens coinFair w = 1 / 2 := by
  rw [coinFair, jointDens_one]

theorem coinFair_joint (w : ℕ → Bool) :
    jointDens coins (modelVals (consts [("x", true)]) coinFair coins (fun i w => w i) w) =
      1 / 2 * if w 0 then 3 / 4 else 1 / 4 := by
  have e : modelVals (consts [("x", true)]) coinFair coins (fun i w => w i) w =
      modelVals (consts [("x", true)]) coinGuess coins (fun i w => w i) w := by
    funext i
    match i with
    | 0 => simp [modelVals, consts, coins, coinGuess, coinFair, Dict.get?, List.findIdx?_cons]
    | 1 => simp [modelVals, consts, coins, Dict.get?, eval]
    | n + 2 => simp [modelVals, coins]
  rw [e, (coin_post (fun i w => w i) w).1]
  rw [coinGuess, jointDens_one]

/-- The hypotheses of the theorems above hold for the fair proposal, whose weight depends on the sample. -/
example (w0 : ℕ → Bool) : ∃ v q' l, Ran coinFair coins none (some .unset) (consts [("x", true)])
      (fun i w => w i) v q' l ∧ coinFair ≠ [] ∧
    evidence (fun _ => Measure.count) coins [("x", true)] true = 1 / 2 ∧
    Supports coinFair coins [("x", true)] (fun i w => w i) ∧
    (∀ w, elbo l v w = if w 0 then (3 / 4 : ℝ≥0∞).log else (1 / 4 : ℝ≥0∞).log) ∧
    (∀ w, elbo l v w ≠ ⊥) ∧
    Integrable (fun w => (elbo l v w).toReal) (latentLaw (fun _ => Measure.count) coinFair w0) := by
  have hf := coinFair_fits
  obtain ⟨v, q', l, h⟩ := C70_runs coinFair coins hf.wfQ coins_wf none (some .unset)
    (Or.inr rfl) (consts [("x", true)]) (fun i w => w i)
  have hel : ∀ w, elbo l v w = if w 0 then (3 / 4 : ℝ≥0∞).log else (1 / 4 : ℝ≥0∞).log := fun w => by
    rw [C70_elbo_value hf.wfQ coins_wf (Or.inr rfl) (consts_wf hf.wfObs) h w, coinFair_dens,
      coinFair_joint, sub_eq_add_neg, ← ENNReal.log_inv, ← ENNReal.log_mul_add, mul_right_comm,
      ENNReal.mul_inv_cancel (by simp) (by simp), one_mul]
    cases w 0 <;> simp
  have hprob := latentLaw_prob (fun _ => Measure.count) hf.wfQ hf.measQ hf.norm w0
  refine ⟨v, q', l, h, by simp [coinFair], ?_, ?_, hel, ?_, ?_⟩
  · obtain ⟨vg, qg, lg, hg⟩ := C70_runs coinGuess coins coinGuess_wf coins_wf none (some .unset)
      (Or.inr rfl) (consts [("x", true)]) (fun i w => w i)
    have := (C70_weight (fun _ => Measure.count) coinGuess_wf coins_wf (Or.inr rfl) hf.wfObs coin_covers
      (fun i => measurable_pi_apply i) coinGuess_meas coins_meas coinGuess_one hg w0 true).2
      (fun w hw => absurd hw (coin_post (fun i w => w i) w).2.1)
    have hprob' := latentLaw_prob (fun _ => Measure.count) coinGuess_wf coinGuess_meas
      (fun d hd v => coinGuess_one d hd v) w0
    rw [← this]
    have hel : ∀ w, elbo lg vg w = (1 / 2 : ℝ≥0∞).log := fun w =>
      let ⟨a, b, c⟩ := coin_post (fun i w => w i) w
      C70_posterior_exact coinGuess_wf coins_wf (Or.inr rfl) (consts_wf hf.wfObs) hg (1 / 2) w a b c
    simp only [hel, ENNReal.exp_log, lintegral_const, measure_univ, mul_one]
  · intro w hw
    rw [coinFair_dens] at hw
    simp at hw
  · intro w
    rw [hel]
    split <;> simp
  · simp only [hel]
    refine Integrable.of_bound (C := |((3 / 4 : ℝ≥0∞).log).toReal| + |((1 / 4 : ℝ≥0∞).log).toReal|)
      (Measurable.aestronglyMeasurable ?_) (Filter.Eventually.of_forall fun w => ?_)
    · have hb : Measurable (fun z : Bool =>
          (if z then (3 / 4 : ℝ≥0∞).log else (1 / 4 : ℝ≥0∞).log).toReal) := Measurable.of_discrete
      exact hb.comp (f := fun w : ℕ → Bool => w 0) (measurable_pi_apply 0)
    · rw [Real.norm_eq_abs]
      split
      · exact le_add_of_nonneg_right (abs_nonneg _)
      · exact le_add_of_nonneg_left (abs_nonneg _)

end ZhuSuan.VObj

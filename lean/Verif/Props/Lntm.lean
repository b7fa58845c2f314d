import Verif.Lemmas.LntmEm
import Verif.Lemmas.PmfRun
import Verif.Props.AisMany

/-!
# C97: the topic model with Monte Carlo EM

`examples/topic_models/lntm_mcem.py`.  The model of documents is in `Spec/Lntm.lean`.
-/

set_option autoImplicit false

open MeasureTheory Set ProbabilityTheory Function Filter
open scoped ENNReal

namespace ZhuSuan.Lntm

variable {K V m b : ℕ} {Ch : Type} [Fintype Ch]

/-! ## The log joint -/

/-- **C97.** On the word counts of a document the log joint of the E step is the logarithm of the density of the vector and the words,
and its exponential divided by the probability of the document is the density of the posterior. -/
theorem C97_log_joint (mean logstd : Fin (K + 1) → ℝ) (beta : Fin (K + 1) → Fin (V + 1) → ℝ) (doc : List (Fin (V + 1))) :
    (∀ eta, eObj mean logstd beta (counts doc) eta =
      ∑ k, logNormal (mean k) (Real.exp (logstd k)) (eta k) + Real.log (docProb beta doc eta)) ∧
    posterior mean (fun k => Real.exp (logstd k)) beta doc = volume.withDensity fun eta =>
      ENNReal.ofReal (Real.exp (eObj mean logstd beta (counts doc) eta) / evidence mean (fun k => Real.exp (logstd k)) beta doc) := by
  refine ⟨fun eta => eObj_eq mean logstd beta doc eta, ?_⟩
  rw [posterior_density mean _ (fun k => Real.exp_pos _) beta doc, ← withDensity_smul]
  · congr 1
    funext eta
    rw [eObj_eq, Pi.smul_apply, smul_eq_mul,
      ← ENNReal.ofReal_mul (inv_pos.2 (evidence_pos mean (fun k => Real.exp (logstd k)) beta doc)).le]
    congr 1
    ring
  · exact (Real.continuous_exp.comp (continuous_logComplete mean _ (fun k => Real.exp_pos _) beta doc)).measurable.ennreal_ofReal

/-! ## Padding -/

/-- **C97.** The padding adds fewer than a batch of empty documents, after it the batches have the same size, and an empty document
has probability one and leaves the vector with its prior. -/
theorem C97_padding (size : ℕ) (h : 0 < size) (docs : List (List (Fin (V + 1)))) :
    ∃ r < size, pad size (docs.map counts) = (docs ++ List.replicate r []).map counts ∧ size ∣ docs.length + r ∧
      ∀ (mean sd : Fin (K + 1) → ℝ) (beta : Fin (K + 1) → Fin (V + 1) → ℝ), evidence mean sd beta [] = 1 ∧
        posterior mean sd beta [] = prior mean sd := by
  have h1 := Nat.mod_lt docs.length h
  have e0 : counts ([] : List (Fin (V + 1))) = fun _ => 0 := by funext w; simp [counts]
  have ev : ∀ (mean sd : Fin (K + 1) → ℝ) (beta : Fin (K + 1) → Fin (V + 1) → ℝ), evidence mean sd beta [] = 1 ∧
      posterior mean sd beta [] = prior mean sd := by
    intro mean sd beta
    have h1 : evidence mean sd beta [] = 1 := by simp [evidence, docProb]
    refine ⟨h1, ?_⟩
    rw [posterior, h1]
    simp [docProb]
  by_cases h2 : docs.length % size = 0
  · refine ⟨0, h, ?_, by simpa using Nat.dvd_of_mod_eq_zero h2, ev⟩
    simp [pad, h2]
  · refine ⟨size - docs.length % size, by omega, ?_, ?_, ev⟩
    · have : size - docs.length % size < size := by omega
      simp [pad, this, e0]
    · refine ⟨docs.length / size + 1, ?_⟩
      have := Nat.div_add_mod docs.length size
      rw [Nat.mul_add, mul_one]
      omega

/-! ## The E step -/

/-- The joint posterior of independent chains for each document of a batch. -/
noncomputable def jointPosterior (Ch : Type) [Fintype Ch] (mean sd : Fin (K + 1) → ℝ) (beta : Fin (K + 1) → Fin (V + 1) → ℝ)
    (docs : Fin b → List (Fin (V + 1))) : Measure (Ch × Fin b → Fin (K + 1) → ℝ) :=
  Measure.pi fun c => posterior mean sd beta (docs c.2)

theorem eObj_gradients (mean logstd : Fin (K + 1) → ℝ) (beta : Fin (K + 1) → Fin (V + 1) → ℝ) (x : Fin b → Fin (V + 1) → ℝ) :
    (Pmf.gradients fun (q : Ch × Fin b → Fin (K + 1) → ℝ) c => eObj mean logstd beta (x c.2) (q c)) =
      fun q c => Pmf.gradient (eObj mean logstd beta (x c.2)) (q c) := by
  funext q c
  have := Pmf.gradients_eq (fun c : Ch × Fin b => eObj mean logstd beta (x c.2)) q c
  convert this

theorem continuous_eObj (mean logstd : Fin (K + 1) → ℝ) (beta : Fin (K + 1) → Fin (V + 1) → ℝ) (doc : List (Fin (V + 1))) :
    Continuous (eObj mean logstd beta (counts doc)) := by
  rw [show eObj mean logstd beta (counts doc) = _ from funext (eObj_eq mean logstd beta doc)]
  exact continuous_logComplete mean _ (fun k => Real.exp_pos _) beta doc

theorem measurable_gradient_one {κ : Type} [DecidableEq κ] [Fintype κ] (l : (κ → ℝ) → ℝ) (hl : Continuous l) :
    Measurable (Pmf.gradient l) := by
  have h := Pmf.measurable_gradient (X := Unit) (fun _ => l) (hl.comp continuous_snd)
  exact h.comp (measurable_const.prodMk measurable_id : Measurable fun q : κ → ℝ => ((), q))

theorem jointPosterior_eq (mean logstd : Fin (K + 1) → ℝ) (beta : Fin (K + 1) → Fin (V + 1) → ℝ) (docs : Fin b → List (Fin (V + 1))) :
    ∃ z : ℝ≥0∞, jointPosterior Ch mean (fun k => Real.exp (logstd k)) beta docs = z • Measure.pi fun c : Ch × Fin b =>
      volume.withDensity fun q => ENNReal.ofReal (Real.exp (eObj mean logstd beta (counts (docs c.2)) q)) := by
  refine ⟨∏ c : Ch × Fin b, ENNReal.ofReal (evidence mean (fun k => Real.exp (logstd k)) beta (docs c.2))⁻¹, ?_⟩
  have e : (fun c : Ch × Fin b => posterior mean (fun k => Real.exp (logstd k)) beta (docs c.2)) = fun c =>
      ENNReal.ofReal (evidence mean (fun k => Real.exp (logstd k)) beta (docs c.2))⁻¹ • volume.withDensity fun q =>
        ENNReal.ofReal (Real.exp (eObj mean logstd beta (counts (docs c.2)) q)) := by
    funext c
    rw [posterior_density mean _ (fun k => Real.exp_pos _) beta (docs c.2)]
    simp only [eObj_eq]
  have h1 : ∀ c : Ch × Fin b, SigmaFinite (volume.withDensity fun q =>
      ENNReal.ofReal (Real.exp (eObj mean logstd beta (counts (docs c.2)) q))) := fun c =>
    SigmaFinite.withDensity_of_ne_top' fun _ => ENNReal.ofReal_ne_top
  have h2 : ∀ c : Ch × Fin b, SigmaFinite (ENNReal.ofReal (evidence mean (fun k => Real.exp (logstd k)) beta (docs c.2))⁻¹ •
      volume.withDensity fun q => ENNReal.ofReal (Real.exp (eObj mean logstd beta (counts (docs c.2)) q))) := fun c => by
    rw [← congrFun e c]
    infer_instance
  rw [jointPosterior, e, BN.pi_smul]

/-- **C97.** A run of the sampler of the E step, with its step size adapted in the past, leaves the joint posterior of all chains and
documents of the batch invariant (from the second run on). -/
theorem C97_e_step (cfg : Hmc.Cfg ℝ) (h2 : cfg.adaptsMass = false) (feed : Hmc.Feed) (hf : feed.adaptMass = false)
    (mean logstd : Fin (K + 1) → ℝ) (beta : Fin (K + 1) → Fin (V + 1) → ℝ) (docs : Fin b → List (Fin (V + 1)))
    (h : Hmc.State ℝ (Ch × Fin b) (Fin (K + 1))) (ht : 1 ≤ h.t) (ht' : cfg.massCollect ≤ h.t) :
    ∃ next : (Ch × Fin b → Fin (K + 1) → ℝ) → (Ch × Fin b → Fin (K + 1) → ℝ) × (Ch × Fin b → ℝ) → Ch × Fin b → Fin (K + 1) → ℝ,
      (∀ q w, ∃ h', eStep cfg feed mean logstd beta (fun d => counts (docs d)) { h with q := q } 1 (fun _ => w) = some h' ∧
        h'.q = next q w) ∧
      ((jointPosterior Ch mean (fun k => Real.exp (logstd k)) beta docs).prod
        ((Measure.pi fun _ => Measure.pi fun _ => gaussianReal 0 1).prod (Measure.pi fun _ => volume.restrict (Ico 0 1)))).map
          (fun w => next w.1 w.2) = jointPosterior Ch mean (fun k => Real.exp (logstd k)) beta docs := by
  set l : Ch × Fin b → (Fin (K + 1) → ℝ) → ℝ := fun c => eObj mean logstd beta (counts (docs c.2)) with hl
  have hc : ∀ c, Continuous (l c) := fun c => continuous_eObj mean logstd beta (docs c.2)
  have hi : Hmc.ifInitialize cfg (h.t + 1) = false := by
    simp only [Hmc.ifInitialize, Bool.or_eq_false_iff, beq_eq_false_iff_ne]
    omega
  have hok : ∀ (q z : Ch × Fin b → Fin (K + 1) → ℝ) (u : Ch × Fin b → ℝ), ∃ s' info,
      Hmc.sample cfg (fun q c => l c (q c)) (fun q c => Pmf.gradient (l c) (q c)) feed z u { h with q := q } = .ok s' info := by
    intro q z u
    have eu : ∀ mass q p, Hmc.usedStepSize cfg (fun q c => l c (q c)) (fun q c => Pmf.gradient (l c) (q c)) (h.t + 1) mass q p
        h.stepSize = some h.stepSize := by
      intro mass q p
      simp [Hmc.usedStepSize, hi]
    simp only [Hmc.sample, eu]
    rw [if_pos (Hmc.allFinite _)]
    exact ⟨_, _, rfl⟩
  choose s' info hs' using hok
  refine ⟨fun q w => (s' q w.1 w.2).q, fun q w => ⟨s' q w.1 w.2, ?_, rfl⟩, ?_⟩
  · rw [eStep, eObj_gradients (Ch := Ch) mean logstd beta fun d => counts (docs d)]
    simp only [Hmc.runs]
    have e := hs' q w.1 w.2
    simp only [hl] at e
    rw [e]
  · obtain ⟨z, ez⟩ := jointPosterior_eq (Ch := Ch) mean logstd beta docs
    have hu : IsProbabilityMeasure (volume.restrict (Ico (0 : ℝ) 1)) := ⟨by simp⟩
    have hσ : ∀ c : Ch × Fin b, SigmaFinite (volume.withDensity fun q =>
        ENNReal.ofReal (Real.exp (eObj mean logstd beta (counts (docs c.2)) q))) := fun c =>
      SigmaFinite.withDensity_of_ne_top' fun _ => ENNReal.ofReal_ne_top
    rw [ez]
    exact Pmf.smul_law _ _ _ _ (Hmc.C52_after_burn_in cfg feed hf l (fun c => (hc c).measurable) (fun c => Pmf.gradient (l c))
      (fun c => measurable_gradient_one _ (hc c)) h ht ht' (fun hm => by simp [h2] at hm) (fun q z u => (s' q z u).q)
      fun q z u => ⟨s' q z u, info q z u, hs' q z u, rfl⟩)

/-- **C97.** With the step size fixed, the whole E step leaves the joint posterior of all chains and documents of the batch
invariant. -/
theorem C97_e_steps (cfg : Hmc.Cfg ℝ) (h1 : cfg.adaptsStep = false) (h2 : cfg.adaptsMass = false) (feed : Hmc.Feed)
    (mean logstd : Fin (K + 1) → ℝ) (beta : Fin (K + 1) → Fin (V + 1) → ℝ) (docs : Fin b → List (Fin (V + 1)))
    (h : Hmc.State ℝ (Ch × Fin b) (Fin (K + 1))) (n : ℕ) :
    ∃ final : (Ch × Fin b → Fin (K + 1) → ℝ) × Noise Ch K b n → Ch × Fin b → Fin (K + 1) → ℝ, Measurable final ∧
      (∀ q w, eStep cfg feed mean logstd beta (fun d => counts (docs d)) { h with q := q } n w = some { h with q := final (q, w) }) ∧
      ((jointPosterior Ch mean (fun k => Real.exp (logstd k)) beta docs).prod (Measure.pi fun _ =>
        (Measure.pi fun _ => Measure.pi fun _ => gaussianReal 0 1).prod (Measure.pi fun _ => volume.restrict (Ico 0 1)))).map
          final = jointPosterior Ch mean (fun k => Real.exp (logstd k)) beta docs := by
  have hc : ∀ c : Ch × Fin b, Continuous (eObj mean logstd beta (counts (docs c.2))) := fun c =>
    continuous_eObj mean logstd beta (docs c.2)
  have hu : IsProbabilityMeasure (volume.restrict (Ico (0 : ℝ) 1)) := ⟨by simp⟩
  have hσ : ∀ c : Ch × Fin b, SigmaFinite (volume.withDensity fun q =>
      ENNReal.ofReal (Real.exp (eObj mean logstd beta (counts (docs c.2)) q))) := fun c =>
    SigmaFinite.withDensity_of_ne_top' fun _ => ENNReal.ofReal_ne_top
  obtain ⟨final, m1, r, law⟩ := Hmc.C52_runs cfg h1 h2 feed (fun c : Ch × Fin b => eObj mean logstd beta (counts (docs c.2)))
    (fun c => (hc c).measurable) (fun c => Pmf.gradient (eObj mean logstd beta (counts (docs c.2))))
    (fun c => measurable_gradient_one _ (hc c)) h n
  refine ⟨final, m1, fun q w => ?_, ?_⟩
  · rw [eStep, eObj_gradients (Ch := Ch) mean logstd beta fun d => counts (docs d)]
    exact r q w
  · obtain ⟨z, ez⟩ := jointPosterior_eq (Ch := Ch) mean logstd beta docs
    rw [ez]
    exact Pmf.smul_law _ _ _ _ law

/-! ## The M step -/

theorem hasDerivAt_logPrior (logDelta : ℝ) (beta : Fin (K + 1) → Fin (V + 1) → ℝ) (k : Fin (K + 1)) (v : Fin (V + 1)) :
    DifferentiableAt ℝ (fun y => ∑ j, logPbeta logDelta (update beta k (update (beta k) v y) j)) (beta k v) := by
  simp only [logPbeta, Uni.Normal.logProb]
  refine DifferentiableAt.fun_sum fun j _ => DifferentiableAt.fun_sum fun w _ => ?_
  have h : DifferentiableAt ℝ (fun y => update beta k (update (beta k) v y) j w) (beta k v) := by
    by_cases hj : j = k
    · subst hj
      by_cases hw : w = v
      · subst hw
        simp
      · simp [update_of_ne hw]
    · simp [update_of_ne hj]
  fun_prop

theorem logPbeta_eq (logDelta : ℝ) (beta : Fin (K + 1) → Fin (V + 1) → ℝ) :
    ∑ k, logPbeta logDelta (beta k) = logPrior (Real.exp logDelta) beta := by
  refine Finset.sum_congr rfl fun k _ => Finset.sum_congr rfl fun v _ => ?_
  rw [logNormal_eq (Real.exp_pos _), Real.log_exp]

theorem gradBeta_loss [Nonempty Ch] (logDelta : ℝ) (docs : Fin b → List (Fin (V + 1))) (eta : Ch → Fin b → Fin (K + 1) → ℝ)
    (beta : Fin (K + 1) → Fin (V + 1) → ℝ) (k : Fin (K + 1)) (v : Fin (V + 1)) :
    gradBeta (fun beta => -logJointBeta logDelta (fun d => counts (docs d)) eta beta) beta k v =
      -(gradBeta (logPrior (Real.exp logDelta)) beta k v +
        ∑ d, (∑ c, gradBeta (fun beta => Real.log (docProb beta (docs d) (eta c d))) beta k v) / Fintype.card Ch) := by
  have hd : ∀ d c, DifferentiableAt ℝ (fun y => Real.log (docProb (update beta k (update (beta k) v y)) (docs d) (eta c d))) (beta k v) := by
    intro d c
    obtain ⟨D, h, _⟩ := hasDerivAt_docProb beta k v (docs d) (eta c d) (beta k v)
    exact (h.log (docProb_pos _ _ _).ne').differentiableAt
  have hp := hasDerivAt_logPrior logDelta beta k v
  simp only [gradBeta, ← logPbeta_eq, logJointBeta, logPxBatch, logPx_eq]
  have hq : ∀ d, DifferentiableAt ℝ (fun y => (∑ c, Real.log (docProb (update beta k (update (beta k) v y)) (docs d) (eta c d))) /
      Fintype.card Ch) (beta k v) := fun d => (DifferentiableAt.fun_sum fun c _ => hd d c).div_const _
  rw [deriv.fun_neg, deriv_fun_add hp (DifferentiableAt.fun_sum fun d _ => hq d), deriv_fun_sum fun d _ => hq d]
  congr 2
  refine Finset.sum_congr rfl fun d _ => ?_
  rw [deriv_div_const, deriv_fun_sum fun c _ => hd d c]

/-- **C97.** If the vector of each chain and document has the posterior as its law (the chains and documents may depend on each other),
the gradient given to the optimizer in the M step is, in expectation, the gradient of minus the log prior of `beta` and the log marginal
likelihood of the documents of the batch. -/
theorem C97_m_step [Nonempty Ch] {Ω : Type} [MeasurableSpace Ω] (P : Measure Ω) (logDelta : ℝ) (mean sd : Fin (K + 1) → ℝ)
    (beta : Fin (K + 1) → Fin (V + 1) → ℝ) (docs : Fin b → List (Fin (V + 1))) (eta : Ω → Ch → Fin b → Fin (K + 1) → ℝ)
    (hm : ∀ c d, Measurable fun ω => eta ω c d) (hlaw : ∀ c d, P.map (fun ω => eta ω c d) = posterior mean sd beta (docs d))
    [IsProbabilityMeasure P] (k : Fin (K + 1)) (v : Fin (V + 1)) :
    Integrable (fun ω => gradBeta (fun beta => -logJointBeta logDelta (fun d => counts (docs d)) (eta ω) beta) beta k v) P ∧
    ∫ ω, gradBeta (fun beta => -logJointBeta logDelta (fun d => counts (docs d)) (eta ω) beta) beta k v ∂P =
      gradBeta (fun beta => -(logPrior (Real.exp logDelta) beta + ∑ d, Real.log (evidence mean sd beta (docs d)))) beta k v := by
  simp only [gradBeta_loss]
  have hf := fun d => fisher mean sd beta k v (docs d)
  have hi : ∀ d c, Integrable (fun ω => gradBeta (fun beta => Real.log (docProb beta (docs d) (eta ω c d))) beta k v) P ∧
      ∫ ω, gradBeta (fun beta => Real.log (docProb beta (docs d) (eta ω c d))) beta k v ∂P =
        gradBeta (fun beta => Real.log (evidence mean sd beta (docs d))) beta k v := by
    intro d c
    have h := (hf d).1
    have h' := (hf d).2.1
    rw [← hlaw c d] at h
    refine ⟨h.comp_measurable (hm c d), ?_⟩
    rw [← h', ← hlaw c d, integral_map (hm c d).aemeasurable h.aestronglyMeasurable]
  have hs : ∀ d, Integrable (fun ω => (∑ c, gradBeta (fun beta => Real.log (docProb beta (docs d) (eta ω c d))) beta k v) /
      Fintype.card Ch) P := fun d => (integrable_finsetSum _ fun c _ => (hi d c).1).div_const _
  have hS : Integrable (fun ω => ∑ d, (∑ c, gradBeta (fun beta => Real.log (docProb beta (docs d) (eta ω c d))) beta k v) /
      Fintype.card Ch) P := integrable_finsetSum _ fun d _ => hs d
  refine ⟨((integrable_const _).add hS).neg, ?_⟩
  rw [integral_neg, integral_add (integrable_const _) hS, integral_finsetSum _ fun d _ => hs d]
  have hN : (Fintype.card Ch : ℝ) ≠ 0 := by exact_mod_cast Fintype.card_ne_zero
  have e : ∀ d, ∫ ω, (∑ c, gradBeta (fun beta => Real.log (docProb beta (docs d) (eta ω c d))) beta k v) / Fintype.card Ch ∂P =
      gradBeta (fun beta => Real.log (evidence mean sd beta (docs d))) beta k v := by
    intro d
    rw [integral_div, integral_finsetSum _ fun c _ => (hi d c).1]
    simp only [(hi d _).2, Finset.sum_const, Finset.card_univ, nsmul_eq_mul]
    field_simp
  simp only [e, integral_const, probReal_univ, one_smul]
  have hp := hasDerivAt_logPrior logDelta beta k v
  simp only [gradBeta, ← logPbeta_eq]
  rw [deriv.fun_neg, deriv_fun_add hp (DifferentiableAt.fun_sum fun d _ => (hf d).2.2), deriv_fun_sum fun d _ => (hf d).2.2]

/-- Such random vectors exist: independent draws of the posterior. -/
example (mean sd : Fin (K + 1) → ℝ) (beta : Fin (K + 1) → Fin (V + 1) → ℝ) (docs : Fin b → List (Fin (V + 1))) (c : Ch) (d : Fin b) :
    (jointPosterior Ch mean sd beta docs).map (fun q => q (c, d)) = posterior mean sd beta (docs d) :=
  (measurePreserving_eval (fun c : Ch × Fin b => posterior mean sd beta (docs c.2)) (c, d)).map_eq

/-- **C97.** The losses of the batches of an epoch, for the same `beta`, count the prior of `beta` once for each batch: `m` batches use
the log prior of `beta` `m` times, and the log likelihood of all documents once. -/
theorem C97_epoch_prior (logDelta : ℝ) (docs : Fin (m * b) → List (Fin (V + 1))) (Eta : Ch → Fin (m * b) → Fin (K + 1) → ℝ)
    (beta : Fin (K + 1) → Fin (V + 1) → ℝ) :
    ∑ t : Fin m, logJointBeta logDelta (fun j : Fin b => counts (docs (rowOf t j))) (fun c j => Eta c (rowOf t j)) beta =
      m * logPrior (Real.exp logDelta) beta +
        ∑ i, (∑ c, Real.log (docProb beta (docs i) (Eta c i))) / Fintype.card Ch := by
  simp only [logJointBeta, logPxBatch, logPx_eq, Finset.sum_add_distrib, logPbeta_eq, Finset.sum_const, Finset.card_univ,
    Fintype.card_fin, nsmul_eq_mul]
  congr 1
  rw [← Fintype.sum_prod_type']
  refine Fintype.sum_equiv finProdFinEquiv _ _ fun p => ?_
  have e : rowOf p.1 p.2 = finProdFinEquiv p := Fin.ext (by simp [rowOf, finProdFinEquiv, mul_comm, add_comm])
  rw [e]

/-! ## EM -/

/-- **C97.** Why EM works: with the posterior of the current parameters, an increase of the expected log density of the vectors and words
increases the log marginal likelihood of the documents by at least as much. -/
theorem C97_em {n : ℕ} (mean sd mean' sd' : Fin (K + 1) → ℝ) (hs : ∀ k, 0 < sd k) (hs' : ∀ k, 0 < sd' k)
    (beta beta' : Fin (K + 1) → Fin (V + 1) → ℝ) (docs : Fin n → List (Fin (V + 1))) :
    ∑ d, ∫ eta, logComplete mean' sd' beta' (docs d) eta ∂(posterior mean sd beta (docs d)) -
      ∑ d, ∫ eta, logComplete mean sd beta (docs d) eta ∂(posterior mean sd beta (docs d)) ≤
    ∑ d, Real.log (evidence mean' sd' beta' (docs d)) - ∑ d, Real.log (evidence mean sd beta (docs d)) ∧
    ∀ d, Integrable (logComplete mean' sd' beta' (docs d)) (posterior mean sd beta (docs d)) := by
  refine ⟨?_, fun d => integrable_logComplete mean sd mean' sd' hs' beta beta' (docs d)⟩
  rw [← Finset.sum_sub_distrib, ← Finset.sum_sub_distrib]
  exact Finset.sum_le_sum fun d _ => em_doc mean sd mean' sd' hs hs' beta beta' (docs d)

/-- **C97.** The update of mean and standard deviation of a topic at the end of an epoch: no other normal distribution gives the sampled
vectors a log likelihood that is more than `3/2 (10⁻⁶ / std)²` for each vector larger.  It is exact except for the added `10⁻⁶`. -/
theorem C97_hyper {n : ℕ} [Nonempty Ch] (hn : 0 < n) (Eta : Ch → Fin n → Fin (K + 1) → ℝ) (k : Fin (K + 1)) (hpos : 0 < npStd Eta k)
    (mean sd : ℝ) (hs : 0 < sd) :
    ∑ c, ∑ i, logNormal mean sd (Eta c i k) ≤ ∑ c, ∑ i, logNormal (npMean Eta k) (npStd Eta k) (Eta c i k) ∧
    Real.exp (etaLogstd Eta k) = npStd Eta k + 1e-6 ∧
    ∑ c, ∑ i, logNormal mean sd (Eta c i k) ≤ ∑ c, ∑ i, logNormal (npMean Eta k) (Real.exp (etaLogstd Eta k)) (Eta c i k) +
      (Fintype.card Ch * n : ℕ) * (3 / 2 * (1e-6 / npStd Eta k) ^ 2) := by
  have _ : Nonempty (Fin n) := ⟨⟨0, hn⟩⟩
  have he : Real.exp (etaLogstd Eta k) = npStd Eta k + 1e-6 := by
    rw [etaLogstd, Real.exp_log (by positivity)]
  have hcard : Fintype.card (Ch × Fin n) = Fintype.card Ch * n := by simp
  have hA : npMean Eta k = (∑ p : Ch × Fin n, Eta p.1 p.2 k) / Fintype.card (Ch × Fin n) := by
    rw [npMean, hcard, Fintype.sum_prod_type]
  have hD : npStd Eta k ^ 2 = (∑ p : Ch × Fin n, (Eta p.1 p.2 k - npMean Eta k) ^ 2) / Fintype.card (Ch × Fin n) := by
    rw [npStd, Real.sq_sqrt (by positivity), hcard, Fintype.sum_prod_type]
  have h1 := normal_best (fun p : Ch × Fin n => Eta p.1 p.2 k) mean sd _ _ hs hpos hA hD
  have h2 := normal_near (fun p : Ch × Fin n => Eta p.1 p.2 k) _ _ 1e-6 (by norm_num) hpos hA hD
  rw [Fintype.sum_prod_type, Fintype.sum_prod_type] at h1
  rw [Fintype.sum_prod_type, Fintype.sum_prod_type, hcard] at h2
  refine ⟨h1, he, ?_⟩
  rw [he]
  linarith

/-- Two chains with different values have a positive standard deviation. -/
example : 0 < npStd (fun (c : Bool) (_ : Fin 1) (_ : Fin (0 + 1)) => if c then (1 : ℝ) else 0) 0 := by
  simp only [npStd, npMean, Real.sqrt_pos]
  norm_num [Fintype.sum_bool]

/-! ## Documents keep their chains -/

/-- `n` transitions of HMC whose target is the log joint of the document with word counts `x`; the parameters, the step size and the
random numbers of each transition are arbitrary. -/
inductive Path (leapfrogs : ℕ) (x : Fin (V + 1) → ℝ) (q : Fin (K + 1) → ℝ) : ℕ → (Fin (K + 1) → ℝ) → Prop
  | start : Path leapfrogs x q 0 q
  | step (n : ℕ) (q' : Fin (K + 1) → ℝ) (mean logstd : Fin (K + 1) → ℝ) (beta : Fin (K + 1) → Fin (V + 1) → ℝ) (eps : ℝ)
      (z : Fin (K + 1) → ℝ) (u : ℝ) : Path leapfrogs x q n q' → Path leapfrogs x q (n + 1)
        (Hmc.chainStep (fun _ => 1) (Pmf.gradient (eObj mean logstd beta x)) (eObj mean logstd beta x) leapfrogs eps q' z u)

theorem Path.trans {L : ℕ} {x : Fin (V + 1) → ℝ} {q q' q'' : Fin (K + 1) → ℝ} {n n' : ℕ} (h : Path L x q n q') (h' : Path L x q' n' q'') :
    Path L x q (n + n') q'' := by
  induction h' with
  | start => exact h
  | step n p mean logstd beta eps z u _ ih => exact Path.step _ p mean logstd beta eps z u ih

theorem sample_path {C κ : Type} [Fintype C] [Fintype κ] [DecidableEq κ] (cfg : Hmc.Cfg ℝ) (h2 : cfg.adaptsMass = false) (feed : Hmc.Feed)
    (l : C → (κ → ℝ) → ℝ) (g : C → (κ → ℝ) → κ → ℝ) (z : C → κ → ℝ) (u : C → ℝ) (s s' : Hmc.State ℝ C κ) (info : Hmc.Info ℝ C κ)
    (h : Hmc.sample cfg (fun q c => l c (q c)) (fun q c => g c (q c)) feed z u s = .ok s' info) :
    ∃ eps, ∀ c, s'.q c = Hmc.chainStep (fun _ => 1) (g c) (l c) cfg.nLeapfrogs eps (s.q c) (z c) (u c) := by
  have hm : ∀ t q e, (Hmc.adaptMass (C := C) (ι := κ) cfg feed t q e).2 = fun _ => 1 := fun t q e => by simp [Hmc.adaptMass, h2]
  have hz : Hmc.randomMomentum z (fun _ : κ => (1 : ℝ)) = z := by
    funext c i
    simp [Hmc.randomMomentum]
  simp only [Hmc.sample, hm, hz] at h
  split at h
  · simp at h
  · next eps _ =>
    rw [if_pos (Hmc.allFinite _), Hmc.Outcome.ok.injEq] at h
    refine ⟨eps, fun c => ?_⟩
    rw [← h.1]
    exact Hmc.transition_chain _ _ _ _ _ _ _ _ c

theorem eStep_path (cfg : Hmc.Cfg ℝ) (h2 : cfg.adaptsMass = false) (feed : Hmc.Feed) (mean logstd : Fin (K + 1) → ℝ)
    (beta : Fin (K + 1) → Fin (V + 1) → ℝ) (x : Fin b → Fin (V + 1) → ℝ) (h : Hmc.State ℝ (Ch × Fin b) (Fin (K + 1))) (n : ℕ)
    (w : Noise Ch K b n) (h' : Hmc.State ℝ (Ch × Fin b) (Fin (K + 1))) (hr : eStep cfg feed mean logstd beta x h n w = some h')
    (c : Ch × Fin b) : Path cfg.nLeapfrogs (x c.2) (h.q c) n (h'.q c) := by
  rw [eStep, eObj_gradients] at hr
  induction n generalizing h' with
  | zero =>
    rw [Hmc.runs, Option.some.injEq] at hr
    subst hr
    exact Path.start
  | succ n ih =>
    rw [Hmc.runs] at hr
    split at hr
    · simp at hr
    · next s hs =>
      split at hr
      · next s2 info hs2 =>
        rw [Option.some.injEq] at hr
        subst hr
        obtain ⟨eps, e⟩ := sample_path cfg h2 feed (fun c : Ch × Fin b => eObj mean logstd beta (x c.2))
          (fun c => Pmf.gradient (eObj mean logstd beta (x c.2))) _ _ s s2 info hs2
        rw [e c]
        exact Path.step n _ mean logstd beta eps _ _ (ih _ s hs)
      · simp at hr
      · simp at hr

theorem rowOf_div (t : Fin m) (j : Fin b) : (rowOf t j : ℕ) / b = t ∧ (rowOf t j : ℕ) % b = j := by
  have hb : 0 < b := j.pos
  simp only [rowOf]
  rw [mul_comm]
  exact ⟨by rw [Nat.mul_add_div hb, Nat.div_eq_of_lt j.isLt, add_zero], by rw [Nat.mul_add_mod, Nat.mod_eq_of_lt j.isLt]⟩

variable {O : Type}

theorem batchStep_path (S : Script K V O) (h2 : S.cfg.adaptsMass = false) (lr : ℝ) (t : ℕ) (w : Noise Ch K b S.numESteps)
    (s s' : Vars Ch K V m b O) (h : batchStep S lr t w s = some s') : s'.X = s.X ∧ ∀ (c : Ch) (i : Fin (m * b)),
      if (i : ℕ) / b = t then Path S.cfg.nLeapfrogs (s.X i) (s.Eta c i) S.numESteps (s'.Eta c i) else s'.Eta c i = s.Eta c i := by
  unfold batchStep at h
  split at h
  · next ht =>
    simp only [Option.bind_eq_bind, Option.bind_eq_some_iff, Option.some.injEq] at h
    obtain ⟨h', hr, rfl⟩ := h
    refine ⟨rfl, fun c i => ?_⟩
    by_cases hi : (i : ℕ) / b = t
    · rw [if_pos hi]
      have hb : 0 < b := Nat.pos_of_ne_zero fun e => by subst e; exact absurd i.isLt (by simp)
      have e : rowOf ⟨t, ht⟩ (⟨i % b, Nat.mod_lt _ hb⟩ : Fin b) = i := Fin.ext (by
        simp only [rowOf, ← hi]
        exact Nat.div_add_mod' _ _)
      have hp := eStep_path S.cfg h2 S.feed s.mean s.logstd s.beta _ _ _ w h' hr (c, ⟨i % b, Nat.mod_lt _ hb⟩)
      simp only [e] at hp
      simp only [writeBack, hi, dif_pos]
      exact hp
    · rw [if_neg hi]
      simp [writeBack, hi]
  · simp at h

theorem batches_path (S : Script K V O) (h2 : S.cfg.adaptsMass = false) (lr : ℝ) (s : Vars Ch K V m b O) (k : ℕ)
    (w : Fin k → Noise Ch K b S.numESteps) (s' : Vars Ch K V m b O) (h : Pmf.loop (batchStep S lr) s k w = some s') :
    s'.X = s.X ∧ ∀ (c : Ch) (i : Fin (m * b)), if (i : ℕ) / b < k then Path S.cfg.nLeapfrogs (s.X i) (s.Eta c i) S.numESteps (s'.Eta c i)
      else s'.Eta c i = s.Eta c i := by
  induction k generalizing s' with
  | zero =>
    rw [Pmf.loop, Option.some.injEq] at h
    subst h
    exact ⟨rfl, fun c i => by simp⟩
  | succ k ih =>
    rw [Pmf.loop, Option.bind_eq_some_iff] at h
    obtain ⟨s1, h1, h3⟩ := h
    obtain ⟨e1, p1⟩ := ih _ s1 h1
    obtain ⟨e2, p2⟩ := batchStep_path S h2 lr k _ s1 s' h3
    refine ⟨e2.trans e1, fun c i => ?_⟩
    have q1 := p1 c i
    have q2 := p2 c i
    rcases lt_trichotomy ((i : ℕ) / b) k with hk | hk | hk
    · rw [if_pos (by omega)]
      rw [if_pos hk] at q1
      rw [if_neg hk.ne] at q2
      rw [q2]
      exact q1
    · rw [if_pos (by omega)]
      rw [if_neg (by omega)] at q1
      rw [if_pos hk, e1, q1] at q2
      exact q2
    · rw [if_neg (by omega)]
      rw [if_neg (by omega)] at q1
      rw [if_neg (by omega)] at q2
      rw [q2, q1]

theorem epoch_path (S : Script K V O) (h2 : S.cfg.adaptsMass = false) (j : ℕ)
    (w : Equiv.Perm (Fin (m * b)) × (Fin m → Noise Ch K b S.numESteps)) (s s' : Vars Ch K V m b O) (h : epoch S j w s = some s') :
    ∀ i, s'.X i = s.X (w.1 i) ∧ ∀ c, Path S.cfg.nLeapfrogs (s.X (w.1 i)) (s.Eta c (w.1 i)) S.numESteps (s'.Eta c i) := by
  simp only [epoch, Option.bind_eq_bind, Option.bind_eq_some_iff, Option.some.injEq] at h
  obtain ⟨s1, h1, rfl⟩ := h
  obtain ⟨e1, p1⟩ := batches_path S h2 _ _ m w.2 s1 h1
  intro i
  refine ⟨by simp only [e1, shuffle], fun c => ?_⟩
  have hb : 0 < b := Nat.pos_of_ne_zero fun e => by subst e; exact absurd i.isLt (by simp)
  have q := p1 c i
  rw [if_pos ((Nat.div_lt_iff_lt_mul hb).2 i.isLt)] at q
  exact q

/-- **C97.** Shuffling and batches never mix up documents: after training, each place holds one of the documents at the start, each
document is at one place, and the vector of each chain at this place was reached from the vector of the same chain for the same document
by `num_e_steps` transitions for each epoch, all with the log joint of this document as the target. -/
theorem C97_documents (S : Script K V O) (h2 : S.cfg.adaptsMass = false) (s s' : Vars Ch K V m b O) (k : ℕ)
    (w : Fin k → Equiv.Perm (Fin (m * b)) × (Fin m → Noise Ch K b S.numESteps)) (h : train S s k w = some s') :
    ∃ place : Equiv.Perm (Fin (m * b)), ∀ i, s'.X i = s.X (place i) ∧
      ∀ c, Path S.cfg.nLeapfrogs (s.X (place i)) (s.Eta c (place i)) (k * S.numESteps) (s'.Eta c i) := by
  unfold train at h
  induction k generalizing s' with
  | zero =>
    rw [Pmf.loop, Option.some.injEq] at h
    subst h
    exact ⟨1, fun i => ⟨rfl, fun c => by rw [zero_mul]; exact Path.start⟩⟩
  | succ k ih =>
    rw [Pmf.loop, Option.bind_eq_some_iff] at h
    obtain ⟨s1, h1, h3⟩ := h
    obtain ⟨place, hp⟩ := ih s1 _ h1
    have he := epoch_path S h2 k _ s1 s' h3
    refine ⟨(w (Fin.last k)).1.trans place, fun i => ⟨(he i).1.trans (hp _).1, fun c => ?_⟩⟩
    have q := (he i).2 c
    rw [(hp _).1] at q
    have := ((hp ((w (Fin.last k)).1 i)).2 c).trans q
    rw [Nat.succ_mul]
    exact this

/-- **C97.** Training without adaptation never fails. -/
theorem C97_runs (S : Script K V O) (h1 : S.cfg.adaptsStep = false) (h2 : S.cfg.adaptsMass = false) (s : Vars Ch K V m b O) (k : ℕ)
    (w : Fin k → Equiv.Perm (Fin (m * b)) × (Fin m → Noise Ch K b S.numESteps)) : ∃ s', train S s k w = some s' := by
  have hE : ∀ (mean logstd : Fin (K + 1) → ℝ) beta (x : Fin b → Fin (V + 1) → ℝ) (h : Hmc.State ℝ (Ch × Fin b) (Fin (K + 1))) (n : ℕ)
      (w : Noise Ch K b n), ∃ h', eStep S.cfg S.feed mean logstd beta x h n w = some h' := by
    intro mean logstd beta x h n w
    induction n with
    | zero => exact ⟨h, rfl⟩
    | succ n ih =>
      obtain ⟨h', e⟩ := ih fun i => w i.castSucc
      obtain ⟨info, e2⟩ := Hmc.C53_fixed S.cfg h1 h2 (fun q (c : Ch × Fin b) => eObj mean logstd beta (x c.2) (q c))
        (Pmf.gradients fun q c => eObj mean logstd beta (x c.2) (q c)) S.feed (w (Fin.last n)).1 (w (Fin.last n)).2 h'
      rw [eStep] at e
      rw [eStep, Hmc.runs, e]
      simp only [e2]
      exact ⟨_, rfl⟩
  have hB : ∀ lr t (ht : t < m) w (s : Vars Ch K V m b O), ∃ s', batchStep S lr t w s = some s' := by
    intro lr t ht w s
    obtain ⟨h', e⟩ := hE s.mean s.logstd s.beta (fun j => s.X (rowOf ⟨t, ht⟩ j)) { s.hmc with q := fun c => s.Eta c.1 (rowOf ⟨t, ht⟩ c.2) }
      S.numESteps w
    rw [batchStep, dif_pos ht]
    simp only [e, Option.bind_eq_bind, Option.bind_some]
    exact ⟨_, rfl⟩
  have hL : ∀ lr (s : Vars Ch K V m b O) (k : ℕ), k ≤ m → ∀ w : Fin k → Noise Ch K b S.numESteps,
      ∃ s', Pmf.loop (batchStep S lr) s k w = some s' := by
    intro lr s k
    induction k with
    | zero => exact fun _ w => ⟨s, rfl⟩
    | succ k ih =>
      intro hk w
      obtain ⟨s1, e⟩ := ih (by omega) fun i => w i.castSucc
      rw [Pmf.loop, e, Option.bind_some]
      exact hB lr k (by omega) _ s1
  unfold train
  induction k with
  | zero => exact ⟨s, rfl⟩
  | succ k ih =>
    obtain ⟨s1, e⟩ := ih fun i => w i.castSucc
    rw [Pmf.loop, e, Option.bind_some]
    obtain ⟨s2, e2⟩ := hL (learningRate S (k + 1)) (shuffle (w (Fin.last k)).1 s1) m le_rfl (w (Fin.last k)).2
    simp only [epoch, e2, Option.bind_eq_bind, Option.bind_some]
    exact ⟨_, rfl⟩

/-! ## One batch and one epoch -/

omit [Fintype Ch] in
theorem writeBack_row (Eta : Ch → Fin (m * b) → Fin (K + 1) → ℝ) (t : Fin m) (newEta : Ch → Fin b → Fin (K + 1) → ℝ) (c : Ch) (j : Fin b) :
    writeBack Eta t newEta c (rowOf t j) = newEta c j := by
  obtain ⟨h1, h2⟩ := rowOf_div t j
  rw [writeBack, dif_pos h1]
  congr 1
  exact Fin.ext h2

theorem sum_rows (t : Fin m) (f : Fin (m * b) → ℝ) : ∑ j : Fin b, f (rowOf t j) = ∑ i : Fin (m * b) with i.val / b = t, f i := by
  refine Finset.sum_nbij (rowOf t) (fun j _ => ?_) (fun j _ j' _ e => ?_) (fun i hi => ?_) fun _ _ => rfl
  · simpa using (rowOf_div t j).1
  · have := congrArg (fun i : Fin (m * b) => (i : ℕ) % b) e
    simp only [(rowOf_div t _).2] at this
    exact Fin.ext this
  · simp only [Finset.coe_filter, Finset.mem_univ, true_and, Set.mem_ofPred_eq] at hi
    have hb : 0 < b := Nat.pos_of_ne_zero fun e => by subst e; exact absurd i.isLt (by simp)
    refine ⟨⟨i % b, Nat.mod_lt _ hb⟩, by simp, Fin.ext ?_⟩
    simp only [rowOf, ← hi]
    exact Nat.div_add_mod' _ _

/-- **C97.** After batch `t` the optimizer was called once, with the gradient at the current `beta` of minus the log prior of `beta` and the
log likelihood of the documents of the batch, averaged over the chains, at the vectors that the E step has just stored for them. -/
theorem C97_update (S : Script K V O) (lr : ℝ) (t : ℕ) (w : Noise Ch K b S.numESteps) (s s' : Vars Ch K V m b O)
    (docs : Fin (m * b) → List (Fin (V + 1))) (hX : s.X = fun i => counts (docs i)) (h : batchStep S lr t w s = some s') :
    (s'.opt, s'.beta) = S.optimizer lr (gradBeta (fun beta => -(logPrior (Real.exp S.logDelta) beta +
      ∑ i : Fin (m * b) with i.val / b = t, (∑ c, Real.log (docProb beta (docs i) (s'.Eta c i))) / Fintype.card Ch)) s.beta) (s.opt, s.beta) := by
  unfold batchStep at h
  split at h
  · next ht =>
    simp only [Option.bind_eq_bind, Option.bind_eq_some_iff, Option.some.injEq] at h
    obtain ⟨h', hr, rfl⟩ := h
    have e : (fun beta => -logJointBeta S.logDelta (fun j : Fin b => s.X (rowOf ⟨t, ht⟩ j)) (fun c j => h'.q (c, j)) beta) =
        fun beta => -(logPrior (Real.exp S.logDelta) beta + ∑ i : Fin (m * b) with i.val / b = t,
          (∑ c, Real.log (docProb beta (docs i) (writeBack s.Eta ⟨t, ht⟩ (fun c j => h'.q (c, j)) c i))) / Fintype.card Ch) := by
      funext beta
      rw [← sum_rows ⟨t, ht⟩ fun i =>
        (∑ c, Real.log (docProb beta (docs i) (writeBack s.Eta ⟨t, ht⟩ (fun c j => h'.q (c, j)) c i))) / Fintype.card Ch]
      simp only [logJointBeta, logPbeta_eq, logPxBatch, writeBack_row, hX, logPx_eq]
    simp only [e]
  · simp at h

/-- **C97.** After an epoch the mean and the standard deviation of the prior of the vectors fit all the stored vectors: no other normal
distributions give them a larger log likelihood, up to the effect of the added `10⁻⁶`. -/
theorem C97_epoch_best [Nonempty Ch] (hmb : 0 < m * b) (S : Script K V O) (j : ℕ)
    (w : Equiv.Perm (Fin (m * b)) × (Fin m → Noise Ch K b S.numESteps)) (s s' : Vars Ch K V m b O) (h : epoch S j w s = some s')
    (k : Fin (K + 1)) (hpos : 0 < npStd s'.Eta k) (mean sd : ℝ) (hs : 0 < sd) :
    ∑ c, ∑ i, logNormal mean sd (s'.Eta c i k) ≤ ∑ c, ∑ i, logNormal (s'.mean k) (Real.exp (s'.logstd k)) (s'.Eta c i k) +
      (Fintype.card Ch * (m * b) : ℕ) * (3 / 2 * (1e-6 / npStd s'.Eta k) ^ 2) := by
  simp only [epoch, Option.bind_eq_bind, Option.bind_eq_some_iff, Option.some.injEq] at h
  obtain ⟨s1, h1, rfl⟩ := h
  exact (C97_hyper hmb s1.Eta k hpos mean sd hs).2.2

/-- **C97.** The learning rates decrease to zero, but their sum over any number of epochs is at most `lr * t0`. -/
theorem C97_learning_rate (S : Script K V O) (hl : 0 < S.learningRate0) (ht : 0 < S.t0) :
    (∀ k, 0 < learningRate S k) ∧ StrictAnti (learningRate S) ∧ Tendsto (learningRate S) atTop (nhds 0) ∧
    ∀ n, ∑ k ∈ Finset.range n, learningRate S (k + 1) ≤ S.learningRate0 * S.t0 := by
  have hk : ∀ k : ℕ, 0 < S.t0 + k := fun k => by positivity
  refine ⟨fun k => mul_pos hl (pow_pos (div_pos ht (hk k)) 2), fun i j hij => ?_, ?_, fun n => ?_⟩
  · refine mul_lt_mul_of_pos_left (pow_lt_pow_left₀ ?_ (div_pos ht (hk j)).le two_ne_zero) hl
    exact div_lt_div_of_pos_left ht (hk i) (by simpa using hij)
  · have h1 : Tendsto (fun k : ℕ => S.t0 + (k : ℝ)) atTop atTop := tendsto_atTop_add_const_left _ _ tendsto_natCast_atTop_atTop
    have h2 : Tendsto (fun k : ℕ => S.t0 / (S.t0 + (k : ℝ))) atTop (nhds 0) := h1.const_div_atTop _
    have h3 := (h2.pow 2).const_mul S.learningRate0
    have e : learningRate S = fun k : ℕ => S.learningRate0 * (S.t0 / (S.t0 + (k : ℝ))) ^ 2 := rfl
    rw [e]
    simpa using h3
  · have h : ∑ k ∈ Finset.range n, learningRate S (k + 1) ≤ S.learningRate0 * S.t0 ^ 2 * (1 / S.t0 - 1 / (S.t0 + n)) := by
      induction n with
      | zero => simp
      | succ n ih =>
        rw [Finset.sum_range_succ]
        have h1 : learningRate S (n + 1) ≤ S.learningRate0 * S.t0 ^ 2 * (1 / (S.t0 + n) - 1 / (S.t0 + (n + 1 : ℕ))) := by
          rw [learningRate, div_pow, mul_div_assoc', div_eq_mul_one_div]
          refine mul_le_mul_of_nonneg_left ?_ (by positivity)
          rw [div_sub_div _ _ (hk n).ne' (hk (n + 1)).ne', div_le_div_iff₀ (pow_pos (hk (n + 1)) 2) (mul_pos (hk n) (hk (n + 1)))]
          push_cast
          nlinarith [hk n, sq_nonneg (S.t0 + n)]
        have e : S.learningRate0 * S.t0 ^ 2 * (1 / S.t0 - 1 / (S.t0 + (n + 1 : ℕ))) =
            S.learningRate0 * S.t0 ^ 2 * (1 / S.t0 - 1 / (S.t0 + n)) +
              S.learningRate0 * S.t0 ^ 2 * (1 / (S.t0 + n) - 1 / (S.t0 + (n + 1 : ℕ))) := by ring
        rw [e]
        exact add_le_add ih h1
    refine h.trans ?_
    have h2 : 0 < 1 / (S.t0 + n) := one_div_pos.2 (hk n)
    have h3 : S.learningRate0 * S.t0 ^ 2 * (1 / S.t0) = S.learningRate0 * S.t0 := by field_simp
    have h4 : 0 < S.learningRate0 * S.t0 ^ 2 := by positivity
    rw [mul_sub, h3]
    nlinarith

end ZhuSuan.Lntm

import Verif.Props.Lntm

/-!
# C97: the evaluation of the topic model
-/

set_option autoImplicit false

open MeasureTheory Set ProbabilityTheory Function Filter
open scoped ENNReal

namespace ZhuSuan.Lntm

variable {T V n : ℕ}

/-- The law of the random numbers of `ais.run`: the draw of the proposal, and the noise of each temperature. -/
noncomputable def evalLaw (Ch : Type) [Fintype Ch] (n : ℕ) (mean sd : Fin (T + 1) → ℝ) (nTemp : ℕ) :
    Measure ((Ch × Fin n → Fin (T + 1) → ℝ) × Noise Ch T n nTemp) :=
  (Measure.pi fun _ => prior mean sd).prod (Measure.pi fun _ => (Measure.pi fun _ => Measure.pi fun _ => gaussianReal 0 1).prod
    (Measure.pi fun _ => volume.restrict (Ico 0 1)))

instance (Ch : Type) [Fintype Ch] (mean sd : Fin (T + 1) → ℝ) (nTemp : ℕ) : IsProbabilityMeasure (evalLaw Ch n mean sd nTemp) := by
  have hu : IsProbabilityMeasure (volume.restrict (Ico (0 : ℝ) 1)) := ⟨by simp⟩
  unfold evalLaw
  infer_instance

theorem logPeta_continuous (mean logstd : Fin (T + 1) → ℝ) : Continuous (logPeta mean logstd) := by
  rw [show logPeta mean logstd = _ from funext (logPeta_eq mean logstd)]
  exact continuous_logNormals mean _ fun k => Real.exp_pos _

theorem logPeta_density (mean logstd : Fin (T + 1) → ℝ) :
    (volume.withDensity fun q => ENNReal.ofReal (Real.exp (logPeta mean logstd q))) = prior mean fun k => Real.exp (logstd k) := by
  rw [prior_density mean _ fun k => Real.exp_pos _]
  simp only [logPeta_eq]

theorem logPeta_norm (mean logstd : Fin (T + 1) → ℝ) : ∫⁻ q, ENNReal.ofReal (Real.exp (logPeta mean logstd q)) = 1 := by
  have h : (volume.withDensity fun q => ENNReal.ofReal (Real.exp (logPeta mean logstd q))) univ = 1 := by
    rw [logPeta_density]
    exact measure_univ
  rwa [withDensity_apply _ MeasurableSet.univ, Measure.restrict_univ] at h

/-- The gradient that the sampler of the evaluation uses. -/
noncomputable def annealGrad (mean logstd : Fin (T + 1) → ℝ) (beta : Fin (T + 1) → Fin (V + 1) → ℝ) (x : Fin n → Fin (V + 1) → ℝ)
    (t : ℝ) (d : Fin n) : (Fin (T + 1) → ℝ) → Fin (T + 1) → ℝ :=
  Pmf.gradient fun q => logPeta mean logstd q * (1 - t) + eObj mean logstd beta (x d) q * t

theorem measurable_annealGrad (mean logstd : Fin (T + 1) → ℝ) (beta : Fin (T + 1) → Fin (V + 1) → ℝ) (docs : Fin n → List (Fin (V + 1)))
    (t : ℝ) (d : Fin n) : Measurable (annealGrad mean logstd beta (fun d => counts (docs d)) t d) :=
  measurable_gradient_one _ (((logPeta_continuous mean logstd).mul continuous_const).add
    ((continuous_eObj mean logstd beta (docs d)).mul continuous_const))

theorem aisWeights_eq {Ch : Type} [Fintype Ch] (cfg : Hmc.Cfg ℝ) (feed : Hmc.Feed) (mean logstd : Fin (T + 1) → ℝ)
    (beta : Fin (T + 1) → Fin (V + 1) → ℝ) (x : Fin n → Fin (V + 1) → ℝ) (nTemp nAdapt : ℕ)
    (s : Hmc.State ℝ (Ch × Fin n) (Fin (T + 1))) (draw1 draw2 : Ch × Fin n → Fin (T + 1) → ℝ)
    (adaptNoise : Noise Ch T n nAdapt) (noise : Noise Ch T n nTemp) :
    aisWeights cfg feed mean logstd beta x nTemp nAdapt s draw1 draw2 adaptNoise noise =
      Ais.runWeights cfg feed (fun _ : Fin n => logPeta mean logstd) (fun d => eObj mean logstd beta (x d))
        (annealGrad mean logstd beta x) nTemp nAdapt s draw1 adaptNoise draw2 noise := by
  unfold aisWeights
  simp only
  have e : (fun t => Pmf.gradients (Ais.logFn (fun (q : Ch × Fin n → Fin (T + 1) → ℝ) c => logPeta mean logstd (q c))
      (fun q c => eObj mean logstd beta (x c.2) (q c)) t)) = fun t q c => annealGrad mean logstd beta x t c.2 (q c) := by
    funext t q c
    have := Pmf.gradients_eq (fun (c : Ch × Fin n) q => logPeta mean logstd q * (1 - t) + eObj mean logstd beta (x c.2) q * t) q c
    rw [annealGrad]
    convert this
    rfl
  rw [e]

theorem eObj_sub (mean logstd : Fin (T + 1) → ℝ) (beta : Fin (T + 1) → Fin (V + 1) → ℝ) (doc : List (Fin (V + 1)))
    (q : Fin (T + 1) → ℝ) : eObj mean logstd beta (counts doc) q - logPeta mean logstd q = Real.log (docProb beta doc q) := by
  rw [eObj, logPx_eq]
  ring

theorem logDoc_bounds (beta : Fin (T + 1) → Fin (V + 1) → ℝ) (docs : Fin n → List (Fin (V + 1))) : ∃ a : ℝ, ∀ d q,
    a ≤ Real.log (docProb beta (docs d) q) ∧ Real.log (docProb beta (docs d) q) ≤ 0 := by
  choose a ha h using fun d => docProb_ge beta (docs d)
  refine ⟨-∑ d, |Real.log (a d)|, fun d q => ⟨?_, Real.log_nonpos (docProb_pos _ _ _).le (docProb_le _ _ _)⟩⟩
  have h1 := Real.log_le_log (ha d) (h d q)
  have h2 : |Real.log (a d)| ≤ ∑ d, |Real.log (a d)| :=
    Finset.single_le_sum (f := fun d => |Real.log (a d)|) (fun _ _ => abs_nonneg _) (Finset.mem_univ d)
  have h3 := neg_abs_le (Real.log (a d))
  linarith

theorem sum_counts (doc : List (Fin (V + 1))) : ∑ v, counts doc v = doc.length := by
  have h : (∑ v, doc.count v : ℕ) = doc.length := by
    rw [← Finset.sum_subset (Finset.subset_univ (doc : Multiset (Fin (V + 1))).toFinset)]
    · simp
    · intro v _ hv
      simp only [Multiset.mem_toFinset, Multiset.mem_coe] at hv
      exact List.count_eq_zero_of_not_mem hv
  simp only [counts, ← h]
  push_cast
  rfl

/-- The convexity of the exponential. -/
theorem exp_mean_le {Ω : Type} [MeasurableSpace Ω] (P : Measure Ω) [IsProbabilityMeasure P] (f : Ω → ℝ) (hf : Integrable f P)
    (he : Integrable (fun ω => Real.exp (f ω)) P) : Real.exp (∫ ω, f ω ∂P) ≤ ∫ ω, Real.exp (f ω) ∂P := by
  set μ := ∫ ω, f ω ∂P with hμ
  have hp : ∀ ω, Real.exp μ * (1 + (f ω - μ)) ≤ Real.exp (f ω) := by
    intro ω
    have h := Real.add_one_le_exp (f ω - μ)
    have e : Real.exp (f ω) = Real.exp μ * Real.exp (f ω - μ) := by rw [← Real.exp_add]; congr 1; ring
    rw [e]
    exact mul_le_mul_of_nonneg_left (by linarith) (Real.exp_pos _).le
  have i1 : Integrable (fun ω => Real.exp μ * (1 + (f ω - μ))) P :=
    ((integrable_const _).add (hf.sub (integrable_const _))).const_mul _
  have h := integral_mono i1 he hp
  have i2 : Integrable (fun ω => f ω - μ) P := hf.sub (integrable_const _)
  rw [integral_const_mul, integral_add (integrable_const _) i2, integral_sub hf (integrable_const _)] at h
  simpa [← hμ] using h

/-- **C97.** The evaluation with a sampler without adaptation: the value returned by AIS is, in expectation, a lower bound of the mean log
marginal likelihood of the test documents, non-decreasing in the number of chains with the mean log marginal likelihood as its limit, and
the value printed as the upper bound of the perplexity is, in expectation, at least the perplexity. -/
theorem C97_perplexity (hn : 0 < n) (cfg : Hmc.Cfg ℝ) (h1 : cfg.adaptsStep = false) (h2 : cfg.adaptsMass = false) (feed : Hmc.Feed)
    (mean logstd : Fin (T + 1) → ℝ) (beta : Fin (T + 1) → Fin (V + 1) → ℝ) (docs : Fin n → List (Fin (V + 1)))
    (nTemp nAdapt : ℕ) (ht : nTemp ≠ 0) (eps : ℝ) (s : (K : ℕ) → Hmc.State ℝ (Fin (K + 1) × Fin n) (Fin (T + 1)))
    (hs : ∀ K, (s K).stepSize = eps) (draw1 : (K : ℕ) → Fin (K + 1) × Fin n → Fin (T + 1) → ℝ)
    (adaptNoise : (K : ℕ) → Noise (Fin (K + 1)) T n nAdapt) :
    let sd : Fin (T + 1) → ℝ := fun k => Real.exp (logstd k)
    let truth : ℝ := ∑ d, Real.log (evidence mean sd beta (docs d))
    ∃ R : (K : ℕ) → (Fin (K + 1) × Fin n → Fin (T + 1) → ℝ) × Noise (Fin (K + 1)) T n nTemp → ℝ,
      (∀ K q w, (aisWeights cfg feed mean logstd beta (fun d => counts (docs d)) nTemp nAdapt (s K) (draw1 K) q (adaptNoise K) w).map
        (fun lw => Ais.result fun k d => lw (k, d)) = some (R K (q, w))) ∧
      (∀ K, Integrable (R K) (evalLaw (Fin (K + 1)) n mean sd nTemp) ∧ ∫ p, R K p ∂(evalLaw (Fin (K + 1)) n mean sd nTemp) ≤ truth / n) ∧
      Monotone (fun K : ℕ => ∫ p, R K p ∂(evalLaw (Fin (K + 1)) n mean sd nTemp)) ∧
      Tendsto (fun K : ℕ => ∫ p, R K p ∂(evalLaw (Fin (K + 1)) n mean sd nTemp)) atTop (nhds (truth / n)) ∧
      ∀ K, Real.exp (-truth / ∑ d, ((docs d).length : ℝ)) ≤
        ∫ p, perplexityBound (fun d => counts (docs d)) (R K p) ∂(evalLaw (Fin (K + 1)) n mean sd nTemp) := by
  intro sd truth
  have _ : Nonempty (Fin n) := ⟨⟨0, hn⟩⟩
  have hn' : (0 : ℝ) < n := by exact_mod_cast hn
  obtain ⟨a, hab⟩ := logDoc_bounds beta docs
  set lp : Fin n → (Fin (T + 1) → ℝ) → ℝ := fun _ => logPeta mean logstd with hlp
  set lj : Fin n → (Fin (T + 1) → ℝ) → ℝ := fun d => eObj mean logstd beta (counts (docs d)) with hlj
  set g := annealGrad mean logstd beta (fun d => counts (docs d)) with hgdef
  have hp : ∀ d, Measurable (lp d) := fun _ => (logPeta_continuous mean logstd).measurable
  have hj : ∀ d, Measurable (lj d) := fun d => (continuous_eObj mean logstd beta (docs d)).measurable
  have hnorm : ∀ d, ∫⁻ q, ENNReal.ofReal (Real.exp (lp d q)) = 1 := fun _ => logPeta_norm mean logstd
  have hg : ∀ t d, Measurable (g t d) := fun t d => measurable_annealGrad mean logstd beta docs t d
  have hdiff : ∀ d q, lj d q - lp d q = Real.log (docProb beta (docs d) q) := fun d q => eObj_sub mean logstd beta (docs d) q
  have hev : ∀ d, Integrable (fun q => Real.exp (lj d q)) ∧ ∫ q, Real.exp (lj d q) = evidence mean sd beta (docs d) := by
    intro d
    have := evidence_eq mean sd (fun k => Real.exp_pos _) beta (docs d)
    simpa only [hlj, eObj_eq] using this
  have hZ : ∀ d, ∫⁻ q, ENNReal.ofReal (Real.exp (lj d q)) =
      ENNReal.ofReal (Real.exp (Real.log (evidence mean sd beta (docs d)))) := by
    intro d
    rw [Real.exp_log (evidence_pos _ _ _ _), ← (hev d).2, ofReal_integral_eq_lintegral_ofReal (hev d).1
      (Eventually.of_forall fun _ => (Real.exp_pos _).le)]
  have hlaw : ∀ K : ℕ, Ais.runLaw (Fin (K + 1)) lp nTemp = evalLaw (Fin (K + 1)) n mean sd nTemp := by
    intro K
    simp only [Ais.runLaw, hlp, logPeta_density, evalLaw, sd]
  choose W mW hW _ using fun K : ℕ => Ais.C48_hmc cfg h1 h2 feed (fun c : Fin (K + 1) × Fin n => lp c.2) (fun c => lj c.2)
    (fun c => hp c.2) (fun c => hj c.2) (fun c => hnorm c.2) (fun t c => g t c.2) (fun t c => hg t c.2)
    nTemp nAdapt ht (s K) (draw1 K) (adaptNoise K)
  have hrange : ∀ K p c, a ≤ W K p c ∧ W K p c ≤ 0 := by
    intro K p c
    exact Ais.C49_range cfg feed (fun c : Fin (K + 1) × Fin n => lp c.2) (fun c => lj c.2)
      (fun t q c => g t c.2 (q c)) nTemp nAdapt (s K) (draw1 K) p.1 (adaptNoise K) p.2 _ (hW K p.1 p.2) c a 0
      (fun x => by rw [hdiff]; exact (hab c.2 x).1) (fun x => by rw [hdiff]; exact (hab c.2 x).2)
  set R : (K : ℕ) → (Fin (K + 1) × Fin n → Fin (T + 1) → ℝ) × Noise (Fin (K + 1)) T n nTemp → ℝ :=
    fun K p => Ais.result fun k d => W K p (k, d) with hR
  have mR : ∀ K, Measurable (R K) := by
    intro K
    simp only [hR, Ais.result, Ais.lowerBound_eq]
    refine Measurable.div_const (Finset.measurable_sum _ fun d _ => ?_) _
    exact ((Finset.measurable_sum _ fun k _ => (mW K (k, d)).exp).div_const _).log
  have bR : ∀ K p, a ≤ R K p ∧ R K p ≤ 0 := by
    intro K p
    have h := Ais.C49_result_range (fun k d => W K p (k, d)) (fun _ : Fin n => a) (fun _ => 0) (fun k d => (hrange K p (k, d)).1)
      (fun k d => (hrange K p (k, d)).2)
    simp only [Finset.sum_const, Finset.card_univ, Fintype.card_fin, nsmul_eq_mul, mul_zero, zero_div] at h
    rw [mul_div_cancel_left₀ _ hn'.ne'] at h
    exact h
  have hRw : ∀ K q w, (Ais.runWeights cfg feed lp lj g nTemp nAdapt (s K) (draw1 K) (adaptNoise K) q w).map
      (fun lw => Ais.result fun k d => lw (k, d)) = some (R K (q, w)) := by
    intro K q w
    have h := hW K q w
    rw [Ais.runWeights, h, Option.map_some]
  have hi : ∀ c, Integrable (fun p => W 0 p c) (Ais.runLaw (Fin (0 + 1)) lp nTemp) := by
    intro c
    rw [hlaw]
    refine Integrable.of_bound (mW 0 c).aestronglyMeasurable (max |a| |0|) (Eventually.of_forall fun p => ?_)
    rw [Real.norm_eq_abs]
    exact abs_le_max_abs_abs (hrange 0 p c).1 (hrange 0 p c).2
  obtain ⟨t1, t2, t3⟩ := Ais.C49_tight cfg h1 h2 feed lp lj hp hj hnorm _ hZ g hg nTemp nAdapt ht eps s hs draw1 adaptNoise (W 0)
    (hW 0) hi R hRw
  simp only [hlaw] at t1 t2 t3
  rw [Fintype.card_fin] at t3
  have hle : ∀ K, ∫ p, R K p ∂(evalLaw (Fin (K + 1)) n mean sd nTemp) ≤ truth / n := fun K => t2.ge_of_tendsto t3 K
  refine ⟨R, fun K q w => ?_, fun K => ⟨t1 K, hle K⟩, t2, t3, fun K => ?_⟩
  · rw [aisWeights_eq]
    exact hRw K q w
  · set N : ℝ := ∑ d, ((docs d).length : ℝ) with hN
    have hN0 : 0 ≤ N := Finset.sum_nonneg fun _ _ => Nat.cast_nonneg _
    have eN : ∑ d, ∑ v, counts (docs d) v = N := Finset.sum_congr rfl fun d _ => sum_counts (docs d)
    have i1 : Integrable (fun p => -R K p * n / N) (evalLaw (Fin (K + 1)) n mean sd nTemp) := ((t1 K).neg.mul_const _).div_const _
    have i2 : Integrable (fun p => Real.exp (-R K p * n / N)) (evalLaw (Fin (K + 1)) n mean sd nTemp) := by
      refine Integrable.of_bound (((mR K).neg.mul_const _).div_const _).exp.aestronglyMeasurable (Real.exp (-a * n / N))
        (Eventually.of_forall fun p => ?_)
      rw [Real.norm_eq_abs, abs_of_pos (Real.exp_pos _)]
      refine Real.exp_le_exp.2 (div_le_div_of_nonneg_right (mul_le_mul_of_nonneg_right ?_ hn'.le) hN0)
      exact neg_le_neg (bR K p).1
    have h := exp_mean_le _ _ i1 i2
    simp only [perplexityBound, eN]
    refine le_trans (Real.exp_le_exp.2 ?_) h
    rw [integral_div, integral_mul_const, integral_neg]
    refine div_le_div_of_nonneg_right ?_ hN0
    have := mul_le_mul_of_nonneg_right (hle K) hn'.le
    rw [div_mul_cancel₀ _ hn'.ne'] at this
    linarith

/-- **C97.** With any sampler, adaptive or not: if the evaluation finishes, the printed value is at least one and at most the largest
perplexity of the test documents over all vectors. -/
theorem C97_perplexity_range {Ch : Type} [Fintype Ch] [Nonempty Ch] (hn : 0 < n) (cfg : Hmc.Cfg ℝ) (feed : Hmc.Feed)
    (mean logstd : Fin (T + 1) → ℝ) (beta : Fin (T + 1) → Fin (V + 1) → ℝ) (docs : Fin n → List (Fin (V + 1)))
    (nTemp nAdapt : ℕ) (s : Hmc.State ℝ (Ch × Fin n) (Fin (T + 1))) (draw1 draw2 : Ch × Fin n → Fin (T + 1) → ℝ)
    (adaptNoise : Noise Ch T n nAdapt) (noise : Noise Ch T n nTemp) (lw : Ch × Fin n → ℝ)
    (h : aisWeights cfg feed mean logstd beta (fun d => counts (docs d)) nTemp nAdapt s draw1 draw2 adaptNoise noise = some lw)
    (a : Fin n → ℝ) (ha : ∀ d eta, a d ≤ Real.log (docProb beta (docs d) eta)) :
    1 ≤ perplexityBound (fun d => counts (docs d)) (Ais.result fun k d => lw (k, d)) ∧
    perplexityBound (fun d => counts (docs d)) (Ais.result fun k d => lw (k, d)) ≤
      Real.exp (-(∑ d, a d) / ∑ d, ((docs d).length : ℝ)) := by
  have hn' : (0 : ℝ) < n := by exact_mod_cast hn
  have hN0 : (0 : ℝ) ≤ ∑ d, ((docs d).length : ℝ) := Finset.sum_nonneg fun _ _ => Nat.cast_nonneg _
  have eN : ∑ d, ∑ v, counts (docs d) v = ∑ d, ((docs d).length : ℝ) := Finset.sum_congr rfl fun d _ => sum_counts (docs d)
  rw [aisWeights_eq] at h
  have hr : ∀ c : Ch × Fin n, a c.2 ≤ lw c ∧ lw c ≤ 0 := by
    intro c
    refine Ais.C49_range cfg feed (fun c : Ch × Fin n => logPeta mean logstd) (fun c => eObj mean logstd beta (counts (docs c.2)))
      _ nTemp nAdapt s draw1 draw2 adaptNoise noise lw h c (a c.2) 0 (fun x => ?_) (fun x => ?_)
    · rw [eObj_sub]
      exact ha c.2 x
    · rw [eObj_sub]
      exact Real.log_nonpos (docProb_pos _ _ _).le (docProb_le _ _ _)
  have h2 := Ais.C49_result_range (fun k d => lw (k, d)) a (fun _ => 0) (fun k d => (hr (k, d)).1) (fun k d => (hr (k, d)).2)
  simp only [Finset.sum_const_zero, zero_div, Fintype.card_fin] at h2
  rw [div_le_iff₀ hn'] at h2
  constructor
  · rw [perplexityBound, eN]
    exact Real.one_le_exp (div_nonneg (mul_nonneg (neg_nonneg.2 h2.2) hn'.le) hN0)
  · rw [perplexityBound, eN]
    refine Real.exp_le_exp.2 (div_le_div_of_nonneg_right ?_ hN0)
    linarith [h2.1]

end ZhuSuan.Lntm

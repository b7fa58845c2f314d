import Verif.Props.Ais
import Verif.Props.IwTight

/-!
# C49: AIS with many chains
-/

set_option autoImplicit false

open MeasureTheory ProbabilityTheory Set Filter
open scoped ENNReal

namespace ZhuSuan.Ais

section
variable {I K D X : Type} [Fintype I] [Fintype K] [Fintype D] [MeasurableSpace X]

/-- Independent draws may be arranged in either order. -/
theorem flip_law (μ : Measure X) [IsProbabilityMeasure μ] :
    MeasurePreserving (fun (w : I → K → X) k i => w i k) (Measure.pi fun _ => Measure.pi fun _ => μ)
      (Measure.pi fun _ => Measure.pi fun _ => μ) := by
  have hm : Measurable fun (w : I → K → X) k i => w i k :=
    measurable_pi_lambda _ fun k => measurable_pi_lambda _ fun i =>
      (measurable_pi_apply k).comp (measurable_pi_apply i)
  refine ⟨hm, (Measure.pi_eq_generateFrom (fun _ => generateFrom_pi) (fun _ => isPiSystem_pi)
    (fun _ => Measure.FiniteSpanningSetsIn.pi fun _ => μ.toFiniteSpanningSetsIn) fun s hs => ?_).symm⟩
  choose t ht hst using hs
  have e : (fun (w : I → K → X) k i => w i k) ⁻¹' univ.pi s = univ.pi fun i => univ.pi fun k => t k i := by
    ext w
    simp only [mem_preimage, Set.mem_pi, mem_univ, forall_const, ← hst]
    exact forall_comm
  have ms : MeasurableSet (univ.pi s) := MeasurableSet.univ_pi fun k => by
    rw [← hst k]
    exact MeasurableSet.univ_pi fun i => ht k i (mem_univ i)
  rw [Measure.map_apply hm ms, e, Measure.pi_pi]
  simp only [Measure.pi_pi, ← hst]
  exact Finset.prod_comm

/-- The chains of one data point among all chains. -/
theorem pick_law (ν : D → Measure X) [∀ d, IsProbabilityMeasure (ν d)] (d : D) :
    MeasurePreserving (fun (x : K × D → X) k => x (k, d)) (Measure.pi fun c => ν c.2)
      (Measure.pi fun _ => ν d) := by
  classical
  have hm : Measurable fun (x : K × D → X) k => x (k, d) := measurable_pi_lambda _ fun k => measurable_pi_apply _
  refine ⟨hm, (Measure.pi_eq fun s hs => ?_).symm⟩
  have e : (fun (x : K × D → X) k => x (k, d)) ⁻¹' univ.pi s =
      univ.pi fun c : K × D => if c.2 = d then s c.1 else univ := by
    ext x
    simp only [mem_preimage, Set.mem_pi, mem_univ, forall_const, Prod.forall]
    constructor
    · intro h k d'
      split
      · next hd => subst hd; exact h k
      · trivial
    · intro h k
      simpa using h k d
  rw [Measure.map_apply hm (MeasurableSet.univ_pi hs), e, Measure.pi_pi, Fintype.prod_prod_type]
  refine Finset.prod_congr rfl fun k _ => ?_
  rw [Finset.prod_eq_single d]
  · simp
  · intro d' _ hd
    simp [hd]
  · simp

end

variable {ι : Type} [Fintype ι]

/-- The draws of the chains of one data point are independent copies of those of one chain. -/
theorem chains_law {K D : Type} [Fintype K] [Fintype D] (logPrior : D → (ι → ℝ) → ℝ)
    (hnorm : ∀ d, ∫⁻ q, ENNReal.ofReal (Real.exp (logPrior d q)) = 1) (n : ℕ) (d : D) :
    MeasurePreserving (fun p (k : K) => oneChain (k, d) p)
      ((Measure.pi fun c : K × D => volume.withDensity fun q => ENNReal.ofReal (Real.exp (logPrior c.2 q))).prod
        (Measure.pi fun _ : Fin n => (Measure.pi fun _ : K × D => Measure.pi fun _ : ι => gaussianReal 0 1).prod
          (Measure.pi fun _ => volume.restrict (Ico 0 1))))
      (Measure.pi fun _ => chainLaw (logPrior d) n) := by
  have hprob : ∀ d, IsProbabilityMeasure (volume.withDensity fun q => ENNReal.ofReal (Real.exp (logPrior d q))) :=
    fun d => ⟨by rw [withDensity_apply _ MeasurableSet.univ, Measure.restrict_univ, hnorm d]⟩
  have hun : IsProbabilityMeasure (volume.restrict (Ico (0 : ℝ) 1)) := ⟨by simp⟩
  have m1 := pick_law (K := K) (fun d => volume.withDensity fun q : ι → ℝ => ENNReal.ofReal (Real.exp (logPrior d q))) d
  have m2 := pick_law (K := K) (fun _ : D => Measure.pi fun _ : ι => gaussianReal 0 1) d
  have m3 := pick_law (K := K) (fun _ : D => volume.restrict (Ico (0 : ℝ) 1)) d
  have m4 := (measurePreserving_arrowProdEquivProdArrow (ι → ℝ) ℝ K (fun _ => Measure.pi fun _ : ι => gaussianReal 0 1)
    (fun _ => volume.restrict (Ico (0 : ℝ) 1))).symm
  have m5 := measurePreserving_pi (fun _ : Fin n => (Measure.pi fun _ : K × D => Measure.pi fun _ : ι =>
    gaussianReal 0 1).prod (Measure.pi fun _ => volume.restrict (Ico 0 1))) _ (fun _ => m4.comp (m2.prod m3))
  have m6 := (flip_law (I := Fin n) (K := K)
    ((Measure.pi fun _ : ι => gaussianReal 0 1).prod (volume.restrict (Ico (0 : ℝ) 1)))).comp m5
  have m7 := (measurePreserving_arrowProdEquivProdArrow (ι → ℝ) (Fin n → (ι → ℝ) × ℝ) K
    (fun _ => volume.withDensity fun q : ι → ℝ => ENNReal.ofReal (Real.exp (logPrior d q)))
    (fun _ => Measure.pi fun _ => (Measure.pi fun _ : ι => gaussianReal 0 1).prod
      (volume.restrict (Ico (0 : ℝ) 1)))).symm
  exact m7.comp (m1.prod m6)

/-- The weights of one chain as a latent variable model: the reference measure is the law of the draws. -/
theorem chain_model (L : ℕ) (eps : ℝ) {lp lj : (ι → ℝ) → ℝ} (hp : Measurable lp) (hj : Measurable lj)
    (hnorm : ∫⁻ q, ENNReal.ofReal (Real.exp (lp q)) = 1) {logZ : ℝ}
    (hZ : ∫⁻ q, ENNReal.ofReal (Real.exp (lj q)) = ENNReal.ofReal (Real.exp logZ))
    {g : ℝ → (ι → ℝ) → ι → ℝ} (hg : ∀ t, Measurable (g t)) (k : ℕ) :
    Grad.LatentModel (chainLaw lp (k + 1)) (fun p => Real.exp (chainWeight L eps lp lj g k p)) (fun _ => 1) ∧
      Grad.law (chainLaw lp (k + 1)) (fun _ => 1) = chainLaw lp (k + 1) ∧
      Grad.evidence (chainLaw lp (k + 1)) (fun p => Real.exp (chainWeight L eps lp lj g k p)) = Real.exp logZ := by
  have hm := measurable_chainWeight L eps hp hj hg k
  have h := (chainWeight_mean L eps hp hj hg k).trans hZ
  have hprob : IsProbabilityMeasure (volume.withDensity fun q => ENNReal.ofReal (Real.exp (lp q))) :=
    ⟨by rw [withDensity_apply _ MeasurableSet.univ, Measure.restrict_univ, hnorm]⟩
  have hun : IsProbabilityMeasure (volume.restrict (Ico (0 : ℝ) 1)) := ⟨by simp⟩
  have hc : IsProbabilityMeasure (chainLaw lp (k + 1)) := by
    simp only [chainLaw]
    infer_instance
  have hI : Integrable (fun p => Real.exp (chainWeight L eps lp lj g k p)) (chainLaw lp (k + 1)) := by
    refine ⟨hm.exp.aestronglyMeasurable, ?_⟩
    rw [hasFiniteIntegral_iff_ofReal (Eventually.of_forall (fun _ => (Real.exp_pos _).le)), h]
    exact ENNReal.ofReal_lt_top
  have hE : Grad.evidence (chainLaw lp (k + 1)) (fun p => Real.exp (chainWeight L eps lp lj g k p)) =
      Real.exp logZ := by
    have h2 := ofReal_integral_eq_lintegral_ofReal hI (Eventually.of_forall (fun _ => (Real.exp_pos _).le))
    rw [h] at h2
    have h3 := congrArg ENNReal.toReal h2
    rwa [ENNReal.toReal_ofReal (integral_nonneg fun _ => (Real.exp_pos _).le),
      ENNReal.toReal_ofReal (Real.exp_pos _).le] at h3
  refine ⟨⟨hm.exp, measurable_const, fun _ => (Real.exp_pos _).le, fun _ => zero_le_one, hI, ?_,
    integrable_const _, by simp, fun z hz => absurd hz (Real.exp_pos _).ne'⟩, ?_, hE⟩
  · rw [hE]; exact Real.exp_pos _
  · simp only [Grad.law, ENNReal.ofReal_one]
    exact withDensity_one

/-- The estimate of one data point: convergence in probability as the number of chains grows. -/
theorem point_consistent (L : ℕ) (eps : ℝ) {lp lj : (ι → ℝ) → ℝ} (hp : Measurable lp) (hj : Measurable lj)
    (hnorm : ∫⁻ q, ENNReal.ofReal (Real.exp (lp q)) = 1) {logZ : ℝ}
    (hZ : ∫⁻ q, ENNReal.ofReal (Real.exp (lj q)) = ENNReal.ofReal (Real.exp logZ))
    {g : ℝ → (ι → ℝ) → ι → ℝ} (hg : ∀ t, Measurable (g t)) (k : ℕ) :
    ∀ δ > 0, Tendsto (fun K : ℕ => (Measure.pi fun _ : Fin (K + 1) => chainLaw lp (k + 1))
      {x | δ < |Real.log ((∑ i, Real.exp (chainWeight L eps lp lj g k (x i))) / (K + 1 : ℕ)) - logZ|})
      atTop (nhds 0) := by
  intro δ hδ
  obtain ⟨hM, hl, hE⟩ := chain_model L eps hp hj hnorm hZ hg k
  set V := chainWeight L eps lp lj g k with hV
  have hVm : Measurable V := measurable_chainWeight L eps hp hj hg k
  have hc : IsProbabilityMeasure (chainLaw lp (k + 1)) := by
    rw [← hl]
    exact hM.isProb
  set P : Measure (ℕ → _) := Measure.infinitePi fun _ : ℕ => chainLaw lp (k + 1) with hP
  have hind : Pairwise fun i j => IndepFun (fun x : ℕ → _ => x i) (fun x => x j) P := by
    have hi : iIndepFun (fun i (x : ℕ → _) => x i) P := iIndepFun_infinitePi (fun i => measurable_id)
    intro i j hij
    exact hi.indepFun hij
  have hs := Grad.C71_consistent (P := P) (logp := fun p => Grad.Dual.const (V p))
    (logq := fun _ => Grad.Dual.const 0) hM (fun z hz => absurd hz one_ne_zero)
    (fun z => by simp [Grad.Dual.const]) (fun z => by simp [Grad.Dual.const]) (fun i x => x i)
    (fun i => measurable_pi_apply i) hind
    (fun i => by rw [hl]; exact (measurePreserving_eval_infinitePi (fun _ : ℕ => chainLaw lp (k + 1)) i).map_eq)
  rw [hE, Real.log_exp] at hs
  set F : (K : ℕ) → (Fin (K + 1) → (ι → ℝ) × (Fin (k + 1) → (ι → ℝ) × ℝ)) → ℝ := fun K x =>
    Real.log ((∑ i, Real.exp (V (x i))) / (K + 1 : ℕ)) with hF
  have hFm : ∀ K, Measurable (F K) := fun K =>
    ((Finset.measurable_sum _ fun i _ => (hVm.comp (measurable_pi_apply i)).exp).div_const _).log
  have hs2 : ∀ᵐ x ∂P, Tendsto (fun K : ℕ => F K fun i => x i) atTop (nhds logZ) := by
    filter_upwards [hs] with x hx
    refine hx.congr fun K => ?_
    simp only [Grad.isLoglikelihood, Grad.iwObjective_val, Grad.LME, hF]
    simp [Grad.Dual.const]
  have hmp := fun K => Grad.first_draws (chainLaw lp (k + 1)) (K + 1)
  have hti : TendstoInMeasure P (fun K x => F K fun i => x i) atTop (fun _ => logZ) :=
    tendstoInMeasure_of_tendsto_ae
      (fun K => ((hFm K).comp (hmp K).measurable).aestronglyMeasurable) hs2
  have h3 := hti (ENNReal.ofReal δ) (ENNReal.ofReal_pos.2 hδ)
  refine tendsto_of_tendsto_of_tendsto_of_le_of_le tendsto_const_nhds h3 (fun _ => zero_le) fun K => ?_
  have ms : MeasurableSet {x | δ < |F K x - logZ|} :=
    measurableSet_lt measurable_const ((hFm K).sub_const _).abs
  change (Measure.pi fun _ : Fin (K + 1) => chainLaw lp (k + 1)) {x | δ < |F K x - logZ|} ≤ _
  rw [← (hmp K).measure_preimage ms.nullMeasurableSet]
  refine measure_mono fun x hx => ?_
  simp only [mem_preimage, mem_setOf_eq, edist_dist, Real.dist_eq] at hx ⊢
  exact ENNReal.ofReal_le_ofReal hx.le

/-- **C49.** AIS with HMC without adaptation: as the number of chains grows, the value returned converges in
probability to the mean log marginal likelihood of the data points.  The number of chains needed does not depend
on the variables at the start, the first draw or the noise of the adaptation phase. -/
theorem C49_consistent {D : Type} [Fintype D] [Nonempty D]
    (cfg : Hmc.Cfg ℝ) (h1 : cfg.adaptsStep = false) (h2 : cfg.adaptsMass = false) (feed : Hmc.Feed)
    (logPrior logJoint : D → (ι → ℝ) → ℝ) (hp : ∀ d, Measurable (logPrior d)) (hj : ∀ d, Measurable (logJoint d))
    (hnorm : ∀ d, ∫⁻ q, ENNReal.ofReal (Real.exp (logPrior d q)) = 1) (logZ : D → ℝ)
    (hZ : ∀ d, ∫⁻ q, ENNReal.ofReal (Real.exp (logJoint d q)) = ENNReal.ofReal (Real.exp (logZ d)))
    (g : ℝ → D → (ι → ℝ) → ι → ℝ) (hg : ∀ t d, Measurable (g t d)) (n nAdapt : ℕ) (hn : n ≠ 0) (eps : ℝ) :
    ∀ δ > 0, ∀ ε > 0, ∃ K0, ∀ K ≥ K0, ∀ (s : Hmc.State ℝ (Fin (K + 1) × D) ι), s.stepSize = eps →
      ∀ (draw1 : Fin (K + 1) × D → ι → ℝ)
      (adaptNoise : Fin nAdapt → (Fin (K + 1) × D → ι → ℝ) × (Fin (K + 1) × D → ℝ)),
      let op := hmcOp cfg feed (fun q (c : Fin (K + 1) × D) => logPrior c.2 (q c)) (fun q c => logJoint c.2 (q c))
        (fun t q c => g t c.2 (q c))
      let P : Measure ((Fin (K + 1) × D → ι → ℝ) × (Fin n → (Fin (K + 1) × D → ι → ℝ) × (Fin (K + 1) × D → ℝ))) :=
        (Measure.pi fun c => volume.withDensity fun q => ENNReal.ofReal (Real.exp (logPrior c.2 q))).prod
        (Measure.pi fun _ => (Measure.pi fun _ => Measure.pi fun _ => gaussianReal 0 1).prod
          (Measure.pi fun _ => volume.restrict (Ico 0 1)))
      ∃ R : (Fin (K + 1) × D → ι → ℝ) × (Fin n → (Fin (K + 1) × D → ι → ℝ) × (Fin (K + 1) × D → ℝ)) → ℝ,
        (∀ q w, (logWeights op (fun q s => { s with q := q })
          (fun s c => logFn (fun q (c : Fin (K + 1) × D) => logPrior c.2 (q c)) (fun q c => logJoint c.2 (q c)) 0 s.q c)
          n nAdapt s draw1 q adaptNoise w).map (fun lw => result fun k d => lw (k, d)) = some (R (q, w))) ∧
        P {p | δ < |R p - (∑ d, logZ d) / Fintype.card D|} ≤ ENNReal.ofReal ε := by
  intro δ hδ ε hε
  obtain ⟨k, rfl⟩ := Nat.exists_eq_succ_of_ne_zero hn
  have hcard : (0 : ℝ) < Fintype.card D := by exact_mod_cast Fintype.card_pos
  have hpt : ∀ d, ∀ᶠ K : ℕ in atTop, (Measure.pi fun _ : Fin (K + 1) => chainLaw (logPrior d) (k + 1))
      {x | δ < |Real.log ((∑ i, Real.exp (chainWeight cfg.nLeapfrogs eps (logPrior d) (logJoint d)
        (fun t => g t d) k (x i))) / (K + 1 : ℕ)) - logZ d|} ≤ ENNReal.ofReal (ε / Fintype.card D) := fun d =>
    (point_consistent cfg.nLeapfrogs eps (hp d) (hj d) (hnorm d) (hZ d) (g := fun t => g t d) (fun t => hg t d) k
      δ hδ).eventually_le_const (ENNReal.ofReal_pos.2 (div_pos hε hcard))
  obtain ⟨K0, hK0⟩ := eventually_atTop.1 (eventually_all.2 hpt)
  refine ⟨K0, fun K hK s hs draw1 adaptNoise => ?_⟩
  intro op P
  set V : D → _ → ℝ := fun d => chainWeight cfg.nLeapfrogs eps (logPrior d) (logJoint d) (fun t => g t d) k with hV
  refine ⟨fun p => result fun (j : Fin (K + 1)) d => V d (oneChain (j, d) p), fun q w => ?_, ?_⟩
  · have h := hmc_weights cfg h1 h2 feed (fun c : Fin (K + 1) × D => logPrior c.2) (fun c => logJoint c.2)
      (fun t c => g t c.2) k nAdapt s draw1 adaptNoise q w
    rw [hs] at h
    simp only [op]
    rw [h]
    rfl
  · set A : D → Set _ := fun d => {x : Fin (K + 1) → _ | δ < |Real.log ((∑ i, Real.exp (V d (x i))) / (K + 1 : ℕ)) -
      logZ d|} with hA
    have hmp := fun d => chains_law (K := Fin (K + 1)) logPrior hnorm (k + 1) d
    have hVm : ∀ d, Measurable (V d) := fun d =>
      measurable_chainWeight cfg.nLeapfrogs eps (hp d) (hj d) (g := fun t => g t d) (fun t => hg t d) k
    have mA : ∀ d, MeasurableSet (A d) := fun d =>
      measurableSet_lt measurable_const (((Finset.measurable_sum _ fun i _ =>
        ((hVm d).comp (measurable_pi_apply i)).exp).div_const _).log.sub_const _).abs
    have hsub : {p | δ < |(result fun (j : Fin (K + 1)) d => V d (oneChain (j, d) p)) - (∑ d, logZ d) / Fintype.card D|} ⊆
        ⋃ d, (fun p (j : Fin (K + 1)) => oneChain (j, d) p) ⁻¹' A d := by
      intro p hpδ
      by_contra hcon
      simp only [mem_iUnion, mem_preimage, not_exists, hA, mem_setOf_eq, not_lt] at hcon
      simp only [mem_setOf_eq] at hpδ
      refine absurd hpδ (not_lt.2 ?_)
      rw [result, ← sub_div, abs_div, abs_of_pos hcard, div_le_iff₀ hcard, ← Finset.sum_sub_distrib]
      refine (Finset.abs_sum_le_sum_abs _ _).trans ?_
      refine (Finset.sum_le_sum (g := fun _ => δ) fun d _ => ?_).trans (le_of_eq ?_)
      · rw [lowerBound_eq, Fintype.card_fin]
        exact hcon d
      · simp [mul_comm]
    refine (measure_mono hsub).trans ((measure_iUnion_fintype_le _ _).trans ?_)
    have hb : ∀ d, P ((fun p (j : Fin (K + 1)) => oneChain (j, d) p) ⁻¹' A d) ≤
        ENNReal.ofReal (ε / Fintype.card D) := by
      intro d
      rw [(hmp d).measure_preimage (mA d).nullMeasurableSet]
      exact hK0 K hK d
    refine (Finset.sum_le_sum fun d _ => hb d).trans (le_of_eq ?_)
    rw [Finset.sum_const, Finset.card_univ, ← ENNReal.ofReal_nsmul, nsmul_eq_mul, mul_div_cancel₀ _ hcard.ne']

/-- The law of the draws of a run with chains `K` for each data point: independent draws of the proposal, standard
normal momenta and uniform acceptance draws. -/
noncomputable abbrev runLaw {D : Type} [Fintype D] (K : Type) [Fintype K] (logPrior : D → (ι → ℝ) → ℝ) (n : ℕ) :
    Measure ((K × D → ι → ℝ) × (Fin n → (K × D → ι → ℝ) × (K × D → ℝ))) :=
  (Measure.pi fun c => volume.withDensity fun q => ENNReal.ofReal (Real.exp (logPrior c.2 q))).prod
    (Measure.pi fun _ => (Measure.pi fun _ => Measure.pi fun _ => gaussianReal 0 1).prod
      (Measure.pi fun _ => volume.restrict (Ico 0 1)))

/-- The log weights of `AIS.run` (evaluation.py 119–163) with chains `K` for each data point. -/
noncomputable abbrev runWeights {K D : Type} [Fintype D] [Fintype K] (cfg : Hmc.Cfg ℝ) (feed : Hmc.Feed)
    (logPrior logJoint : D → (ι → ℝ) → ℝ) (g : ℝ → D → (ι → ℝ) → ι → ℝ) (n nAdapt : ℕ)
    (s : Hmc.State ℝ (K × D) ι) (draw1 : K × D → ι → ℝ)
    (adaptNoise : Fin nAdapt → (K × D → ι → ℝ) × (K × D → ℝ)) (q : K × D → ι → ℝ)
    (w : Fin n → (K × D → ι → ℝ) × (K × D → ℝ)) : Option (K × D → ℝ) :=
  logWeights (hmcOp cfg feed (fun q (c : K × D) => logPrior c.2 (q c)) (fun q c => logJoint c.2 (q c))
      (fun t q c => g t c.2 (q c))) (fun q s => { s with q := q })
    (fun s c => logFn (fun q (c : K × D) => logPrior c.2 (q c)) (fun q c => logJoint c.2 (q c)) 0 s.q c)
    n nAdapt s draw1 q adaptNoise w

/-- **C49.** If the log weights of a run with one chain for each data point have an expectation, then the expected
value returned by AIS is non-decreasing in the number of chains and converges to the mean log marginal likelihood
of the data points. -/
theorem C49_tight {D : Type} [Fintype D] [Nonempty D]
    (cfg : Hmc.Cfg ℝ) (h1 : cfg.adaptsStep = false) (h2 : cfg.adaptsMass = false) (feed : Hmc.Feed)
    (logPrior logJoint : D → (ι → ℝ) → ℝ) (hp : ∀ d, Measurable (logPrior d)) (hj : ∀ d, Measurable (logJoint d))
    (hnorm : ∀ d, ∫⁻ q, ENNReal.ofReal (Real.exp (logPrior d q)) = 1) (logZ : D → ℝ)
    (hZ : ∀ d, ∫⁻ q, ENNReal.ofReal (Real.exp (logJoint d q)) = ENNReal.ofReal (Real.exp (logZ d)))
    (g : ℝ → D → (ι → ℝ) → ι → ℝ) (hg : ∀ t d, Measurable (g t d)) (n nAdapt : ℕ) (hn : n ≠ 0) (eps : ℝ)
    (s : (K : ℕ) → Hmc.State ℝ (Fin (K + 1) × D) ι) (hs : ∀ K, (s K).stepSize = eps)
    (draw1 : (K : ℕ) → Fin (K + 1) × D → ι → ℝ)
    (adaptNoise : (K : ℕ) → Fin nAdapt → (Fin (K + 1) × D → ι → ℝ) × (Fin (K + 1) × D → ℝ))
    (W : (Fin (0 + 1) × D → ι → ℝ) × (Fin n → (Fin (0 + 1) × D → ι → ℝ) × (Fin (0 + 1) × D → ℝ)) →
      Fin (0 + 1) × D → ℝ)
    (hW : ∀ q w, runWeights cfg feed logPrior logJoint g n nAdapt (s 0) (draw1 0) (adaptNoise 0) q w =
      some (W (q, w)))
    (hi : ∀ c, Integrable (fun p => W p c) (runLaw (Fin (0 + 1)) logPrior n))
    (R : (K : ℕ) → (Fin (K + 1) × D → ι → ℝ) × (Fin n → (Fin (K + 1) × D → ι → ℝ) × (Fin (K + 1) × D → ℝ)) → ℝ)
    (hR : ∀ K q w, (runWeights cfg feed logPrior logJoint g n nAdapt (s K) (draw1 K) (adaptNoise K) q w).map
      (fun lw => result fun k d => lw (k, d)) = some (R K (q, w))) :
    (∀ K, Integrable (R K) (runLaw (Fin (K + 1)) logPrior n)) ∧
    Monotone (fun K : ℕ => ∫ p, R K p ∂(runLaw (Fin (K + 1)) logPrior n)) ∧
    Tendsto (fun K : ℕ => ∫ p, R K p ∂(runLaw (Fin (K + 1)) logPrior n)) atTop
      (nhds ((∑ d, logZ d) / Fintype.card D)) := by
  obtain ⟨k, rfl⟩ := Nat.exists_eq_succ_of_ne_zero hn
  set V : D → _ → ℝ := fun d => chainWeight cfg.nLeapfrogs eps (logPrior d) (logJoint d) (fun t => g t d) k with hV
  have hVm : ∀ d, Measurable (V d) := fun d =>
    measurable_chainWeight cfg.nLeapfrogs eps (hp d) (hj d) (g := fun t => g t d) (fun t => hg t d) k
  have hmodel := fun d => chain_model cfg.nLeapfrogs eps (hp d) (hj d) (hnorm d) (hZ d) (g := fun t => g t d)
    (fun t => hg t d) k
  have hrun : ∀ K q w, runWeights cfg feed logPrior logJoint g (k + 1) nAdapt (s K) (draw1 K) (adaptNoise K) q w =
      some fun c => V c.2 (oneChain c (q, w)) := by
    intro K q w
    have h := hmc_weights cfg h1 h2 feed (fun c : Fin (K + 1) × D => logPrior c.2) (fun c => logJoint c.2)
      (fun t c => g t c.2) k nAdapt (s K) (draw1 K) (adaptNoise K) q w
    rw [hs K] at h
    exact h
  -- the log weight of one chain has an expectation
  have hVi : ∀ d, Integrable (V d) (chainLaw (logPrior d) (k + 1)) := by
    intro d
    have hmp := oneChain_law (fun c : Fin (0 + 1) × D => logPrior c.2) (fun c => hnorm c.2) (k + 1) (0, d)
    rw [← hmp.integrable_comp (hVm d).aestronglyMeasurable]
    refine (hi (0, d)).congr (Eventually.of_forall fun p => ?_)
    have h := (hW p.1 p.2).symm.trans (hrun 0 p.1 p.2)
    rw [Option.some.injEq] at h
    exact congrFun h (0, d)
  -- the value of one data point
  set F : (d : D) → (K : ℕ) → (Fin (K + 1) → (ι → ℝ) × (Fin (k + 1) → (ι → ℝ) × ℝ)) → ℝ := fun d K x =>
    (Grad.iwObjective (fun i => Grad.Dual.const (V d (x i))) (fun _ => Grad.Dual.const 0)).val with hF
  have hFe : ∀ d K x, F d K x = Real.log ((∑ i, Real.exp (V d (x i))) / (K + 1 : ℕ)) := by
    intro d K x
    simp only [hF, Grad.iwObjective_val, Grad.LME]
    simp [Grad.Dual.const]
  have hRe : ∀ K p, R K p = (∑ d, F d K fun j => oneChain (j, d) p) / Fintype.card D := by
    intro K p
    have h := hR K p.1 p.2
    rw [hrun K, Option.map_some, Option.some.injEq] at h
    rw [← h, result]
    congr 1
    refine Finset.sum_congr rfl fun d _ => ?_
    rw [lowerBound_eq, hFe, Fintype.card_fin]
  have hl : ∀ d, Grad.law (chainLaw (logPrior d) (k + 1)) (fun _ => 1) = chainLaw (logPrior d) (k + 1) :=
    fun d => (hmodel d).2.1
  have hli : ∀ d, Integrable (fun z => Real.log (Real.exp (V d z)) - Real.log ((fun _ => (1 : ℝ)) z))
      (Grad.law (chainLaw (logPrior d) (k + 1)) (fun _ => 1)) := by
    intro d
    rw [hl d]
    simpa using hVi d
  have hFm : ∀ d K, Measurable (F d K) := fun d K => by
    have e : F d K = fun x => Real.log ((∑ i, Real.exp (V d (x i))) / (K + 1 : ℕ)) := funext fun x => hFe d K x
    rw [e]
    exact ((Finset.measurable_sum _ fun i _ => ((hVm d).comp (measurable_pi_apply i)).exp).div_const _).log
  have hFi : ∀ d K, Integrable (F d K) (Measure.pi fun _ : Fin (K + 1) => chainLaw (logPrior d) (k + 1)) := by
    intro d K
    have h := Grad.iw_integrable (hmodel d).1 (hli d) K
    simp only [Grad.samples, hl d] at h
    refine h.congr (Eventually.of_forall fun x => ?_)
    rw [hFe]
    simp [Grad.LME, hV]
  have hmp := fun K d => chains_law (K := Fin (K + 1)) logPrior hnorm (k + 1) d
  have hcomp : ∀ K d, Integrable (fun p => F d K fun j => oneChain (j, d) p)
      (runLaw (Fin (K + 1)) logPrior (k + 1)) := fun K d =>
    (hmp K d).integrable_comp_of_integrable (hFi d K)
  have hInt : ∀ K, Integrable (R K) (runLaw (Fin (K + 1)) logPrior (k + 1)) := by
    intro K
    rw [show R K = fun p => (∑ d, F d K fun j => oneChain (j, d) p) / Fintype.card D from funext (hRe K)]
    exact (integrable_finsetSum _ fun d _ => hcomp K d).div_const _
  have hER : ∀ K, ∫ p, R K p ∂(runLaw (Fin (K + 1)) logPrior (k + 1)) =
      (∑ d, ∫ x, F d K x ∂(Measure.pi fun _ : Fin (K + 1) => chainLaw (logPrior d) (k + 1))) / Fintype.card D := by
    intro K
    simp only [hRe]
    rw [integral_div, integral_finsetSum _ fun d _ => hcomp K d]
    congr 1
    refine Finset.sum_congr rfl fun d _ => ?_
    rw [← (hmp K d).map_eq, integral_map (hmp K d).measurable.aemeasurable (hFm d K).aestronglyMeasurable]
  have hmono : ∀ d, Monotone fun K : ℕ => ∫ x, F d K x ∂(Measure.pi fun _ : Fin (K + 1) =>
      chainLaw (logPrior d) (k + 1)) := by
    intro d
    have h := Grad.C40_monotone (logp := fun p => Grad.Dual.const (V d p)) (logq := fun _ => Grad.Dual.const 0)
      (hmodel d).1 (fun z => by simp [Grad.Dual.const, hV]) (fun z => by simp [Grad.Dual.const]) (hli d)
    simpa only [Grad.samples, hl d] using h
  have htend : ∀ d, Tendsto (fun K : ℕ => ∫ x, F d K x ∂(Measure.pi fun _ : Fin (K + 1) =>
      chainLaw (logPrior d) (k + 1))) atTop (nhds (logZ d)) := by
    intro d
    have h := Grad.C40_tight (logp := fun p => Grad.Dual.const (V d p)) (logq := fun _ => Grad.Dual.const 0)
      (hmodel d).1 (fun z hz => absurd hz one_ne_zero) (fun z => by simp [Grad.Dual.const, hV])
      (fun z => by simp [Grad.Dual.const]) (hli d)
    rw [(hmodel d).2.2, Real.log_exp] at h
    simpa only [Grad.samples, hl d] using h
  refine ⟨hInt, fun K K' hKK => ?_, ?_⟩
  · show ∫ p, R K p ∂_ ≤ ∫ p, R K' p ∂_
    rw [hER, hER]
    exact div_le_div_of_nonneg_right (Finset.sum_le_sum fun d _ => hmono d hKK) (Nat.cast_nonneg _)
  · simp only [hER]
    exact (tendsto_finsetSum _ fun d _ => htend d).div_const _

/-! ## Bounds on the value returned -/

/-- The main loop keeps log weight plus annealed log density within the bounds of the log likelihood ratio. -/
theorem annealLoop_bounds {S N C Q : Type} (op : SampleOp S N C) (n : ℕ) (c : C) (pr : S → Q) (lp lj : Q → ℝ) {a b : ℝ}
    (ha : ∀ q, a ≤ lj q - lp q) (hb : ∀ q, lj q - lp q ≤ b)
    (hop : ∀ t w x y o o', op t w x = some (y, o, o') → o c = lp (pr x) * (1 - t) + lj (pr x) * t ∧
      o' c = lp (pr y) * (1 - t) + lj (pr y) * t)
    (x : S) (lw : C → ℝ) (h0 : lw c = -lp (pr x)) (hn : n ≠ 0) (k : ℕ) (hk : k ≤ n) (w : Fin k → N) :
    ∀ y, annealLoop op n (x, lw) k w = some y →
      let v := if k < n then y.2 c + (lp (pr y.1) * (1 - scheduleT n k) + lj (pr y.1) * scheduleT n k) else y.2 c
      a * scheduleT n k ≤ v ∧ v ≤ b * scheduleT n k := by
  obtain ⟨s0, s1, hm⟩ := C47_schedule n hn
  induction k with
  | zero =>
    intro y hy
    simp only [annealLoop, Option.some.injEq] at hy
    subst hy
    simp only [Nat.pos_of_ne_zero hn, if_true, Nat.cast_zero, s0, h0]
    constructor <;> linarith
  | succ k ih =>
    intro y hy
    simp only [annealLoop] at hy
    cases hz : annealLoop op n (x, lw) k (fun i => w i.castSucc) with
    | none => simp [hz] at hy
    | some z =>
      have h1 := ih (by omega) _ z hz
      simp only [hz, annealStep] at hy
      simp only [show k < n by omega, if_true] at h1
      cases hz' : op (scheduleT n ((k + 1 : ℕ) : ℝ)) (w (Fin.last k)) z.1 with
      | none =>
        rw [hz'] at hy
        exact absurd hy (by simp)
      | some r =>
        obtain ⟨s', o, o'⟩ := r
        obtain ⟨e1, e2⟩ := hop _ _ _ _ _ _ hz'
        have hd : 0 ≤ scheduleT n ((k + 1 : ℕ) : ℝ) - scheduleT n (k : ℝ) :=
          sub_nonneg.2 (hm.monotone (by push_cast; linarith))
        have ha' := mul_le_mul_of_nonneg_right (ha (pr z.1)) hd
        have hb' := mul_le_mul_of_nonneg_right (hb (pr z.1)) hd
        simp only [hz'] at hy
        split at hy
        · next hlt =>
          rw [Option.some.injEq] at hy
          subst hy
          simp only [hlt, if_true, e1, e2]
          constructor <;> nlinarith [h1.1, h1.2]
        · next hlt =>
          rw [Option.some.injEq] at hy
          subst hy
          simp only [hlt, if_false, e1]
          constructor <;> nlinarith [h1.1, h1.2]

/-- **C49.** With or without adaptation: if the log likelihood `log_joint - log_prior` of a chain's data point lies
between `a` and `b` for all latent values, so does every log weight that `run` can compute for the chain. -/
theorem C49_range {C : Type} [Fintype C] (cfg : Hmc.Cfg ℝ) (feed : Hmc.Feed) (logPrior logJoint : C → (ι → ℝ) → ℝ)
    (grad : ℝ → (C → ι → ℝ) → C → ι → ℝ) (n nAdapt : ℕ) (s : Hmc.State ℝ C ι) (draw1 q : C → ι → ℝ)
    (adaptNoise : Fin nAdapt → (C → ι → ℝ) × (C → ℝ)) (w : Fin n → (C → ι → ℝ) × (C → ℝ)) (lw : C → ℝ)
    (h : logWeights (hmcOp cfg feed (fun q c => logPrior c (q c)) (fun q c => logJoint c (q c)) grad)
      (fun q s => { s with q := q })
      (fun s c => logFn (fun q c => logPrior c (q c)) (fun q c => logJoint c (q c)) 0 s.q c)
      n nAdapt s draw1 q adaptNoise w = some lw) (c : C) (a b : ℝ)
    (ha : ∀ x, a ≤ logJoint c x - logPrior c x) (hb : ∀ x, logJoint c x - logPrior c x ≤ b) :
    a ≤ lw c ∧ lw c ≤ b := by
  unfold logWeights at h
  split at h
  · simp at h
  · next hn =>
    obtain ⟨_, s1, _⟩ := C47_schedule n hn
    dsimp only at h
    split at h
    · simp at h
    · next s' hs' =>
      rw [Option.map_eq_some_iff] at h
      obtain ⟨y, hy, rfl⟩ := h
      have := annealLoop_bounds _ n c (fun x : Hmc.State ℝ C ι => x.q c) (logPrior c) (logJoint c) ha hb
        (fun t w x y o o' ho => by
          simp only [hmcOp] at ho
          split at ho
          · next s2 info hi =>
            rw [Option.some.injEq, Prod.mk.injEq, Prod.mk.injEq] at ho
            obtain ⟨rfl, rfl, rfl⟩ := ho
            have h3 := Hmc.C53_outputs cfg _ _ (fun c => ⟨fun q => logPrior c q * (1 - t) + logJoint c q * t,
              fun q => rfl⟩) feed w.1 w.2 x _ info hi
            exact ⟨h3.2.2.1 c, (h3.2.2.2.1 c)⟩
          · simp at ho
          · simp at ho)
        { s' with q := q } (fun c => -logFn (fun q c => logPrior c (q c)) (fun q c => logJoint c (q c)) 0 q c)
        (by simp [logFn]) hn n le_rfl w y hy
      simpa [s1] using this

/-- **C49.** So the value returned lies between the means of the bounds. -/
theorem C49_result_range {K D : Type} [Fintype K] [Nonempty K] [Fintype D] (lw : K → D → ℝ) (a b : D → ℝ)
    (ha : ∀ k d, a d ≤ lw k d) (hb : ∀ k d, lw k d ≤ b d) :
    (∑ d, a d) / Fintype.card D ≤ result lw ∧ result lw ≤ (∑ d, b d) / Fintype.card D := by
  have hK : (0 : ℝ) < Fintype.card K := by exact_mod_cast Fintype.card_pos
  have h : ∀ d, a d ≤ lowerBound lw d ∧ lowerBound lw d ≤ b d := by
    intro d
    rw [lowerBound_eq]
    have hpos : 0 < ∑ k, Real.exp (lw k d) := Finset.sum_pos (fun k _ => Real.exp_pos _) Finset.univ_nonempty
    constructor
    · rw [Real.le_log_iff_exp_le (by positivity), le_div_iff₀ hK]
      have := Finset.sum_le_sum fun k (_ : k ∈ Finset.univ) => Real.exp_le_exp.2 (ha k d)
      simpa [mul_comm] using this
    · rw [Real.log_le_iff_le_exp (by positivity), div_le_iff₀ hK]
      have := Finset.sum_le_sum fun k (_ : k ∈ Finset.univ) => Real.exp_le_exp.2 (hb k d)
      simpa [mul_comm] using this
  exact ⟨div_le_div_of_nonneg_right (Finset.sum_le_sum fun d _ => (h d).1) (Nat.cast_nonneg _),
    div_le_div_of_nonneg_right (Finset.sum_le_sum fun d _ => (h d).2) (Nat.cast_nonneg _)⟩

/-- **C49.** In particular if the log likelihoods are bounded. -/
theorem C49_tight_bounded {D : Type} [Fintype D] [Nonempty D]
    (cfg : Hmc.Cfg ℝ) (h1 : cfg.adaptsStep = false) (h2 : cfg.adaptsMass = false) (feed : Hmc.Feed)
    (logPrior logJoint : D → (ι → ℝ) → ℝ) (hp : ∀ d, Measurable (logPrior d)) (hj : ∀ d, Measurable (logJoint d))
    (hnorm : ∀ d, ∫⁻ q, ENNReal.ofReal (Real.exp (logPrior d q)) = 1) (a b : ℝ)
    (ha : ∀ d q, a ≤ logJoint d q - logPrior d q) (hb : ∀ d q, logJoint d q - logPrior d q ≤ b)
    (g : ℝ → D → (ι → ℝ) → ι → ℝ) (hg : ∀ t d, Measurable (g t d)) (n nAdapt : ℕ) (hn : n ≠ 0) (eps : ℝ)
    (s : (K : ℕ) → Hmc.State ℝ (Fin (K + 1) × D) ι) (hs : ∀ K, (s K).stepSize = eps)
    (draw1 : (K : ℕ) → Fin (K + 1) × D → ι → ℝ)
    (adaptNoise : (K : ℕ) → Fin nAdapt → (Fin (K + 1) × D → ι → ℝ) × (Fin (K + 1) × D → ℝ)) :
    ∃ R : (K : ℕ) → (Fin (K + 1) × D → ι → ℝ) ×
        (Fin n → (Fin (K + 1) × D → ι → ℝ) × (Fin (K + 1) × D → ℝ)) → ℝ,
      (∀ K q w, (runWeights cfg feed logPrior logJoint g n nAdapt (s K) (draw1 K) (adaptNoise K) q w).map
        (fun lw => result fun k d => lw (k, d)) = some (R K (q, w))) ∧
      Monotone (fun K : ℕ => ∫ p, R K p ∂(runLaw (Fin (K + 1)) logPrior n)) ∧
      Tendsto (fun K : ℕ => ∫ p, R K p ∂(runLaw (Fin (K + 1)) logPrior n)) atTop
        (nhds ((∑ d, Real.log (∫ q, Real.exp (logJoint d q))) / Fintype.card D)) := by
  -- the evidence
  have hZ : ∀ d, ∫⁻ q, ENNReal.ofReal (Real.exp (logJoint d q)) =
      ENNReal.ofReal (Real.exp (Real.log (∫ q, Real.exp (logJoint d q)))) := by
    intro d
    have up : ∫⁻ q, ENNReal.ofReal (Real.exp (logJoint d q)) ≤ ENNReal.ofReal (Real.exp b) := by
      calc ∫⁻ q, ENNReal.ofReal (Real.exp (logJoint d q))
          ≤ ∫⁻ q, ENNReal.ofReal (Real.exp b) * ENNReal.ofReal (Real.exp (logPrior d q)) := by
            refine lintegral_mono fun q => ?_
            rw [← ENNReal.ofReal_mul (Real.exp_pos _).le, ← Real.exp_add]
            exact ENNReal.ofReal_le_ofReal (Real.exp_le_exp.2 (by linarith [hb d q]))
        _ = ENNReal.ofReal (Real.exp b) := by
            rw [lintegral_const_mul _ (measurable_expOf (hp d)), hnorm d, mul_one]
    have lo : ENNReal.ofReal (Real.exp a) ≤ ∫⁻ q, ENNReal.ofReal (Real.exp (logJoint d q)) := by
      calc ENNReal.ofReal (Real.exp a)
          = ∫⁻ q, ENNReal.ofReal (Real.exp a) * ENNReal.ofReal (Real.exp (logPrior d q)) := by
            rw [lintegral_const_mul _ (measurable_expOf (hp d)), hnorm d, mul_one]
        _ ≤ ∫⁻ q, ENNReal.ofReal (Real.exp (logJoint d q)) := by
            refine lintegral_mono fun q => ?_
            rw [← ENNReal.ofReal_mul (Real.exp_pos _).le, ← Real.exp_add]
            exact ENNReal.ofReal_le_ofReal (Real.exp_le_exp.2 (by linarith [ha d q]))
    have hI : Integrable fun q => Real.exp (logJoint d q) := by
      refine ⟨(hj d).exp.aestronglyMeasurable, ?_⟩
      rw [hasFiniteIntegral_iff_ofReal (Eventually.of_forall (fun _ => (Real.exp_pos _).le))]
      exact up.trans_lt ENNReal.ofReal_lt_top
    have e := ofReal_integral_eq_lintegral_ofReal hI (Eventually.of_forall (fun _ => (Real.exp_pos _).le))
    have hpos : 0 < ∫ q, Real.exp (logJoint d q) := by
      rw [← e] at lo
      by_contra hcon
      rw [ENNReal.ofReal_of_nonpos (not_lt.1 hcon)] at lo
      exact absurd lo (not_le.2 (ENNReal.ofReal_pos.2 (Real.exp_pos a)))
    rw [Real.exp_log hpos, e]
  -- the weights
  obtain ⟨W, mW, hW, -⟩ := C48_hmc cfg h1 h2 feed (fun c : Fin (0 + 1) × D => logPrior c.2) (fun c => logJoint c.2)
    (fun c => hp c.2) (fun c => hj c.2) (fun c => hnorm c.2) (fun t c => g t c.2) (fun t c => hg t c.2)
    n nAdapt hn (s 0) (draw1 0) (adaptNoise 0)
  have hprob : ∀ d, IsProbabilityMeasure (volume.withDensity fun q => ENNReal.ofReal (Real.exp (logPrior d q))) :=
    fun d => ⟨by rw [withDensity_apply _ MeasurableSet.univ, Measure.restrict_univ, hnorm d]⟩
  have hun : IsProbabilityMeasure (volume.restrict (Ico (0 : ℝ) 1)) := ⟨by simp⟩
  have hi : ∀ c, Integrable (fun p => W p c) (runLaw (Fin (0 + 1)) logPrior n) := by
    intro c
    refine Integrable.of_bound (mW c).aestronglyMeasurable (max |a| |b|) (Eventually.of_forall fun p => ?_)
    have h := C49_range cfg feed (fun c : Fin (0 + 1) × D => logPrior c.2) (fun c => logJoint c.2)
      (fun t q c => g t c.2 (q c)) n nAdapt (s 0) (draw1 0) p.1 (adaptNoise 0) p.2 _ (hW p.1 p.2) c a b
      (fun x => ha c.2 x) (fun x => hb c.2 x)
    rw [Real.norm_eq_abs]
    exact abs_le_max_abs_abs h.1 h.2
  choose R' hR' _ using fun K => C49_hmc (K := Fin (K + 1)) cfg h1 h2 feed logPrior logJoint hp hj hnorm _ hZ g hg n
    nAdapt hn (s K) (draw1 K) (adaptNoise K)
  have h := C49_tight cfg h1 h2 feed logPrior logJoint hp hj hnorm _ hZ g hg n nAdapt hn eps s hs draw1 adaptNoise W
    hW hi R' hR'
  exact ⟨R', hR', h.2.1, h.2.2⟩

/-- A case that meets the hypotheses: two data points, a standard normal latent variable, and an observation whose
probability depends on the sign of the variable.  The proposal is the prior. -/
example : ∃ (logPrior logJoint : Bool → (Unit → ℝ) → ℝ), (∀ d, Measurable (logPrior d)) ∧
    (∀ d, Measurable (logJoint d)) ∧ (∀ d, ∫⁻ q, ENNReal.ofReal (Real.exp (logPrior d q)) = 1) ∧
    (∃ a b, ∀ d q, a ≤ logJoint d q - logPrior d q ∧ logJoint d q - logPrior d q ≤ b) ∧
    ∀ d, ∃ q q', logJoint d q - logPrior d q ≠ logJoint d q' - logPrior d q' := by
  have hm : Measurable fun q : Unit → ℝ => Real.log (gaussianPDFReal 0 1 (q ())) :=
    ((measurable_gaussianPDFReal 0 1).comp (measurable_pi_apply ())).log
  refine ⟨fun _ q => Real.log (gaussianPDFReal 0 1 (q ())), fun d q => Real.log (gaussianPDFReal 0 1 (q ())) +
    if 0 < q () then Real.log (if d then 3 / 4 else 1 / 4) else Real.log (if d then 1 / 4 else 3 / 4),
    fun _ => hm, fun d => hm.add (Measurable.ite (measurableSet_lt measurable_const (measurable_pi_apply ()))
      measurable_const measurable_const), fun _ => ?_, ?_, ?_⟩
  · have e : ∀ q : Unit → ℝ, ENNReal.ofReal (Real.exp (Real.log (gaussianPDFReal 0 1 (q ())))) =
        gaussianPDF 0 1 (q ()) := fun q => by
      rw [Real.exp_log (gaussianPDFReal_pos 0 1 _ one_ne_zero), gaussianPDF]
    simp only [e]
    have h := (volume_preserving_funUnique Unit ℝ).lintegral_comp (measurable_gaussianPDF 0 1)
    exact h.trans (lintegral_gaussianPDF_eq_one 0 one_ne_zero)
  · have h4 : Real.log (1 / 4) ≤ Real.log (3 / 4) := Real.log_le_log (by norm_num) (by norm_num)
    refine ⟨Real.log (1 / 4), Real.log (3 / 4), fun d q => ?_⟩
    cases d <;> by_cases hq : 0 < q () <;> simp only [hq, if_true, if_false, add_sub_cancel_left, Bool.false_eq_true] <;>
      exact ⟨by linarith, by linarith⟩
  · intro d
    have h4 : Real.log (1 / 4) < Real.log (3 / 4) := Real.log_lt_log (by norm_num) (by norm_num)
    refine ⟨fun _ => 1, fun _ => -1, ?_⟩
    have hn : ¬ (0 : ℝ) < -1 := by norm_num
    cases d <;> simp only [one_pos, hn, if_true, if_false, add_sub_cancel_left, Bool.false_eq_true]
    · exact h4.ne
    · exact h4.ne'

end ZhuSuan.Ais

import Verif.Props.IsLogLik

/-!
# C40: the importance weighted bound closes
-/

set_option autoImplicit false

namespace ZhuSuan.Grad
open MeasureTheory ProbabilityTheory Dual Filter

variable {Z : Type*} [MeasurableSpace Z] {μ : Measure Z} {p q : Z → ℝ} {logp logq : Z → Dual}

/-- The first `n` of infinitely many independent draws. -/
theorem first_draws (ν : Measure Z) [IsProbabilityMeasure ν] (n : ℕ) :
    MeasurePreserving (fun (x : ℕ → Z) (k : Fin n) => x k) (Measure.infinitePi fun _ : ℕ => ν)
      (Measure.pi fun _ : Fin n => ν) := by
  have hm : Measurable fun (x : ℕ → Z) (k : Fin n) => x k :=
    measurable_pi_lambda _ fun k => measurable_pi_apply _
  refine ⟨hm, (Measure.pi_eq fun s hs => ?_).symm⟩
  rw [Measure.map_apply hm (MeasurableSet.univ_pi hs)]
  set t : ℕ → Set Z := fun i => if h : i < n then s ⟨i, h⟩ else Set.univ with ht
  have e : (fun (x : ℕ → Z) (k : Fin n) => x k) ⁻¹' Set.univ.pi s = Set.pi (Finset.range n) t := by
    ext x
    simp only [Set.mem_preimage, Set.mem_pi, Set.mem_univ, forall_const, Finset.coe_range, Set.mem_Iio, ht]
    constructor
    · intro h i hi
      rw [dif_pos hi]
      exact h ⟨i, hi⟩
    · intro h k
      have := h k k.2
      rwa [dif_pos k.2] at this
  rw [e, Measure.infinitePi_pi]
  · rw [Finset.prod_range]
    refine Finset.prod_congr rfl fun k _ => ?_
    simp only [ht]
    rw [dif_pos k.2]
  · intro i hi
    simp only [ht]
    split
    · exact hs _
    · exact MeasurableSet.univ

/-- **C40.** As the number of samples grows, the expectation of the importance weighted objective converges to the
log evidence, if the proposal covers the latent values of the model. -/
theorem C40_tight (h : LatentModel μ p q) (hsupp : ∀ z, q z = 0 → p z = 0) (hp : ∀ z, (logp z).val = Real.log (p z))
    (hq : ∀ z, (logq z).val = Real.log (q z))
    (hi : Integrable (fun z => Real.log (p z) - Real.log (q z)) (law μ q)) :
    Tendsto (fun K : ℕ => ∫ z, (iwObjective (fun k => logp (z k)) (fun k => logq (z k))).val ∂(samples μ q (K + 1)))
      atTop (nhds (Real.log (evidence μ p))) := by
  have hpr := h.isProb
  set e : ℕ → ℝ := fun K =>
    ∫ z, (iwObjective (fun k => logp (z k)) (fun k => logq (z k))).val ∂(samples μ q (K + 1)) with he
  have hmono : Monotone e := C40_monotone h hp hq hi
  have hle : ∀ K, e K ≤ Real.log (evidence μ p) := C40_le_evidence h hp hq hi
  have hbdd : BddAbove (Set.range e) := ⟨_, by rintro _ ⟨K, rfl⟩; exact hle K⟩
  have hlim := tendsto_atTop_ciSup hmono hbdd
  set ℓ := ⨆ K, e K with hℓ
  suffices ℓ = Real.log (evidence μ p) by rwa [← this]
  refine le_antisymm (ciSup_le hle) ?_
  set f : Z → ℝ := fun z => Real.log (p z) - Real.log (q z) with hf
  have hfm : Measurable f := h.p_meas.log.sub h.q_meas.log
  set m := ∫ z, f z ∂(law μ q) with hm
  set P : Measure (ℕ → Z) := Measure.infinitePi fun _ : ℕ => law μ q with hP
  set L : ℕ → (ℕ → Z) → ℝ := fun K x => LME fun k : Fin (K + 1) => f (x k) with hL
  set A : ℕ → (ℕ → Z) → ℝ := fun K x => (∑ k : Fin (K + 1), f (x k)) / (K + 1 : ℕ) with hA
  have hmp := fun K => first_draws (law μ q) (K + 1)
  -- the two averages and their expectations
  have hLm : ∀ K, Measurable (L K) := fun K => (iw_measurable h K).comp (hmp K).measurable
  have hAm : ∀ K, Measurable (A K) := fun K =>
    (Finset.measurable_sum _ fun k _ => hfm.comp (measurable_pi_apply _)).div_const _
  have hLi : ∀ K, Integrable (L K) P := fun K => (hmp K).integrable_comp_of_integrable (iw_integrable h hi K)
  have hfi : ∀ k : ℕ, Integrable (fun x : ℕ → Z => f (x k)) P := fun k =>
    (measurePreserving_eval_infinitePi (fun _ : ℕ => law μ q) k).integrable_comp_of_integrable hi
  have hfe : ∀ k : ℕ, ∫ x : ℕ → Z, f (x k) ∂P = m := fun k => by
    have := measurePreserving_eval_infinitePi (fun _ : ℕ => law μ q) k
    rw [hm, ← this.map_eq, integral_map this.measurable.aemeasurable hfm.aestronglyMeasurable]
  have hAi : ∀ K, Integrable (A K) P := fun K => (integrable_finsetSum Finset.univ fun (k : Fin (K + 1)) _ => hfi k).div_const _
  have hLe : ∀ K, ∫ x, L K x ∂P = e K := fun K => by
    rw [he]
    simp only [iwObjective_val, hp, hq]
    have h0 : samples μ q (K + 1) = P.map fun (x : ℕ → Z) (k : Fin (K + 1)) => x k := (hmp K).map_eq.symm
    rw [h0, integral_map (hmp K).measurable.aemeasurable (iw_measurable h K).aestronglyMeasurable]
  have hAe : ∀ K, ∫ x, A K x ∂P = m := fun K => by
    simp only [hA]
    rw [integral_div, integral_finsetSum Finset.univ fun (k : Fin (K + 1)) _ => hfi k]
    simp only [hfe, Finset.sum_const, Finset.card_univ, Fintype.card_fin, nsmul_eq_mul]
    have : ((K + 1 : ℕ) : ℝ) ≠ 0 := by positivity
    field_simp
  have hD0 : ∀ K x, 0 ≤ L K x - A K x := fun K x => by
    have h1 := log_mean_ge (fun k : Fin (K + 1) => Real.exp (f (x k))) (fun _ => Real.exp_pos _)
    simp only [Real.log_exp] at h1
    exact sub_nonneg.2 h1
  -- almost sure limits
  have hind : Pairwise fun i j : ℕ => IndepFun (fun x : ℕ → Z => x i) (fun x => x j) P := by
    have : iIndepFun (fun i (x : ℕ → Z) => x i) P := iIndepFun_infinitePi (fun i => measurable_id)
    exact fun i j hij => this.indepFun hij
  have hlaw : ∀ i : ℕ, P.map (fun x : ℕ → Z => x i) = law μ q := fun i =>
    (measurePreserving_eval_infinitePi (fun _ : ℕ => law μ q) i).map_eq
  have s1 := slln (μ := μ) (q := q) (fun i (x : ℕ → Z) => x i) (fun i => measurable_pi_apply i) hind hlaw f hfm hi
  have s2 := C71_consistent h hsupp hp hq (fun i (x : ℕ → Z) => x i) (fun i => measurable_pi_apply i) hind hlaw
  have s3 : ∀ᵐ x ∂P, Tendsto (fun K => ENNReal.ofReal (L K x - A K x)) atTop
      (nhds (ENNReal.ofReal (Real.log (evidence μ p) - m))) := by
    filter_upwards [s1, s2] with x h1 h2
    refine (ENNReal.continuous_ofReal.tendsto _).comp (Tendsto.sub ?_ ?_)
    · refine h2.congr fun K => ?_
      simp only [isLoglikelihood, iwObjective_val, hp, hq]
      rfl
    · refine ((tendsto_add_atTop_iff_nat 1).2 h1).congr fun K => ?_
      simp only [hA]
      rw [Finset.sum_range]
  -- Fatou
  have hfat := lintegral_liminf_le (μ := P) (u := atTop) (f := fun K x => ENNReal.ofReal (L K x - A K x))
    (fun K => ((hLm K).sub (hAm K)).ennreal_ofReal)
  have e1 : ∫⁻ x, liminf (fun K => ENNReal.ofReal (L K x - A K x)) atTop ∂P =
      ENNReal.ofReal (Real.log (evidence μ p) - m) := by
    rw [lintegral_congr_ae (g := fun _ => ENNReal.ofReal (Real.log (evidence μ p) - m))]
    · simp
    · filter_upwards [s3] with x hx
      exact hx.liminf_eq
  have e2 : ∀ K, ∫⁻ x, ENNReal.ofReal (L K x - A K x) ∂P = ENNReal.ofReal (e K - m) := fun K => by
    have hs : Integrable (fun x => L K x - A K x) P := (hLi K).sub (hAi K)
    rw [← ofReal_integral_eq_lintegral_ofReal hs (.of_forall (hD0 K)), integral_sub (hLi K) (hAi K), hLe, hAe]
  have e3 : liminf (fun K => ∫⁻ x, ENNReal.ofReal (L K x - A K x) ∂P) atTop = ENNReal.ofReal (ℓ - m) := by
    simp only [e2]
    exact ((ENNReal.continuous_ofReal.tendsto _).comp (hlim.sub_const m)).liminf_eq
  rw [e1, e3] at hfat
  have hm0 : m ≤ e 0 := by
    rw [← hLe 0, ← hAe 0]
    exact integral_mono (hAi 0) (hLi 0) fun x => sub_nonneg.1 (hD0 0 x)
  have hm1 : 0 ≤ ℓ - m := sub_nonneg.2 (hm0.trans (le_ciSup hbdd 0))
  have := (ENNReal.ofReal_le_ofReal_iff hm1).1 hfat
  linarith

/-- Every finite latent space with positive probabilities meets the hypotheses. -/
theorem tight_finite {Z : Type*} [Fintype Z] [MeasurableSpace Z] [MeasurableSingletonClass Z]
    (p q : Z → ℝ) (hp : ∀ z, 0 < p z) (hq : ∀ z, 0 < q z) (h1 : ∑ z, q z = 1) :
    Tendsto (fun K : ℕ => ∫ z, (iwObjective (fun k => const (Real.log (p (z k)))) (fun k => const (Real.log (q (z k))))).val
      ∂(samples Measure.count q (K + 1))) atTop (nhds (Real.log (∑ z, p z))) := by
  have h := finite_model p q hp hq h1
  have := C40_tight (logp := fun z => const (Real.log (p z))) (logq := fun z => const (Real.log (q z))) h.1
    (fun z h0 => absurd h0 (hq z).ne') (fun z => rfl) (fun z => rfl) h.2
  rwa [evidence, integral_count] at this

/-- A concrete case: two latent values, joint `(1/8, 3/8)`, proposal `(1/3, 2/3)`, evidence `1/2`. -/
example : ∃ p q : Bool → ℝ, p true ≠ q true ∧
    Tendsto (fun K : ℕ => ∫ z, (iwObjective (fun k => const (Real.log (p (z k)))) (fun k => const (Real.log (q (z k))))).val
      ∂(samples Measure.count q (K + 1))) atTop (nhds (Real.log (1 / 2))) := by
  refine ⟨fun z => if z then 1 / 8 else 3 / 8, fun z => if z then 1 / 3 else 2 / 3, by norm_num, ?_⟩
  have := tight_finite (Z := Bool) (fun z => if z then 1 / 8 else 3 / 8) (fun z => if z then 1 / 3 else 2 / 3)
    (fun z => by cases z <;> norm_num) (fun z => by cases z <;> norm_num) (by simp; norm_num)
  have e : (1 / 2 : ℝ) = ∑ z : Bool, if z then 1 / 8 else 3 / 8 := by simp; norm_num
  rw [e]
  exact this

end ZhuSuan.Grad

import Verif.Lemmas.WeakNormal
import Verif.Model.Sgmcmc

/-!
# C90: with small learning rates the stochastic gradient samplers target the posterior of every smooth model

`zhusuan/sgmcmc.py`.
-/

set_option autoImplicit false

open MeasureTheory ProbabilityTheory Filter Topology Set
open ZhuSuan.SgWeak ZhuSuan.Weak

namespace ZhuSuan.Sgmcmc

variable {V : Type} {I : V → Type} [Fintype V] [∀ v, Fintype (I v)] {Ω : Type} [MeasurableSpace Ω]

/-- The mean of the gradient estimate along a test function. -/
theorem drift_mean {P : Measure Ω} {G : Ω → Lat I → Lat I} {l : Lat I → ℝ} (hG : Unbiased P G l)
    (L : Lat I →L[ℝ] ℝ) (x : Lat I) : ∫ ω, L (G ω x) ∂P = ∑ v, ∑ i, pd l x v i * L (unit v i) := by
  rw [integral_congr_ae (Eventually.of_forall fun ω => lin_sum L (G ω x))]
  have hi : ∀ v i, Integrable (fun ω => G ω x v i * L (unit v i)) P := fun v i => (hG x v i).1.mul_const _
  rw [integral_finsetSum _ fun v _ => integrable_finsetSum _ fun i _ => hi v i]
  refine Finset.sum_congr rfl fun v _ => ?_
  rw [integral_finsetSum _ fun i _ => hi v i]
  refine Finset.sum_congr rfl fun i _ => ?_
  rw [integral_mul_const, (hG x v i).2]

/-- The Laplacian of a test function under a smooth density. -/
theorem laplace_mean {m : Lat I → ℝ} (hm : LogDens m) {f : Lat I → ℝ} (hf : Test f) (v : V) (i : I v) :
    ∫ x, hess f x (unit v i) (unit v i) ∂posterior m = - ∫ x, pd f x v i * pd m x v i ∂posterior m := by
  have hu : ContDiff ℝ 1 fun x => fderiv ℝ f x (unit v i) :=
    (hf.smooth1.clm_apply contDiff_const).of_le (by norm_num)
  have hc : HasCompactSupport fun x => fderiv ℝ f x (unit v i) :=
    hf.supp1.comp_left (g := fun L : Lat I →L[ℝ] ℝ => L (unit v i)) (by simp)
  have h := hm.parts hu hc (unit v i)
  rw [show (fun x => pd f x v i * pd m x v i) = fun x => fderiv ℝ f x (unit v i) * fderiv ℝ m x (unit v i) from rfl, ← h]
  refine integral_congr_ae (Eventually.of_forall fun x => ?_)
  simp only
  have := ((hf.d2 x).clm_apply (hasFDerivAt_const (unit v i) x)).fderiv
  rw [this]
  simp

section Integrable

variable {E : Type*} [NormedAddCommGroup E] [NormedSpace ℝ E] {S : Type*} [MeasurableSpace S] {W : Measure S}

theorem Test_int1 {f : E → ℝ} (hf : Test f) {X a : S → E} (hX : AEStronglyMeasurable X W) (ha : Integrable a W) :
    Integrable (fun s => fderiv ℝ f (X s) (a s)) W := by
  obtain ⟨K, hK, -, b1, -, -, -⟩ := hf.bounds
  have c1 : Continuous fun p : E × E => fderiv ℝ f p.1 p.2 :=
    (hf.cont1.comp continuous_fst).clm_apply continuous_snd
  exact (ha.norm.const_mul K).mono' (c1.comp_aestronglyMeasurable (hX.prodMk ha.1)) (Eventually.of_forall fun s =>
    (ContinuousLinearMap.le_opNorm _ _).trans (mul_le_mul_of_nonneg_right (b1 _) (norm_nonneg _)))

theorem Test_int2 {f : E → ℝ} (hf : Test f) {X a : S → E} (hX : AEStronglyMeasurable X W) (ha : MemLp a 2 W) :
    Integrable (fun s => hess f (X s) (a s) (a s)) W := by
  obtain ⟨K, hK, -, -, b2, -, -⟩ := hf.bounds
  have c2 : Continuous fun p : E × E => hess f p.1 p.2 p.2 :=
    ((hf.cont2.comp continuous_fst).clm_apply continuous_snd).clm_apply continuous_snd
  refine ((ha.integrable_norm_pow (by norm_num)).const_mul K).mono' (c2.comp_aestronglyMeasurable (hX.prodMk ha.1))
    (Eventually.of_forall fun s => ?_)
  refine (ContinuousLinearMap.le_opNorm _ _).trans ?_
  have := (ContinuousLinearMap.le_opNorm (hess f (X s)) (a s)).trans
    (mul_le_mul_of_nonneg_right (b2 (X s)) (norm_nonneg _))
  calc _ ≤ K * ‖a s‖ * ‖a s‖ := mul_le_mul_of_nonneg_right this (norm_nonneg _)
    _ = _ := by simp; ring

end Integrable

/-- SGLD from any smooth distribution: the change of the mean of a test function in one iteration, to first order in the
learning rate. -/
theorem C90_sgld_from {l m : Lat I → ℝ} (hm : LogDens m) (P : Measure Ω) [IsProbabilityMeasure P]
    {G : Ω → Lat I → Lat I} (hG : Unbiased P G l)
    (hG1 : Integrable (fun s : Lat I × Ω => G s.2 s.1) ((posterior m).prod P))
    {f : Lat I → ℝ} (hf : ContDiff ℝ 3 f) (hc : HasCompactSupport f) :
    Tendsto (fun lr : ℝ => ((∫ s : Lat I × Ω × Lat I, f (fun v => sgld lr (G s.2.1) s.2.2 v s.1)
        ∂(posterior m).prod (P.prod (normals I))) - ∫ x, f x ∂posterior m) / lr) (𝓝[>] 0)
      (𝓝 (1 / 2 * ∫ x, ∑ v, ∑ i, (pd l x v i - pd m x v i) * pd f x v i ∂posterior m)) := by
  have hT : Test f := ⟨hf, hc⟩
  have _ := hm.prob
  set μ := posterior m with hμ
  set W := μ.prod (P.prod (normals I)) with hW
  have pG : MeasurePreserving (fun s : Lat I × Ω × Lat I => (s.1, s.2.1)) W (μ.prod P) :=
    (MeasurePreserving.id μ).prod measurePreserving_fst
  have pz : MeasurePreserving (fun s : Lat I × Ω × Lat I => s.2.2) W (normals I) :=
    measurePreserving_snd.comp measurePreserving_snd
  have px : MeasurePreserving (fun s : Lat I × Ω × Lat I => s.1) W μ := measurePreserving_fst
  have hX : AEStronglyMeasurable (fun s : Lat I × Ω × Lat I => s.1) W := by fun_prop
  have ha : MemLp (fun s : Lat I × Ω × Lat I => s.2.2) 2 W := (id_memLp 2).comp_measurePreserving pz
  have ig : Integrable (fun s : Lat I × Ω × Lat I => (1 / 2 : ℝ) • G s.2.1 s.1) W :=
    (pG.integrable_comp_of_integrable hG1).smul (1 / 2 : ℝ)
  have ia : Integrable (fun s : Lat I × Ω × Lat I => s.2.2) W :=
    (ha.mono_exponent (by norm_num : (1 : ENNReal) ≤ 2)).integrable le_rfl
  have h0 : ∫ s, fderiv ℝ f s.1 s.2.2 ∂W = 0 := by
    rw [integral_prod _ (Test_int1 hT hX ia)]
    refine integral_eq_zero_of_ae (Eventually.of_forall fun x => ?_)
    have := integral_map (μ := P.prod (normals I)) (φ := Prod.snd) (by fun_prop)
      (f := fun z => fderiv ℝ f x z) (by fun_prop)
    simp only [Pi.zero_apply]
    rw [← this, measurePreserving_snd.map_eq]
    exact lin_mean _
  have key := weak_limit W hT hX ha ig.norm (b := fun _ s => (1 / 2 : ℝ) • G s.2.1 s.1) (fun _ => ig.1)
    (fun _ _ _ => Eventually.of_forall fun s => le_rfl) (Eventually.of_forall fun s => tendsto_const_nhds) h0
  have e1 : ∀ h : ℝ, ∀ s : Lat I × Ω × Lat I,
      (fun v => sgld h (G s.2.1) s.2.2 v s.1) = s.1 + √h • s.2.2 + h • ((1 / 2 : ℝ) • G s.2.1 s.1) := by
    intro h s
    ext v i
    simp only [sgld, Pi.add_apply, Pi.smul_apply, smul_eq_mul]
    ring
  simp only [e1]
  have e2 : ∫ s : Lat I × Ω × Lat I, f s.1 ∂W = ∫ x, f x ∂μ := by
    have := integral_map (μ := W) (φ := fun s : Lat I × Ω × Lat I => s.1) (by fun_prop) (f := f)
      hT.cont.aestronglyMeasurable
    rw [← this, px.map_eq]
  rw [e2] at key
  convert key using 2
  have j1 := Test_int1 hT hX ig
  have j2 := (Test_int2 hT hX ha).const_mul (1 / 2)
  rw [integral_add j1 j2, integral_prod _ j1, integral_prod _ j2]
  have i1 : ∀ x, ∫ y : Ω × Lat I, fderiv ℝ f x ((1 / 2 : ℝ) • G y.1 x) ∂P.prod (normals I) =
      1 / 2 * ∑ v, ∑ i, pd l x v i * pd f x v i := by
    intro x
    have h := integral_prod_mul (μ := P) (ν := normals I) (fun ω => fderiv ℝ f x (G ω x)) (fun _ => (1 : ℝ))
    simp only [mul_one, integral_const, probReal_univ, smul_eq_mul] at h
    simp only [map_smul, smul_eq_mul]
    rw [integral_const_mul, h, drift_mean hG]
    rfl
  have i2 : ∀ x, ∫ y : Ω × Lat I, 1 / 2 * hess f x y.2 y.2 ∂P.prod (normals I) =
      1 / 2 * ∑ v, ∑ i, hess f x (unit v i) (unit v i) := by
    intro x
    have h := integral_prod_mul (μ := P) (ν := normals I) (fun _ => (1 : ℝ)) (fun z => hess f x z z)
    simp only [one_mul, integral_const, probReal_univ, smul_eq_mul] at h
    rw [integral_const_mul, h, bilin_mean]
  simp only [i1, i2]
  have cpf : ∀ v i, Continuous fun x => pd f x v i := fun v i => hT.cont1.clm_apply continuous_const
  have spf : ∀ v i, HasCompactSupport fun x => pd f x v i := fun v i =>
    hT.supp1.comp_left (g := fun L : Lat I →L[ℝ] ℝ => L (unit v i)) (by simp)
  have cpm : ∀ v i, Continuous fun x => pd m x v i := fun v i =>
    (hm.smooth.continuous_fderiv (by norm_num)).clm_apply continuous_const
  have k1 : Integrable (fun x => ∑ v, ∑ i, pd l x v i * pd f x v i) μ := by
    have := j1.integral_prod_left
    simp only [i1] at this
    have h2 := this.const_mul 2
    refine h2.congr (Eventually.of_forall fun x => ?_)
    simp only
    ring
  have k2 : ∀ v i, Integrable (fun x => pd f x v i * pd m x v i) μ := fun v i =>
    ((cpf v i).mul (cpm v i)).integrable_of_hasCompactSupport (spf v i).mul_right
  have k3 : ∀ v i, Integrable (fun x => hess f x (unit v i) (unit v i)) μ := fun v i =>
    ((hT.cont2.clm_apply continuous_const).clm_apply continuous_const).integrable_of_hasCompactSupport
      (hT.supp2.comp_left (g := fun L : Lat I →L[ℝ] Lat I →L[ℝ] ℝ => L (unit v i) (unit v i)) (by simp))
  rw [integral_const_mul, integral_const_mul, ← mul_add]
  congr 1
  have e3 : ∫ x, ∑ v, ∑ i, hess f x (unit v i) (unit v i) ∂μ = - ∫ x, ∑ v, ∑ i, pd f x v i * pd m x v i ∂μ := by
    rw [integral_finsetSum _ fun v _ => integrable_finsetSum _ fun i _ => k3 v i,
      integral_finsetSum _ fun v _ => integrable_finsetSum _ fun i _ => k2 v i, ← Finset.sum_neg_distrib]
    refine Finset.sum_congr rfl fun v _ => ?_
    rw [integral_finsetSum _ fun i _ => k3 v i, integral_finsetSum _ fun i _ => k2 v i, ← Finset.sum_neg_distrib]
    exact Finset.sum_congr rfl fun i _ => laplace_mean hm hT v i
  rw [e3, ← sub_eq_add_neg, ← integral_sub k1 (integrable_finsetSum _ fun v _ => integrable_finsetSum _ fun i _ => k2 v i)]
  refine integral_congr_ae (Eventually.of_forall fun x => ?_)
  simp only [← Finset.sum_sub_distrib]
  refine Finset.sum_congr rfl fun v _ => Finset.sum_congr rfl fun i _ => ?_
  ring

/-- SGLD on any smooth model with an unbiased gradient estimate: if the latent variables have the posterior distribution,
one iteration leaves the mean of every test function as it is, to first order in the learning rate. -/
theorem C90_sgld {l : Lat I → ℝ} (hl : LogDens l) (P : Measure Ω) [IsProbabilityMeasure P]
    {G : Ω → Lat I → Lat I} (hG : Unbiased P G l)
    (hG1 : Integrable (fun s : Lat I × Ω => G s.2 s.1) ((posterior l).prod P))
    {f : Lat I → ℝ} (hf : ContDiff ℝ 3 f) (hc : HasCompactSupport f) :
    Tendsto (fun lr : ℝ => ((∫ s : Lat I × Ω × Lat I, f (fun v => sgld lr (G s.2.1) s.2.2 v s.1)
        ∂(posterior l).prod (P.prod (normals I))) - ∫ x, f x ∂posterior l) / lr) (𝓝[>] 0) (𝓝 0) := by
  simpa using C90_sgld_from hl P hG hG1 hf hc

/-- The posterior is the only such distribution among those that differ from it in a bounded region. -/
theorem C90_sgld_only {l m : Lat I → ℝ} (hl : LogDens l) (hm : LogDens m) (P : Measure Ω) [IsProbabilityMeasure P]
    {G : Ω → Lat I → Lat I} (hG : Unbiased P G l)
    (hG1 : Integrable (fun s : Lat I × Ω => G s.2 s.1) ((posterior m).prod P))
    (hd : ContDiff ℝ 3 fun x => m x - l x) (hdc : HasCompactSupport fun x => m x - l x)
    (hstat : ∀ f : Lat I → ℝ, ContDiff ℝ 3 f → HasCompactSupport f →
      Tendsto (fun lr : ℝ => ((∫ s : Lat I × Ω × Lat I, f (fun v => sgld lr (G s.2.1) s.2.2 v s.1)
        ∂(posterior m).prod (P.prod (normals I))) - ∫ x, f x ∂posterior m) / lr) (𝓝[>] 0) (𝓝 0)) :
    posterior m = posterior l := by
  set d : Lat I → ℝ := fun x => m x - l x with hdd
  have h := tendsto_nhds_unique (C90_sgld_from hm P hG hG1 hd hdc) (hstat d hd hdc)
  have epd : ∀ x v i, pd l x v i - pd m x v i = - pd d x v i := by
    intro x v i
    have := ((hm.smooth.differentiable (by norm_num) x).hasFDerivAt.sub
      (hl.smooth.differentiable (by norm_num) x).hasFDerivAt).fderiv
    simp only [pd]
    rw [show fderiv ℝ d x = _ from this]
    simp
  have h1 : ∫ x, ∑ v, ∑ i, pd d x v i ^ 2 ∂posterior m = 0 := by
    simp only [epd] at h
    have e : ∀ x, ∑ v, ∑ i, -pd d x v i * pd d x v i = - ∑ v, ∑ i, pd d x v i ^ 2 := by
      intro x
      simp only [← Finset.sum_neg_distrib]
      exact Finset.sum_congr rfl fun v _ => Finset.sum_congr rfl fun i _ => by ring
    simp only [e, integral_neg] at h
    linarith
  have hT : Test d := ⟨hd, hdc⟩
  have cpd : Continuous fun x => ∑ v, ∑ i, pd d x v i ^ 2 :=
    continuous_finsetSum _ fun v _ => continuous_finsetSum _ fun i _ => (hT.cont1.clm_apply continuous_const).pow 2
  have hz : ∀ x, ∑ v, ∑ i, pd d x v i ^ 2 = 0 := by
    rw [hm.integral, div_eq_zero_iff, or_iff_left hm.norm_pos.ne'] at h1
    have hcont : Continuous fun x => (∑ v, ∑ i, pd d x v i ^ 2) * Real.exp (m x) :=
      cpd.mul (Real.continuous_exp.comp hm.smooth.continuous)
    have hnn : ∀ x, 0 ≤ (∑ v, ∑ i, pd d x v i ^ 2) * Real.exp (m x) := fun x => by positivity
    have hsup : HasCompactSupport fun x => (∑ v, ∑ i, pd d x v i ^ 2) * Real.exp (m x) := by
      refine HasCompactSupport.mul_right ?_
      exact hT.supp1.comp_left (g := fun L : Lat I →L[ℝ] ℝ => ∑ v, ∑ i, L (unit v i) ^ 2) (by simp)
    have h2 := (integral_eq_zero_iff_of_nonneg hnn (hcont.integrable_of_hasCompactSupport hsup)).1 h1
    have h3 := hcont.ae_eq_iff_eq volume continuous_const |>.1 h2
    intro x
    have : (∑ v, ∑ i, pd d x v i ^ 2) * Real.exp (m x) = 0 := congrFun h3 x
    exact (mul_eq_zero.1 this).resolve_right (Real.exp_ne_zero _)
  have hfd : ∀ x, fderiv ℝ d x = 0 := by
    intro x
    ext u
    rw [lin_sum]
    refine Finset.sum_eq_zero fun v _ => Finset.sum_eq_zero fun i _ => ?_
    have h2 := (Finset.sum_eq_zero_iff_of_nonneg fun v _ => Finset.sum_nonneg fun i _ => sq_nonneg (pd d x v i)).1 (hz x) v
      (Finset.mem_univ v)
    have h3 := (Finset.sum_eq_zero_iff_of_nonneg fun i _ => sq_nonneg (pd d x v i)).1 h2 i (Finset.mem_univ i)
    rw [show fderiv ℝ d x (unit v i) = pd d x v i from rfl, pow_eq_zero_iff (two_ne_zero) |>.1 h3, mul_zero]
  have hconst : ∀ x, m x = l x + d 0 := by
    intro x
    have := is_const_of_fderiv_eq_zero (hd.differentiable (by norm_num)) hfd x 0
    simp only [hdd] at this ⊢
    linarith
  have hZ : ∫ y, Real.exp (m y) = Real.exp (d 0) * ∫ y, Real.exp (l y) := by
    rw [← integral_const_mul]
    refine integral_congr_ae (Eventually.of_forall fun x => ?_)
    simp only [hconst x, Real.exp_add]
    ring
  unfold posterior
  congr 1
  ext x
  rw [hZ, hconst x, Real.exp_add]
  congr 1
  have := hl.norm_pos.ne'
  field_simp

end ZhuSuan.Sgmcmc

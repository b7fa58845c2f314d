import Verif.Props.SgmcmcWeak
import Mathlib.Analysis.Calculus.BumpFunction.InnerProduct

/-!
# C91: what PSGLD samples when the learning rate is small

`zhusuan/sgmcmc.py` 203–257.  The preconditioner is the RMSprop one: it is computed from the squares of past gradients and the
gradient of the current iteration.  Li et al. (2015) add the divergence of the preconditioner to the drift; the code has no such
term.
-/

set_option autoImplicit false

open MeasureTheory ProbabilityTheory Filter Topology Set
open ZhuSuan.SgWeak ZhuSuan.Weak

namespace ZhuSuan.Sgmcmc

variable {V : Type} {I : V → Type} [Fintype V] [∀ v, Fintype (I v)] {Ω : Type} [MeasurableSpace Ω]

/-- The preconditioner of one component, from the running mean of squares and the current gradient. -/
noncomputable def prec (decay ε aux g : ℝ) : ℝ := 1 / (ε + √(decay * aux + (1 - decay) * g ^ 2))

theorem prec_pos (decay : ℝ) {ε : ℝ} (hε : 0 < ε) (aux g : ℝ) : 0 < prec decay ε aux g := by
  unfold prec
  have := Real.sqrt_nonneg (decay * aux + (1 - decay) * g ^ 2)
  positivity

theorem prec_le (decay : ℝ) {ε : ℝ} (hε : 0 < ε) (aux g : ℝ) : prec decay ε aux g ≤ 1 / ε :=
  one_div_le_one_div_of_le hε (le_add_of_nonneg_right (Real.sqrt_nonneg _))

theorem prec_cont (decay : ℝ) {ε : ℝ} (hε : 0 < ε) : Continuous fun s : ℝ × ℝ => prec decay ε s.1 s.2 := by
  unfold prec
  refine continuous_const.div (by fun_prop) fun s => ?_
  have := Real.sqrt_nonneg (decay * s.1 + (1 - decay) * s.2 ^ 2)
  positivity

/-- The preconditioned vector. -/
noncomputable def precVec (decay ε : ℝ) (w : ℝ → ℝ) (aux g z : Lat I) : Lat I := fun v i => w (prec decay ε (aux v i) (g v i)) * z v i

theorem precVec_cont (decay : ℝ) {ε : ℝ} (hε : 0 < ε) {w : ℝ → ℝ} (hw : Continuous w) :
    Continuous fun s : Lat I × Lat I × Lat I => precVec decay ε w s.1 s.2.1 s.2.2 := by
  refine continuous_pi fun v => continuous_pi fun i => ?_
  refine (hw.comp ((prec_cont decay hε).comp (f := fun s : Lat I × Lat I × Lat I => (s.1 v i, s.2.1 v i)) ?_)).mul ?_ <;> fun_prop

theorem precVec_le (decay : ℝ) {ε : ℝ} (hε : 0 < ε) {w : ℝ → ℝ} (hw : Monotone w) (hw0 : ∀ t, 0 ≤ t → 0 ≤ w t) (aux g z : Lat I) :
    ‖precVec decay ε w aux g z‖ ≤ w (1 / ε) * ‖z‖ := by
  have h0 : 0 ≤ w (1 / ε) := hw0 _ (by positivity)
  refine (pi_norm_le_iff_of_nonneg (by positivity)).2 fun v => (pi_norm_le_iff_of_nonneg (by positivity)).2 fun i => ?_
  unfold precVec
  rw [norm_mul, Real.norm_of_nonneg (hw0 _ (prec_pos decay hε _ _).le)]
  exact mul_le_mul (hw (prec_le decay hε _ _)) ((norm_le_pi_norm (z v) i).trans (norm_le_pi_norm z v)) (norm_nonneg _) h0

theorem prec_memLp (decay : ℝ) {ε : ℝ} (hε : 0 < ε) {S : Type*} [MeasurableSpace S] {W : Measure S} {A g z : S → Lat I}
    (hA : AEStronglyMeasurable A W) (hg : AEStronglyMeasurable g W) (hz : MemLp z 2 W) :
    MemLp (fun s => precVec decay ε Real.sqrt (A s) (g s) (z s)) 2 W := by
  refine MemLp.of_le_mul (c := √(1 / ε)) hz ((precVec_cont decay hε Real.continuous_sqrt).comp_aestronglyMeasurable
    (hA.prodMk (hg.prodMk hz.1))) (Eventually.of_forall fun s => ?_)
  exact precVec_le decay hε Real.sqrt_monotone (fun t _ => Real.sqrt_nonneg t) _ _ _

theorem prec_int (decay : ℝ) {ε : ℝ} (hε : 0 < ε) {S : Type*} [MeasurableSpace S] {W : Measure S} {A g : S → Lat I}
    (hA : AEStronglyMeasurable A W) (hg : Integrable g W) :
    Integrable (fun s => precVec decay ε id (A s) (g s) (g s)) W := by
  refine (hg.norm.const_mul (1 / ε)).mono' ((precVec_cont decay hε continuous_id).comp_aestronglyMeasurable
    (hA.prodMk (hg.1.prodMk hg.1))) (Eventually.of_forall fun s => ?_)
  exact precVec_le decay hε monotone_id (fun t ht => ht) _ _ _

/-- The linear map that scales each component. -/
noncomputable def scaleBy (c : Lat I) : Lat I →L[ℝ] Lat I :=
  ContinuousLinearMap.pi fun v => ContinuousLinearMap.pi fun i => c v i • ((ContinuousLinearMap.proj i).comp
    (ContinuousLinearMap.proj (R := ℝ) (φ := fun v => I v → ℝ) v))

theorem scaleBy_apply (c z : Lat I) (v : V) (i : I v) : scaleBy c z v i = c v i * z v i := rfl

theorem scaleBy_unit (c : Lat I) (v : V) (i : I v) : scaleBy c (unit v i) = c v i • unit v i := by
  classical
  ext w j
  rw [scaleBy_apply]
  simp only [unit, Pi.smul_apply, smul_eq_mul]
  by_cases hw : w = v
  · subst hw
    by_cases hj : j = i
    · subst hj; rfl
    · simp [Pi.single_eq_of_ne hj]
  · simp [Pi.single_eq_of_ne hw]

/-- The mean of a quadratic form in independent normals of different scales. -/
theorem scaled_mean (L : Lat I →L[ℝ] Lat I →L[ℝ] ℝ) (c : Lat I) :
    ∫ z, L (fun v i => c v i * z v i) (fun v i => c v i * z v i) ∂normals I = ∑ v, ∑ i, c v i ^ 2 * L (unit v i) (unit v i) := by
  have h := bilin_mean (((ContinuousLinearMap.compL ℝ (Lat I) (Lat I) ℝ).flip (scaleBy c)).comp (L.comp (scaleBy c)))
  have e : ∀ z : Lat I, (fun v i => c v i * z v i : Lat I) = scaleBy c z := fun z => rfl
  simp only [e]
  refine h.trans (Finset.sum_congr rfl fun v _ => Finset.sum_congr rfl fun i _ => ?_)
  simp [scaleBy_unit]
  ring

/-- PSGLD from any distribution of the latent variables, the running means of squares and the gradient estimate: the change of the
mean of a test function in one iteration, to first order in the learning rate. -/
theorem C91_psgld_rate {S : Type} [MeasurableSpace S] (Q : Measure S) [IsProbabilityMeasure Q] {X A : S → Lat I}
    {G : S → Lat I → Lat I} (hX : AEStronglyMeasurable X Q) (hA : AEStronglyMeasurable A Q)
    (hG : Integrable (fun s => G s (X s)) Q) (decay : ℝ) {ε : ℝ} (hε : 0 < ε)
    {f : Lat I → ℝ} (hf : ContDiff ℝ 3 f) (hc : HasCompactSupport f) :
    Tendsto (fun lr : ℝ => ((∫ s : S × Lat I,
        f (fun v => (psgld lr decay ε (G s.1) s.2 v fun v => ⟨X s.1 v, A s.1 v⟩).q) ∂Q.prod (normals I)) -
          ∫ s, f (X s) ∂Q) / lr) (𝓝[>] 0)
      (𝓝 (1 / 2 * ∫ s, ∑ v, ∑ i, 1 / (ε + √(decay * A s v i + (1 - decay) * G s (X s) v i ^ 2)) *
        (G s (X s) v i * pd f (X s) v i + fderiv ℝ (fun x => pd f x v i) (X s) (unit v i)) ∂Q)) := by
  have hT : Test f := ⟨hf, hc⟩
  have hess_eq : ∀ x v (i : I v), fderiv ℝ (fun x => pd f x v i) x (unit v i) = hess f x (unit v i) (unit v i) := by
    intro x v i
    have := ((hT.d2 x).clm_apply (hasFDerivAt_const (unit v i) x)).fderiv
    unfold pd
    rw [this]
    simp
  simp only [hess_eq]
  set W := Q.prod (normals I) with hW
  have pG : MeasurePreserving (fun s : S × Lat I => s.1) W Q := measurePreserving_fst
  have pz : MeasurePreserving (fun s : S × Lat I => s.2) W (normals I) := measurePreserving_snd
  have hX' : AEStronglyMeasurable (fun s : S × Lat I => X s.1) W := hX.comp_measurePreserving pG
  have hA' : AEStronglyMeasurable (fun s : S × Lat I => A s.1) W := hA.comp_measurePreserving pG
  have hGW : Integrable (fun s : S × Lat I => G s.1 (X s.1)) W := pG.integrable_comp_of_integrable hG
  have hz : MemLp (fun s : S × Lat I => s.2) 2 W := (id_memLp 2).comp_measurePreserving pz
  set a : S × Lat I → Lat I := fun s => precVec decay ε Real.sqrt (A s.1) (G s.1 (X s.1)) s.2 with ha'
  set b : S × Lat I → Lat I := fun s =>
    (1 / 2 : ℝ) • precVec decay ε id (A s.1) (G s.1 (X s.1)) (G s.1 (X s.1)) with hb'
  have ha : MemLp a 2 W := prec_memLp decay hε hA' hGW.1 hz
  have ib : Integrable b W := (prec_int decay hε hA' hGW).smul (1 / 2 : ℝ)
  have ia : Integrable a W := (ha.mono_exponent (by norm_num : (1 : ENNReal) ≤ 2)).integrable le_rfl
  have h0 : ∫ s, fderiv ℝ f (X s.1) (a s) ∂W = 0 := by
    rw [integral_prod _ (Test_int1 hT hX' ia)]
    refine integral_eq_zero_of_ae (Eventually.of_forall fun t => ?_)
    exact lin_mean ((fderiv ℝ f (X t)).comp (scaleBy fun v i => √(prec decay ε (A t v i) (G t (X t) v i))))
  have key := weak_limit W hT hX' ha ib.norm (b := fun _ => b) (fun _ => ib.1)
    (fun _ _ _ => Eventually.of_forall fun s => le_rfl) (Eventually.of_forall fun s => tendsto_const_nhds) h0
  have e1 : ∀ h : ℝ, ∀ s : S × Lat I,
      (fun v => (psgld h decay ε (G s.1) s.2 v fun v => ⟨X s.1 v, A s.1 v⟩).q : Lat I) = X s.1 + √h • a s + h • b s := by
    intro h s
    ext v i
    simp only [psgld, Pi.add_apply, Pi.smul_apply, smul_eq_mul, ha', hb', precVec, id, rmsAux, rmsPreconditioner]
    rw [show 1 / (ε + √(decay * A s.1 v i + (1 - decay) * G s.1 (X s.1) v i ^ 2)) =
        prec decay ε (A s.1 v i) (G s.1 (X s.1) v i) from rfl,
      Real.sqrt_mul' _ (prec_pos decay hε _ _).le]
    ring
  simp only [e1]
  have e2 : ∫ s : S × Lat I, f (X s.1) ∂W = ∫ s, f (X s) ∂Q := by
    have h := integral_prod_mul (μ := Q) (ν := normals I) (fun s => f (X s)) (fun _ => (1 : ℝ))
    simpa using h
  rw [e2] at key
  convert key using 2
  have hi : Integrable (fun s => fderiv ℝ f (X s.1) (b s) + 1 / 2 * hess f (X s.1) (a s) (a s)) W :=
    (Test_int1 hT hX' ib).add ((Test_int2 hT hX' ha).const_mul (1 / 2))
  rw [integral_prod _ hi, ← integral_const_mul]
  refine integral_congr_ae (Eventually.of_forall fun t => ?_)
  simp only
  set c : Lat I := fun v i => √(prec decay ε (A t v i) (G t (X t) v i)) with hcdef
  have ec : ∀ z, a (t, z) = fun v i => c v i * z v i := fun z => rfl
  have eb : ∀ z, b (t, z) = b (t, 0) := fun z => rfl
  have i2 : Integrable (fun z : Lat I => 1 / 2 * hess f (X t) (a (t, z)) (a (t, z))) (normals I) := by
    refine (Test_int2 hT (X := fun _ => X t) aestronglyMeasurable_const ?_).const_mul (1 / 2)
    exact prec_memLp decay hε (A := fun _ => A t) (g := fun _ => G t (X t)) aestronglyMeasurable_const
      aestronglyMeasurable_const (id_memLp (I := I) 2)
  have i1 : Integrable (fun z : Lat I => fderiv ℝ f (X t) (b (t, z))) (normals I) := by
    simp only [eb]
    exact integrable_const _
  rw [integral_add i1 i2, integral_const_mul]
  simp only [ec, eb]
  rw [scaled_mean, integral_const, probReal_univ, one_smul, lin_sum, Finset.mul_sum, Finset.mul_sum, ← Finset.sum_add_distrib]
  refine Finset.sum_congr rfl fun v _ => ?_
  rw [Finset.mul_sum, Finset.mul_sum, ← Finset.sum_add_distrib]
  refine Finset.sum_congr rfl fun i _ => ?_
  rw [hcdef, Real.sq_sqrt (prec_pos decay hε _ _).le]
  simp only [hb', precVec, id, Pi.smul_apply, smul_eq_mul, pd, prec]
  ring

/-- With an exact gradient and running means of squares that are a function of the latent variables, so that the preconditioner
is a smooth function of them: the first order term is the one of the divergence that the update leaves out. -/
theorem C91_psgld_divergence {l : Lat I → ℝ} (hl : LogDens l)
    (hi : Integrable (fun x => pd l x) (posterior l))
    {A : Lat I → Lat I} (hA : Measurable A) (decay : ℝ) {ε : ℝ} (hε : 0 < ε)
    (hP : ∀ v i, ContDiff ℝ 1 fun x => 1 / (ε + √(decay * A x v i + (1 - decay) * pd l x v i ^ 2)))
    {f : Lat I → ℝ} (hf : ContDiff ℝ 3 f) (hc : HasCompactSupport f) :
    Tendsto (fun lr : ℝ => ((∫ s : Lat I × Lat I,
        f (fun v => (psgld lr decay ε (pd l) s.2 v fun v => ⟨s.1 v, A s.1 v⟩).q) ∂(posterior l).prod (normals I)) -
          ∫ x, f x ∂posterior l) / lr) (𝓝[>] 0)
      (𝓝 (-(1 / 2) * ∫ x, ∑ v, ∑ i, fderiv ℝ (fun x => 1 / (ε + √(decay * A x v i + (1 - decay) * pd l x v i ^ 2))) x (unit v i) *
        pd f x v i ∂posterior l)) := by
  have _ := hl.prob
  have hT : Test f := ⟨hf, hc⟩
  have key := C91_psgld_rate (posterior l) (X := fun x => x) (A := A) (G := fun _ => pd l) (by fun_prop)
    hA.aestronglyMeasurable hi decay hε hf hc
  convert key using 2
  have sm : ∀ v i, ContDiff ℝ 1 fun x => pd f x v i := fun v i =>
    (hT.smooth1.clm_apply contDiff_const).of_le (by norm_num)
  have sp : ∀ v i, HasCompactSupport fun x => pd f x v i := fun v i =>
    hT.supp1.comp_left (g := fun L : Lat I →L[ℝ] ℝ => L (unit v i)) (by simp)
  have cpl : ∀ v i, Continuous fun x => pd l x v i := fun v i =>
    (hl.smooth.continuous_fderiv (by norm_num)).clm_apply continuous_const
  have cd : ∀ {u : Lat I → ℝ}, ContDiff ℝ 1 u → ∀ v i, Continuous fun x => fderiv ℝ u x (unit v i) := fun hu v i =>
    (hu.continuous_fderiv (by norm_num)).clm_apply continuous_const
  generalize hp : (fun (v : V) (i : I v) x => 1 / (ε + √(decay * A x v i + (1 - decay) * pd l x v i ^ 2))) = p at *
  have hp' : ∀ v i x, 1 / (ε + √(decay * A x v i + (1 - decay) * pd l x v i ^ 2)) = p v i x := fun v i x => by rw [← hp]
  simp only [hp'] at hP ⊢
  have k1 : ∀ v i, Integrable (fun x => fderiv ℝ (p v i) x (unit v i) * pd f x v i) (posterior l) := fun v i =>
    ((cd (hP v i) v i).mul (sm v i).continuous).integrable_of_hasCompactSupport (sp v i).mul_left
  have k2 : ∀ v i, Integrable (fun x => p v i x * (pd l x v i * pd f x v i + fderiv ℝ (fun x => pd f x v i) x (unit v i)))
      (posterior l) := fun v i => by
    refine ((hP v i).continuous.mul (((cpl v i).mul (sm v i).continuous).add (cd (sm v i) v i))).integrable_of_hasCompactSupport ?_
    exact HasCompactSupport.mul_left ((sp v i).mul_left.add
      (((sp v i).fderiv ℝ).comp_left (g := fun L : Lat I →L[ℝ] ℝ => L (unit v i)) (by simp)))
  rw [integral_finsetSum _ fun v _ => integrable_finsetSum _ fun i _ => k1 v i,
    integral_finsetSum _ fun v _ => integrable_finsetSum _ fun i _ => k2 v i, Finset.mul_sum, Finset.mul_sum]
  refine Finset.sum_congr rfl fun v _ => ?_
  rw [integral_finsetSum _ fun i _ => k1 v i, integral_finsetSum _ fun i _ => k2 v i, Finset.mul_sum, Finset.mul_sum]
  refine Finset.sum_congr rfl fun i _ => ?_
  have h := hl.parts ((hP v i).mul (sm v i)) (sp v i).mul_left (unit v i)
  have hd : ∀ x, fderiv ℝ (fun x => p v i x * pd f x v i) x (unit v i) =
      p v i x * fderiv ℝ (fun x => pd f x v i) x (unit v i) + fderiv ℝ (p v i) x (unit v i) * pd f x v i := by
    intro x
    have h1 := (((hP v i).differentiable (by norm_num) x).hasFDerivAt.mul
      (((sm v i).differentiable (by norm_num) x).hasFDerivAt)).fderiv
    have h2 : fderiv ℝ (fun x => p v i x * pd f x v i) x = _ := h1
    rw [h2]
    simp
    ring
  have h3 : ∫ x, (p v i x * fderiv ℝ (fun x => pd f x v i) x (unit v i) + fderiv ℝ (p v i) x (unit v i) * pd f x v i) ∂posterior l =
      - ∫ x, p v i x * pd f x v i * pd l x v i ∂posterior l := by
    rw [← integral_congr_ae (Eventually.of_forall hd)]
    exact h
  have k3 : Integrable (fun x => p v i x * fderiv ℝ (fun x => pd f x v i) x (unit v i)) (posterior l) :=
    ((hP v i).continuous.mul (cd (sm v i) v i)).integrable_of_hasCompactSupport
      (HasCompactSupport.mul_left (((sp v i).fderiv ℝ).comp_left (g := fun L : Lat I →L[ℝ] ℝ => L (unit v i)) (by simp)))
  have k4 : Integrable (fun x => p v i x * pd f x v i * pd l x v i) (posterior l) :=
    (((hP v i).continuous.mul (sm v i).continuous).mul (cpl v i)).integrable_of_hasCompactSupport
      (HasCompactSupport.mul_right (sp v i).mul_left)
  rw [integral_add k3 (k1 v i)] at h3
  have h4 : ∫ x, p v i x * (pd l x v i * pd f x v i + fderiv ℝ (fun x => pd f x v i) x (unit v i)) ∂posterior l =
      (∫ x, p v i x * pd f x v i * pd l x v i ∂posterior l) + ∫ x, p v i x * fderiv ℝ (fun x => pd f x v i) x (unit v i) ∂posterior l := by
    rw [← integral_add k4 k3]
    refine integral_congr_ae (Eventually.of_forall fun x => ?_)
    simp only
    ring
  rw [h4]
  linarith

/-- With decay 1 the preconditioner does not follow the gradients.  If it is independent of the latent variables, PSGLD with
unbiased gradient estimates targets the posterior. -/
theorem C91_psgld_frozen_partial {l : Lat I → ℝ} (hl : LogDens l) (ν : Measure (Lat I)) [IsProbabilityMeasure ν]
    (P : Measure Ω) [IsProbabilityMeasure P] {G : Ω → Lat I → Lat I} (hG : Unbiased P G l)
    (hG1 : Integrable (fun s : (Lat I × Lat I) × Ω => G s.2 s.1.1) (((posterior l).prod ν).prod P))
    {ε : ℝ} (hε : 0 < ε) {f : Lat I → ℝ} (hf : ContDiff ℝ 3 f) (hc : HasCompactSupport f) :
    Tendsto (fun lr : ℝ => ((∫ s : ((Lat I × Lat I) × Ω) × Lat I,
        f (fun v => (psgld lr 1 ε (G s.1.2) s.2 v fun v => ⟨s.1.1.1 v, s.1.1.2 v⟩).q)
          ∂(((posterior l).prod ν).prod P).prod (normals I)) - ∫ x, f x ∂posterior l) / lr) (𝓝[>] 0) (𝓝 0) := by
  have _ := hl.prob
  have hT : Test f := ⟨hf, hc⟩
  have key := C91_psgld_rate (((posterior l).prod ν).prod P) (X := fun s => s.1.1) (A := fun s => s.1.2) (G := fun s => G s.2)
    (by fun_prop) (by fun_prop) hG1 1 hε hf hc
  have e0 : ∫ s : (Lat I × Lat I) × Ω, f s.1.1 ∂((posterior l).prod ν).prod P = ∫ x, f x ∂posterior l := by
    have h1 := integral_prod_mul (μ := (posterior l).prod ν) (ν := P) (fun s => f s.1) (fun _ => (1 : ℝ))
    have h2 := integral_prod_mul (μ := posterior l) (ν := ν) f (fun _ => (1 : ℝ))
    simp only [mul_one, integral_const, probReal_univ, smul_eq_mul] at h1 h2
    rw [h1, h2]
  rw [e0] at key
  convert key using 2
  have cpf : ∀ v i, Continuous fun x => pd f x v i := fun v i => hT.cont1.clm_apply continuous_const
  have sm : ∀ v i, ContDiff ℝ 1 fun x => pd f x v i := fun v i =>
    (hT.smooth1.clm_apply contDiff_const).of_le (by norm_num)
  have sp : ∀ v i, HasCompactSupport fun x => pd f x v i := fun v i =>
    hT.supp1.comp_left (g := fun L : Lat I →L[ℝ] ℝ => L (unit v i)) (by simp)
  have cpl : ∀ v i, Continuous fun x => pd l x v i := fun v i =>
    (hl.smooth.continuous_fderiv (by norm_num)).clm_apply continuous_const
  have chf : ∀ v i, Continuous fun x => fderiv ℝ (fun x => pd f x v i) x (unit v i) := fun v i =>
    ((sm v i).continuous_fderiv (by norm_num)).clm_apply continuous_const
  have shf : ∀ v i, HasCompactSupport fun x => fderiv ℝ (fun x => pd f x v i) x (unit v i) := fun v i =>
    ((sp v i).fderiv ℝ).comp_left (g := fun L : Lat I →L[ℝ] ℝ => L (unit v i)) (by simp)
  simp only [one_mul, sub_self, zero_mul, add_zero]
  set p : Lat I → (v : V) → I v → ℝ := fun A v i => 1 / (ε + √(A v i)) with hp
  have hpm : ∀ v i, Measurable fun A => p A v i := fun v i => by
    have : Measurable fun A : Lat I => A v i := by fun_prop
    exact ((this.sqrt).const_add ε).const_div 1
  have hpb : ∀ A v i, ‖p A v i‖ ≤ 1 / ε := fun A v i => by
    have := Real.sqrt_nonneg (A v i)
    rw [Real.norm_of_nonneg (by positivity)]
    exact one_div_le_one_div_of_le hε (le_add_of_nonneg_right this)
  have kT : ∀ v i, Integrable (fun s : (Lat I × Lat I) × Ω => p s.1.2 v i *
      (G s.2 s.1.1 v i * pd f s.1.1 v i + fderiv ℝ (fun x => pd f x v i) s.1.1 (unit v i))) (((posterior l).prod ν).prod P) := by
    intro v i
    have g1 : Integrable (fun s : (Lat I × Lat I) × Ω => G s.2 s.1.1 v i) (((posterior l).prod ν).prod P) :=
      ((ContinuousLinearMap.proj i).comp (ContinuousLinearMap.proj (R := ℝ) (φ := fun v => I v → ℝ) v)).integrable_comp hG1
    have m1 : Measurable fun s : (Lat I × Lat I) × Ω => s.1.1 := measurable_fst.comp measurable_fst
    obtain ⟨K, hK⟩ := (sp v i).exists_bound_of_continuous (cpf v i)
    obtain ⟨K', hK'⟩ := (shf v i).exists_bound_of_continuous (chf v i)
    have g2 : Integrable (fun s : (Lat I × Lat I) × Ω => G s.2 s.1.1 v i * pd f s.1.1 v i) (((posterior l).prod ν).prod P) :=
      g1.mul_bdd (c := K) ((cpf v i).measurable.comp m1).aestronglyMeasurable (Eventually.of_forall fun s => hK _)
    have g3 : Integrable (fun s : (Lat I × Lat I) × Ω => fderiv ℝ (fun x => pd f x v i) s.1.1 (unit v i))
        (((posterior l).prod ν).prod P) :=
      (integrable_const K').mono' ((chf v i).measurable.comp m1).aestronglyMeasurable
        (Eventually.of_forall fun s => hK' _)
    exact (g2.add g3).bdd_mul (c := 1 / ε) ((hpm v i).comp (measurable_snd.comp measurable_fst)).aestronglyMeasurable
      (Eventually.of_forall fun s => hpb _ _ _)
  rw [integral_finsetSum _ fun v _ => integrable_finsetSum _ fun i _ => kT v i]
  rw [Finset.sum_eq_zero, mul_zero]
  intro v _
  rw [integral_finsetSum _ fun i _ => kT v i]
  refine Finset.sum_eq_zero fun i _ => ?_
  rw [integral_prod _ (kT v i)]
  have e1 : ∀ y : Lat I × Lat I, ∫ ω, p y.2 v i * (G ω y.1 v i * pd f y.1 v i + fderiv ℝ (fun x => pd f x v i) y.1 (unit v i)) ∂P =
      (pd l y.1 v i * pd f y.1 v i + fderiv ℝ (fun x => pd f x v i) y.1 (unit v i)) * p y.2 v i := by
    intro y
    rw [integral_const_mul, integral_add ((hG y.1 v i).1.mul_const _) (integrable_const _), integral_mul_const, (hG y.1 v i).2,
      integral_const, probReal_univ, one_smul, mul_comm]
  simp only [e1]
  rw [integral_prod_mul (μ := posterior l) (ν := ν)
    (fun x => pd l x v i * pd f x v i + fderiv ℝ (fun x => pd f x v i) x (unit v i)) (fun A => p A v i)]
  have e2 := hl.parts (sm v i) (sp v i) (unit v i)
  have j1 : Integrable (fun x => pd l x v i * pd f x v i) (posterior l) :=
    ((cpl v i).mul (cpf v i)).integrable_of_hasCompactSupport (sp v i).mul_left
  have j2 : Integrable (fun x => fderiv ℝ (fun x => pd f x v i) x (unit v i)) (posterior l) :=
    (chf v i).integrable_of_hasCompactSupport (shf v i)
  rw [integral_add j1 j2, e2]
  have e3 : ∫ x, pd f x v i * fderiv ℝ l x (unit v i) ∂posterior l = ∫ x, pd l x v i * pd f x v i ∂posterior l :=
    integral_congr_ae (Eventually.of_forall fun x => mul_comm _ _)
  rw [e3, add_neg_cancel, zero_mul]

/-- At a fixed position the running means of squares converge to the squares of the gradient. -/
theorem C91_aux (decay g a : ℝ) (h0 : 0 ≤ decay) (h1 : decay < 1) :
    Tendsto (fun n => (rmsAux decay g)^[n] a) atTop (𝓝 (g ^ 2)) := by
  have e : ∀ n, (rmsAux decay g)^[n] a = g ^ 2 + decay ^ n * (a - g ^ 2) := by
    intro n
    induction n with
    | zero => simp
    | succ n ih => rw [Function.iterate_succ_apply', ih, rmsAux]; ring
  simp only [e]
  simpa using ((tendsto_pow_atTop_nhds_zero_of_lt_one h0 h1).mul_const (a - g ^ 2)).const_add (g ^ 2)

end ZhuSuan.Sgmcmc

import Verif.Props.SgmcmcWeak

/-!
# C90: SGHMC

`zhusuan/sgmcmc.py`.
-/

set_option autoImplicit false

open MeasureTheory ProbabilityTheory Filter Topology Set
open ZhuSuan.SgWeak ZhuSuan.Weak

namespace ZhuSuan.Sgmcmc

section Dir

variable {E : Type*} [NormedAddCommGroup E] [NormedSpace ℝ E] [FiniteDimensional ℝ E] [MeasureSpace E] [BorelSpace E]
  [(volume : Measure E).IsAddHaarMeasure]

theorem Test.dirInt {μ : Measure E} [IsFiniteMeasureOnCompacts μ] {f : E → ℝ} (hf : Test f) {φ : E → ℝ}
    (hφ : Continuous φ) (d : E) : Integrable (fun x => φ x * fderiv ℝ f x d) μ :=
  (hφ.mul (hf.cont1.clm_apply continuous_const)).integrable_of_hasCompactSupport
    (hf.supp1.comp_left (g := fun L : E →L[ℝ] ℝ => L d) (by simp)).mul_left

theorem Test.hessInt {μ : Measure E} [IsFiniteMeasureOnCompacts μ] {f : E → ℝ} (hf : Test f) (d : E) :
    Integrable (fun x => hess f x d d) μ :=
  ((hf.cont2.clm_apply continuous_const).clm_apply continuous_const).integrable_of_hasCompactSupport
    (hf.supp2.comp_left (g := fun L : E →L[ℝ] E →L[ℝ] ℝ => L d d) (by simp))

/-- Integration by parts in a direction in which the factor is constant. -/
theorem Test.parts {m : E → ℝ} (hm : LogDens m) {f : E → ℝ} (hf : Test f) {φ : E → ℝ} (hφ : Continuous φ) {d : E}
    (hd : ∀ (x : E) (t : ℝ), φ (x + t • d) = φ x) :
    ∫ x, φ x * fderiv ℝ f x d ∂posterior m = - ∫ x, φ x * f x * fderiv ℝ m x d ∂posterior m := by
  refine hm.parts_line (hφ.mul hf.cont) (hφ.mul (hf.cont1.clm_apply continuous_const)) hf.supp.mul_left
    (hf.supp1.comp_left (g := fun L : E →L[ℝ] ℝ => L d) (by simp)).mul_left fun x => ?_
  unfold HasLineDerivAt
  simp only [hd]
  exact ((hf.d1 x).hasLineDerivAt d).const_mul (φ x)

theorem Test.hessParts {m : E → ℝ} (hm : LogDens m) {f : E → ℝ} (hf : Test f) (d : E) :
    ∫ x, hess f x d d ∂posterior m = - ∫ x, fderiv ℝ f x d * fderiv ℝ m x d ∂posterior m := by
  have hu : ContDiff ℝ 1 fun x => fderiv ℝ f x d := (hf.smooth1.clm_apply contDiff_const).of_le (by norm_num)
  have hc : HasCompactSupport fun x => fderiv ℝ f x d := hf.supp1.comp_left (g := fun L : E →L[ℝ] ℝ => L d) (by simp)
  rw [← hm.parts hu hc d]
  refine integral_congr_ae (Eventually.of_forall fun x => ?_)
  simp only
  rw [((hf.d2 x).clm_apply (hasFDerivAt_const d x)).fderiv]
  simp

end Dir

variable {V : Type} {I : V → Type} [Fintype V] [∀ v, Fintype (I v)] {Ω : Type} [MeasurableSpace Ω]

instance lat2_haar : (volume : Measure (Lat I × Lat I)).IsAddHaarMeasure := prod_haar

/-- The direction of a momentum. -/
noncomputable abbrev pdir (v : V) (i : I v) : Lat I × Lat I := (0, unit v i)

/-- The direction of a position. -/
noncomputable abbrev qdir (v : V) (i : I v) : Lat I × Lat I := (unit v i, 0)

theorem joint_fderiv {l : Lat I → ℝ} (hl : LogDens l) (x : Lat I × Lat I) (d : Lat I × Lat I) :
    fderiv ℝ (fun s : Lat I × Lat I => l s.1 + gl s.2) x d = fderiv ℝ l x.1 d.1 + fderiv ℝ gl x.2 d.2 := by
  have h1 := ((hl.smooth.differentiable (by norm_num) x.1).hasFDerivAt).comp x (hasFDerivAt_fst (𝕜 := ℝ) (p := x))
  have h2 := ((gl_smooth.differentiable (by norm_num) x.2).hasFDerivAt).comp x (hasFDerivAt_snd (𝕜 := ℝ) (p := x))
  have := (h1.add h2).fderiv
  have e : fderiv ℝ (fun s : Lat I × Lat I => l s.1 + gl s.2) x = _ := this
  rw [e]
  simp

theorem lin_q (L : Lat I × Lat I →L[ℝ] ℝ) (u : Lat I) : L (u, 0) = ∑ v, ∑ i, u v i * L (qdir v i) := by
  have := lin_sum (L.comp (ContinuousLinearMap.inl ℝ (Lat I) (Lat I))) u
  simpa using this

theorem lin_p (L : Lat I × Lat I →L[ℝ] ℝ) (u : Lat I) : L (0, u) = ∑ v, ∑ i, u v i * L (pdir v i) := by
  have := lin_sum (L.comp (ContinuousLinearMap.inr ℝ (Lat I) (Lat I))) u
  simpa using this

theorem continuous_comp (v : V) (i : I v) : Continuous fun x : Lat I × Lat I => x.2 v i :=
  (continuous_apply i).comp ((continuous_apply v).comp continuous_snd)

/-- The transport by the momenta and the gradient keeps the distribution. -/
theorem hmc_transport {l : Lat I → ℝ} (hl : LogDens l) {f : Lat I × Lat I → ℝ} (hf : Test f) (v : V) (i : I v) :
    ∫ x, (x.2 v i * fderiv ℝ f x (qdir v i) + pd l x.1 v i * fderiv ℝ f x (pdir v i)) ∂(posterior l).prod (normals I) = 0 := by
  obtain ⟨hd, he⟩ := prod_dens (I := I) hl
  have _ := hd.prob
  rw [he]
  have c1 : Continuous fun x : Lat I × Lat I => x.2 v i := continuous_comp v i
  have c2 : Continuous fun x : Lat I × Lat I => pd l x.1 v i :=
    ((hl.smooth.continuous_fderiv (by norm_num)).comp continuous_fst).clm_apply continuous_const
  rw [integral_add (Test.dirInt hf c1 _) (Test.dirInt hf c2 _), Test.parts hd hf c1 (by simp),
    Test.parts hd hf c2 (by simp)]
  simp only [joint_fderiv hl, gl_deriv, map_zero, add_zero, zero_add]
  have e : ∫ x : Lat I × Lat I, pd l x.1 v i * f x * -x.2 v i ∂posterior (fun s : Lat I × Lat I => l s.1 + gl s.2) =
      - ∫ x : Lat I × Lat I, x.2 v i * f x * fderiv ℝ l x.1 (unit v i) ∂posterior fun s : Lat I × Lat I => l s.1 + gl s.2 := by
    rw [← integral_neg]
    refine integral_congr_ae (Eventually.of_forall fun x => ?_)
    simp only [pd]
    ring
  rw [e]
  ring

/-- The effect of the friction and the noise of one component. -/
theorem hmc_friction {l : Lat I → ℝ} (hl : LogDens l) {f : Lat I × Lat I → ℝ} (hf : Test f) (v : V) (i : I v) :
    ∫ x, hess f x (pdir v i) (pdir v i) ∂(posterior l).prod (normals I) =
      ∫ x, x.2 v i * fderiv ℝ f x (pdir v i) ∂(posterior l).prod (normals I) := by
  obtain ⟨hd, he⟩ := prod_dens (I := I) hl
  rw [he, Test.hessParts hd hf, ← integral_neg]
  refine integral_congr_ae (Eventually.of_forall fun x => ?_)
  simp only [joint_fderiv hl, gl_deriv, map_zero, zero_add]
  ring

/-- The generator of SGHMC. -/
theorem hmc_generator {l : Lat I → ℝ} (hl : LogDens l) (P : Measure Ω) [IsProbabilityMeasure P]
    {G : Ω → Lat I → Lat I} (hG : Unbiased P G l)
    (hG1 : Integrable (fun s : Lat I × Ω => G s.2 s.1) ((posterior l).prod P)) {f : Lat I × Lat I → ℝ} (hf : Test f) (A c : ℝ) :
    ∫ s : (Lat I × Lat I) × Ω × Lat I, (fderiv ℝ f s.1 (s.1.2, G s.2.1 s.1.1 - A • s.1.2) +
        1 / 2 * hess f s.1 (0, c • s.2.2) (0, c • s.2.2)) ∂((posterior l).prod (normals I)).prod (P.prod (normals I)) =
      (c ^ 2 / 2 - A) * ∫ x : Lat I × Lat I, ∑ v, ∑ i, x.2 v i * fderiv ℝ f x (pdir v i) ∂(posterior l).prod (normals I) := by
  obtain ⟨hd, he⟩ := prod_dens (I := I) hl
  have _ := hl.prob
  set μ := (posterior l).prod (normals I) with hμ
  set W := μ.prod (P.prod (normals I)) with hW
  have pG : MeasurePreserving (fun s : (Lat I × Lat I) × Ω × Lat I => (s.1.1, s.2.1)) W ((posterior l).prod P) :=
    measurePreserving_fst.prod measurePreserving_fst
  have pz : MeasurePreserving (fun s : (Lat I × Lat I) × Ω × Lat I => s.2.2) W (normals I) :=
    measurePreserving_snd.comp measurePreserving_snd
  have pp : MeasurePreserving (fun s : (Lat I × Lat I) × Ω × Lat I => s.1.2) W (normals I) :=
    measurePreserving_snd.comp measurePreserving_fst
  have hX : AEStronglyMeasurable (fun s : (Lat I × Lat I) × Ω × Lat I => s.1) W := by fun_prop
  have iG : Integrable (fun s : (Lat I × Lat I) × Ω × Lat I => G s.2.1 s.1.1) W :=
    pG.integrable_comp_of_integrable hG1
  have ip : Integrable (fun s : (Lat I × Lat I) × Ω × Lat I => s.1.2) W :=
    ((id_memLp 1).comp_measurePreserving pp).integrable (by simp)
  have hz : MemLp (fun s : (Lat I × Lat I) × Ω × Lat I => ((0 : Lat I), c • s.2.2)) 2 W := by
    have := ((id_memLp (I := I) 2).comp_measurePreserving pz).const_smul c
    refine this.mono (measurable_const.prodMk ((measurable_snd.comp measurable_snd).const_smul c)).aestronglyMeasurable
      (Eventually.of_forall fun s => ?_)
    simp
  have ib : Integrable (fun s : (Lat I × Lat I) × Ω × Lat I => (s.1.2, G s.2.1 s.1.1 - A • s.1.2)) W :=
    ip.prodMk (iG.sub (ip.smul A))
  have j1 := Test_int1 hf hX ib
  have j2 := (Test_int2 hf hX hz).const_mul (1 / 2)
  rw [integral_add j1 j2, integral_prod _ j1, integral_prod _ j2]
  have i1 : ∀ x : Lat I × Lat I, ∫ y : Ω × Lat I, fderiv ℝ f x (x.2, G y.1 x.1 - A • x.2) ∂P.prod (normals I) =
      ∑ v, ∑ i, (x.2 v i * fderiv ℝ f x (qdir v i) + pd l x.1 v i * fderiv ℝ f x (pdir v i)) -
        A * ∑ v, ∑ i, x.2 v i * fderiv ℝ f x (pdir v i) := by
    intro x
    have h := integral_prod_mul (μ := P) (ν := normals I) (fun ω => fderiv ℝ f x (x.2, G ω x.1 - A • x.2)) (fun _ => (1 : ℝ))
    simp only [mul_one, integral_const, probReal_univ, smul_eq_mul] at h
    rw [h]
    have e : ∀ ω, fderiv ℝ f x (x.2, G ω x.1 - A • x.2) =
        (fderiv ℝ f x (x.2, 0) - A * fderiv ℝ f x (0, x.2)) +
          ((fderiv ℝ f x).comp (ContinuousLinearMap.inr ℝ (Lat I) (Lat I))) (G ω x.1) := by
      intro ω
      have : ((x.2, G ω x.1 - A • x.2) : Lat I × Lat I) = (x.2, 0) - A • (0, x.2) + (0, G ω x.1) := by
        ext <;> simp; ring
      rw [this, map_add, map_sub, map_smul, smul_eq_mul]
      rfl
    rw [integral_congr_ae (Eventually.of_forall e), integral_add (integrable_const _) ?_, integral_const,
      probReal_univ, one_smul, drift_mean hG, lin_q, lin_p]
    · simp only [Finset.sum_add_distrib, ContinuousLinearMap.comp_apply, ContinuousLinearMap.inr_apply]
      ring
    · have h2 : Integrable (fun ω => ∑ v, ∑ i, G ω x.1 v i *
          ((fderiv ℝ f x).comp (ContinuousLinearMap.inr ℝ (Lat I) (Lat I))) (unit v i)) P :=
        integrable_finsetSum _ fun v _ => integrable_finsetSum _ fun i _ => (hG x.1 v i).1.mul_const _
      exact h2.congr (Eventually.of_forall fun ω => (lin_sum _ (G ω x.1)).symm)
  have i2 : ∀ x : Lat I × Lat I, ∫ y : Ω × Lat I, 1 / 2 * hess f x (0, c • y.2) (0, c • y.2) ∂P.prod (normals I) =
      c ^ 2 / 2 * ∑ v, ∑ i, hess f x (pdir v i) (pdir v i) := by
    intro x
    set L : Lat I →L[ℝ] Lat I →L[ℝ] ℝ := ((ContinuousLinearMap.compL ℝ (Lat I) (Lat I × Lat I) ℝ).flip
      (ContinuousLinearMap.inr ℝ (Lat I) (Lat I))).comp ((hess f x).comp (ContinuousLinearMap.inr ℝ (Lat I) (Lat I))) with hL
    have hLa : ∀ u w, L u w = hess f x (0, u) (0, w) := fun u w => by simp [hL]
    have e : ∀ z : Lat I, hess f x (0, c • z) (0, c • z) = c ^ 2 * L z z := by
      intro z
      rw [← hLa]
      simp
      ring
    have h := integral_prod_mul (μ := P) (ν := normals I) (fun _ => (1 : ℝ)) (fun z => L z z)
    simp only [one_mul, integral_const, probReal_univ, smul_eq_mul] at h
    simp only [e]
    rw [integral_const_mul, integral_const_mul, h, bilin_mean]
    simp only [hLa]
    ring
  simp only [i1, i2]
  have hfin : IsFiniteMeasureOnCompacts μ := by infer_instance
  have k1 : ∀ v i, Integrable (fun x : Lat I × Lat I => x.2 v i * fderiv ℝ f x (qdir v i) +
      pd l x.1 v i * fderiv ℝ f x (pdir v i)) μ := fun v i =>
    (Test.dirInt hf (continuous_comp v i) _).add (Test.dirInt hf
      (((hl.smooth.continuous_fderiv (by norm_num)).comp continuous_fst).clm_apply continuous_const) _)
  have k2 : ∀ v i, Integrable (fun x : Lat I × Lat I => x.2 v i * fderiv ℝ f x (pdir v i)) μ := fun v i =>
    Test.dirInt hf (continuous_comp v i) _
  have k3 : ∀ v i, Integrable (fun x : Lat I × Lat I => hess f x (pdir v i) (pdir v i)) μ := fun v i =>
    Test.hessInt hf _
  rw [integral_sub (integrable_finsetSum _ fun v _ => integrable_finsetSum _ fun i _ => k1 v i)
    ((integrable_finsetSum _ fun v _ => integrable_finsetSum _ fun i _ => k2 v i).const_mul A), integral_const_mul,
    integral_const_mul]
  have e1 : ∫ x : Lat I × Lat I, ∑ v, ∑ i, (x.2 v i * fderiv ℝ f x (qdir v i) + pd l x.1 v i * fderiv ℝ f x (pdir v i)) ∂μ =
      0 := by
    rw [integral_finsetSum _ fun v _ => integrable_finsetSum _ fun i _ => k1 v i]
    refine Finset.sum_eq_zero fun v _ => ?_
    rw [integral_finsetSum _ fun i _ => k1 v i]
    exact Finset.sum_eq_zero fun i _ => hmc_transport hl hf v i
  have e2 : ∫ x : Lat I × Lat I, ∑ v, ∑ i, hess f x (pdir v i) (pdir v i) ∂μ =
      ∫ x : Lat I × Lat I, ∑ v, ∑ i, x.2 v i * fderiv ℝ f x (pdir v i) ∂μ := by
    rw [integral_finsetSum _ fun v _ => integrable_finsetSum _ fun i _ => k3 v i,
      integral_finsetSum _ fun v _ => integrable_finsetSum _ fun i _ => k2 v i]
    refine Finset.sum_congr rfl fun v _ => ?_
    rw [integral_finsetSum _ fun i _ => k3 v i, integral_finsetSum _ fun i _ => k2 v i]
    exact Finset.sum_congr rfl fun i _ => hmc_friction hl hf v i
  rw [e1, e2]
  ring

/-- The momenta after the test for resampling. -/
def mix (now : V → Bool) (r p : Lat I) : Lat I := fun v => if now v then r v else p v

theorem mix_law (now : V → Bool) :
    MeasurePreserving (fun s : Lat I × Lat I => mix now s.2 s.1) ((normals I).prod (normals I)) (normals I) := by
  have hm : Measurable fun s : Lat I × Lat I => mix now s.2 s.1 := by
    refine measurable_pi_lambda _ fun v => ?_
    unfold mix
    cases now v <;> simp <;> fun_prop
  refine ⟨hm, ?_⟩
  conv_rhs => unfold normals
  refine (Measure.pi_eq fun t ht => ?_).symm
  rw [Measure.map_apply hm (MeasurableSet.univ_pi ht)]
  have e : (fun s : Lat I × Lat I => mix now s.2 s.1) ⁻¹' univ.pi t =
      (univ.pi fun v => if now v then univ else t v) ×ˢ (univ.pi fun v => if now v then t v else univ) := by
    ext s
    simp only [mem_preimage, Set.mem_pi, mem_univ, true_implies, mem_prod, mix, ← forall_and]
    refine forall_congr' fun v => ?_
    cases now v <;> simp
  rw [e, Measure.prod_prod]
  unfold normals
  rw [Measure.pi_pi, Measure.pi_pi, ← Finset.prod_mul_distrib]
  refine Finset.prod_congr rfl fun v _ => ?_
  cases now v <;> simp

/-- What one iteration of SGHMC depends on: the position, the momentum and the draws for resampling; the randomness of
the gradient and the noise. -/
abbrev HDraws (I : V → Type) (Ω : Type) := (Lat I × Lat I × Lat I) × Ω × Lat I

/-- Their distribution when the position has the posterior distribution and the momentum, divided by the square root of
the learning rate, is standard normal. -/
noncomputable abbrev hDraws (l : Lat I → ℝ) (P : Measure Ω) : Measure (HDraws I Ω) :=
  ((posterior l).prod ((normals I).prod (normals I))).prod (P.prod (normals I))

theorem draws_law {l : Lat I → ℝ} (hl : LogDens l) (P : Measure Ω) [IsProbabilityMeasure P] (now : V → Bool) :
    MeasurePreserving (fun s : HDraws I Ω => ((s.1.1, mix now s.1.2.2 s.1.2.1), s.2)) (hDraws l P)
      (((posterior l).prod (normals I)).prod (P.prod (normals I))) := by
  have _ := hl.prob
  exact ((MeasurePreserving.id _).prod (mix_law now)).prod (MeasurePreserving.id _)

/-- One small step of SGHMC, in the form of a displacement with the right first order. -/
theorem hmc_limit {l : Lat I → ℝ} (hl : LogDens l) (P : Measure Ω) [IsProbabilityMeasure P]
    {G : Ω → Lat I → Lat I} (hG : Unbiased P G l)
    (hG1 : Integrable (fun s : Lat I × Ω => G s.2 s.1) ((posterior l).prod P)) (now : V → Bool) {A c K : ℝ}
    {step : ℝ → HDraws I Ω → Lat I × Lat I} {b : ℝ → (Lat I × Lat I) × Ω × Lat I → Lat I × Lat I} 
    (hb : ∀ h, AEStronglyMeasurable (b h) (((posterior l).prod (normals I)).prod (P.prod (normals I))))
    (hbB : ∀ h, 0 < h → h ≤ 1 → ∀ s, ‖b h s‖ ≤ K * (‖s.1.2‖ + ‖G s.2.1 s.1.1‖ + ‖s.2.2‖))
    (hb0 : ∀ s, Tendsto (fun h => b h s) (𝓝[>] 0) (𝓝 (s.1.2, G s.2.1 s.1.1 - A • s.1.2)))
    (hstep : ∀ h, 0 < h → ∀ s : HDraws I Ω, step h s =
      (s.1.1, mix now s.1.2.2 s.1.2.1) + √h • ((0 : Lat I), c • s.2.2) + h • b h ((s.1.1, mix now s.1.2.2 s.1.2.1), s.2))
    {f : Lat I × Lat I → ℝ} (hf : ContDiff ℝ 3 f) (hc : HasCompactSupport f) :
    Tendsto (fun h : ℝ => ((∫ s, f (step h s) ∂hDraws l P) - ∫ x, f x ∂(posterior l).prod (normals I)) / h) (𝓝[>] 0)
      (𝓝 ((c ^ 2 / 2 - A) * ∫ x : Lat I × Lat I, ∑ v, ∑ i, x.2 v i * fderiv ℝ f x (pdir v i)
        ∂(posterior l).prod (normals I))) := by
  have hT : Test f := ⟨hf, hc⟩
  rw [← hmc_generator hl P hG hG1 hT A c]
  have _ := hl.prob
  set μ := (posterior l).prod (normals I) with hμ
  set W := μ.prod (P.prod (normals I)) with hW
  have pG : MeasurePreserving (fun s : (Lat I × Lat I) × Ω × Lat I => (s.1.1, s.2.1)) W ((posterior l).prod P) :=
    measurePreserving_fst.prod measurePreserving_fst
  have pz : MeasurePreserving (fun s : (Lat I × Lat I) × Ω × Lat I => s.2.2) W (normals I) :=
    measurePreserving_snd.comp measurePreserving_snd
  have pp : MeasurePreserving (fun s : (Lat I × Lat I) × Ω × Lat I => s.1.2) W (normals I) :=
    measurePreserving_snd.comp measurePreserving_fst
  have px : MeasurePreserving (fun s : (Lat I × Lat I) × Ω × Lat I => s.1) W μ := measurePreserving_fst
  have hX : AEStronglyMeasurable (fun s : (Lat I × Lat I) × Ω × Lat I => s.1) W := by fun_prop
  have mz : AEStronglyMeasurable (fun s : (Lat I × Lat I) × Ω × Lat I => ((0 : Lat I), c • s.2.2)) W :=
    (measurable_const.prodMk ((measurable_snd.comp measurable_snd).const_smul c)).aestronglyMeasurable
  have ha : MemLp (fun s : (Lat I × Lat I) × Ω × Lat I => ((0 : Lat I), c • s.2.2)) 2 W := by
    refine (((id_memLp (I := I) 2).comp_measurePreserving pz).const_smul c).mono mz (Eventually.of_forall fun s => ?_)
    simp
  have hB : Integrable (fun s : (Lat I × Lat I) × Ω × Lat I => K * (‖s.1.2‖ + ‖G s.2.1 s.1.1‖ + ‖s.2.2‖)) W :=
    (((((id_memLp (I := I) 1).comp_measurePreserving pp).integrable le_rfl).norm.add
      (pG.integrable_comp_of_integrable hG1).norm).add
        (((id_memLp (I := I) 1).comp_measurePreserving pz).integrable le_rfl).norm).const_mul K
  have h0 : ∫ s, fderiv ℝ f s.1 ((0 : Lat I), c • s.2.2) ∂W = 0 := by
    rw [integral_prod _ (Test_int1 hT hX ((ha.mono_exponent (by norm_num : (1 : ENNReal) ≤ 2)).integrable le_rfl))]
    refine integral_eq_zero_of_ae (Eventually.of_forall fun x => ?_)
    set L := ((fderiv ℝ f x).comp (ContinuousLinearMap.inr ℝ (Lat I) (Lat I))) with hL
    have h := integral_prod_mul (μ := P) (ν := normals I) (fun _ => (1 : ℝ)) (fun z => L z)
    simp only [one_mul, integral_const, probReal_univ, smul_eq_mul] at h
    have e : ∀ z : Lat I, fderiv ℝ f x ((0 : Lat I), c • z) = c * L z := by
      intro z
      rw [← smul_eq_mul, ← map_smul]
      rfl
    simp only [e, Pi.zero_apply]
    rw [integral_const_mul, h, lin_mean, mul_zero]
  have key := weak_limit W hT hX ha hB hb (fun h h1 h2 => Eventually.of_forall (hbB h h1 h2))
    (Eventually.of_forall hb0) h0
  refine (key.congr' ?_)
  filter_upwards [self_mem_nhdsWithin] with h hh
  have e1 : ∫ s : (Lat I × Lat I) × Ω × Lat I, f s.1 ∂W = ∫ x, f x ∂μ := by
    have := integral_map (μ := W) (φ := fun s : (Lat I × Lat I) × Ω × Lat I => s.1) (by fun_prop) (f := f)
      hT.cont.aestronglyMeasurable
    rw [← this, px.map_eq]
  rw [e1]
  congr 2
  have hp : MeasurePreserving (fun s : HDraws I Ω => ((s.1.1, mix now s.1.2.2 s.1.2.1), s.2)) (hDraws l P) W :=
    draws_law hl P now
  have hF : AEStronglyMeasurable (fun s : (Lat I × Lat I) × Ω × Lat I => f (s.1 + √h • ((0 : Lat I), c • s.2.2) + h • b h s)) W :=
    hT.disp_meas hX mz (hb h) _ _
  have e3 : ∀ F : (Lat I × Lat I) × Ω × Lat I → ℝ, AEStronglyMeasurable F W →
      ∫ y, F y ∂W = ∫ s : HDraws I Ω, F ((s.1.1, mix now s.1.2.2 s.1.2.1), s.2) ∂hDraws l P := by
    intro F hF
    rw [← hp.map_eq] at hF
    have e2 := integral_map (f := F) hp.measurable.aemeasurable hF
    rwa [hp.map_eq] at e2
  rw [e3 _ hF]
  exact integral_congr_ae (Eventually.of_forall fun s => by simp only [hstep h hh s])

/-- The state of SGHMC with position `q` and momentum `h p`. -/
def hState (h : ℝ) (q p : Lat I) : (v : V) → HState (I v) := fun v => ⟨q v, fun i => h * p v i⟩

/-- The position and the momentum divided by `h`. -/
noncomputable def hScaled (h : ℝ) (s : (v : V) → HState (I v)) : Lat I × Lat I :=
  (fun v => (s v).q, fun v i => (s v).v i / h)

omit [Fintype V] [∀ v, Fintype (I v)] in
theorem oldV_mix {h : ℝ} (hh : 0 < h) (now : V → Bool) (r p : Lat I) :
    oldV (h ^ 2) now r (fun v i => h * p v i) = h • mix now r p := by
  ext v i
  simp only [oldV, mix, Pi.smul_apply, smul_eq_mul, Real.sqrt_sq hh.le]
  cases now v <;> simp

theorem noise_scale {h A b : ℝ} (hh : 0 < h) : √(2 * (A * h - b * h) * h ^ 2) = h * (√h * √(2 * (A - b))) := by
  rw [show 2 * (A * h - b * h) * h ^ 2 = h ^ 2 * (h * (2 * (A - b))) by ring, Real.sqrt_mul (by positivity),
    Real.sqrt_mul hh.le, Real.sqrt_sq hh.le]

/-- The first order SGHMC on any smooth model.  With step size `h` the learning rate is `h²`, the friction `A h` and the
estimated variance `b h`.  If the position has the posterior distribution and the momentum is normal with variance `h²`,
one iteration, with or without resampling, changes the mean of every test function of position and momentum by the given
multiple of `h` to first order, which is 0 for the default estimate `b = 0`. -/
theorem C90_sghmc1_variance {l : Lat I → ℝ} (hl : LogDens l) (P : Measure Ω) [IsProbabilityMeasure P]
    {G : Ω → Lat I → Lat I} (hG : Unbiased P G l)
    (hG1 : Integrable (fun s : Lat I × Ω => G s.2 s.1) ((posterior l).prod P)) (now : V → Bool) {A b : ℝ} (hA : 0 ≤ A)
    (hb : b ≤ A) {f : Lat I × Lat I → ℝ} (hf : ContDiff ℝ 3 f) (hc : HasCompactSupport f) :
    Tendsto (fun h : ℝ => ((∫ s : HDraws I Ω, f (hScaled h fun v =>
        sghmc1 (h ^ 2) (A * h) (b * h) (G s.2.1) now s.1.2.2 s.2.2 v (hState h s.1.1 s.1.2.1)) ∂hDraws l P) -
          ∫ x, f x ∂(posterior l).prod (normals I)) / h) (𝓝[>] 0)
      (𝓝 (-b * ∫ x : Lat I × Lat I, ∑ v, ∑ i, x.2 v i * fderiv ℝ f x (0, unit v i) ∂(posterior l).prod (normals I))) := by
  have _ := hl.prob
  set c := √(2 * (A - b)) with hcdef
  have hc2 : c ^ 2 / 2 - A = -b := by
    rw [hcdef, Real.sq_sqrt (by linarith)]
    ring
  rw [← hc2]
  have c0 : 0 ≤ c := Real.sqrt_nonneg _
  have mG : AEStronglyMeasurable (fun s : (Lat I × Lat I) × Ω × Lat I => G s.2.1 s.1.1)
      (((posterior l).prod (normals I)).prod (P.prod (normals I))) :=
    hG1.1.comp_measurePreserving (measurePreserving_fst.prod measurePreserving_fst)
  refine hmc_limit hl P hG hG1 now (K := 1 + A + c)
    (b := fun h s => (s.1.2 + h • (G s.2.1 s.1.1 - A • s.1.2) + √h • c • s.2.2, G s.2.1 s.1.1 - A • s.1.2)) ?_ ?_ ?_ ?_ hf hc
  · intro h
    have m1 : AEStronglyMeasurable (fun s : (Lat I × Lat I) × Ω × Lat I => s.1.2)
      (((posterior l).prod (normals I)).prod (P.prod (normals I))) := by fun_prop
    have m2 : AEStronglyMeasurable (fun s : (Lat I × Lat I) × Ω × Lat I => s.2.2)
      (((posterior l).prod (normals I)).prod (P.prod (normals I))) :=
      (measurable_snd.comp measurable_snd).aestronglyMeasurable
    have m3 := mG.sub (m1.const_smul A)
    exact ((m1.add (m3.const_smul h)).add ((m2.const_smul c).const_smul (√h))).prodMk m3
  · intro h h1 h2 s
    have hs : √h ≤ 1 := Real.sqrt_le_one.2 h2
    have n1 : ‖G s.2.1 s.1.1 - A • s.1.2‖ ≤ ‖G s.2.1 s.1.1‖ + A * ‖s.1.2‖ := by
      refine (norm_sub_le _ _).trans ?_
      rw [norm_smul, Real.norm_of_nonneg hA]
    have n2 : ‖s.1.2 + h • (G s.2.1 s.1.1 - A • s.1.2) + √h • c • s.2.2‖ ≤
        ‖s.1.2‖ + (‖G s.2.1 s.1.1‖ + A * ‖s.1.2‖) + c * ‖s.2.2‖ := by
      refine (norm_add₃_le).trans ?_
      rw [norm_smul, norm_smul, norm_smul, Real.norm_of_nonneg h1.le, Real.norm_of_nonneg (Real.sqrt_nonneg h),
        Real.norm_of_nonneg c0]
      have e1 : h * ‖G s.2.1 s.1.1 - A • s.1.2‖ ≤ ‖G s.2.1 s.1.1‖ + A * ‖s.1.2‖ :=
        (mul_le_of_le_one_left (norm_nonneg _) h2).trans n1
      have e2 : √h * (c * ‖s.2.2‖) ≤ c * ‖s.2.2‖ := mul_le_of_le_one_left (by positivity) hs
      linarith
    have p1 := norm_nonneg s.1.2
    have p2 := norm_nonneg (G s.2.1 s.1.1)
    have p3 := norm_nonneg s.2.2
    have q1 := mul_nonneg hA p1
    have q2 := mul_nonneg hA p2
    have q3 := mul_nonneg hA p3
    have q4 := mul_nonneg c0 p1
    have q5 := mul_nonneg c0 p2
    have q6 := mul_nonneg c0 p3
    rw [Prod.norm_def]
    refine max_le ?_ ?_ <;> nlinarith
  · intro s
    have t1 : Tendsto (fun h : ℝ => h) (𝓝[>] 0) (𝓝 0) := nhdsWithin_le_nhds
    have t2 : Tendsto (fun h : ℝ => √h) (𝓝[>] 0) (𝓝 0) := by
      have := (Real.continuous_sqrt.tendsto 0).mono_left (nhdsWithin_le_nhds (s := Ioi 0))
      simpa using this
    have h1 := ((tendsto_const_nhds (x := s.1.2)).add (t1.smul_const (G s.2.1 s.1.1 - A • s.1.2))).add
      (t2.smul_const (c • s.2.2))
    simp only [zero_smul, add_zero] at h1
    exact h1.prodMk_nhds tendsto_const_nhds
  · intro h hh s
    have hold := oldV_mix hh now s.1.2.2 s.1.2.1
    have hh0 := hh.ne'
    have e1 : ∀ v i, (sghmc1 (h ^ 2) (A * h) (b * h) (G s.2.1) now s.1.2.2 s.2.2 v (hState h s.1.1 s.1.2.1)).v i =
        h * (mix now s.1.2.2 s.1.2.1 v i + h * (G s.2.1 s.1.1 v i - A * mix now s.1.2.2 s.1.2.1 v i) +
          √h * (c * s.2.2 v i)) := by
      intro v i
      have := congrFun (congrFun hold v) i
      simp only [Pi.smul_apply, smul_eq_mul] at this
      simp only [sghmc1, hState, this, noise_scale hh, ← hcdef]
      ring
    have e2 : ∀ v i, (sghmc1 (h ^ 2) (A * h) (b * h) (G s.2.1) now s.1.2.2 s.2.2 v (hState h s.1.1 s.1.2.1)).q i =
        s.1.1 v i + (sghmc1 (h ^ 2) (A * h) (b * h) (G s.2.1) now s.1.2.2 s.2.2 v (hState h s.1.1 s.1.2.1)).v i :=
      fun v i => rfl
    refine Prod.ext ?_ ?_
    · ext v i
      simp only [hScaled, Prod.fst_add, Prod.smul_fst, Pi.add_apply, Pi.smul_apply, Pi.sub_apply, smul_eq_mul, smul_zero,
        Pi.zero_apply]
      rw [e2, e1]
      ring
    · ext v i
      simp only [hScaled, Prod.snd_add, Prod.smul_snd, Pi.add_apply, Pi.smul_apply, Pi.sub_apply, smul_eq_mul]
      rw [e1]
      field_simp
      ring

/-- The first order SGHMC with the default variance estimate keeps the posterior to first order. -/
theorem C90_sghmc1 {l : Lat I → ℝ} (hl : LogDens l) (P : Measure Ω) [IsProbabilityMeasure P]
    {G : Ω → Lat I → Lat I} (hG : Unbiased P G l)
    (hG1 : Integrable (fun s : Lat I × Ω => G s.2 s.1) ((posterior l).prod P)) (now : V → Bool) {A : ℝ} (hA : 0 ≤ A)
    {f : Lat I × Lat I → ℝ} (hf : ContDiff ℝ 3 f) (hc : HasCompactSupport f) :
    Tendsto (fun h : ℝ => ((∫ s : HDraws I Ω, f (hScaled h fun v =>
        sghmc1 (h ^ 2) (A * h) 0 (G s.2.1) now s.1.2.2 s.2.2 v (hState h s.1.1 s.1.2.1)) ∂hDraws l P) -
          ∫ x, f x ∂(posterior l).prod (normals I)) / h) (𝓝[>] 0) (𝓝 0) := by
  simpa using C90_sghmc1_variance hl P hG hG1 now hA hA (b := 0) hf hc

theorem sqrt_tendsto : Tendsto (fun h : ℝ => √h) (𝓝[>] 0) (𝓝 0) := by
  have := (Real.continuous_sqrt.tendsto 0).mono_left (nhdsWithin_le_nhds (s := Ioi 0))
  simpa using this

theorem exp_slope (a : ℝ) : Tendsto (fun h : ℝ => (Real.exp (a * h) - 1) / h) (𝓝[>] 0) (𝓝 a) := by
  have h1 : HasDerivAt (fun h : ℝ => Real.exp (a * h)) a 0 := by
    have := ((hasDerivAt_id (0 : ℝ)).const_mul a).exp
    simpa using this
  have h2 := h1.tendsto_slope_zero_right
  simp only [zero_add, mul_zero, Real.exp_zero, smul_eq_mul] at h2
  exact h2.congr fun h => by rw [div_eq_inv_mul]

/-- The second order SGHMC, the default, on any smooth model.  The gradient estimates are also Lipschitz. -/
theorem C90_sghmc2_variance {l : Lat I → ℝ} (hl : LogDens l) (P : Measure Ω) [IsProbabilityMeasure P]
    {G : Ω → Lat I → Lat I} (hG : Unbiased P G l) (hGm : Measurable fun s : Lat I × Ω => G s.2 s.1)
    (hG1 : Integrable (fun s : Lat I × Ω => G s.2 s.1) ((posterior l).prod P)) {Λ : ℝ}
    (hLip : ∀ ω x y, ‖G ω x - G ω y‖ ≤ Λ * ‖x - y‖) (now : V → Bool) {A b : ℝ} (hA : 0 ≤ A)
    (hb : b ≤ A) {f : Lat I × Lat I → ℝ} (hf : ContDiff ℝ 3 f) (hc : HasCompactSupport f) :
    Tendsto (fun h : ℝ => ((∫ s : HDraws I Ω, f (hScaled h fun v =>
        sghmc2 (h ^ 2) (A * h) (b * h) (G s.2.1) now s.1.2.2 s.2.2 v (hState h s.1.1 s.1.2.1)) ∂hDraws l P) -
          ∫ x, f x ∂(posterior l).prod (normals I)) / h) (𝓝[>] 0)
      (𝓝 (-b * ∫ x : Lat I × Lat I, ∑ v, ∑ i, x.2 v i * fderiv ℝ f x (0, unit v i) ∂(posterior l).prod (normals I))) := by
  have _ := hl.prob
  wlog hΛ : 0 ≤ Λ generalizing Λ
  · exact this (Λ := |Λ|) (fun ω x y => (hLip ω x y).trans
      (mul_le_mul_of_nonneg_right (le_abs_self _) (norm_nonneg _))) (abs_nonneg _)
  set c := √(2 * (A - b)) with hcdef
  have hc2 : c ^ 2 / 2 - A = -b := by
    rw [hcdef, Real.sq_sqrt (by linarith)]
    ring
  rw [← hc2]
  have c0 : 0 ≤ c := Real.sqrt_nonneg _
  set d : ℝ → ℝ := fun h => Real.exp (-0.5 * (A * h)) with hd
  set g1 : ℝ → (Lat I × Lat I) × Ω × Lat I → Lat I := fun h s => G s.2.1 (s.1.1 + (h / 2) • s.1.2) with hg1
  set p1 : ℝ → (Lat I × Lat I) × Ω × Lat I → Lat I := fun h s =>
    d h • (d h • s.1.2 + h • g1 h s + (√h * c) • s.2.2) with hp1
  have mz : Measurable fun s : (Lat I × Lat I) × Ω × Lat I => s.2.2 := measurable_snd.comp measurable_snd
  have mp : Measurable fun s : (Lat I × Lat I) × Ω × Lat I => s.1.2 := measurable_snd.comp measurable_fst
  have mg : ∀ h, Measurable (g1 h) := fun h => by
    have h1 : Measurable fun s : (Lat I × Lat I) × Ω × Lat I => (s.1.1 + (h / 2) • s.1.2, s.2.1) :=
      ((measurable_fst.comp measurable_fst).add (mp.const_smul (h / 2))).prodMk (measurable_fst.comp measurable_snd)
    exact hGm.comp h1
  have mp1 : ∀ h, Measurable (p1 h) := fun h =>
    (((mp.const_smul (d h)).add ((mg h).const_smul h)).add (mz.const_smul (√h * c))).const_smul (d h)
  have d0 : ∀ h, 0 ≤ d h := fun h => (Real.exp_pos _).le
  have d1 : ∀ h, 0 < h → d h ≤ 1 := fun h hh => by
    rw [hd]
    refine Real.exp_le_one_iff.2 ?_
    have := mul_nonneg hA hh.le
    linarith
  have ngs : ∀ h, 0 < h → h ≤ 1 → ∀ s, ‖g1 h s‖ ≤ ‖G s.2.1 s.1.1‖ + Λ * ‖s.1.2‖ := by
    intro h h1 h2 s
    have e := hLip s.2.1 (s.1.1 + (h / 2) • s.1.2) s.1.1
    rw [add_sub_cancel_left, norm_smul, Real.norm_of_nonneg (by positivity)] at e
    have e2 : Λ * (h / 2 * ‖s.1.2‖) ≤ Λ * ‖s.1.2‖ :=
      mul_le_mul_of_nonneg_left (mul_le_of_le_one_left (norm_nonneg _) (by linarith)) hΛ
    have e3 : ‖g1 h s‖ ≤ ‖G s.2.1 (s.1.1 + (h / 2) • s.1.2) - G s.2.1 s.1.1‖ + ‖G s.2.1 s.1.1‖ := by
      rw [hg1]
      simpa using norm_add_le (G s.2.1 (s.1.1 + (h / 2) • s.1.2) - G s.2.1 s.1.1) (G s.2.1 s.1.1)
    linarith
  have nps : ∀ h, 0 < h → h ≤ 1 → ∀ s, ‖p1 h s‖ ≤ ‖s.1.2‖ + (‖G s.2.1 s.1.1‖ + Λ * ‖s.1.2‖) + c * ‖s.2.2‖ := by
    intro h h1 h2 s
    have hs : √h ≤ 1 := Real.sqrt_le_one.2 h2
    rw [hp1]
    simp only
    rw [norm_smul, Real.norm_of_nonneg (d0 h)]
    refine (mul_le_of_le_one_left (norm_nonneg _) (d1 h h1)).trans ?_
    refine norm_add₃_le.trans ?_
    rw [norm_smul, norm_smul, norm_smul, Real.norm_of_nonneg (d0 h), Real.norm_of_nonneg h1.le,
      Real.norm_of_nonneg (by positivity)]
    have e1 := mul_le_of_le_one_left (norm_nonneg s.1.2) (d1 h h1)
    have e2 := (mul_le_of_le_one_left (norm_nonneg (g1 h s)) h2).trans (ngs h h1 h2 s)
    have e3 : √h * c * ‖s.2.2‖ ≤ c * ‖s.2.2‖ := by
      rw [mul_assoc]
      exact mul_le_of_le_one_left (by positivity) hs
    linarith
  have dq : ∀ h, d h ^ 2 = Real.exp (-A * h) := fun h => by
    rw [hd, ← Real.exp_nat_mul]
    congr 1
    push_cast
    ring
  refine hmc_limit hl P hG hG1 now (K := 1 + A + Λ + c + c * A)
    (b := fun h s => ((1 / 2 : ℝ) • (s.1.2 + p1 h s),
      ((d h ^ 2 - 1) / h) • s.1.2 + d h • g1 h s + (c * ((d h - 1) / √h)) • s.2.2)) ?_ ?_ ?_ ?_ hf hc
  · intro h
    exact (((mp.add (mp1 h)).const_smul (1 / 2 : ℝ)).prodMk (((mp.const_smul ((d h ^ 2 - 1) / h)).add
      ((mg h).const_smul (d h))).add (mz.const_smul (c * ((d h - 1) / √h))))).aestronglyMeasurable
  · intro h h1 h2 s
    have hs1 : √h ≤ 1 := Real.sqrt_le_one.2 h2
    have hs0 : 0 < √h := Real.sqrt_pos.2 h1
    have hhs : h ≤ √h := by
      calc h = √h * √h := (Real.mul_self_sqrt h1.le).symm
        _ ≤ √h := mul_le_of_le_one_left hs0.le hs1
    have b1 : |(d h ^ 2 - 1) / h| ≤ A := by
      rw [abs_div, abs_of_pos h1, div_le_iff₀ h1, abs_le, dq]
      have l1 := Real.add_one_le_exp (-A * h)
      have l2 : Real.exp (-A * h) ≤ 1 := Real.exp_le_one_iff.2 (by nlinarith [mul_nonneg hA h1.le])
      constructor <;> nlinarith [mul_nonneg hA h1.le]
    have b2 : |c * ((d h - 1) / √h)| ≤ c * A := by
      rw [abs_mul, abs_of_nonneg c0]
      refine mul_le_mul_of_nonneg_left ?_ c0
      rw [abs_div, abs_of_pos hs0, div_le_iff₀ hs0, abs_le]
      have l1 := Real.add_one_le_exp (-0.5 * (A * h))
      have l2 := d1 h h1
      have l3 := mul_le_mul_of_nonneg_left hhs hA
      have l4 := mul_nonneg hA hs0.le
      have l5 := mul_nonneg hA h1.le
      simp only [hd] at l2 ⊢
      constructor <;> linarith
    have n1 : ‖(1 / 2 : ℝ) • (s.1.2 + p1 h s)‖ ≤
        1 / 2 * (‖s.1.2‖ + (‖s.1.2‖ + (‖G s.2.1 s.1.1‖ + Λ * ‖s.1.2‖) + c * ‖s.2.2‖)) := by
      rw [norm_smul, Real.norm_of_nonneg (by norm_num)]
      have := (norm_add_le s.1.2 (p1 h s)).trans (add_le_add_right (nps h h1 h2 s) _)
      linarith
    have n2 : ‖((d h ^ 2 - 1) / h) • s.1.2 + d h • g1 h s + (c * ((d h - 1) / √h)) • s.2.2‖ ≤
        A * ‖s.1.2‖ + (‖G s.2.1 s.1.1‖ + Λ * ‖s.1.2‖) + c * A * ‖s.2.2‖ := by
      refine norm_add₃_le.trans ?_
      rw [norm_smul, norm_smul, norm_smul, Real.norm_of_nonneg (d0 h), Real.norm_eq_abs, Real.norm_eq_abs]
      have e1 := mul_le_mul_of_nonneg_right b1 (norm_nonneg s.1.2)
      have e2 := mul_le_mul_of_nonneg_right b2 (norm_nonneg s.2.2)
      have e3 := (mul_le_of_le_one_left (norm_nonneg (g1 h s)) (d1 h h1)).trans (ngs h h1 h2 s)
      linarith
    have q0 := norm_nonneg s.1.2
    have q1 := norm_nonneg (G s.2.1 s.1.1)
    have q2 := norm_nonneg s.2.2
    have r1 := mul_nonneg hA q0
    have r2 := mul_nonneg hA q1
    have r3 := mul_nonneg hA q2
    have r4 := mul_nonneg c0 q0
    have r5 := mul_nonneg c0 q1
    have r6 := mul_nonneg c0 q2
    have r7 := mul_nonneg hΛ q0
    have r8 := mul_nonneg hΛ q1
    have r9 := mul_nonneg hΛ q2
    have t1 := mul_nonneg c0 r1
    have t2 := mul_nonneg c0 r2
    have t3 := mul_nonneg c0 r3
    rw [Prod.norm_def]
    refine max_le (n1.trans ?_) (n2.trans ?_) <;> nlinarith
  · intro s
    have t1 : Tendsto (fun h : ℝ => h) (𝓝[>] 0) (𝓝 0) := nhdsWithin_le_nhds
    have t2 := sqrt_tendsto
    have td : Tendsto d (𝓝[>] 0) (𝓝 1) := by
      have hcont : Continuous d := by
        rw [hd]
        fun_prop
      have := (hcont.tendsto 0).mono_left (nhdsWithin_le_nhds (s := Ioi 0))
      simpa [hd] using this
    have tg : Tendsto (fun h => g1 h s) (𝓝[>] 0) (𝓝 (G s.2.1 s.1.1)) := by
      have hcG : Continuous (G s.2.1) := (LipschitzWith.of_dist_le_mul (K := ⟨Λ, hΛ⟩) fun x y => by
        rw [dist_eq_norm, dist_eq_norm]
        exact hLip s.2.1 x y).continuous
      have h1 : Tendsto (fun h : ℝ => s.1.1 + (h / 2) • s.1.2) (𝓝[>] 0) (𝓝 (s.1.1 + ((0 : ℝ) / 2) • s.1.2)) :=
        tendsto_const_nhds.add ((t1.div_const 2).smul_const _)
      have h2 := (hcG.tendsto _).comp h1
      rw [zero_div, zero_smul, add_zero] at h2
      exact h2
    have tp : Tendsto (fun h => p1 h s) (𝓝[>] 0) (𝓝 s.1.2) := by
      have := td.smul (((td.smul_const s.1.2).add (t1.smul tg)).add ((t2.mul_const c).smul_const s.2.2))
      rw [zero_smul, one_smul, one_smul, zero_mul, zero_smul, add_zero, add_zero] at this
      exact this
    have ta : Tendsto (fun h => (d h ^ 2 - 1) / h) (𝓝[>] 0) (𝓝 (-A)) := by
      simp only [dq]
      exact exp_slope (-A)
    have tb : Tendsto (fun h => c * ((d h - 1) / √h)) (𝓝[>] 0) (𝓝 0) := by
      have h1 := ((exp_slope (-0.5 * A)).mul t2).const_mul c
      rw [mul_zero, mul_zero] at h1
      refine h1.congr' ?_
      filter_upwards [self_mem_nhdsWithin] with h hh
      have hh' : (0 : ℝ) < h := hh
      have hs0 : √h ≠ 0 := (Real.sqrt_pos.2 hh').ne'
      have e : √h * √h = h := Real.mul_self_sqrt hh'.le
      simp only [hd]
      rw [show -0.5 * A * h = -0.5 * (A * h) by ring]
      congr 1
      rw [div_mul_eq_mul_div, div_eq_div_iff hh'.ne' hs0, mul_assoc, e]
    have h1 := ((tendsto_const_nhds (x := s.1.2)).add tp).const_smul (1 / 2 : ℝ)
    have h2 := ((ta.smul_const s.1.2).add (td.smul tg)).add (tb.smul_const s.2.2)
    have e1 : (1 / 2 : ℝ) • (s.1.2 + s.1.2) = s.1.2 := by
      rw [← two_smul ℝ s.1.2, smul_smul]
      norm_num
    have e2 : -A • s.1.2 + (1 : ℝ) • G s.2.1 s.1.1 + (0 : ℝ) • s.2.2 = G s.2.1 s.1.1 - A • s.1.2 := by
      rw [one_smul, zero_smul, add_zero, neg_smul]
      abel
    rw [e1] at h1
    rw [e2] at h2
    exact h1.prodMk_nhds h2
  · intro h hh s
    have hold := oldV_mix hh now s.1.2.2 s.1.2.1
    have hh0 := hh.ne'
    have hs0 : √h ≠ 0 := (Real.sqrt_pos.2 hh).ne'
    have hss : √h * √h = h := Real.mul_self_sqrt hh.le
    set S : (Lat I × Lat I) × Ω × Lat I := ((s.1.1, mix now s.1.2.2 s.1.2.1), s.2) with hS
    have e0 : ∀ v i, oldV (h ^ 2) now s.1.2.2 (fun v i => h * s.1.2.1 v i) v i = h * S.1.2 v i := fun v i =>
      congrFun (congrFun hold v) i
    have eg : (fun v i => s.1.1 v i + 0.5 * oldV (h ^ 2) now s.1.2.2 (fun v i => h * s.1.2.1 v i) v i) =
        S.1.1 + (h / 2) • S.1.2 := by
      ext v i
      rw [e0]
      simp only [hS, Pi.add_apply, Pi.smul_apply, smul_eq_mul]
      ring
    have e1 : ∀ v i, (sghmc2 (h ^ 2) (A * h) (b * h) (G s.2.1) now s.1.2.2 s.2.2 v (hState h s.1.1 s.1.2.1)).v i =
        h * p1 h S v i := by
      intro v i
      simp only [sghmc2, hState]
      rw [e0, eg, noise_scale hh, ← hcdef]
      simp only [hp1, hg1, hd, hS, Pi.add_apply, Pi.smul_apply, smul_eq_mul]
      ring
    have e2 : ∀ v i, (sghmc2 (h ^ 2) (A * h) (b * h) (G s.2.1) now s.1.2.2 s.2.2 v (hState h s.1.1 s.1.2.1)).q i =
        s.1.1 v i + 0.5 * (h * S.1.2 v i) + 0.5 * (h * p1 h S v i) := by
      intro v i
      rw [← e1, ← e0]
      rfl
    refine Prod.ext ?_ ?_
    · ext v i
      simp only [hScaled, Prod.fst_add, Prod.smul_fst, Pi.add_apply, Pi.smul_apply, smul_eq_mul, smul_zero,
        Pi.zero_apply]
      rw [e2]
      simp only [hS]
      ring
    · ext v i
      simp only [hScaled, Prod.snd_add, Prod.smul_snd, Pi.add_apply, Pi.smul_apply, smul_eq_mul]
      rw [e1]
      simp only [hp1, Pi.add_apply, Pi.smul_apply, smul_eq_mul]
      have x1 : h * ((d h ^ 2 - 1) / h * S.1.2 v i) = (d h ^ 2 - 1) * S.1.2 v i := by field_simp
      have x2 : h * (c * ((d h - 1) / √h) * s.2.2 v i) = √h * (c * (d h - 1)) * s.2.2 v i := by
        have : h * (c * ((d h - 1) / √h) * s.2.2 v i) = √h * √h * (c * ((d h - 1) / √h) * s.2.2 v i) := by rw [hss]
        rw [this]
        field_simp
      have x3 : S.2 = s.2 := rfl
      have x4 : mix now s.1.2.2 s.1.2.1 v i = S.1.2 v i := rfl
      rw [mul_div_cancel_left₀ _ hh0, x3, x4]
      linear_combination -x1 - x2

/-- The second order SGHMC with the default variance estimate keeps the posterior to first order. -/
theorem C90_sghmc2 {l : Lat I → ℝ} (hl : LogDens l) (P : Measure Ω) [IsProbabilityMeasure P]
    {G : Ω → Lat I → Lat I} (hG : Unbiased P G l) (hGm : Measurable fun s : Lat I × Ω => G s.2 s.1)
    (hG1 : Integrable (fun s : Lat I × Ω => G s.2 s.1) ((posterior l).prod P)) {Λ : ℝ}
    (hLip : ∀ ω x y, ‖G ω x - G ω y‖ ≤ Λ * ‖x - y‖) (now : V → Bool) {A : ℝ} (hA : 0 ≤ A)
    {f : Lat I × Lat I → ℝ} (hf : ContDiff ℝ 3 f) (hc : HasCompactSupport f) :
    Tendsto (fun h : ℝ => ((∫ s : HDraws I Ω, f (hScaled h fun v =>
        sghmc2 (h ^ 2) (A * h) 0 (G s.2.1) now s.1.2.2 s.2.2 v (hState h s.1.1 s.1.2.1)) ∂hDraws l P) -
          ∫ x, f x ∂(posterior l).prod (normals I)) / h) (𝓝[>] 0) (𝓝 0) := by
  simpa using C90_sghmc2_variance hl P hG hGm hG1 hLip now hA hA (b := 0) hf hc

end ZhuSuan.Sgmcmc

import Verif.Lemmas.WeakExpansion
import Verif.Spec.SgmcmcWeak
import Mathlib.Probability.Moments.Variance

/-!
# Densities, integration by parts and normal draws
-/

set_option autoImplicit false

open MeasureTheory ProbabilityTheory Filter Topology Set

namespace ZhuSuan.SgWeak

section Dens

variable {E : Type*} [NormedAddCommGroup E] [NormedSpace ℝ E] [FiniteDimensional ℝ E] [MeasureSpace E] [BorelSpace E]
  [(volume : Measure E).IsAddHaarMeasure]

theorem LogDens.norm_pos {l : E → ℝ} (hl : LogDens l) : 0 < ∫ y, Real.exp (l y) := by
  rw [integral_pos_iff_support_of_nonneg (fun x => (Real.exp_pos _).le) hl.int]
  have : Function.support (fun x => Real.exp (l x)) = univ := by
    ext x
    simp [Real.exp_ne_zero]
  rw [this]
  exact Measure.measure_univ_pos.2 (NeZero.ne _)

theorem LogDens.prob {l : E → ℝ} (hl : LogDens l) : IsProbabilityMeasure (posterior l) := by
  refine ⟨?_⟩
  have hZ := hl.norm_pos
  rw [posterior, withDensity_apply _ MeasurableSet.univ, setLIntegral_univ,
    ← ofReal_integral_eq_lintegral_ofReal (hl.int.div_const _)
      (Eventually.of_forall fun x => div_nonneg (Real.exp_pos _).le hZ.le), integral_div, div_self hZ.ne']
  simp

theorem LogDens.integral {l : E → ℝ} (hl : LogDens l) (u : E → ℝ) :
    ∫ x, u x ∂posterior l = (∫ x, u x * Real.exp (l x)) / ∫ y, Real.exp (l y) := by
  have hZ := hl.norm_pos
  have hm : Measurable fun x => Real.exp (l x) / ∫ y, Real.exp (l y) :=
    (Real.continuous_exp.comp hl.smooth.continuous).measurable.div_const _
  rw [posterior, integral_withDensity_eq_integral_toReal_smul hm.ennreal_ofReal
    (Eventually.of_forall fun x => ENNReal.ofReal_lt_top), ← integral_div]
  congr 1
  ext x
  rw [ENNReal.toReal_ofReal (div_nonneg (Real.exp_pos _).le hZ.le), smul_eq_mul]
  ring

/-- Integration by parts against a smooth density, for a function with a derivative in one direction. -/
theorem LogDens.parts_line {l : E → ℝ} (hl : LogDens l) {u u' : E → ℝ} {d : E} (hu : Continuous u) (hu' : Continuous u')
    (hc : HasCompactSupport u) (hc' : HasCompactSupport u') (hd : ∀ x, HasLineDerivAt ℝ u (u' x) x d) :
    ∫ x, u' x ∂posterior l = - ∫ x, u x * fderiv ℝ l x d ∂posterior l := by
  rw [hl.integral, hl.integral, ← neg_div]
  congr 1
  have hexp : ∀ x, HasFDerivAt (fun x => Real.exp (l x)) (Real.exp (l x) • fderiv ℝ l x) x := fun x =>
    (((hl.smooth.differentiable (by norm_num)) x).hasFDerivAt).exp
  have hline : ∀ x, HasLineDerivAt ℝ (fun x => Real.exp (l x)) (Real.exp (l x) * fderiv ℝ l x d) x d := fun x => by
    simpa using (hexp x).hasLineDerivAt d
  have cl : Continuous fun x => fderiv ℝ l x d := (hl.smooth.continuous_fderiv (by norm_num)).clm_apply continuous_const
  have ce : Continuous fun x => Real.exp (l x) := Real.continuous_exp.comp hl.smooth.continuous
  have h := integral_bilinear_hasLineDerivAt_right_eq_neg_left_of_integrable (μ := (volume : Measure E)) (f := u) (f' := u')
    (g := fun x => Real.exp (l x)) (g' := fun x => Real.exp (l x) * fderiv ℝ l x d) (v := d)
    (B := ContinuousLinearMap.mul ℝ ℝ) ?_ ?_ ?_ ?_ ?_
  · simp only [ContinuousLinearMap.mul_apply'] at h
    rw [← neg_eq_iff_eq_neg] at h
    rw [← h]
    congr 1
    refine integral_congr_ae (Eventually.of_forall fun x => ?_)
    simp only
    ring
  · exact (hu'.mul ce).integrable_of_hasCompactSupport hc'.mul_right
  · exact (hu.mul (ce.mul cl)).integrable_of_hasCompactSupport hc.mul_right
  · exact (hu.mul ce).integrable_of_hasCompactSupport hc.mul_right
  · exact fun x _ => hd x
  · exact fun x _ => hline x

/-- Integration by parts against a smooth density. -/
theorem LogDens.parts {l : E → ℝ} (hl : LogDens l) {u : E → ℝ} (hu : ContDiff ℝ 1 u) (hc : HasCompactSupport u) (d : E) :
    ∫ x, fderiv ℝ u x d ∂posterior l = - ∫ x, u x * fderiv ℝ l x d ∂posterior l :=
  hl.parts_line hu.continuous ((hu.continuous_fderiv (by norm_num)).clm_apply continuous_const) hc
    ((hc.fderiv ℝ).comp_left (g := fun L : E →L[ℝ] ℝ => L d) (by simp))
    fun x => (hu.differentiable (by norm_num) x).hasFDerivAt.hasLineDerivAt d

end Dens

section Pi

open scoped ENNReal

/-- Tonelli for a product of functions of the coordinates, coordinates `0 … n - 1`, each with its own type. -/
theorem lintegral_fin_prod {n : ℕ} {E : Fin n → Type*} [∀ i, MeasurableSpace (E i)] (μ : (i : Fin n) → Measure (E i))
    [∀ i, SigmaFinite (μ i)] (f : (i : Fin n) → E i → ℝ≥0∞) (hf : ∀ i, Measurable (f i)) :
    ∫⁻ x, ∏ i, f i (x i) ∂(Measure.pi μ) = ∏ i, ∫⁻ x, f i x ∂(μ i) := by
  induction n with
  | zero => simp
  | succ n ih =>
    have hmp := (measurePreserving_piFinSuccAbove (α := E) μ 0).symm
    rw [← hmp.lintegral_comp_emb (MeasurableEquiv.measurableEmbedding _)]
    have e : ∀ z : E 0 × ((i : Fin n) → E (Fin.succAbove 0 i)),
        ∏ i, f i ((MeasurableEquiv.piFinSuccAbove E 0).symm z i) =
          f 0 z.1 * ∏ i, f (Fin.succAbove 0 i) (z.2 i) := by
      intro z
      rw [Fin.prod_univ_succAbove _ 0]
      congr 1
    simp only [e]
    have hm : Measurable fun x : (i : Fin n) → E (Fin.succAbove 0 i) => ∏ i, f (Fin.succAbove 0 i) (x i) :=
      Finset.measurable_prod _ fun i _ => (hf _).comp (measurable_pi_apply i)
    rw [lintegral_prod_mul (f := f 0) (g := fun x : (i : Fin n) → E (Fin.succAbove 0 i) => ∏ i, f (Fin.succAbove 0 i) (x i))
      (hf 0).aemeasurable hm.aemeasurable,
      ih (fun i => μ (Fin.succAbove 0 i)) (fun i => f (Fin.succAbove 0 i)) (fun i => hf _), Fin.prod_univ_succAbove _ 0]

/-- Tonelli for a product of functions of the coordinates, each with its own type. -/
theorem lintegral_pi_prod {ι : Type*} [Fintype ι] {E : ι → Type*} [∀ i, MeasurableSpace (E i)] (μ : (i : ι) → Measure (E i))
    [∀ i, SigmaFinite (μ i)] (f : (i : ι) → E i → ℝ≥0∞) (hf : ∀ i, Measurable (f i)) :
    ∫⁻ x, ∏ i, f i (x i) ∂(Measure.pi μ) = ∏ i, ∫⁻ x, f i x ∂(μ i) := by
  let e := (Fintype.equivFin ι).symm
  have hmp := measurePreserving_piCongrLeft (α := E) μ e
  rw [← hmp.lintegral_comp_emb (MeasurableEquiv.measurableEmbedding _)]
  simp_rw [← e.prod_comp, MeasurableEquiv.coe_piCongrLeft, Equiv.piCongrLeft_apply_apply]
  exact lintegral_fin_prod (fun i => μ (e i)) (fun i => f (e i)) fun i => hf _

/-- Independent coordinates with densities have the product of the densities. -/
theorem pi_withDensity {ι : Type*} [Fintype ι] {E : ι → Type*} [∀ i, MeasurableSpace (E i)] (μ : (i : ι) → Measure (E i))
    [∀ i, SigmaFinite (μ i)] (f : (i : ι) → E i → ℝ≥0∞) (hf : ∀ i, Measurable (f i))
    [∀ i, SigmaFinite ((μ i).withDensity (f i))] :
    Measure.pi (fun i => (μ i).withDensity (f i)) =
      (Measure.pi μ).withDensity fun x => ∏ i, f i (x i) := by
  refine (Measure.pi_eq fun s hs => ?_)
  rw [withDensity_apply _ (MeasurableSet.univ_pi hs), ← lintegral_indicator (MeasurableSet.univ_pi hs)]
  have e : ∀ x : (i : ι) → E i, (univ.pi s).indicator (fun x => ∏ i, f i (x i)) x =
      ∏ i, (s i).indicator (f i) (x i) := by
    intro x
    by_cases hx : x ∈ univ.pi s
    · rw [indicator_of_mem hx]
      exact Finset.prod_congr rfl fun i _ => (indicator_of_mem (hx i (mem_univ i)) _).symm
    · rw [indicator_of_notMem hx]
      simp only [Set.mem_pi, mem_univ, true_implies, not_forall] at hx
      obtain ⟨i, hi⟩ := hx
      exact (Finset.prod_eq_zero (Finset.mem_univ i) (indicator_of_notMem hi _)).symm
  simp only [e]
  rw [lintegral_pi_prod μ _ fun i => (hf i).indicator (hs i)]
  refine Finset.prod_congr rfl fun i _ => ?_
  rw [withDensity_apply _ (hs i), lintegral_indicator (hs i)]

end Pi

section Normals

variable {V : Type} {I : V → Type} [Fintype V] [∀ v, Fintype (I v)]

instance : IsProbabilityMeasure (normals I) := by unfold normals; infer_instance

theorem eval_law (v : V) (i : I v) : MeasurePreserving (fun z : (v : V) → I v → ℝ => z v i) (normals I) (gaussianReal 0 1) :=
  (measurePreserving_eval (fun _ : I v => gaussianReal 0 1) i).comp
    (measurePreserving_eval (fun v => Measure.pi fun _ : I v => gaussianReal 0 1) v)

theorem flip_law (σ : (v : V) → I v → ℝ) (hσ : ∀ v i, σ v i = 1 ∨ σ v i = -1) :
    MeasurePreserving (fun (z : (v : V) → I v → ℝ) v i => σ v i * z v i) (normals I) (normals I) := by
  refine measurePreserving_pi (fun v => Measure.pi fun _ : I v => gaussianReal 0 1)
    (fun v => Measure.pi fun _ : I v => gaussianReal 0 1) (f := fun v (y : I v → ℝ) i => σ v i * y i) (fun v => ?_)
  refine measurePreserving_pi (fun _ : I v => gaussianReal 0 1) (fun _ : I v => gaussianReal 0 1)
    (f := fun i (y : ℝ) => σ v i * y) (fun i => ⟨by fun_prop, ?_⟩)
  rw [gaussianReal_map_const_mul]
  rcases hσ v i with h | h <;> simp [h]

theorem comp_memLp (v : V) (i : I v) (p : NNReal) : MemLp (fun z : (v : V) → I v → ℝ => z v i) p (normals I) := by
  have := (memLp_id_gaussianReal (μ := 0) (v := 1) p).comp_measurePreserving (eval_law v i)
  exact this

theorem norm_le_sum (z : (v : V) → I v → ℝ) : ‖z‖ ≤ ∑ v, ∑ i, |z v i| := by
  have h0 : 0 ≤ ∑ v, ∑ i, |z v i| := Finset.sum_nonneg fun v _ => Finset.sum_nonneg fun i _ => abs_nonneg _
  refine (pi_norm_le_iff_of_nonneg h0).2 fun v => (pi_norm_le_iff_of_nonneg h0).2 fun i => ?_
  refine (Finset.single_le_sum (f := fun i => |z v i|) (fun i _ => abs_nonneg _) (Finset.mem_univ i)).trans ?_
  exact Finset.single_le_sum (f := fun v => ∑ i, |z v i|) (fun v _ => Finset.sum_nonneg fun i _ => abs_nonneg _)
    (Finset.mem_univ v)

theorem id_memLp (p : NNReal) : MemLp (fun z : (v : V) → I v → ℝ => z) p (normals I) := by
  have h : MemLp (fun z : (v : V) → I v → ℝ => ∑ v, ∑ i, |z v i|) p (normals I) :=
    memLp_finsetSum _ fun v _ => memLp_finsetSum _ fun i _ => (comp_memLp v i p).norm
  refine h.mono (by fun_prop) (Eventually.of_forall fun z => ?_)
  exact (norm_le_sum z).trans (le_abs_self _)

theorem comp_mean (v : V) (i : I v) : ∫ z, z v i ∂normals I = 0 := by
  have h := integral_map (μ := normals I) (φ := fun z : (v : V) → I v → ℝ => z v i)
    (eval_law v i).measurable.aemeasurable
    (f := fun y : ℝ => y) (by fun_prop)
  rw [← h, (eval_law v i).map_eq]
  exact integral_id_gaussianReal

theorem comp_sq (v : V) (i : I v) : ∫ z, z v i * z v i ∂normals I = 1 := by
  have h := integral_map (μ := normals I) (φ := fun z : (v : V) → I v → ℝ => z v i)
    (eval_law v i).measurable.aemeasurable
    (f := fun y : ℝ => y * y) (by fun_prop)
  rw [← h, (eval_law v i).map_eq]
  have hv := variance_id_gaussianReal (μ := 0) (v := 1)
  rw [variance_eq_integral (by fun_prop)] at hv
  simpa [integral_id_gaussianReal, sq] using hv

open scoped Classical in
theorem comp_cross {v w : V} {i : I v} {j : I w} (h : (⟨v, i⟩ : Σ v, I v) ≠ ⟨w, j⟩) :
    ∫ z, z v i * z w j ∂normals I = 0 := by
  set σ : (v : V) → I v → ℝ := fun u k => if (⟨u, k⟩ : Σ v, I v) = ⟨v, i⟩ then -1 else 1 with hσ
  have hp := flip_law σ fun u k => by
    by_cases hk : (⟨u, k⟩ : Σ v, I v) = ⟨v, i⟩
    · exact .inr (if_pos hk)
    · exact .inl (if_neg hk)
  have e := integral_map (μ := normals I) (φ := fun (z : (v : V) → I v → ℝ) v i => σ v i * z v i) hp.measurable.aemeasurable
    (f := fun z => z v i * z w j) (by fun_prop)
  rw [hp.map_eq] at e
  have s1 : σ v i = -1 := by simp [hσ]
  have s2 : σ w j = 1 := by simp only [hσ]; rw [if_neg (Ne.symm h)]
  simp only [s1, s2, one_mul, neg_mul, integral_neg] at e
  linarith

open scoped Classical in
theorem sum_unit (z : (v : V) → I v → ℝ) : z = ∑ v, ∑ i, z v i • unit v i := by
  ext w j
  simp only [unit, Finset.sum_apply, Pi.smul_apply, smul_eq_mul]
  rw [Finset.sum_eq_single w, Finset.sum_eq_single j]
  · simp
  · intro b _ hb
    simp [Pi.single_eq_of_ne hb.symm]
  · simp
  · intro b _ hb
    refine Finset.sum_eq_zero fun i _ => ?_
    simp [Pi.single_eq_of_ne hb.symm]
  · simp

theorem lin_sum (L : ((v : V) → I v → ℝ) →L[ℝ] ℝ) (z : (v : V) → I v → ℝ) :
    L z = ∑ v, ∑ i, z v i * L (unit v i) := by
  conv_lhs => rw [sum_unit z]
  simp [map_sum]

theorem lin_mean (L : ((v : V) → I v → ℝ) →L[ℝ] ℝ) : ∫ z, L z ∂normals I = 0 := by
  rw [integral_congr_ae (Eventually.of_forall fun z => lin_sum L z)]
  have hi : ∀ v i, Integrable (fun z : (v : V) → I v → ℝ => z v i * L (unit v i)) (normals I) := fun v i =>
    ((comp_memLp v i 1).integrable (by simp)).mul_const _
  rw [integral_finsetSum _ fun v _ => integrable_finsetSum _ fun i _ => hi v i]
  refine Finset.sum_eq_zero fun v _ => ?_
  rw [integral_finsetSum _ fun i _ => hi v i]
  refine Finset.sum_eq_zero fun i _ => ?_
  rw [integral_mul_const, comp_mean, zero_mul]

theorem bilin_mean (L : ((v : V) → I v → ℝ) →L[ℝ] ((v : V) → I v → ℝ) →L[ℝ] ℝ) :
    ∫ z, L z z ∂normals I = ∑ v, ∑ i, L (unit v i) (unit v i) := by
  classical
  have e : ∀ z, L z z = ∑ a : Σ v, I v, ∑ b : Σ v, I v, z a.1 a.2 * z b.1 b.2 * L (unit a.1 a.2) (unit b.1 b.2) := by
    intro z
    rw [lin_sum (L z) z, ← Fintype.sum_sigma' (f := fun v i => z v i * L z (unit v i)), Finset.sum_comm]
    refine Finset.sum_congr rfl fun b _ => ?_
    have := lin_sum ((ContinuousLinearMap.apply ℝ ℝ (unit b.1 b.2)).comp L) z
    simp only [ContinuousLinearMap.comp_apply, ContinuousLinearMap.apply_apply] at this
    rw [this, ← Fintype.sum_sigma' (f := fun v i => z v i * L (unit v i) (unit b.1 b.2)), Finset.mul_sum]
    refine Finset.sum_congr rfl fun a _ => ?_
    ring
  rw [integral_congr_ae (Eventually.of_forall e)]
  have hi : ∀ a b : Σ v, I v, Integrable (fun z : (v : V) → I v → ℝ =>
      z a.1 a.2 * z b.1 b.2 * L (unit a.1 a.2) (unit b.1 b.2)) (normals I) := fun a b =>
    (MemLp.integrable_mul (p := 2) (q := 2) (comp_memLp a.1 a.2 2) (comp_memLp b.1 b.2 2)).mul_const _
  rw [integral_finsetSum _ fun a _ => integrable_finsetSum _ fun b _ => hi a b,
    ← Fintype.sum_sigma' (f := fun v i => L (unit v i) (unit v i))]
  refine Finset.sum_congr rfl fun a _ => ?_
  rw [integral_finsetSum _ fun b _ => hi a b, Finset.sum_eq_single a]
  · rw [integral_mul_const, comp_sq, one_mul]
  · intro b _ hb
    rw [integral_mul_const, comp_cross (i := a.2) (j := b.2) (fun h => hb h.symm), zero_mul]
  · simp


/-- The log density of independent standard normal values, without its constant. -/
noncomputable def gl (p : (v : V) → I v → ℝ) : ℝ := ∑ v, ∑ i, -(p v i ^ 2 / 2)

theorem gl_smooth : ContDiff ℝ 1 (gl (I := I)) := by
  unfold gl
  refine ContDiff.sum fun v _ => ContDiff.sum fun i _ => ?_
  have h : ContDiff ℝ 1 fun p : (v : V) → I v → ℝ => p v i :=
    ((ContinuousLinearMap.proj i).comp (ContinuousLinearMap.proj (R := ℝ) (φ := fun v => I v → ℝ) v)).contDiff
  exact ((h.pow 2).div_const 2).neg

theorem gl_deriv (p : (v : V) → I v → ℝ) (v : V) (i : I v) : fderiv ℝ gl p (unit v i) = - p v i := by
  classical
  have h : HasFDerivAt (gl (I := I)) (∑ v, ∑ i, -(p v i • ((ContinuousLinearMap.proj i).comp
      (ContinuousLinearMap.proj (R := ℝ) (φ := fun v => I v → ℝ) v)))) p := by
    unfold gl
    refine HasFDerivAt.fun_sum fun v _ => HasFDerivAt.fun_sum fun i _ => ?_
    have h1 : HasFDerivAt (fun p : (v : V) → I v → ℝ => p v i) ((ContinuousLinearMap.proj i).comp
      (ContinuousLinearMap.proj (R := ℝ) (φ := fun v => I v → ℝ) v)) p :=
      ((ContinuousLinearMap.proj i).comp (ContinuousLinearMap.proj (R := ℝ) (φ := fun v => I v → ℝ) v)).hasFDerivAt
    have h2 := ((h1.pow 2).mul_const (1 / 2 : ℝ)).neg
    have e : (fun p : (v : V) → I v → ℝ => -(p v i ^ 2 / 2)) = fun p => -(p v i ^ 2 * (1 / 2 : ℝ)) := by
      ext p
      ring
    rw [e]
    refine h2.congr_fderiv ?_
    ext u
    simp
    ring
  rw [h.fderiv]
  simp only [_root_.sum_apply, _root_.neg_apply, _root_.smul_apply,
    ContinuousLinearMap.comp_apply, ContinuousLinearMap.proj_apply, smul_eq_mul, Finset.sum_neg_distrib]
  congr 1
  rw [Finset.sum_eq_single v, Finset.sum_eq_single i]
  · simp [unit]
  · intro b _ hb
    simp [unit, Pi.single_eq_of_ne hb]
  · simp
  · intro b _ hb
    refine Finset.sum_eq_zero fun j _ => ?_
    simp [unit, Pi.single_eq_of_ne hb]
  · simp

theorem normals_density : ∃ C : ℝ, 0 < C ∧
    normals I = volume.withDensity fun p => ENNReal.ofReal (C * Real.exp (gl p)) := by
  set c : ℝ := (√(2 * Real.pi))⁻¹ with hc
  have hc0 : 0 < c := by positivity
  refine ⟨∏ v, ∏ _i : I v, c, Finset.prod_pos fun v _ => Finset.prod_pos fun i _ => hc0, ?_⟩
  have h1 : ∀ v, (Measure.pi fun _ : I v => gaussianReal 0 1) =
      volume.withDensity fun y : I v → ℝ => ∏ i, gaussianPDF 0 1 (y i) := by
    intro v
    have _ : SigmaFinite ((volume : Measure ℝ).withDensity (gaussianPDF 0 1)) := by
      rw [← gaussianReal_of_var_ne_zero 0 (one_ne_zero)]
      infer_instance
    rw [gaussianReal_of_var_ne_zero 0 (one_ne_zero), volume_pi]
    exact pi_withDensity (fun _ : I v => (volume : Measure ℝ)) (fun _ => gaussianPDF 0 1) fun _ => measurable_gaussianPDF 0 1
  have hm : ∀ v, Measurable fun y : I v → ℝ => ∏ i, gaussianPDF 0 1 (y i) := fun v =>
    Finset.measurable_prod _ fun i _ => (measurable_gaussianPDF 0 1).comp (measurable_pi_apply i)
  have h2 : normals I = volume.withDensity fun p : (v : V) → I v → ℝ => ∏ v, ∏ i, gaussianPDF 0 1 (p v i) := by
    unfold normals
    have _ : ∀ v, SigmaFinite ((volume : Measure (I v → ℝ)).withDensity fun y => ∏ i, gaussianPDF 0 1 (y i)) := fun v => by
      rw [← h1]
      infer_instance
    simp only [h1]
    exact pi_withDensity (fun v => (volume : Measure (I v → ℝ))) (fun v y => ∏ i, gaussianPDF 0 1 (y i)) hm
  rw [h2]
  congr 1
  ext p
  simp only [gaussianPDF]
  have e1 : ∀ v i, gaussianPDFReal 0 1 (p v i) = c * Real.exp (-(p v i ^ 2 / 2)) := by
    intro v i
    simp [gaussianPDFReal, hc, neg_div]
  have e2 : ∀ v, ∏ i, ENNReal.ofReal (gaussianPDFReal 0 1 (p v i)) =
      ENNReal.ofReal (∏ i, gaussianPDFReal 0 1 (p v i)) := fun v =>
    (ENNReal.ofReal_prod_of_nonneg fun i _ => gaussianPDFReal_nonneg 0 1 _).symm
  simp only [e2]
  rw [← ENNReal.ofReal_prod_of_nonneg fun v _ => Finset.prod_nonneg fun i _ => gaussianPDFReal_nonneg 0 1 _]
  congr 1
  simp only [e1, Finset.prod_mul_distrib, gl, Real.exp_sum]

theorem gl_dens : LogDens (gl (I := I)) := by
  refine ⟨gl_smooth, ?_⟩
  obtain ⟨C, hC, h⟩ := normals_density (I := I)
  have h1 : (normals I) univ = 1 := measure_univ
  rw [h, withDensity_apply _ MeasurableSet.univ, setLIntegral_univ] at h1
  have hm : Measurable fun p : (v : V) → I v → ℝ => C * Real.exp (gl p) :=
    (Real.continuous_exp.comp gl_smooth.continuous).measurable.const_mul C
  have hi : Integrable fun p : (v : V) → I v → ℝ => C * Real.exp (gl p) := by
    refine ⟨hm.aestronglyMeasurable, ?_⟩
    rw [hasFiniteIntegral_iff_ofReal (Eventually.of_forall fun p => by positivity), h1]
    simp
  refine (hi.const_mul C⁻¹).congr (Eventually.of_forall fun p => ?_)
  simp only
  field_simp

theorem normals_eq : normals I = posterior gl := by
  obtain ⟨C, hC, h⟩ := normals_density (I := I)
  have h1 : (normals I) univ = 1 := measure_univ
  rw [h, withDensity_apply _ MeasurableSet.univ, setLIntegral_univ,
    ← ofReal_integral_eq_lintegral_ofReal (gl_dens.int.const_mul C) (Eventually.of_forall fun p => by positivity),
    integral_const_mul, ENNReal.ofReal_eq_one] at h1
  rw [h, posterior]
  congr 1
  ext p
  have hZ := gl_dens (I := I).norm_pos
  congr 1
  rw [eq_div_iff hZ.ne', mul_right_comm, h1, one_mul]

instance prod_haar {E F : Type*} [NormedAddCommGroup E] [NormedSpace ℝ E] [FiniteDimensional ℝ E] [MeasureSpace E]
    [BorelSpace E] [(volume : Measure E).IsAddHaarMeasure] [NormedAddCommGroup F] [NormedSpace ℝ F]
    [FiniteDimensional ℝ F] [MeasureSpace F] [BorelSpace F] [(volume : Measure F).IsAddHaarMeasure] :
    (volume : Measure (E × F)).IsAddHaarMeasure :=
  inferInstanceAs ((volume : Measure E).prod (volume : Measure F)).IsAddHaarMeasure

/-- A smooth density together with independent standard normal values. -/
theorem prod_dens {E : Type*} [NormedAddCommGroup E] [NormedSpace ℝ E] [FiniteDimensional ℝ E] [MeasureSpace E]
    [BorelSpace E] [(volume : Measure E).IsAddHaarMeasure] {l : E → ℝ} (hl : LogDens l) :
    LogDens (fun s : E × ((v : V) → I v → ℝ) => l s.1 + gl s.2) ∧
      (posterior l).prod (normals I) = posterior fun s : E × ((v : V) → I v → ℝ) => l s.1 + gl s.2 := by
  have hi : Integrable (fun s : E × ((v : V) → I v → ℝ) => Real.exp (l s.1 + gl s.2)) := by
    simp only [Real.exp_add]
    exact hl.int.mul_prod gl_dens.int
  refine ⟨⟨(hl.smooth.comp contDiff_fst).add (gl_smooth.comp contDiff_snd), hi⟩, ?_⟩
  have hZ : ∫ s : E × ((v : V) → I v → ℝ), Real.exp (l s.1 + gl s.2) = (∫ x, Real.exp (l x)) * ∫ p, Real.exp (gl (I := I) p) := by
    simp only [Real.exp_add]
    exact integral_prod_mul (μ := (volume : Measure E)) (ν := (volume : Measure ((v : V) → I v → ℝ)))
      (fun x => Real.exp (l x)) fun p => Real.exp (gl p)
  have hm1 : Measurable fun x => ENNReal.ofReal (Real.exp (l x) / ∫ y, Real.exp (l y)) :=
    ((Real.continuous_exp.comp hl.smooth.continuous).measurable.div_const _).ennreal_ofReal
  have hm2 : Measurable fun x : (v : V) → I v → ℝ => ENNReal.ofReal (Real.exp (gl x) / ∫ y, Real.exp (gl (I := I) y)) :=
    ((Real.continuous_exp.comp gl_smooth.continuous).measurable.div_const _).ennreal_ofReal
  rw [normals_eq]
  unfold posterior
  rw [prod_withDensity hm1 hm2]
  congr 1
  ext s
  rw [hZ, ← ENNReal.ofReal_mul (div_nonneg (Real.exp_pos _).le hl.norm_pos.le), Real.exp_add]
  congr 1
  rw [div_mul_div_comm]

end Normals
end ZhuSuan.SgWeak

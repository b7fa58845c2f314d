import Mathlib.Data.Matrix.ColumnRowPartitioned
import Mathlib.MeasureTheory.Measure.OpenPos
import Verif.Lemmas.GaussExists
import Verif.Lemmas.PiMeasure
import Verif.Props.MvNormal

/-!
# Lemmas for C96: normal vectors and densities
-/

set_option autoImplicit false

open MeasureTheory ProbabilityTheory Matrix

namespace ZhuSuan.Sgmcmc

variable {Ω ι κ : Type} {mΩ : MeasurableSpace Ω} [Fintype ι] [Fintype κ] {P : Measure Ω}

/-- Some of the entries of a normal vector. -/
theorem Normal.select {X : Ω → ι → ℝ} {m : ι → ℝ} {S : Matrix ι ι ℝ} (h : Normal P X m S) (g : κ → ι) :
    Normal P (fun ω j => X ω (g j)) (fun j => m (g j)) (S.submatrix g g) := by
  let A : (ι → ℝ) →L[ℝ] (κ → ℝ) := ContinuousLinearMap.pi fun j => ContinuousLinearMap.proj (g j)
  exact ⟨h.law.map_of_measurable A A.measurable, fun j => h.mean _, fun i j => h.cov _ _⟩

/-- A normal vector as a measure. -/
theorem Normal.id_map {X : Ω → ι → ℝ} {m : ι → ℝ} {S : Matrix ι ι ℝ} (h : Normal P X m S) : Normal (P.map X) (fun f => f) m S := by
  have hX := h.law.aemeasurable
  refine ⟨?_, fun i => ?_, fun i j => ?_⟩
  · constructor
    rw [show (fun f : ι → ℝ => f) = id from rfl, Measure.map_id]
    exact h.law.isGaussian_map
  · rw [integral_map hX (measurable_pi_apply i).aestronglyMeasurable]
    exact h.mean i
  · rw [covariance_map (measurable_pi_apply i).aestronglyMeasurable (measurable_pi_apply j).aestronglyMeasurable hX]
    exact h.cov i j

/-- A vector with the law of a normal vector is normal. -/
theorem Normal.of_map {Ω' : Type} {mΩ' : MeasurableSpace Ω'} {P' : Measure Ω'} {X : Ω → ι → ℝ} {X' : Ω' → ι → ℝ} {m : ι → ℝ}
    {S : Matrix ι ι ℝ} (h : Normal P X m S) (hX' : AEMeasurable X' P') (he : P'.map X' = P.map X) : Normal P' X' m S := by
  have h1 := h.id_map
  rw [← he] at h1
  refine ⟨?_, fun i => ?_, fun i j => ?_⟩
  · constructor
    rw [he]
    exact h.law.isGaussian_map
  · rw [← h1.mean i, integral_map hX' (measurable_pi_apply i).aestronglyMeasurable]
  · rw [← h1.cov i j, covariance_map (measurable_pi_apply i).aestronglyMeasurable (measurable_pi_apply j).aestronglyMeasurable hX']
    rfl

end ZhuSuan.Sgmcmc

namespace ZhuSuan.Svgp

open Sgmcmc

/-- Reweighting by a function of the image, and taking the image. -/
theorem map_withDensity_comp {A B : Type} [MeasurableSpace A] [MeasurableSpace B] (μ : Measure A) {φ : A → B} (hφ : Measurable φ)
    {g : B → ENNReal} (hg : Measurable g) : (μ.withDensity fun a => g (φ a)).map φ = (μ.map φ).withDensity g := by
  ext s hs
  rw [Measure.map_apply hφ hs, withDensity_apply _ (hφ hs), withDensity_apply _ hs, setLIntegral_map hs hg hφ]

section
variable {nz : ℕ} {n : ℕ}

/-- The prior at the points `z` and at one further point, drawn in two steps. -/
theorem two_steps {K : Matrix (Fin nz ⊕ Fin n) (Fin nz ⊕ Fin n) ℝ} {prior : Measure (Fin nz ⊕ Fin n → ℝ)}
    (hp : Normal prior (fun f => f) 0 K) (hK : Kᵀ = K) (L : Matrix (Fin nz) (Fin nz) ℝ) (hLL : L * Lᵀ = K.toBlocks₁₁) (i : Fin n) (a : Fin nz → ℝ) (ha : ∀ j, ∑ k, K (.inl j) (.inl k) * a k = K (.inl j) (.inr i))
    (s : ℝ) (hs : s ^ 2 = K (.inr i) (.inr i) - ∑ j, a j * K (.inl j) (.inr i)) :
    prior.map (fun f => ((fun j => f (.inl j) : Fin nz → ℝ), f (.inr i))) =
      (((Measure.pi fun _ : Fin nz => gaussianReal 0 1).map fun e => L.mulVec e).prod (gaussianReal 0 1)).map
        fun p => (p.1, ∑ j, p.1 j * a j + p.2 * s) := by
  let g : Fin nz ⊕ Unit → Fin nz ⊕ Fin n := Sum.map id fun _ => i
  have h1 := hp.select g
  let P := (Measure.pi fun _ : Fin nz => gaussianReal 0 1).prod (gaussianReal 0 1)
  have hX : Normal P (fun p => p.1) 0 (1 : Matrix (Fin nz) (Fin nz) ℝ) :=
    Normal.transfer (P := P) (Z := Prod.fst) measurePreserving_fst (normal_std (ι := Fin nz))
  have hU : MeasurePreserving (MeasurableEquiv.funUnique Unit ℝ).symm (gaussianReal 0 1) (Measure.pi fun _ : Unit => gaussianReal 0 1) :=
    (measurePreserving_funUnique (gaussianReal 0 1) Unit).symm
  have hW : Normal P (fun p (_ : Unit) => p.2) 0 (1 : Matrix Unit Unit ℝ) :=
    Normal.transfer (P := P) (Z := fun p => (MeasurableEquiv.funUnique Unit ℝ).symm p.2) (hU.comp measurePreserving_snd)
      (normal_std (ι := Unit))
  have hi : IndepFun (fun p : (Fin nz → ℝ) × ℝ => p.1) (fun p (_ : Unit) => p.2) P :=
    (indepFun_prod (X := fun x : Fin nz → ℝ => x) (Y := fun (y : ℝ) (_ : Unit) => y) (μ := Measure.pi fun _ : Fin nz => gaussianReal 0 1)
      (ν := gaussianReal 0 1) measurable_id (measurable_pi_lambda _ fun _ => measurable_id))
  let A : Matrix (Fin nz ⊕ Unit) (Fin nz) ℝ := fromRows L (of fun _ k => ∑ j, a j * L j k)
  let C : Matrix (Fin nz ⊕ Unit) Unit ℝ := fromRows 0 (of fun _ _ => s)
  have h2 := hX.affine hW hi A C 0
  have hsym : ∀ x y, K x y = K y x := fun x y => by conv_lhs => rw [← hK, transpose_apply]
  have hll : ∀ j k, ∑ l, L j l * L k l = K (.inl j) (.inl k) := fun j k => by
    have := congrFun (congrFun hLL j) k
    simpa [Matrix.mul_apply, toBlocks₁₁] using this
  have hla : ∀ j, ∑ l, L j l * ∑ k, a k * L k l = K (.inl j) (.inr i) := fun j => by
    rw [← ha j]
    simp only [Finset.mul_sum, ← hll, Finset.sum_mul]
    rw [Finset.sum_comm]
    exact Finset.sum_congr rfl fun k _ => Finset.sum_congr rfl fun l _ => by ring
  have haa : ∑ l, (∑ j, a j * L j l) * ∑ k, a k * L k l = ∑ j, a j * K (.inl j) (.inr i) := by
    simp only [← hla, Finset.mul_sum, Finset.sum_mul]
    rw [Finset.sum_comm]
    exact Finset.sum_congr rfl fun k _ => Finset.sum_congr rfl fun l _ => Finset.sum_congr rfl fun _ _ => by ring
  have hcov : A * (1 : Matrix (Fin nz) (Fin nz) ℝ) * Aᵀ + C * (1 : Matrix Unit Unit ℝ) * Cᵀ = K.submatrix g g := by
    rw [Matrix.mul_one, Matrix.mul_one]
    ext (x | x) (y | y)
    · simp [A, C, g, Matrix.mul_apply, hll]
    · simp [A, C, g, Matrix.mul_apply, hla]
    · simp only [A, C, g, Matrix.mul_apply, Matrix.add_apply, transpose_apply, fromRows_apply_inl, fromRows_apply_inr, of_apply,
        submatrix_apply, Sum.map_inl, Sum.map_inr, id, Matrix.zero_apply, mul_zero, Finset.sum_const_zero, add_zero]
      rw [hsym, ← hla]
      exact Finset.sum_congr rfl fun l _ => mul_comm _ _
    · simp only [A, C, g, Matrix.mul_apply, Matrix.add_apply, transpose_apply, fromRows_apply_inr, of_apply,
        submatrix_apply, Sum.map_inr, Finset.univ_unique, Finset.sum_singleton]
      rw [haa, ← pow_two, hs]
      ring
  rw [hcov] at h2
  have hm : (0 : Fin nz ⊕ Unit → ℝ) + A.mulVec 0 = fun j => (0 : Fin nz ⊕ Fin n → ℝ) (g j) := by
    rw [mulVec_zero]; simp; rfl
  rw [hm] at h2
  have h3 := h1.unique h2
  let split : (Fin nz ⊕ Unit → ℝ) → (Fin nz → ℝ) × ℝ := fun v => (fun j => v (.inl j), v (.inr ()))
  have ms : Measurable split := by fun_prop
  have h4 := congrArg (Measure.map split) h3
  rw [Measure.map_map ms (by fun_prop), Measure.map_map ms (by
    have : Measurable fun ω : (Fin nz → ℝ) × ℝ => A.mulVec ω.1 := by
      exact (A.mulVecLin.continuous_of_finiteDimensional.measurable).comp measurable_fst
    have : Measurable fun ω : (Fin nz → ℝ) × ℝ => C.mulVec fun _ => ω.2 := by
      exact (C.mulVecLin.continuous_of_finiteDimensional.measurable).comp (measurable_pi_lambda _ fun _ => measurable_snd)
    fun_prop)] at h4
  refine h4.trans ?_
  have mL : Measurable fun e : Fin nz → ℝ => L.mulVec e := L.mulVecLin.continuous_of_finiteDimensional.measurable
  have hprod : ((Measure.pi fun _ : Fin nz => gaussianReal 0 1).map fun e => L.mulVec e).prod (gaussianReal 0 1) =
      P.map (Prod.map (fun e => L.mulVec e) id) := by
    rw [← Measure.map_prod_map _ _ mL measurable_id, Measure.map_id]
  rw [hprod, Measure.map_map (by fun_prop) (mL.prodMap measurable_id)]
  congr 1
  funext p
  refine Prod.ext ?_ ?_
  · funext j
    simp [split, A, C, mulVec, dotProduct]
  · simp only [split, A, C, Function.comp, Prod.map, id, Pi.add_apply, zero_add, mulVec, dotProduct, fromRows_apply_inr, of_apply,
      Finset.univ_unique, Finset.sum_singleton, mul_comm s, Finset.sum_mul]
    congr 1
    rw [Finset.sum_comm]
    exact Finset.sum_congr rfl fun k _ => Finset.sum_congr rfl fun l _ => by ring

end

/-! ## The marginal likelihood -/

section
variable {ζ ι : Type} [Fintype ζ] [Fintype ι]

theorem pdf_le (m : ℝ) (v : NNReal) (x : ℝ) : gaussianPDFReal m v x ≤ (√(2 * Real.pi * v))⁻¹ := by
  rw [gaussianPDFReal]
  refine mul_le_of_le_one_right (by positivity) (Real.exp_le_one_iff.2 ?_)
  have : 0 ≤ (x - m) ^ 2 / (2 * v) := by positivity
  have e : -(x - m) ^ 2 / (2 * v) = -((x - m) ^ 2 / (2 * v)) := by ring
  linarith

theorem continuous_pdf (v : NNReal) : Continuous fun p : ℝ × ℝ => gaussianPDFReal p.1 v p.2 := by
  unfold gaussianPDFReal
  fun_prop

theorem lik_le (v : NNReal) (f y : ι → ℝ) : |∏ i, gaussianPDFReal (f i) v (y i)| ≤ ((√(2 * Real.pi * v))⁻¹) ^ Fintype.card ι := by
  rw [abs_of_nonneg (Finset.prod_nonneg fun i _ => gaussianPDFReal_nonneg _ _ _)]
  refine (Finset.prod_le_prod (fun i _ => gaussianPDFReal_nonneg _ _ _) fun i _ => pdf_le (f i) v (y i)).trans (le_of_eq ?_)
  rw [Finset.prod_const, Finset.card_univ]

theorem continuous_lik (v : NNReal) : Continuous fun p : (ι → ℝ) × (ι → ℝ) => ∏ i, gaussianPDFReal (p.1 i) v (p.2 i) :=
  continuous_finsetProd _ fun i _ => (continuous_pdf v).comp (by fun_prop : Continuous fun p : (ι → ℝ) × (ι → ℝ) => (p.1 i, p.2 i))

theorem continuous_lik_f (v : NNReal) (y : ι → ℝ) : Continuous fun f : ι → ℝ => ∏ i, gaussianPDFReal (f i) v (y i) :=
  continuous_finsetProd _ fun i _ => (continuous_pdf v).comp (by fun_prop : Continuous fun f : ι → ℝ => (f i, y i))

theorem continuous_lik_y (v : NNReal) (f : ι → ℝ) : Continuous fun y : ι → ℝ => ∏ i, gaussianPDFReal (f i) v (y i) :=
  continuous_finsetProd _ fun i _ => (continuous_pdf v).comp (by fun_prop : Continuous fun y : ι → ℝ => (f i, y i))

theorem integrable_lik (Q : Measure (ι → ℝ)) [IsProbabilityMeasure Q] (v : NNReal) (y : ι → ℝ) :
    Integrable (fun f : ι → ℝ => ∏ i, gaussianPDFReal (f i) v (y i)) Q :=
  (integrable_const _).mono' (continuous_lik_f v y).aestronglyMeasurable (Filter.Eventually.of_forall fun _ => lik_le _ _ _)

theorem continuous_marginal (Q : Measure (ι → ℝ)) [IsProbabilityMeasure Q] (v : NNReal) :
    Continuous fun y : ι → ℝ => ∫ f, ∏ i, gaussianPDFReal (f i) v (y i) ∂Q :=
  continuous_of_dominated (bound := fun _ => ((√(2 * Real.pi * v))⁻¹) ^ Fintype.card ι)
    (fun y => (continuous_lik_f v y).aestronglyMeasurable) (fun y => Filter.Eventually.of_forall fun f => lik_le v f y)
    (integrable_const _) (Filter.Eventually.of_forall fun f => continuous_lik_y v f)

theorem continuous_density [DecidableEq ι] (m : ι → ℝ) (T : Matrix ι ι ℝ) : Continuous fun y : ι → ℝ => Num.normalDensity m T y := by
  unfold Num.normalDensity
  have h1 : Continuous fun y : ι → ℝ => T⁻¹.mulVec (y - m) :=
    (T⁻¹.mulVecLin.continuous_of_finiteDimensional).comp (by fun_prop)
  have : Continuous fun y : ι → ℝ => (y - m) ⬝ᵥ T⁻¹.mulVec (y - m) := by
    unfold dotProduct
    fun_prop
  fun_prop

/-- The law of normal values with normal noise added, as a mixture. -/
theorem noisy_law (Q : Measure (ι → ℝ)) [IsProbabilityMeasure Q] (s : NNReal) (hs : 0 < s) :
    (Q.prod (Measure.pi fun _ : ι => gaussianReal 0 1)).map (fun p i => p.1 i + (s : ℝ) * p.2 i) =
      (volume : Measure (ι → ℝ)).withDensity fun y => ∫⁻ f, ENNReal.ofReal (∏ i, gaussianPDFReal (f i) (s ^ 2) (y i)) ∂Q := by
  have hv : s ^ 2 ≠ 0 := (pow_pos hs 2).ne'
  have hm : Measurable fun (p : (ι → ℝ) × (ι → ℝ)) i => p.1 i + (s : ℝ) * p.2 i := by fun_prop
  have hpi : ∀ f : ι → ℝ, (Measure.pi fun _ : ι => gaussianReal 0 1).map (fun e i => f i + (s : ℝ) * e i) =
      volume.withDensity fun y => ENNReal.ofReal (∏ i, gaussianPDFReal (f i) (s ^ 2) (y i)) := by
    intro f
    have e1 : ∀ i, (gaussianReal 0 1).map (fun e => f i + (s : ℝ) * e) = gaussianReal (f i) (s ^ 2) := by
      intro i
      have : (fun e => f i + (s : ℝ) * e) = (fun e => f i + e) ∘ fun e => (s : ℝ) * e := rfl
      rw [this, ← Measure.map_map (by fun_prop) (by fun_prop), gaussianReal_map_const_mul, gaussianReal_map_const_add]
      congr 1
      · simp
      · ext; simp
    have e2 := Measure.pi_map_pi (μ := fun _ : ι => gaussianReal 0 1) (f := fun i e => f i + (s : ℝ) * e) fun i => by fun_prop
    rw [e2]
    simp only [e1, gaussianReal_of_var_ne_zero _ hv]
    have : ∀ i, IsProbabilityMeasure ((volume : Measure ℝ).withDensity (gaussianPDF (f i) (s ^ 2))) := fun i => by
      rw [← gaussianReal_of_var_ne_zero _ hv]; infer_instance
    rw [Meas.pi_withDensity (μ := fun _ : ι => (volume : Measure ℝ)) _ fun i => measurable_gaussianPDF _ _, volume_pi]
    congr 1
    funext y
    rw [ENNReal.ofReal_prod_of_nonneg fun i _ => gaussianPDFReal_nonneg _ _ _]
    rfl
  have hc : Measurable fun p : (ι → ℝ) × (ι → ℝ) => ENNReal.ofReal (∏ i, gaussianPDFReal (p.1 i) (s ^ 2) (p.2 i)) :=
    (continuous_lik (s ^ 2)).measurable.ennreal_ofReal
  ext A hA
  rw [Measure.map_apply hm hA, Measure.prod_apply (hm hA), withDensity_apply _ hA, lintegral_lintegral_swap]
  · refine lintegral_congr fun f => ?_
    rw [← withDensity_apply _ hA, ← hpi f, Measure.map_apply (by fun_prop) hA]
    rfl
  · exact (hc.comp measurable_swap).aemeasurable

/-- The density of normal values with normal noise added. -/
theorem marginal_eq [DecidableEq ι] {K : Matrix ι ι ℝ} {Q : Measure (ι → ℝ)} (hQ : Normal Q (fun f => f) 0 K) (hK : K.PosSemidef) (s : NNReal)
    (hs : 0 < s) (y : ι → ℝ) :
    ∫ f, ∏ i, gaussianPDFReal (f i) (s ^ 2) (y i) ∂Q = Num.normalDensity 0 (K + (s : ℝ) ^ 2 • (1 : Matrix ι ι ℝ)) y := by
  have := hQ.prob
  set T := K + (s : ℝ) ^ 2 • (1 : Matrix ι ι ℝ) with hT
  have hs' : (0 : ℝ) < s := hs
  have hTd : T.PosDef := PosDef.posSemidef_add hK (PosDef.one.smul (by positivity))
  obtain ⟨B, hB⟩ := exists_factor hTd.posSemidef
  have hBd : B.det ≠ 0 := by
    intro h
    have := hTd.det_pos
    rw [← hB, det_mul, h, zero_mul] at this
    exact lt_irrefl _ this
  -- the law of the noisy values
  let P := Q.prod (Measure.pi fun _ : ι => gaussianReal 0 1)
  have hX : Normal P (fun p => p.1) 0 K := Normal.transfer (P := P) (Z := Prod.fst) measurePreserving_fst hQ
  have hW : Normal P (fun p => p.2) 0 (1 : Matrix ι ι ℝ) := Normal.transfer (P := P) (Z := Prod.snd) measurePreserving_snd (normal_std (ι := ι))
  have hi : IndepFun (fun p : (ι → ℝ) × (ι → ℝ) => p.1) (fun p => p.2) P :=
    indepFun_prod (X := fun x : ι → ℝ => x) (Y := fun x : ι → ℝ => x) measurable_id measurable_id
  have h1 := hX.affine hW hi (1 : Matrix ι ι ℝ) ((s : ℝ) • (1 : Matrix ι ι ℝ)) 0
  have h2 := (normal_std (ι := ι)).image B 0
  have e1 : (1 : Matrix ι ι ℝ) * K * (1 : Matrix ι ι ℝ)ᵀ + (s : ℝ) • (1 : Matrix ι ι ℝ) * 1 * ((s : ℝ) • (1 : Matrix ι ι ℝ))ᵀ = T := by
    rw [hT]
    simp [pow_two, smul_smul]
  have e2 : B * (1 : Matrix ι ι ℝ) * Bᵀ = T := by rw [Matrix.mul_one, hB]
  have e3 : (0 : ι → ℝ) + (1 : Matrix ι ι ℝ).mulVec 0 = 0 + B.mulVec 0 := by simp
  rw [e1, e3] at h1
  rw [e2] at h2
  have h3 := h1.unique h2
  have e4 : (fun p : (ι → ℝ) × (ι → ℝ) => (0 : ι → ℝ) + (1 : Matrix ι ι ℝ).mulVec p.1 + ((s : ℝ) • (1 : Matrix ι ι ℝ)).mulVec p.2) =
      fun p i => p.1 i + (s : ℝ) * p.2 i := by
    funext p i
    simp [smul_mulVec]
  have e5 : (fun e : ι → ℝ => (0 : ι → ℝ) + B.mulVec e) = fun e => B.mulVec e + 0 := by
    funext e; simp
  rw [e4, e5, noisy_law Q s hs, Meas.gaussian_affine B hBd 0] at h3
  simp only [← Num.normalDensity_eq 0 B hBd, hB] at h3
  have cD := continuous_marginal Q (s ^ 2)
  have cN := continuous_density 0 T
  have hint := integrable_lik Q (s ^ 2)
  have eL : (fun y : ι → ℝ => ∫⁻ f, ENNReal.ofReal (∏ i, gaussianPDFReal (f i) (s ^ 2) (y i)) ∂Q) =
      fun y => ENNReal.ofReal (∫ f, ∏ i, gaussianPDFReal (f i) (s ^ 2) (y i) ∂Q) := by
    funext y
    rw [ofReal_integral_eq_lintegral_ofReal (hint y) (Filter.Eventually.of_forall fun f =>
      Finset.prod_nonneg fun i _ => gaussianPDFReal_nonneg _ _ _)]
  rw [eL] at h3
  have hfin : ∫⁻ y : ι → ℝ, ENNReal.ofReal (∫ f, ∏ i, gaussianPDFReal (f i) (s ^ 2) (y i) ∂Q) ≠ ⊤ := by
    rw [← eL, ← setLIntegral_univ, ← withDensity_apply _ MeasurableSet.univ, ← noisy_law Q s hs]
    exact measure_ne_top _ _
  have hae := (withDensity_eq_iff cD.measurable.ennreal_ofReal.aemeasurable cN.measurable.ennreal_ofReal.aemeasurable hfin).1 h3
  have hae2 : (fun y : ι → ℝ => ∫ f, ∏ i, gaussianPDFReal (f i) (s ^ 2) (y i) ∂Q) =ᵐ[volume] fun y => Num.normalDensity 0 T y := by
    filter_upwards [hae] with y hy
    refine (ENNReal.ofReal_eq_ofReal_iff (integral_nonneg fun f => Finset.prod_nonneg fun i _ => gaussianPDFReal_nonneg _ _ _) ?_).1 hy
    unfold Num.normalDensity
    positivity
  exact congrFun ((Continuous.ae_eq_iff_eq volume cD cN).1 hae2) y

end

end ZhuSuan.Svgp

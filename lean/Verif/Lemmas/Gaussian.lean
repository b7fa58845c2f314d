import Mathlib.Probability.Distributions.Gaussian.Multivariate
import Mathlib.LinearAlgebra.Matrix.Kronecker
import Verif.Lemmas.PiMeasure
import Verif.Lemmas.Num

/-! # Affine images of independent standard normals; forward substitution -/

set_option autoImplicit false

open MeasureTheory ProbabilityTheory Set Matrix
open scoped ENNReal

namespace ZhuSuan.Meas

variable {ι : Type*} [Fintype ι] [DecidableEq ι]

theorem prod_gaussianPDF (x : ι → ℝ) :
    ∏ i, gaussianPDF 0 1 (x i) = ENNReal.ofReal
      (Real.exp (-(Fintype.card ι : ℝ) / 2 * Real.log (2 * Real.pi) - 0.5 * ∑ i, x i ^ 2)) := by
  simp only [gaussianPDF]
  rw [← ENNReal.ofReal_prod_of_nonneg fun i _ => gaussianPDFReal_nonneg _ _ _]
  congr 1
  have e : ∀ i, gaussianPDFReal 0 1 (x i) =
      Real.exp (-(1 / 2) * Real.log (2 * Real.pi) - 0.5 * x i ^ 2) := by
    intro i
    have hp : (0 : ℝ) < 2 * Real.pi := by positivity
    have e1 : Real.exp (-(1 / 2) * Real.log (2 * Real.pi)) = (√(2 * Real.pi))⁻¹ := by
      rw [mul_comm, Real.exp_mul, Real.exp_log hp, Real.rpow_neg hp.le, ← Real.sqrt_eq_rpow]
    rw [sub_eq_add_neg, Real.exp_add, e1, gaussianPDFReal]
    simp only [NNReal.coe_one, mul_one, sub_zero]
    congr 2
    ring
  rw [Finset.prod_congr rfl fun i _ => e i, ← Real.exp_sum, Finset.sum_sub_distrib, Finset.mul_sum]
  simp only [Finset.sum_const, Finset.card_univ, nsmul_eq_mul]
  congr 1
  ring

/-- `M z + c` for `z` with independent standard normal entries. -/
theorem gaussian_affine (M : Matrix ι ι ℝ) (hM : M.det ≠ 0) (c : ι → ℝ) :
    (Measure.pi fun _ : ι => gaussianReal 0 1).map (fun z => M.mulVec z + c) =
      volume.withDensity fun y => ENNReal.ofReal (Real.exp
        (-(Fintype.card ι : ℝ) / 2 * Real.log (2 * Real.pi) - Real.log |M.det| -
          0.5 * ∑ i, (M⁻¹.mulVec (y - c)) i ^ 2)) := by
  have h1 : (gaussianReal 0 1) = (volume : Measure ℝ).withDensity (gaussianPDF 0 1) :=
    gaussianReal_of_var_ne_zero 0 one_ne_zero
  have : SigmaFinite ((volume : Measure ℝ).withDensity (gaussianPDF 0 1)) := by
    rw [← h1]; infer_instance
  rw [h1, pi_withDensity (fun _ : ι => volume) (fun _ => gaussianPDF 0 1)
    (fun _ => measurable_gaussianPDF 0 1)]
  have hm : Measurable fun x : ι → ℝ => ∏ i, gaussianPDF 0 1 (x i) :=
    Finset.measurable_prod _ fun i _ => (measurable_gaussianPDF 0 1).comp (measurable_pi_apply i)
  rw [← volume_pi, map_affine_withDensity M hM c hm]
  congr 1
  funext y
  rw [prod_gaussianPDF, ← ENNReal.ofReal_mul (abs_nonneg _)]
  congr 1
  have hd : 0 < |M.det| := abs_pos.2 hM
  rw [abs_inv, ← Real.exp_log (inv_pos.2 hd), ← Real.exp_add, Real.log_inv]
  congr 1
  ring

/-- Its law is the Gaussian with mean `c` and covariance `M Mᵀ`. -/
theorem gaussian_affine_law (M : Matrix ι ι ℝ) (c : ι → ℝ) :
    (Measure.pi fun _ : ι => gaussianReal 0 1).map (fun z => WithLp.toLp 2 (M.mulVec z + c)) =
      multivariateGaussian (WithLp.toLp 2 c) (M * Mᵀ) := by
  have hS : (M * Mᵀ).PosSemidef := by
    have := Matrix.posSemidef_self_mul_conjTranspose M
    simpa using this
  set T : EuclideanSpace ℝ ι →L[ℝ] EuclideanSpace ℝ ι := toEuclideanCLM (n := ι) (𝕜 := ℝ) M with hT
  have e : (fun z : ι → ℝ => WithLp.toLp 2 (M.mulVec z + c)) =
      (fun x : EuclideanSpace ℝ ι => WithLp.toLp 2 c + x) ∘ T ∘ (WithLp.toLp 2) := by
    funext z
    simp only [Function.comp_apply, hT, toEuclideanCLM_toLp, WithLp.toLp_add]
    rw [add_comm]
  have hmap : (Measure.pi fun _ : ι => gaussianReal 0 1).map
      (fun z => WithLp.toLp 2 (M.mulVec z + c)) =
      ((stdGaussian (EuclideanSpace ℝ ι)).map T).map (fun x => WithLp.toLp 2 c + x) := by
    rw [e, ← map_pi_eq_stdGaussian, Measure.map_map (by fun_prop) (by fun_prop),
      Measure.map_map (by fun_prop) (by fun_prop)]
    rfl
  rw [hmap]
  apply IsGaussian.ext
  · rw [integral_map (by fun_prop) (by fun_prop), integral_map (by fun_prop) (by fun_prop)]
    simp only [id]
    rw [integral_add (integrable_const _), integral_const]
    · simp [ContinuousLinearMap.integral_comp_comm _ IsGaussian.integrable_fun_id]
    · exact IsGaussian.integrable_id.comp_measurable (by fun_prop)
  · ext x y
    rw [covarianceBilin_multivariateGaussian hS, covarianceBilin_map_const_add, covarianceBilin_map,
      covarianceBilin_stdGaussian, innerSL_apply_apply, ContinuousLinearMap.adjoint_inner_left]
    · have hadj : ContinuousLinearMap.adjoint T = toEuclideanCLM (n := ι) (𝕜 := ℝ) Mᵀ := by
        have := (map_star (toEuclideanCLM (n := ι) (𝕜 := ℝ)) M).symm
        rw [← ContinuousLinearMap.star_eq_adjoint, hT, this]
        congr 1
      rw [hadj, hT, ← ContinuousLinearMap.comp_apply, ← ContinuousLinearMap.mul_def, ← map_mul,
        inner_toEuclideanCLM]
    · exact IsGaussian.memLp_two_id

end ZhuSuan.Meas

namespace ZhuSuan.Num

theorem sum_split {n : ℕ} (i : Fin n) (f : Fin n → ℝ) (h : ∀ j, i < j → f j = 0) :
    ∑ j, f j = (∑ j : Fin i.val, f ⟨j.val, j.isLt.trans i.isLt⟩) + f i := by
  let F : ℕ → ℝ := fun k => if hk : k < n then f ⟨k, hk⟩ else 0
  have h1 : ∑ j, f j = ∑ k ∈ Finset.range n, F k := by
    rw [← Fin.sum_univ_eq_sum_range F n]
    exact Finset.sum_congr rfl fun j _ => by simp [F]
  have h2 : ∑ k ∈ Finset.range (i.val + 1), F k = ∑ k ∈ Finset.range n, F k := by
    refine Finset.sum_subset (fun k hk => ?_) fun k hk hk' => ?_
    · simp only [Finset.mem_range] at hk ⊢
      omega
    · simp only [Finset.mem_range] at hk hk'
      simp only [F, dif_pos hk]
      exact h _ (by simp only [Fin.lt_def]; omega)
  rw [h1, ← h2, Finset.sum_range_succ, ← Fin.sum_univ_eq_sum_range F]
  congr 1
  · exact Finset.sum_congr rfl fun j _ => by simp [F, j.isLt.trans i.isLt]
  · simp [F]

/-- Forward substitution solves the triangular system. -/
theorem mulVec_triSolve {n : ℕ} (L : Fin n → Fin n → ℝ) (hd : ∀ i, L i i ≠ 0)
    (ht : ∀ i j, i < j → L i j = 0) (b : Fin n → ℝ) : (Matrix.of L).mulVec (triSolve L b) = b := by
  funext i
  simp only [Matrix.mulVec, dotProduct, Matrix.of_apply]
  rw [sum_split i _ fun j hj => by rw [ht i j hj, zero_mul]]
  have : triSolve L b i = triSolveAux L b i.val i.isLt := rfl
  rw [this, triSolveAux]
  simp only [Fn.sum]
  have hi : L ⟨i.val, i.isLt⟩ ⟨i.val, i.isLt⟩ ≠ 0 := hd i
  rw [mul_div_cancel₀ _ hi]
  simp only [triSolve]
  ring

theorem det_lower {n : ℕ} (L : Fin n → Fin n → ℝ) (ht : ∀ i j, i < j → L i j = 0) :
    (Matrix.of L).det = ∏ i, L i i :=
  Matrix.det_of_isLowerTriangular _ fun i j (h : i < j) => ht i j h

theorem triSolve_eq {n : ℕ} (L : Fin n → Fin n → ℝ) (hd : ∀ i, L i i ≠ 0)
    (ht : ∀ i j, i < j → L i j = 0) (b : Fin n → ℝ) : triSolve L b = (Matrix.of L)⁻¹.mulVec b := by
  have hu : IsUnit (Matrix.of L).det := by
    rw [det_lower L ht, isUnit_iff_ne_zero]
    exact Finset.prod_ne_zero_iff.2 fun i _ => hd i
  conv_rhs => rw [← mulVec_triSolve L hd ht b, Matrix.mulVec_mulVec, Matrix.nonsing_inv_mul _ hu,
    Matrix.one_mulVec]

end ZhuSuan.Num

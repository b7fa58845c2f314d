import Verif.Lemmas.Gaussian

/-!
# C30 MultivariateNormalCholesky, C34 MatrixVariateNormalCholesky

The specification is Mathlib's `multivariateGaussian`, the textbook density with the inverse and the
determinant of the covariance matrix, and (C34) the covariance `U Uᵀ ⊗ V Vᵀ` of the entries.
-/

set_option autoImplicit false

open MeasureTheory ProbabilityTheory Matrix
open scoped ENNReal Kronecker

namespace ZhuSuan.Num

/-- The admissible Cholesky factors: lower triangular with positive diagonal. -/
def Cholesky {n : ℕ} (L : Fin n → Fin n → ℝ) : Prop :=
  (∀ i j, i < j → L i j = 0) ∧ ∀ i, 0 < L i i

/-- The textbook density of the Gaussian with mean `μ` and covariance `S`. -/
noncomputable def normalDensity {ι : Type*} [Fintype ι] [DecidableEq ι] (μ : ι → ℝ)
    (S : Matrix ι ι ℝ) (x : ι → ℝ) : ℝ :=
  (√((2 * Real.pi) ^ Fintype.card ι * S.det))⁻¹ * Real.exp (-((x - μ) ⬝ᵥ S⁻¹ *ᵥ (x - μ)) / 2)

theorem normalDensity_eq {ι : Type*} [Fintype ι] [DecidableEq ι] (μ : ι → ℝ) (M : Matrix ι ι ℝ)
    (hM : M.det ≠ 0) (x : ι → ℝ) :
    normalDensity μ (M * Mᵀ) x = Real.exp (-(Fintype.card ι : ℝ) / 2 * Real.log (2 * Real.pi) -
      Real.log |M.det| - 0.5 * ∑ i, (M⁻¹.mulVec (x - μ)) i ^ 2) := by
  have hp : (0 : ℝ) < 2 * Real.pi := by positivity
  have hd : 0 < |M.det| := abs_pos.2 hM
  have h1 : (√((2 * Real.pi) ^ Fintype.card ι * (M * Mᵀ).det))⁻¹ =
      Real.exp (-(Fintype.card ι : ℝ) / 2 * Real.log (2 * Real.pi) - Real.log |M.det|) := by
    rw [det_mul, det_transpose, Real.sqrt_mul (by positivity), Real.sqrt_mul_self_eq_abs, mul_inv,
      Real.exp_sub, Real.exp_log hd, div_eq_mul_inv]
    congr 1
    rw [Real.sqrt_eq_rpow, ← Real.rpow_natCast, ← Real.rpow_mul hp.le, ← Real.rpow_neg hp.le,
      Real.rpow_def_of_pos hp]
    congr 1
    ring
  have h2 : (x - μ) ⬝ᵥ (M * Mᵀ)⁻¹ *ᵥ (x - μ) = ∑ i, (M⁻¹.mulVec (x - μ)) i ^ 2 := by
    rw [Matrix.mul_inv_rev, ← Matrix.mulVec_mulVec, Matrix.dotProduct_mulVec,
      ← Matrix.transpose_nonsing_inv, Matrix.vecMul_transpose]
    simp only [dotProduct, pow_two]
  rw [normalDensity, h1, h2, ← Real.exp_add]
  congr 1
  ring

/-! ## C30 -/

section mvn

variable {n : ℕ} (f : Flags) (mean : Fin n → ℝ) (L : Fin n → Fin n → ℝ)

theorem Cholesky.det_pos {L : Fin n → Fin n → ℝ} (h : Cholesky L) : 0 < (Matrix.of L).det := by
  rw [det_lower L h.1]
  exact Finset.prod_pos fun i _ => h.2 i

theorem Cholesky.log_det {L : Fin n → Fin n → ℝ} (h : Cholesky L) :
    Real.log |(Matrix.of L).det| = ∑ i, Real.log (L i i) := by
  rw [abs_of_pos h.det_pos, det_lower L h.1, Real.log_prod fun i _ => (h.2 i).ne']

theorem mvnLogProb_eq (h : Cholesky L) (x : Fin n → ℝ) :
    mvnLogProb f mean L x = -(n : ℝ) / 2 * Real.log (2 * Real.pi) - Real.log |(Matrix.of L).det| -
      0.5 * ∑ i, ((Matrix.of L)⁻¹.mulVec (x - mean)) i ^ 2 := by
  simp only [mvnLogProb, real_pathParam, Fn.ofReal, Fn.sum, Fn.log, sq]
  rw [h.log_det, ← triSolve_eq L (fun i => (h.2 i).ne') h.1]
  have : ∀ i, triSolve L (x - mean) i ^ 2 =
      triSolve L (fun i => x i - mean i) i * triSolve L (fun i => x i - mean i) i := fun i => pow_two _
  simp only [this]
  ring

theorem mvnSample_eq (z : Fin n → ℝ) : mvnSample f mean L z = (Matrix.of L).mulVec z + mean := by
  funext i
  simp [mvnSample, matVec, Fn.sum, Fn.ofReal, Matrix.mulVec, dotProduct]

/-- C30.  `prob` is the density of the Gaussian with covariance `L Lᵀ`. -/
theorem C30_density (h : Cholesky L) (x : Fin n → ℝ) :
    Real.exp (mvnLogProb f mean L x) = normalDensity mean (Matrix.of L * (Matrix.of L)ᵀ) x := by
  rw [mvnLogProb_eq f mean L h, normalDensity_eq _ _ h.det_pos.ne']
  simp

/-- C30.  `mean + L noise` has the law with density `prob`. -/
theorem C30_sampler (h : Cholesky L) :
    (Measure.pi fun _ : Fin n => gaussianReal 0 1).map (mvnSample f mean L) =
      volume.withDensity fun x => ENNReal.ofReal (Real.exp (mvnLogProb f mean L x)) := by
  have e : mvnSample f mean L = fun z => (Matrix.of L).mulVec z + mean :=
    funext (mvnSample_eq f mean L)
  rw [e, Meas.gaussian_affine _ h.det_pos.ne' mean]
  simp only [mvnLogProb_eq f mean L h, Fintype.card_fin]

/-- C30.  That law is the Gaussian measure with mean `mean` and covariance `L Lᵀ`.  No condition on `L`. -/
theorem C30_gaussian :
    (Measure.pi fun _ : Fin n => gaussianReal 0 1).map
        (fun z => WithLp.toLp 2 (mvnSample f mean L z)) =
      multivariateGaussian (WithLp.toLp 2 mean) (Matrix.of L * (Matrix.of L)ᵀ) := by
  simp only [mvnSample_eq f mean L]
  exact Meas.gaussian_affine_law _ _

/-- C30.  `prob` integrates to one. -/
theorem C30_total (h : Cholesky L) :
    ∫⁻ x, ENNReal.ofReal (Real.exp (mvnLogProb f mean L x)) = 1 := by
  have e := congrArg (fun m : Measure (Fin n → ℝ) => m Set.univ) (C30_sampler f mean L h)
  simp only [withDensity_apply _ MeasurableSet.univ, Measure.restrict_univ] at e
  rw [← e]
  have hm : Measurable (mvnSample f mean L) := by
    have e : mvnSample f mean L = fun z => (Matrix.of L).mulVec z + mean :=
      funext (mvnSample_eq f mean L)
    rw [e]
    exact ((Matrix.toLin' (Matrix.of L)).continuous_of_finiteDimensional.measurable).add_const mean
  rw [Measure.map_apply hm MeasurableSet.univ]
  simp

/-- A concrete case: a correlated pair. -/
example : Cholesky (![![2, 0], ![1, 3]] : Fin 2 → Fin 2 → ℝ) := by
  constructor
  · intro i j hij
    fin_cases i <;> fin_cases j <;> simp_all
  · intro i
    fin_cases i <;> norm_num

end mvn

/-! ## C34 -/

section matnormal

variable {r c : ℕ} (f : Flags) (mean : Fin r → Fin c → ℝ) (U : Fin r → Fin r → ℝ)
  (V : Fin c → Fin c → ℝ)

theorem kron_mulVec (A : Matrix (Fin r) (Fin r) ℝ) (B : Matrix (Fin c) (Fin c) ℝ)
    (z : Fin r × Fin c → ℝ) (p : Fin r × Fin c) :
    (A ⊗ₖ B).mulVec z p = ∑ k, ∑ l, A p.1 k * B p.2 l * z (k, l) := by
  simp only [Matrix.mulVec, dotProduct, Fintype.sum_prod_type, kroneckerMap_apply]

theorem matNormalSample_eq (z : Fin r × Fin c → ℝ) :
    (fun p : Fin r × Fin c => matNormalSample f mean U V (fun i j => z (i, j)) p.1 p.2) =
      (Matrix.of U ⊗ₖ Matrix.of V).mulVec z + fun p => mean p.1 p.2 := by
  funext p
  simp only [matNormalSample, real_sampleParam, Fn.sum, Fn.ofReal, Pi.add_apply, kron_mulVec,
    Matrix.of_apply]
  rw [add_comm, Finset.sum_comm]
  congr 1
  refine Finset.sum_congr rfl fun l _ => ?_
  rw [Finset.sum_mul]
  exact Finset.sum_congr rfl fun k _ => by ring

theorem kron_det {U : Fin r → Fin r → ℝ} {V : Fin c → Fin c → ℝ} (hU : Cholesky U)
    (hV : Cholesky V) : 0 < (Matrix.of U ⊗ₖ Matrix.of V).det := by
  rw [Matrix.det_kronecker]
  have := hU.det_pos
  have := hV.det_pos
  positivity

theorem matNormalLogProb_eq (hU : Cholesky U) (hV : Cholesky V) (x : Fin r × Fin c → ℝ) :
    matNormalLogProb f mean U V (fun i j => x (i, j)) =
      -(Fintype.card (Fin r × Fin c) : ℝ) / 2 * Real.log (2 * Real.pi) -
        Real.log |(Matrix.of U ⊗ₖ Matrix.of V).det| -
        0.5 * ∑ p, ((Matrix.of U ⊗ₖ Matrix.of V)⁻¹.mulVec (x - fun p => mean p.1 p.2)) p ^ 2 := by
  have hdet : Real.log |(Matrix.of U ⊗ₖ Matrix.of V).det| =
      c * ∑ i, Real.log (U i i) + r * ∑ j, Real.log (V j j) := by
    rw [← hU.log_det, ← hV.log_det, Matrix.det_kronecker, abs_mul, abs_pow, abs_pow,
      Real.log_mul (pow_ne_zero _ (abs_pos.2 hU.det_pos.ne').ne')
        (pow_ne_zero _ (abs_pos.2 hV.det_pos.ne').ne'), Real.log_pow, Real.log_pow]
    simp
  have hsolve : ∀ (i : Fin c) (j : Fin r),
      triSolve V (fun k => triSolve U (fun l => x (l, k) - mean l k) j) i =
        ((Matrix.of U ⊗ₖ Matrix.of V)⁻¹.mulVec (x - fun p => mean p.1 p.2)) (j, i) := by
    intro i j
    rw [triSolve_eq V (fun i => (hV.2 i).ne') hV.1, Matrix.inv_kronecker, kron_mulVec]
    simp only [triSolve_eq U (fun i => (hU.2 i).ne') hU.1]
    simp only [Matrix.mulVec, dotProduct, Finset.mul_sum, Pi.sub_apply]
    rw [Finset.sum_comm]
    exact Finset.sum_congr rfl fun k _ => Finset.sum_congr rfl fun l _ => by ring
  simp only [matNormalLogProb, real_pathParam, Fn.ofReal, Fn.sum, Fn.log, sq, hsolve]
  rw [hdet, Fintype.sum_prod_type, Finset.sum_comm]
  simp only [Fintype.card_prod, Fintype.card_fin, Nat.cast_mul, ← pow_two]
  ring

/-- C34.  `prob` is the density of the Gaussian whose entries have covariance `U Uᵀ` between rows and
`V Vᵀ` between columns. -/
theorem C34_density (hU : Cholesky U) (hV : Cholesky V) (x : Fin r × Fin c → ℝ) :
    Real.exp (matNormalLogProb f mean U V fun i j => x (i, j)) =
      normalDensity (fun p => mean p.1 p.2)
        ((Matrix.of U * (Matrix.of U)ᵀ) ⊗ₖ (Matrix.of V * (Matrix.of V)ᵀ)) x := by
  rw [Matrix.mul_kronecker_mul, Matrix.kroneckerMap_transpose,
    normalDensity_eq _ _ (kron_det hU hV).ne', matNormalLogProb_eq f mean U V hU hV]

/-- C34.  In matrix form: the exponent is `-tr((V Vᵀ)⁻¹ Yᵀ (U Uᵀ)⁻¹ Y)/2` with `Y = X - mean`, and the
constant is `(2π)^{-rc/2} det(U Uᵀ)^{-c/2} det(V Vᵀ)^{-r/2}`. -/
theorem C34_density_trace (hU : Cholesky U) (hV : Cholesky V) (X : Matrix (Fin r) (Fin c) ℝ) :
    Real.exp (matNormalLogProb f mean U V X) =
      (√((2 * Real.pi) ^ (r * c) * (Matrix.of U * (Matrix.of U)ᵀ).det ^ c *
        (Matrix.of V * (Matrix.of V)ᵀ).det ^ r))⁻¹ *
      Real.exp (-Matrix.trace ((Matrix.of V * (Matrix.of V)ᵀ)⁻¹ * (X - Matrix.of mean)ᵀ *
        (Matrix.of U * (Matrix.of U)ᵀ)⁻¹ * (X - Matrix.of mean)) / 2) := by
  have h := C34_density f mean U V hU hV fun p => X p.1 p.2
  have e : (fun i j => (fun p : Fin r × Fin c => X p.1 p.2) (i, j)) = X := rfl
  rw [e] at h
  rw [h, normalDensity, Matrix.det_kronecker]
  congr 2
  · simp only [Fintype.card_prod, Fintype.card_fin]
    rw [mul_assoc]
  · congr 2
    rw [Matrix.inv_kronecker]
    set A := (Matrix.of U * (Matrix.of U)ᵀ)⁻¹ with hA
    set B := (Matrix.of V * (Matrix.of V)ᵀ)⁻¹ with hB
    have hBt : Bᵀ = B := by
      rw [hB, Matrix.transpose_nonsing_inv, Matrix.transpose_mul, Matrix.transpose_transpose]
    simp only [dotProduct, kron_mulVec, Fintype.sum_prod_type, Pi.sub_apply, Matrix.trace,
      Matrix.diag_apply, Matrix.mul_apply, Matrix.transpose_apply, Matrix.sub_apply, Matrix.of_apply,
      Finset.mul_sum, Finset.sum_mul]
    -- both sides are sums over i k (rows) and j l (columns)
    have hs : ∀ l j, B l j = B j l := fun l j => by
      conv_lhs => rw [← hBt, Matrix.transpose_apply]
    rw [Finset.sum_comm]
    calc ∑ j, ∑ i, ∑ k, ∑ l, (X i j - mean i j) * (A i k * B j l * (X k l - mean k l))
        = ∑ j, ∑ k, ∑ i, ∑ l, (X i j - mean i j) * (A i k * B j l * (X k l - mean k l)) :=
          Finset.sum_congr rfl fun j _ => Finset.sum_comm
      _ = ∑ j, ∑ k, ∑ l, ∑ i, (X i j - mean i j) * (A i k * B j l * (X k l - mean k l)) :=
          Finset.sum_congr rfl fun j _ => Finset.sum_congr rfl fun k _ => Finset.sum_comm
      _ = ∑ j, ∑ l, ∑ k, ∑ i, (X i j - mean i j) * (A i k * B j l * (X k l - mean k l)) :=
          Finset.sum_congr rfl fun j _ => Finset.sum_comm
      _ = ∑ l, ∑ j, ∑ k, ∑ i, (X i j - mean i j) * (A i k * B j l * (X k l - mean k l)) :=
          Finset.sum_comm
      _ = ∑ l, ∑ k, ∑ j, ∑ i, (X i j - mean i j) * (A i k * B j l * (X k l - mean k l)) :=
          Finset.sum_congr rfl fun j _ => Finset.sum_comm
      _ = ∑ l, ∑ k, ∑ i, ∑ j, (X i j - mean i j) * (A i k * B j l * (X k l - mean k l)) :=
          Finset.sum_congr rfl fun j _ => Finset.sum_congr rfl fun k _ => Finset.sum_comm
      _ = _ := by
          refine Finset.sum_congr rfl fun l _ => Finset.sum_congr rfl fun k _ =>
            Finset.sum_congr rfl fun i _ => Finset.sum_congr rfl fun j _ => ?_
          rw [hs l j]
          ring

/-- C34.  `mean + U noise Vᵀ` has the law with density `prob`. -/
theorem C34_sampler (hU : Cholesky U) (hV : Cholesky V) :
    (Measure.pi fun _ : Fin r × Fin c => gaussianReal 0 1).map
        (fun (z : Fin r × Fin c → ℝ) (p : Fin r × Fin c) =>
          matNormalSample f mean U V (fun i j => z (i, j)) p.1 p.2) =
      volume.withDensity fun x : Fin r × Fin c → ℝ =>
        ENNReal.ofReal (Real.exp (matNormalLogProb f mean U V fun i j => x (i, j))) := by
  have hs : (fun (z : Fin r × Fin c → ℝ) (p : Fin r × Fin c) =>
      matNormalSample f mean U V (fun i j => z (i, j)) p.1 p.2) =
      fun z => (Matrix.of U ⊗ₖ Matrix.of V).mulVec z + fun p => mean p.1 p.2 :=
    funext (matNormalSample_eq f mean U V)
  rw [hs, Meas.gaussian_affine _ (kron_det hU hV).ne' fun p => mean p.1 p.2]
  simp only [matNormalLogProb_eq f mean U V hU hV]

/-- C34.  The sample is `mean + U noise Vᵀ`. -/
theorem C34_sample_formula (z : Matrix (Fin r) (Fin c) ℝ) :
    Matrix.of (matNormalSample f mean U V z) =
      Matrix.of mean + Matrix.of U * z * (Matrix.of V)ᵀ := by
  ext i j
  simp [matNormalSample, Fn.sum, Fn.ofReal, Matrix.mul_apply]

/-- C34.  That law is the Gaussian measure with this mean and covariance `U Uᵀ ⊗ V Vᵀ`. -/
theorem C34_gaussian :
    (Measure.pi fun _ : Fin r × Fin c => gaussianReal 0 1).map
        (fun z => WithLp.toLp 2 fun p : Fin r × Fin c =>
          matNormalSample f mean U V (fun i j => z (i, j)) p.1 p.2) =
      multivariateGaussian (WithLp.toLp 2 fun p => mean p.1 p.2)
        ((Matrix.of U * (Matrix.of U)ᵀ) ⊗ₖ (Matrix.of V * (Matrix.of V)ᵀ)) := by
  simp only [matNormalSample_eq f mean U V]
  rw [Meas.gaussian_affine_law, Matrix.mul_kronecker_mul, Matrix.kroneckerMap_transpose]

/-- C34.  `prob` integrates to one. -/
theorem C34_total (hU : Cholesky U) (hV : Cholesky V) :
    ∫⁻ x : Fin r × Fin c → ℝ,
      ENNReal.ofReal (Real.exp (matNormalLogProb f mean U V fun i j => x (i, j))) = 1 := by
  have e := congrArg (fun m : Measure (Fin r × Fin c → ℝ) => m Set.univ)
    (C34_sampler f mean U V hU hV)
  simp only [withDensity_apply _ MeasurableSet.univ, Measure.restrict_univ] at e
  rw [← e]
  have hm : Measurable fun (z : Fin r × Fin c → ℝ) (p : Fin r × Fin c) =>
      matNormalSample f mean U V (fun i j => z (i, j)) p.1 p.2 := by
    have hs : (fun (z : Fin r × Fin c → ℝ) (p : Fin r × Fin c) =>
        matNormalSample f mean U V (fun i j => z (i, j)) p.1 p.2) =
        fun z => (Matrix.of U ⊗ₖ Matrix.of V).mulVec z + fun p => mean p.1 p.2 :=
      funext (matNormalSample_eq f mean U V)
    rw [hs]
    exact ((Matrix.toLin' (Matrix.of U ⊗ₖ Matrix.of V)).continuous_of_finiteDimensional.measurable).add_const _
  rw [Measure.map_apply hm MeasurableSet.univ]
  simp

end matnormal

end ZhuSuan.Num

import Mathlib.LinearAlgebra.Matrix.SchurComplement
import Mathlib.Analysis.Matrix.Order
import Verif.Lemmas.Rbf
import Verif.Props.MvNormal

/-!
# C68  Gaussian-process utilities
-/

set_option autoImplicit false

namespace ZhuSuan.GP

open Matrix Num

section
variable {κ ι ι' : Type} [Fintype κ] [Fintype ι]

theorem kScale_pos (raw : κ → ℝ) (c : κ) : 0 < kScale raw c :=
  Real.log_pos (by linarith [Real.exp_pos (raw c)])

/-- C68.  The kernel is symmetric, has values in (0, 1], and is 1 at equal points and only there. -/
theorem C68_kernel_values (raw : κ → ℝ) (x : ι → κ → ℝ) (y : ι' → κ → ℝ) (i : ι) (j : ι') :
    rbf (kScale raw) x y i j = rbf (kScale raw) y x j i ∧ 0 < rbf (kScale raw) x y i j ∧ rbf (kScale raw) x y i j ≤ 1 ∧
    (rbf (kScale raw) x y i j = 1 ↔ x i = y j) := by
  have hp : ∀ c, 0 ≤ (x i c - y j c) ^ 2 / kScale raw c := fun c => div_nonneg (sq_nonneg _) (kScale_pos raw c).le
  refine ⟨?_, Real.exp_pos _, ?_, ?_⟩
  · simp only [rbf, of_apply]
    congr 3
    refine Finset.sum_congr rfl fun c _ => ?_
    rw [← neg_sub, neg_sq]
  · rw [rbf, of_apply, Real.exp_le_one_iff]
    have := Finset.sum_nonneg fun c (_ : c ∈ Finset.univ) => hp c
    linarith
  · rw [rbf, of_apply, Real.exp_eq_one_iff]
    constructor
    · intro h
      have h0 : ∑ c, (x i c - y j c) ^ 2 / kScale raw c = 0 := by linarith
      rw [Finset.sum_eq_zero_iff_of_nonneg fun c _ => hp c] at h0
      funext c
      have := h0 c (Finset.mem_univ c)
      rw [div_eq_zero_iff, or_iff_left (kScale_pos raw c).ne', pow_eq_zero_iff two_ne_zero] at this
      linarith
    · intro h
      simp [h]

/-- C68.  `Kdiag` is the diagonal of the kernel matrix. -/
theorem C68_kdiag (raw : κ → ℝ) (x : ι → κ → ℝ) (i : ι) : kDiag x i = rbf (kScale raw) x x i i :=
  ((C68_kernel_values raw x x i i).2.2.2.2 rfl).symm

/-- C68.  The kernel matrix is positive semi-definite, and positive definite if no point occurs twice. -/
theorem C68_kernel_psd (raw : κ → ℝ) (x : ι → κ → ℝ) :
    (∀ v : ι → ℝ, 0 ≤ ∑ i, ∑ j, v i * rbf (kScale raw) x x i j * v j) ∧
    (Function.Injective x → ∀ v : ι → ℝ, v ≠ 0 → 0 < ∑ i, ∑ j, v i * rbf (kScale raw) x x i j * v j) := by
  have e : ∀ v : ι → ℝ, ∑ i, ∑ j, v i * rbf (kScale raw) x x i j * v j = star v ⬝ᵥ (rbf (kScale raw) x x *ᵥ v) := by
    intro v
    simp only [dotProduct, mulVec, Finset.mul_sum, star_trivial, mul_assoc]
  refine ⟨fun v => ?_, fun hx v hv => ?_⟩
  · rw [e]
    exact (rbf_posSemidef _ (kScale_pos raw) x).dotProduct_mulVec_nonneg v
  · rw [e]
    exact (rbf_posDef _ (kScale_pos raw) x hx).dotProduct_mulVec_pos hv

/-- C68.  If a point occurs twice, the kernel matrix is singular. -/
theorem C68_kernel_singular [DecidableEq ι] (raw : κ → ℝ) (x : ι → κ → ℝ) (i j : ι) (hij : i ≠ j) (h : x i = x j) :
    (rbf (kScale raw) x x).det = 0 :=
  det_zero_of_row_eq hij (funext fun k => by simp [rbf, h])

end

/-- C68, finding.  `Kdiag` has the shape of the diagonals for points of shape `[n, d]` and `[b, n, d]`; with two or more
batch axes it does not, although `__call__` accepts them. -/
theorem C68_kdiag_shape (batch : List ℕ) (n d : ℕ) :
    (batch.length ≤ 1 → kDiagShape (batch ++ [n, d]) = some (batch ++ [n])) ∧
    (2 ≤ batch.length → ∀ s, kDiagShape (batch ++ [n, d]) = some s → s ≠ batch ++ [n]) := by
  match batch with
  | [] => simp [kDiagShape]
  | [b] => simp [kDiagShape]
  | b :: b' :: rest =>
    refine ⟨fun h => by simp at h, fun _ s hs => ?_⟩
    simp [kDiagShape] at hs
    subst hs
    intro h
    have := congrArg List.length h
    simp at this

/-! ## gp_conditional -/

section
variable {κ ι : Type} [Fintype κ] [Fintype ι] {nz p : ℕ}

theorem cholInv_eq {L : Fin nz → Fin nz → ℝ} (h : Cholesky L) : cholInv L = (Matrix.of L)⁻¹ := by
  ext i j
  rw [cholInv, of_apply, triSolve_eq L (fun i => (h.2 i).ne') h.1]
  have : (fun k => if k = j then (1 : ℝ) else 0) = Pi.single j 1 := by
    funext k
    rw [Pi.single_apply]
  rw [this, mulVec_single_one]
  rfl

theorem kzzInv_eq {L : Fin nz → Fin nz → ℝ} (h : Cholesky L) {S : Matrix (Fin nz) (Fin nz) ℝ}
    (hS : Matrix.of L * (Matrix.of L)ᵀ = S) : (cholInv L)ᵀ * cholInv L = S⁻¹ := by
  rw [cholInv_eq h, ← hS, Matrix.mul_inv_rev, transpose_nonsing_inv]

/-- C68.  For the Cholesky factor of the kernel matrix of `z` that `tf.cholesky` computes or the caller gives, the two
modes have the mean `fz Kzz⁻¹ Kzx`; the covariance in full mode is the Schur complement `Kxx - Kxz Kzz⁻¹ Kzx`, and the
squares of the standard deviations in the other mode are its diagonal. -/
theorem C68_conditional (raw : κ → ℝ) (z : Fin nz → κ → ℝ) (fz : Matrix (Fin p) (Fin nz) ℝ) (x : ι → κ → ℝ)
    (L : Fin nz → Fin nz → ℝ) (hL : Cholesky L) (hLL : Matrix.of L * (Matrix.of L)ᵀ = rbf (kScale raw) z z) :
    let K := fun {a b : Type} (s : a → κ → ℝ) (t : b → κ → ℝ) => rbf (kScale raw) s t
    let mean := fz * (K z z)⁻¹ * K z x
    let cov := K x x - K x z * (K z z)⁻¹ * K z x
    gpConditional (kScale raw) z fz x true L = .full mean cov ∧
    (∃ std, gpConditional (kScale raw) z fz x false L = .diag mean std ∧ ∀ i, 0 ≤ std i ∧ std i ^ 2 = cov i i) ∧
    cov.PosSemidef := by
  intro K mean cov
  have hinv := kzzInv_eq hL hLL
  have hdet : IsUnit (rbf (kScale raw) z z).det := by
    rw [← hLL, det_mul, det_transpose, isUnit_iff_ne_zero]
    exact mul_ne_zero hL.det_pos.ne' hL.det_pos.ne'
  have hT : (rbf (kScale raw) x z)ᵀ = rbf (kScale raw) z x := by
    ext i j
    exact (C68_kernel_values raw x z j i).1
  have hsym : ((rbf (kScale raw) z z)⁻¹)ᵀ = (rbf (kScale raw) z z)⁻¹ := by
    rw [transpose_nonsing_inv]
    congr 1
    exact rbf_symm _ z
  have hmean : fz * (rbf (kScale raw) x z * (rbf (kScale raw) z z)⁻¹)ᵀ = mean := by
    rw [transpose_mul, hsym, hT, ← Matrix.mul_assoc]
  have hcov : rbf (kScale raw) x x - rbf (kScale raw) x z * (rbf (kScale raw) z z)⁻¹ * (rbf (kScale raw) x z)ᵀ = cov := by
    rw [hT]
  have hpsd : cov.PosSemidef := by
    have hj := rbf_posSemidef _ (kScale_pos raw) (Sum.elim z x)
    have hb : rbf (kScale raw) (Sum.elim z x) (Sum.elim z x) =
        fromBlocks (rbf (kScale raw) z z) (rbf (kScale raw) z x) (rbf (kScale raw) z x)ᴴ (rbf (kScale raw) x x) := by
      ext (i | i) (j | j)
      · rfl
      · rfl
      · exact (C68_kernel_values raw x z i j).1
      · rfl
    have hpd : (rbf (kScale raw) z z).PosDef := by
      rw [← hLL]
      exact PosDef.mul_conjTranspose_self (Matrix.of L) (by
        intro v w h
        have := congrArg (fun x => x ᵥ* (Matrix.of L)⁻¹) h
        simpa [vecMul_vecMul, mul_nonsing_inv _ (isUnit_iff_ne_zero.2 hL.det_pos.ne')] using this)
    have : Invertible (rbf (kScale raw) z z) := invertibleOfIsUnitDet _ hdet
    rw [hb, PosDef.fromBlocks₁₁ _ _ hpd] at hj
    have e : (rbf (kScale raw) z x)ᴴ = rbf (kScale raw) x z := by
      rw [← hT]
      exact conjTranspose_conjTranspose _
    rwa [e] at hj
  refine ⟨?_, ?_, hpsd⟩
  · simp only [gpConditional, if_true, hinv]
    rw [hmean, hcov]
  · refine ⟨_, by simp only [gpConditional, hinv, Bool.false_eq_true, if_false]; rw [hmean], fun i => ⟨Real.sqrt_nonneg _, ?_⟩⟩
    have hvar : kDiag x i - ∑ k, (rbf (kScale raw) x z * (cholInv L)ᵀ) i k ^ 2 = cov i i := by
      have h1 : (rbf (kScale raw) x z * (cholInv L)ᵀ) * (rbf (kScale raw) x z * (cholInv L)ᵀ)ᵀ =
          rbf (kScale raw) x z * (rbf (kScale raw) z z)⁻¹ * (rbf (kScale raw) x z)ᵀ := by
        rw [← hinv, transpose_mul, transpose_transpose]
        simp only [Matrix.mul_assoc]
      rw [← hcov, Matrix.sub_apply, ← h1, C68_kdiag raw x i, Matrix.mul_apply]
      congr 1
      refine Finset.sum_congr rfl fun k _ => ?_
      rw [transpose_apply, pow_two]
    have hnn : 0 ≤ kDiag x i - ∑ k, (rbf (kScale raw) x z * (cholInv L)ᵀ) i k ^ 2 := by
      rw [hvar]
      exact hpsd.diag_nonneg
    exact (Real.sq_sqrt hnn).trans hvar

/-- C68.  Such a factor exists if and only if no point of `z` occurs twice. -/
theorem C68_cholesky_exists (raw : κ → ℝ) (z : Fin nz → κ → ℝ) :
    (∃ L, Cholesky L ∧ Matrix.of L * (Matrix.of L)ᵀ = rbf (kScale raw) z z) ↔ Function.Injective z := by
  constructor
  · rintro ⟨L, hL, hLL⟩ i j hij
    by_contra hne
    have := C68_kernel_singular raw z i j hne hij
    rw [← hLL, det_mul, det_transpose] at this
    exact mul_ne_zero hL.det_pos.ne' hL.det_pos.ne' this
  · intro h
    obtain ⟨L, h1, h2, h3⟩ := exists_cholesky (rbf_posDef _ (kScale_pos raw) z h)
    exact ⟨L, ⟨h1, h2⟩, h3⟩

/-- C68.  The conditional distribution interpolates: at points of `z` its mean is `fz` and its variance is 0. -/
theorem C68_interpolates (raw : κ → ℝ) (z : Fin nz → κ → ℝ) (fz : Matrix (Fin p) (Fin nz) ℝ) (x : ι → κ → ℝ)
    (L : Fin nz → Fin nz → ℝ) (hL : Cholesky L) (hLL : Matrix.of L * (Matrix.of L)ᵀ = rbf (kScale raw) z z)
    (i : ι) (k : Fin nz) (h : x i = z k) :
    ∃ mean cov std, gpConditional (kScale raw) z fz x true L = .full mean cov ∧
      gpConditional (kScale raw) z fz x false L = .diag mean std ∧
      (∀ t, mean t i = fz t k) ∧ cov i i = 0 ∧ std i = 0 := by
  obtain ⟨h1, ⟨std, h2, h3⟩, h4⟩ := C68_conditional raw z fz x L hL hLL
  have hdet : IsUnit (rbf (kScale raw) z z).det := by
    rw [← hLL, det_mul, det_transpose, isUnit_iff_ne_zero]
    exact mul_ne_zero hL.det_pos.ne' hL.det_pos.ne'
  have hcol : ∀ j, rbf (kScale raw) z x j i = rbf (kScale raw) z z j k := fun j => by simp [rbf, h]
  have hmul : ∀ j, ((rbf (kScale raw) z z)⁻¹ * rbf (kScale raw) z x) j i = (1 : Matrix (Fin nz) (Fin nz) ℝ) j k := by
    intro j
    rw [← nonsing_inv_mul _ hdet, Matrix.mul_apply, Matrix.mul_apply]
    exact Finset.sum_congr rfl fun l _ => by rw [hcol]
  have hcov : (rbf (kScale raw) x x - rbf (kScale raw) x z * (rbf (kScale raw) z z)⁻¹ * rbf (kScale raw) z x) i i = 0 := by
    rw [Matrix.sub_apply, Matrix.mul_assoc, Matrix.mul_apply]
    rw [Finset.sum_congr rfl fun l _ => by rw [hmul l]]
    simp only [Matrix.one_apply, mul_ite, mul_one, mul_zero, Finset.sum_ite_eq', Finset.mem_univ, if_true]
    simp [rbf, h]
  refine ⟨_, _, std, h1, h2, fun t => ?_, hcov, ?_⟩
  · rw [Matrix.mul_assoc, Matrix.mul_apply]
    rw [Finset.sum_congr rfl fun l _ => by rw [hmul l]]
    simp [Matrix.one_apply]
  · have := (h3 i).2
    rw [hcov] at this
    exact pow_eq_zero_iff two_ne_zero |>.1 this

end

/-- C68.  The full-covariance result is the conditional distribution of the Gaussian process given its values at `z`:
the textbook density of the joint Gaussian with the kernel matrix of all the points is that at `z` times that of the
returned mean and covariance. -/
theorem C68_chain_rule {κ : Type} [Fintype κ] {nz nx p : ℕ} (raw : κ → ℝ) (z : Fin nz → κ → ℝ)
    (fz : Matrix (Fin p) (Fin nz) ℝ) (x : Fin nx → κ → ℝ) (hzx : Function.Injective (Sum.elim z x))
    (L : Fin nz → Fin nz → ℝ) (hL : Cholesky L) (hLL : Matrix.of L * (Matrix.of L)ᵀ = rbf (kScale raw) z z) :
    ∃ mean cov, gpConditional (kScale raw) z fz x true L = .full mean cov ∧
      (∃ C, Cholesky C ∧ Matrix.of C * (Matrix.of C)ᵀ = cov) ∧
      ∀ t (fx : Fin nx → ℝ), normalDensity 0 (rbf (kScale raw) (Sum.elim z x) (Sum.elim z x)) (Sum.elim (fz t) fx) =
        normalDensity 0 (rbf (kScale raw) z z) (fz t) * normalDensity (mean t) cov fx := by
  obtain ⟨h1, _, h3⟩ := C68_conditional raw z fz x L hL hLL
  have hT : rbf (kScale raw) x z = (rbf (kScale raw) z x)ᵀ := by
    ext i j
    exact (C68_kernel_values raw x z i j).1
  have hLu : IsUnit (Matrix.of L).det := isUnit_iff_ne_zero.2 hL.det_pos.ne'
  have hdet : IsUnit (rbf (kScale raw) z z).det := by
    rw [← hLL, det_mul, det_transpose]
    exact hLu.mul hLu
  have hb : rbf (kScale raw) (Sum.elim z x) (Sum.elim z x) =
      fromBlocks (rbf (kScale raw) z z) (rbf (kScale raw) z x) (rbf (kScale raw) x z) (rbf (kScale raw) x x) := by
    ext (i | i) (j | j) <;> rfl
  have hjd : (rbf (kScale raw) (Sum.elim z x) (Sum.elim z x)).det ≠ 0 :=
    (rbf_posDef _ (kScale_pos raw) (Sum.elim z x) hzx).det_pos.ne'
  have : Invertible (rbf (kScale raw) z z) := invertibleOfIsUnitDet _ hdet
  rw [hb, det_fromBlocks₁₁, invOf_eq_nonsing_inv] at hjd
  have hpd := h3.posDef_iff_det_ne_zero.2 (right_ne_zero_of_mul hjd)
  obtain ⟨C, c1, c2, c3⟩ := exists_cholesky hpd
  have hC : Cholesky C := ⟨c1, c2⟩
  have hCu : IsUnit (Matrix.of C).det := isUnit_iff_ne_zero.2 hC.det_pos.ne'
  refine ⟨_, _, h1, ⟨C, hC, c3⟩, fun t fx => ?_⟩
  have hinv : ((rbf (kScale raw) z z)⁻¹) = ((Matrix.of L)⁻¹)ᵀ * (Matrix.of L)⁻¹ := by
    rw [← hLL, Matrix.mul_inv_rev, transpose_nonsing_inv]
  let G : Matrix (Fin nx) (Fin nz) ℝ := rbf (kScale raw) x z * ((Matrix.of L)⁻¹)ᵀ
  let M : Matrix (Fin nz ⊕ Fin nx) (Fin nz ⊕ Fin nx) ℝ := fromBlocks (Matrix.of L) 0 G (Matrix.of C)
  have hGL : G * (Matrix.of L)ᵀ = rbf (kScale raw) x z := by
    rw [Matrix.mul_assoc, ← transpose_mul, mul_nonsing_inv _ hLu, transpose_one, Matrix.mul_one]
  have hLG : Matrix.of L * Gᵀ = rbf (kScale raw) z x := by
    have := congrArg transpose hGL
    rwa [transpose_mul, transpose_transpose, hT, transpose_transpose] at this
  have hGG : G * Gᵀ = rbf (kScale raw) x z * (rbf (kScale raw) z z)⁻¹ * rbf (kScale raw) z x := by
    rw [hinv]
    simp only [G]
    rw [transpose_mul, transpose_transpose, hT, transpose_transpose]
    simp only [Matrix.mul_assoc]
  have hMM : M * Mᵀ = rbf (kScale raw) (Sum.elim z x) (Sum.elim z x) := by
    rw [hb, fromBlocks_transpose, fromBlocks_multiply]
    simp only [transpose_zero, Matrix.mul_zero, Matrix.zero_mul, add_zero]
    rw [hLL, hLG, hGL, hGG, c3, add_sub_cancel]
  have hMdet : M.det = (Matrix.of L).det * (Matrix.of C).det := det_fromBlocks_zero₁₂ _ _ _
  have hMu : IsUnit M.det := by rw [hMdet]; exact hLu.mul hCu
  have hsolve : M⁻¹ *ᵥ (Sum.elim (fz t) fx - 0) = Sum.elim ((Matrix.of L)⁻¹ *ᵥ (fz t - 0))
      ((Matrix.of C)⁻¹ *ᵥ (fx - (fz * (rbf (kScale raw) z z)⁻¹ * rbf (kScale raw) z x) t)) := by
    have hmean : (fz * (rbf (kScale raw) z z)⁻¹ * rbf (kScale raw) z x) t = G *ᵥ ((Matrix.of L)⁻¹ *ᵥ fz t) := by
      rw [mulVec_mulVec, Matrix.mul_assoc (rbf (kScale raw) x z), ← hinv]
      funext i
      have e : rbf (kScale raw) x z * (rbf (kScale raw) z z)⁻¹ = ((rbf (kScale raw) z z)⁻¹ * rbf (kScale raw) z x)ᵀ := by
        rw [transpose_mul, ← hT, transpose_nonsing_inv]
        congr 2
        exact (rbf_symm _ z).symm
      rw [e, Matrix.mul_assoc, Matrix.mul_apply, mulVec, dotProduct]
      refine Finset.sum_congr rfl fun k _ => ?_
      rw [transpose_apply, mul_comm]
    have hv : M *ᵥ Sum.elim ((Matrix.of L)⁻¹ *ᵥ fz t) ((Matrix.of C)⁻¹ *ᵥ (fx - G *ᵥ ((Matrix.of L)⁻¹ *ᵥ fz t))) =
        Sum.elim (fz t) fx := by
      rw [fromBlocks_mulVec]
      simp only [Sum.elim_comp_inl, Sum.elim_comp_inr, zero_mulVec, add_zero]
      rw [mulVec_mulVec (fz t), mul_nonsing_inv _ hLu, one_mulVec, mulVec_mulVec _ (Matrix.of C), mul_nonsing_inv _ hCu,
        one_mulVec, add_sub_cancel]
    rw [sub_zero, sub_zero, hmean, ← hv, mulVec_mulVec, nonsing_inv_mul _ hMu, one_mulVec]
  rw [← hMM, normalDensity_eq 0 M hMu.ne_zero, hsolve, ← hLL, normalDensity_eq 0 _ hLu.ne_zero, hLL, ← c3,
    normalDensity_eq _ _ hCu.ne_zero, ← Real.exp_add, hMdet, abs_mul, Real.log_mul (abs_ne_zero.2 hLu.ne_zero)
    (abs_ne_zero.2 hCu.ne_zero)]
  congr 1
  simp only [Fintype.sum_sum_type, Sum.elim_inl, Sum.elim_inr, Fintype.card_sum, Fintype.card_fin, Nat.cast_add]
  ring

/-- Two points to condition on and one to predict. -/
example : Function.Injective (Sum.elim (fun (i : Fin 2) (_ : Fin 1) => (i : ℝ)) (fun (_ : Fin 1) (_ : Fin 1) => (2 : ℝ))) := by
  have h : ∀ (a : Fin 2), ((a : ℕ) : ℝ) ≠ 2 := by
    intro a h
    have : (a : ℕ) = 2 := by exact_mod_cast h
    omega
  rintro (a | a) (b | b) hab
  · have := congrFun hab 0
    simp only [Sum.elim_inl] at this
    have : (a : ℕ) = b := by exact_mod_cast this
    rw [Fin.ext this]
  · exact absurd (congrFun hab 0) (h a)
  · exact absurd (congrFun hab 0).symm (h b)
  · rw [Subsingleton.elim a b]

end ZhuSuan.GP

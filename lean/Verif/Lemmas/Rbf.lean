import Mathlib.LinearAlgebra.Matrix.PosDef
import Mathlib.Analysis.Matrix.LDL
import Mathlib.LinearAlgebra.Matrix.Block
import Mathlib.Analysis.Normed.Algebra.Exponential
import Mathlib.Analysis.SpecialFunctions.Exponential
import Mathlib.Algebra.Algebra.Subalgebra.Lattice
import Verif.Model.GaussianProcess

/-!
# Positive definiteness of the Gaussian kernel
-/

set_option autoImplicit false

namespace ZhuSuan.GP

open Matrix

section
variable {κ ι : Type} [Fintype κ] [Fintype ι]

/-- The quadratic form of a power of a Gram matrix is a sum of squares. -/
theorem sum_pow_eq (u : ι → κ → ℝ) (c : ι → ℝ) (n : ℕ) :
    ∑ i, ∑ j, c i * c j * (∑ k, u i k * u j k) ^ n = ∑ f : Fin n → κ, (∑ i, c i * ∏ l, u i (f l)) ^ 2 := by
  classical
  have h : ∀ a : κ → ℝ, (∑ k, a k) ^ n = ∑ f : Fin n → κ, ∏ l, a (f l) := by
    intro a
    have := Finset.prod_univ_sum (fun _ : Fin n => (Finset.univ : Finset κ)) (fun _ k => a k)
    rw [Finset.prod_const, Finset.card_univ, Fintype.card_fin] at this
    rw [this, Fintype.piFinset_univ]
  have h2 : ∀ i j, c i * c j * (∑ k, u i k * u j k) ^ n =
      ∑ f : Fin n → κ, (c i * ∏ l, u i (f l)) * (c j * ∏ l, u j (f l)) := by
    intro i j
    rw [h, Finset.mul_sum]
    refine Finset.sum_congr rfl fun f _ => ?_
    rw [Finset.prod_mul_distrib]
    ring
  calc ∑ i, ∑ j, c i * c j * (∑ k, u i k * u j k) ^ n
      = ∑ i, ∑ j, ∑ f : Fin n → κ, (c i * ∏ l, u i (f l)) * (c j * ∏ l, u j (f l)) := by
        simp only [h2]
    _ = ∑ f : Fin n → κ, ∑ i, ∑ j, (c i * ∏ l, u i (f l)) * (c j * ∏ l, u j (f l)) := by
        rw [Finset.sum_comm]
        conv_lhs => enter [2, j]; rw [Finset.sum_comm]
        rw [Finset.sum_comm]
        refine Finset.sum_congr rfl fun f _ => Finset.sum_comm
    _ = _ := by
        refine Finset.sum_congr rfl fun f _ => ?_
        rw [pow_two, Finset.sum_mul_sum]

theorem hasSum_exp_form (u : ι → κ → ℝ) (c : ι → ℝ) :
    HasSum (fun n : ℕ => (∑ f : Fin n → κ, (∑ i, c i * ∏ l, u i (f l)) ^ 2) / (n.factorial : ℝ))
      (∑ i, ∑ j, c i * c j * Real.exp (∑ k, u i k * u j k)) := by
  have h : ∀ i j, HasSum (fun n : ℕ => c i * c j * ((∑ k, u i k * u j k) ^ n / (n.factorial : ℝ)))
      (c i * c j * Real.exp (∑ k, u i k * u j k)) := fun i j => by
    have := NormedSpace.expSeries_div_hasSum_exp (∑ k, u i k * u j k)
    rw [← Real.exp_eq_exp_ℝ] at this
    exact this.mul_left _
  have h2 := hasSum_sum (s := (Finset.univ : Finset ι)) fun i _ =>
    hasSum_sum (s := (Finset.univ : Finset ι)) fun j _ => h i j
  have e : (fun n : ℕ => (∑ f : Fin n → κ, (∑ i, c i * ∏ l, u i (f l)) ^ 2) / (n.factorial : ℝ)) =
      fun n : ℕ => ∑ i, ∑ j, c i * c j * ((∑ k, u i k * u j k) ^ n / (n.factorial : ℝ)) := by
    funext n
    rw [← sum_pow_eq, Finset.sum_div]
    refine Finset.sum_congr rfl fun i _ => ?_
    rw [Finset.sum_div]
    exact Finset.sum_congr rfl fun j _ => mul_div_assoc _ _ _
  rw [e]
  exact h2

theorem exp_form_nonneg (u : ι → κ → ℝ) (c : ι → ℝ) :
    0 ≤ ∑ i, ∑ j, c i * c j * Real.exp (∑ k, u i k * u j k) :=
  (hasSum_exp_form u c).nonneg fun n =>
    div_nonneg (Finset.sum_nonneg fun _ _ => sq_nonneg _) (Nat.cast_nonneg _)

/-- A functional that vanishes on all monomials of distinct points is zero. -/
theorem eq_zero_of_monomials (u : ι → κ → ℝ) (hu : Function.Injective u) (d : ι → ℝ)
    (h : ∀ (n : ℕ) (f : Fin n → κ), ∑ i, d i * ∏ l, u i (f l) = 0) : d = 0 := by
  classical
  let φ : (ι → ℝ) →ₗ[ℝ] ℝ := ∑ i, d i • LinearMap.proj i
  have hφ : ∀ g : ι → ℝ, φ g = ∑ i, d i * g i := fun g => by simp [φ]
  let e : κ → ι → ℝ := fun k i => u i k
  have hmon : ∀ g ∈ Submonoid.closure (Set.range e), φ g = 0 := by
    intro g hg
    obtain ⟨l, hl, rfl⟩ := Submonoid.exists_list_of_mem_closure hg
    choose k hk using fun x : {x // x ∈ l} => hl x.1 x.2
    have hl' : l = List.ofFn fun i : Fin l.length => e (k ⟨l[i], List.getElem_mem _⟩) := by
      refine List.ext_getElem (by simp) fun i h1 h2 => ?_
      rw [List.getElem_ofFn]
      exact (hk ⟨l[i], List.getElem_mem _⟩).symm
    rw [hφ]
    rw [hl', List.prod_ofFn]
    have := h l.length fun i => k ⟨l[i], List.getElem_mem _⟩
    simpa [Finset.prod_apply, e] using this
  have hker : Subalgebra.toSubmodule (Algebra.adjoin ℝ (Set.range e)) ≤ LinearMap.ker φ := by
    rw [Algebra.adjoin_eq_span, Submodule.span_le]
    exact fun g hg => hmon g hg
  funext i0
  let g : ι → ℝ := ∏ j ∈ Finset.univ.erase i0, ∑ k, (e k - algebraMap ℝ (ι → ℝ) (u j k)) ^ 2
  have hg : g ∈ Algebra.adjoin ℝ (Set.range e) :=
    Subalgebra.prod_mem _ fun j _ => Subalgebra.sum_mem _ fun k _ => Subalgebra.pow_mem _
      (Subalgebra.sub_mem _ (Algebra.subset_adjoin (Set.mem_range_self k)) (Subalgebra.algebraMap_mem _ _)) _
  have hgi : ∀ i, g i = ∏ j ∈ Finset.univ.erase i0, ∑ k, (u i k - u j k) ^ 2 := by
    intro i
    simp [g, e, Finset.prod_apply, Finset.sum_apply]
  have h0 : ∀ i, i ≠ i0 → g i = 0 := by
    intro i hi
    rw [hgi]
    refine Finset.prod_eq_zero (i := i) (by simp [hi]) ?_
    simp
  have h1 : g i0 ≠ 0 := by
    rw [hgi, Finset.prod_ne_zero_iff]
    intro j hj hz
    rw [Finset.sum_eq_zero_iff_of_nonneg fun _ _ => sq_nonneg _] at hz
    refine (Finset.ne_of_mem_erase hj) (hu (funext fun k => ?_))
    have := pow_eq_zero_iff two_ne_zero |>.1 (hz k (Finset.mem_univ _))
    linarith
  have h2 : φ g = 0 := hker hg
  rw [hφ, Finset.sum_eq_single i0 (fun i _ hi => by rw [h0 i hi, mul_zero]) (by simp)] at h2
  simpa [h1] using h2

theorem exp_form_pos (u : ι → κ → ℝ) (hu : Function.Injective u) (c : ι → ℝ) (hc : c ≠ 0) :
    0 < ∑ i, ∑ j, c i * c j * Real.exp (∑ k, u i k * u j k) := by
  refine lt_of_le_of_ne (exp_form_nonneg u c) fun h => hc ?_
  have hs := hasSum_exp_form u c
  rw [← h, hasSum_zero_iff_of_nonneg fun n =>
    div_nonneg (Finset.sum_nonneg fun _ _ => sq_nonneg _) (Nat.cast_nonneg _)] at hs
  refine eq_zero_of_monomials u hu c fun n f => ?_
  have hn := congrFun hs n
  simp only [Pi.zero_apply, div_eq_zero_iff, Nat.cast_eq_zero, n.factorial_ne_zero, or_false] at hn
  rw [Finset.sum_eq_zero_iff_of_nonneg fun _ _ => sq_nonneg _] at hn
  exact pow_eq_zero_iff two_ne_zero |>.1 (hn f (Finset.mem_univ _))

omit [Fintype ι] in
/-- The kernel in terms of inner products of scaled points. -/
theorem rbf_eq (scale : κ → ℝ) (hs : ∀ c, 0 < scale c) (x : ι → κ → ℝ) (i j : ι) :
    rbf scale x x i j = Real.exp (-(∑ c, (x i c / √(scale c)) ^ 2) / 2) * Real.exp (-(∑ c, (x j c / √(scale c)) ^ 2) / 2) *
      Real.exp (∑ c, (x i c / √(scale c)) * (x j c / √(scale c))) := by
  rw [rbf, of_apply, ← Real.exp_add, ← Real.exp_add]
  congr 1
  have : ∀ c, (x i c - x j c) ^ 2 / scale c = (x i c / √(scale c)) ^ 2 + (x j c / √(scale c)) ^ 2 -
      2 * ((x i c / √(scale c)) * (x j c / √(scale c))) := by
    intro c
    have h1 : scale c = √(scale c) ^ 2 := (Real.sq_sqrt (hs c).le).symm
    have h2 : √(scale c) ≠ 0 := (Real.sqrt_pos.2 (hs c)).ne'
    rw [h1]
    rw [Real.sqrt_sq (Real.sqrt_nonneg _)]
    field_simp
    ring
  rw [Finset.sum_congr rfl fun c _ => this c, Finset.sum_sub_distrib, Finset.sum_add_distrib, ← Finset.mul_sum]
  ring

theorem rbf_form (scale : κ → ℝ) (hs : ∀ c, 0 < scale c) (x : ι → κ → ℝ) (v : ι → ℝ) :
    v ⬝ᵥ (rbf scale x x *ᵥ v) = ∑ i, ∑ j, (v i * Real.exp (-(∑ c, (x i c / √(scale c)) ^ 2) / 2)) *
      (v j * Real.exp (-(∑ c, (x j c / √(scale c)) ^ 2) / 2)) *
      Real.exp (∑ c, (x i c / √(scale c)) * (x j c / √(scale c))) := by
  simp only [dotProduct, mulVec, Finset.mul_sum]
  refine Finset.sum_congr rfl fun i _ => Finset.sum_congr rfl fun j _ => ?_
  rw [rbf_eq scale hs]
  ring

omit [Fintype ι] in
theorem rbf_symm (scale : κ → ℝ) (x : ι → κ → ℝ) : (rbf scale x x).IsHermitian := by
  ext i j
  simp only [conjTranspose_apply, star_trivial, rbf, of_apply]
  congr 3
  refine Finset.sum_congr rfl fun c _ => ?_
  rw [← neg_sub, neg_sq]

theorem rbf_posSemidef (scale : κ → ℝ) (hs : ∀ c, 0 < scale c) (x : ι → κ → ℝ) : (rbf scale x x).PosSemidef := by
  refine PosSemidef.of_dotProduct_mulVec_nonneg (rbf_symm scale x) fun v => ?_
  rw [star_trivial, rbf_form scale hs]
  exact exp_form_nonneg (fun i c => x i c / √(scale c)) _

theorem rbf_posDef (scale : κ → ℝ) (hs : ∀ c, 0 < scale c) (x : ι → κ → ℝ) (hx : Function.Injective x) :
    (rbf scale x x).PosDef := by
  refine PosDef.of_dotProduct_mulVec_pos (rbf_symm scale x) fun v hv => ?_
  rw [star_trivial, rbf_form scale hs]
  refine exp_form_pos (fun i c => x i c / √(scale c)) (fun i j h => hx (funext fun c => ?_)) _ fun h => hv ?_
  · have := congrFun h c
    exact (div_left_inj' (Real.sqrt_pos.2 (hs c)).ne').1 this
  · funext i
    have := congrFun h i
    simpa [(Real.exp_pos _).ne'] using this

end

/-- Every positive definite matrix has a Cholesky factor. -/
theorem exists_cholesky {n : ℕ} {S : Matrix (Fin n) (Fin n) ℝ} (hS : S.PosDef) :
    ∃ L : Fin n → Fin n → ℝ, (∀ i j, i < j → L i j = 0) ∧ (∀ i, 0 < L i i) ∧ Matrix.of L * (Matrix.of L)ᵀ = S := by
  let B := LDL.lowerInv hS
  let A := LDL.lower hS
  have : Invertible B := LDL.invertibleLowerInv hS
  have hBu : IsUnit B.det := (Matrix.isUnit_iff_isUnit_det B).1 (isUnit_of_invertible B)
  have hB : B.BlockTriangular OrderDual.toDual := fun i j hij => LDL.lowerInv_triangular hS hij
  have hA : A.BlockTriangular OrderDual.toDual := blockTriangular_inv_of_blockTriangular hB
  have hAdet : A.det ≠ 0 := by
    show (B⁻¹).det ≠ 0
    rw [det_nonsing_inv, Ring.inverse_eq_inv']
    exact inv_ne_zero hBu.ne_zero
  have hAd : ∀ i, A i i ≠ 0 := by
    rw [det_of_isLowerTriangular A fun i j h => hA h, Finset.prod_ne_zero_iff] at hAdet
    exact fun i => hAdet i (Finset.mem_univ i)
  have hD := LDL.diag_eq_lowerInv_conj hS
  have hdp : ∀ i, 0 < LDL.diagEntries hS i := by
    intro i
    have h1 : LDL.diag hS i i = LDL.diagEntries hS i := diagonal_apply_eq _ _
    have h2 : (B * S * Bᴴ).PosDef := hS.mul_mul_conjTranspose_same (by
      intro v w h
      have := congrArg (fun x => x ᵥ* B⁻¹) h
      simpa [vecMul_vecMul, mul_nonsing_inv B hBu] using this)
    rw [← h1, hD]
    exact h2.diag_pos
  let d : Fin n → ℝ := fun i => √(LDL.diagEntries hS i) * SignType.sign (A i i)
  have hd2 : ∀ i, d i * d i = LDL.diagEntries hS i := by
    intro i
    have hs : ((SignType.sign (A i i) : ℝ)) * (SignType.sign (A i i) : ℝ) = 1 := by
      rcases lt_or_gt_of_ne (hAd i) with h | h
      · rw [sign_neg h]; norm_num
      · rw [sign_pos h]; norm_num
    calc d i * d i = (√(LDL.diagEntries hS i) * √(LDL.diagEntries hS i)) *
          (((SignType.sign (A i i) : ℝ)) * (SignType.sign (A i i) : ℝ)) := by simp only [d]; ring
      _ = _ := by rw [hs, mul_one, Real.mul_self_sqrt (hdp i).le]
  refine ⟨fun i j => A i j * d j, fun i j hij => ?_, fun i => ?_, ?_⟩
  · show A i j * d j = 0
    rw [hA (show OrderDual.toDual j < OrderDual.toDual i from hij), zero_mul]
  · show 0 < A i i * (√(LDL.diagEntries hS i) * SignType.sign (A i i))
    have : A i i * (√(LDL.diagEntries hS i) * SignType.sign (A i i)) = |A i i| * √(LDL.diagEntries hS i) := by
      rw [← self_mul_sign]
      ring
    rw [this]
    exact mul_pos (abs_pos.2 (hAd i)) (Real.sqrt_pos.2 (hdp i))
  · have e : Matrix.of (fun i j => A i j * d j) = A * diagonal d := by
      ext i j
      rw [mul_diagonal, of_apply]
    have h3 : A * LDL.diag hS * Aᴴ = S := LDL.lower_conj_diag hS
    rw [e, transpose_mul, diagonal_transpose, Matrix.mul_assoc, ← Matrix.mul_assoc (diagonal d), diagonal_mul_diagonal,
      ← Matrix.mul_assoc]
    conv_rhs => rw [← h3, LDL.diag]
    congr 3
    funext i
    exact hd2 i

end ZhuSuan.GP

import Mathlib.Analysis.Calculus.MeanValue
import Mathlib.Analysis.Calculus.ContDiff.Basic
import Mathlib.Analysis.Calculus.FDeriv.Symmetric
import Mathlib.Analysis.Calculus.LineDeriv.IntegrationByParts
import Mathlib.MeasureTheory.Integral.Prod
import Mathlib.MeasureTheory.Function.L2Space

/-!
# Small random displacements of a test function
-/

set_option autoImplicit false

open MeasureTheory Filter Topology Set

namespace ZhuSuan.Weak

variable {E F : Type*} [NormedAddCommGroup E] [NormedSpace ℝ E] [NormedAddCommGroup F] [NormedSpace ℝ F]

/-- First order expansion of a function whose derivative is Lipschitz. -/
theorem taylor1 {g : E → F} {g' : E → E →L[ℝ] F} (hg : ∀ x, HasFDerivAt g (g' x) x) {K : ℝ}
    (hK : ∀ x y, ‖g' x - g' y‖ ≤ K * ‖x - y‖) (x d : E) : ‖g (x + d) - g x - g' x d‖ ≤ K * ‖d‖ ^ 2 := by
  set φ : ℝ → F := fun t => g (x + t • d) - t • g' x d with hφ
  have hd : ∀ t, HasDerivAt φ (g' (x + t • d) d - g' x d) t := by
    intro t
    have h1 : HasDerivAt (fun t : ℝ => x + t • d) d t := by
      simpa using ((hasDerivAt_id t).smul_const d).const_add x
    have h2 : HasDerivAt (fun t : ℝ => t • g' x d) (g' x d) t := by
      simpa using (hasDerivAt_id t).smul_const (g' x d)
    exact ((hg _).comp_hasDerivAt t h1).sub h2
  have h := norm_image_sub_le_of_norm_deriv_le_segment_01' (f := φ) (C := K * ‖d‖ ^ 2)
    (fun t _ => (hd t).hasDerivWithinAt) (fun t ht => ?_)
  · simpa [hφ, sub_right_comm] using h
  · rw [← _root_.sub_apply]
    refine (ContinuousLinearMap.le_opNorm _ _).trans ?_
    have h1 := hK (x + t • d) x
    rw [add_sub_cancel_left, norm_smul, Real.norm_of_nonneg ht.1] at h1
    have hK0 : 0 ≤ K * ‖d‖ := by
      have := (norm_nonneg _).trans (hK (x + d) x)
      simpa using this
    calc ‖g' (x + t • d) - g' x‖ * ‖d‖ ≤ K * (t * ‖d‖) * ‖d‖ := by gcongr
      _ = t * (K * ‖d‖) * ‖d‖ := by ring
      _ ≤ 1 * (K * ‖d‖) * ‖d‖ := by
          have := ht.2.le
          gcongr
      _ = K * ‖d‖ ^ 2 := by ring

/-- Second order expansion of a function whose second derivative is Lipschitz. -/
theorem taylor2 {g : E → F} {g' : E → E →L[ℝ] F} {g'' : E → E →L[ℝ] E →L[ℝ] F} (hg : ∀ x, HasFDerivAt g (g' x) x)
    (hg' : ∀ x, HasFDerivAt g' (g'' x) x) {K : ℝ} (hK : ∀ x y, ‖g'' x - g'' y‖ ≤ K * ‖x - y‖) (x d : E) :
    ‖g (x + d) - g x - g' x d - (1 / 2 : ℝ) • g'' x d d‖ ≤ K * ‖d‖ ^ 3 := by
  set φ : ℝ → F := fun t => g (x + t • d) - t • g' x d - (t ^ 2 / 2) • g'' x d d with hφ
  have hd : ∀ t, HasDerivAt φ (g' (x + t • d) d - g' x d - t • g'' x d d) t := by
    intro t
    have h1 : HasDerivAt (fun t : ℝ => x + t • d) d t := by
      simpa using ((hasDerivAt_id t).smul_const d).const_add x
    have h2 : HasDerivAt (fun t : ℝ => t • g' x d) (g' x d) t := by
      simpa using (hasDerivAt_id t).smul_const (g' x d)
    have h3 : HasDerivAt (fun t : ℝ => (t ^ 2 / 2) • g'' x d d) (t • g'' x d d) t := by
      have h := (((hasDerivAt_id t).pow 2).div_const 2).smul_const (g'' x d d)
      simpa using h
    exact (((hg _).comp_hasDerivAt t h1).sub h2).sub h3
  have h := norm_image_sub_le_of_norm_deriv_le_segment_01' (f := φ) (C := K * ‖d‖ ^ 3)
    (fun t _ => (hd t).hasDerivWithinAt) (fun t ht => ?_)
  · have e : φ 1 - φ 0 = g (x + d) - g x - g' x d - (1 / 2 : ℝ) • g'' x d d := by
      simp [hφ]
      abel
    rwa [e] at h
  · have h1 := taylor1 hg' hK x (t • d)
    have e : g' (x + t • d) d - g' x d - t • g'' x d d = (g' (x + t • d) - g' x - g'' x (t • d)) d := by
      simp
    rw [e]
    refine (ContinuousLinearMap.le_opNorm _ _).trans ?_
    rw [norm_smul, Real.norm_of_nonneg ht.1] at h1
    have hK0 : 0 ≤ K * ‖d‖ := by
      have h0 : 0 ≤ ‖g'' (x + d) - g'' x‖ := by positivity
      have := h0.trans (hK (x + d) x)
      simpa using this
    calc _ ≤ K * (t * ‖d‖) ^ 2 * ‖d‖ := by gcongr
      _ = t ^ 2 * (K * ‖d‖) * ‖d‖ ^ 2 := by ring
      _ ≤ 1 * (K * ‖d‖) * ‖d‖ ^ 2 := by
          have : t ^ 2 ≤ 1 := pow_le_one₀ ht.1 ht.2.le
          gcongr
      _ = K * ‖d‖ ^ 3 := by ring

/-- A continuously differentiable function with compact support is bounded and Lipschitz. -/
theorem bound_lip {G : E → F} (hG : ContDiff ℝ 1 G) (hc : HasCompactSupport G) :
    ∃ K : ℝ, 0 ≤ K ∧ (∀ x, ‖G x‖ ≤ K) ∧ ∀ x y, ‖G x - G y‖ ≤ K * ‖x - y‖ := by
  obtain ⟨K0, h0⟩ := hc.exists_bound_of_continuous hG.continuous
  obtain ⟨K1, h1⟩ := (hc.fderiv ℝ).exists_bound_of_continuous (hG.continuous_fderiv (by norm_num))
  refine ⟨max K0 K1, ((norm_nonneg _).trans (h0 0)).trans (le_max_left _ _), fun x => (h0 x).trans (le_max_left _ _),
    fun x y => ?_⟩
  exact convex_univ.norm_image_sub_le_of_norm_hasFDerivWithin_le (f := G)
    (fun x _ => ((hG.differentiable (by norm_num)) x).hasFDerivAt.hasFDerivWithinAt)
    (fun x _ => (h1 x).trans (le_max_right _ _)) (mem_univ y) (mem_univ x)

/-- A test function: three times continuously differentiable with compact support. -/
structure Test (f : E → ℝ) : Prop where
  smooth : ContDiff ℝ 3 f
  supp : HasCompactSupport f

/-- The second derivative. -/
noncomputable abbrev hess (f : E → ℝ) (x : E) : E →L[ℝ] E →L[ℝ] ℝ := fderiv ℝ (fderiv ℝ f) x

namespace Test

variable {f : E → ℝ} (hf : Test f)
include hf

theorem d1 (x : E) : HasFDerivAt f (fderiv ℝ f x) x :=
  (hf.smooth.differentiable (by norm_num) x).hasFDerivAt

theorem smooth1 : ContDiff ℝ 2 (fderiv ℝ f) := hf.smooth.fderiv_right (by norm_num)

theorem smooth2 : ContDiff ℝ 1 (hess f) := hf.smooth1.fderiv_right (by norm_num)

theorem d2 (x : E) : HasFDerivAt (fderiv ℝ f) (hess f x) x :=
  (hf.smooth1.differentiable (by norm_num) x).hasFDerivAt

theorem supp1 : HasCompactSupport (fderiv ℝ f) := hf.supp.fderiv ℝ

theorem supp2 : HasCompactSupport (hess f) := hf.supp1.fderiv ℝ

theorem cont : Continuous f := hf.smooth.continuous

theorem cont1 : Continuous (fderiv ℝ f) := hf.smooth1.continuous

theorem cont2 : Continuous (hess f) := hf.smooth2.continuous

theorem bounds : ∃ K : ℝ, 0 ≤ K ∧ (∀ x, |f x| ≤ K) ∧ (∀ x, ‖fderiv ℝ f x‖ ≤ K) ∧ (∀ x, ‖hess f x‖ ≤ K) ∧
    (∀ x y, ‖fderiv ℝ f x - fderiv ℝ f y‖ ≤ K * ‖x - y‖) ∧ ∀ x y, ‖hess f x - hess f y‖ ≤ K * ‖x - y‖ := by
  obtain ⟨K0, h0, b0, _⟩ := bound_lip (hf.smooth.of_le (by norm_num)) hf.supp
  obtain ⟨K1, h1, b1, l1⟩ := bound_lip (hf.smooth1.of_le (by norm_num)) hf.supp1
  obtain ⟨K2, h2, b2, l2⟩ := bound_lip hf.smooth2 hf.supp2
  refine ⟨K0 + K1 + K2, by positivity, fun x => (b0 x).trans (by linarith), fun x => (b1 x).trans (by linarith),
    fun x => (b2 x).trans (by linarith), fun x y => (l1 x y).trans ?_, fun x y => (l2 x y).trans ?_⟩ <;>
  exact mul_le_mul_of_nonneg_right (by linarith) (norm_nonneg _)

/-- The expansion of a test function at a displacement `s a + s² b`. -/
theorem expand : ∃ K : ℝ, 0 ≤ K ∧ ∀ (x a b : E) (s : ℝ), 0 ≤ s →
    |f (x + s • a + s ^ 2 • b) - f x - s * fderiv ℝ f x a - s ^ 2 * (fderiv ℝ f x b + 1 / 2 * hess f x a a)| ≤
      K * (s ^ 3 * (‖a‖ ^ 3 + ‖a‖ * ‖b‖) + s ^ 4 * ‖b‖ ^ 2) := by
  obtain ⟨K, hK0, _, _, _, hL1, hL2⟩ := hf.bounds
  refine ⟨K, hK0, fun x a b s hs => ?_⟩
  have e1 := taylor2 hf.d1 hf.d2 hL2 x (s • a)
  have e2 := taylor1 hf.d1 hL1 (x + s • a) (s ^ 2 • b)
  have e3 : ‖(fderiv ℝ f (x + s • a) - fderiv ℝ f x) (s ^ 2 • b)‖ ≤ K * (s * ‖a‖) * (s ^ 2 * ‖b‖) := by
    refine (ContinuousLinearMap.le_opNorm _ _).trans ?_
    have := hL1 (x + s • a) x
    rw [add_sub_cancel_left, norm_smul, Real.norm_of_nonneg hs] at this
    rw [norm_smul, Real.norm_of_nonneg (by positivity : (0 : ℝ) ≤ s ^ 2)]
    gcongr
  rw [norm_smul, Real.norm_of_nonneg hs] at e1
  rw [norm_smul, Real.norm_of_nonneg (by positivity : (0 : ℝ) ≤ s ^ 2)] at e2
  simp only [map_smul, _root_.smul_apply, smul_eq_mul, _root_.sub_apply, Real.norm_eq_abs]
    at e1 e2 e3
  rw [abs_le] at e1 e2 e3 ⊢
  constructor <;> nlinarith [e1.1, e1.2, e2.1, e2.2, e3.1, e3.2]

end Test

section Limit

variable {S : Type*} [MeasurableSpace S]

theorem Test.disp_meas {f : E → ℝ} (hf : Test f) {W : Measure S} {X a b : S → E} (hX : AEStronglyMeasurable X W)
    (ha : AEStronglyMeasurable a W) (hb : AEStronglyMeasurable b W) (c d : ℝ) :
    AEStronglyMeasurable (fun s => f (X s + c • a s + d • b s)) W :=
  hf.cont.comp_aestronglyMeasurable ((hX.add (ha.const_smul _)).add (hb.const_smul _))

/-- What a small random displacement does to the mean of a test function, to first order. -/
theorem weak_limit (W : Measure S) [IsProbabilityMeasure W] {f : E → ℝ} (hf : Test f) {X a b0 : S → E} {b : ℝ → S → E}
    {B : S → ℝ} (hX : AEStronglyMeasurable X W) (ha : MemLp a 2 W) (hB : Integrable B W)
    (hb : ∀ h, AEStronglyMeasurable (b h) W) (hbB : ∀ h, 0 < h → h ≤ 1 → ∀ᵐ s ∂W, ‖b h s‖ ≤ B s)
    (hb0 : ∀ᵐ s ∂W, Tendsto (fun h => b h s) (𝓝[>] 0) (𝓝 (b0 s))) (h0 : ∫ s, fderiv ℝ f (X s) (a s) ∂W = 0) :
    Tendsto (fun h : ℝ => ((∫ s, f (X s + √h • a s + h • b h s) ∂W) - ∫ s, f (X s) ∂W) / h) (𝓝[>] 0)
      (𝓝 (∫ s, (fderiv ℝ f (X s) (b0 s) + 1 / 2 * hess f (X s) (a s) (a s)) ∂W)) := by
  obtain ⟨K, hK, bf, bf1, -, bl1, -⟩ := hf.bounds
  obtain ⟨K0, hK0, -, bl0⟩ := bound_lip (hf.smooth.of_le (by norm_num)) hf.supp
  obtain ⟨C, hC, hex⟩ := hf.expand
  have ha1 : Integrable a W := (ha.mono_exponent (by norm_num : (1 : ENNReal) ≤ 2)).integrable le_rfl
  have iA2 : Integrable (fun s => ‖a s‖ ^ 2) W := ha.integrable_norm_pow (by norm_num)
  have c1 : Continuous fun p : E × E => fderiv ℝ f p.1 p.2 :=
    (hf.cont1.comp continuous_fst).clm_apply continuous_snd
  have ma : AEStronglyMeasurable (fun s => fderiv ℝ f (X s) (a s)) W := c1.comp_aestronglyMeasurable (hX.prodMk ha1.1)
  have n1 : ∀ x u : E, ‖fderiv ℝ f x u‖ ≤ K * ‖u‖ := fun x u =>
    (ContinuousLinearMap.le_opNorm _ _).trans (mul_le_mul_of_nonneg_right (bf1 x) (norm_nonneg _))
  have ia : Integrable (fun s => fderiv ℝ f (X s) (a s)) W :=
    (ha1.norm.const_mul K).mono' ma (Eventually.of_forall fun s => n1 _ _)
  have iX : Integrable (fun s => f (X s)) W :=
    (integrable_const K).mono' (hf.cont.comp_aestronglyMeasurable hX) (Eventually.of_forall fun s => bf _)
  have ms : ∀ h, AEStronglyMeasurable (fun s => f (X s + √h • a s + h • b h s)) W := fun h =>
    hf.disp_meas hX ha1.1 (hb h) _ _
  have is : ∀ h, Integrable (fun s => f (X s + √h • a s + h • b h s)) W := fun h =>
    (integrable_const K).mono' (ms h) (Eventually.of_forall fun s => bf _)
  have hsq : Tendsto (fun h : ℝ => √h) (𝓝[>] 0) (𝓝 0) := by
    have := (Real.continuous_sqrt.tendsto 0).mono_left (nhdsWithin_le_nhds (s := Ioi 0))
    simpa using this
  have hid : Tendsto (fun h : ℝ => h) (𝓝[>] 0) (𝓝 0) := nhdsWithin_le_nhds
  have key : Tendsto (fun h : ℝ => ∫ s, (f (X s + √h • a s + h • b h s) - f (X s) - √h * fderiv ℝ f (X s) (a s)) / h ∂W)
      (𝓝[>] 0) (𝓝 (∫ s, (fderiv ℝ f (X s) (b0 s) + 1 / 2 * hess f (X s) (a s) (a s)) ∂W)) := by
    refine tendsto_integral_filter_of_dominated_convergence (fun s => K0 * B s + K * ‖a s‖ ^ 2)
      (Eventually.of_forall fun h => ?_) ?_
      ((hB.const_mul K0).add (iA2.const_mul K)) ?_
    · simp only [div_eq_mul_inv]
      exact (((ms h).sub iX.1).sub (ma.const_mul (√h))).mul_const h⁻¹
    · filter_upwards [Ioc_mem_nhdsGT (zero_lt_one (α := ℝ))] with h hh
      have hpos := hh.1
      filter_upwards [hbB h hh.1 hh.2] with s hs
      rw [Real.norm_eq_abs, abs_div, abs_of_pos hpos, div_le_iff₀ hpos]
      have e1 := bl0 (X s + √h • a s + h • b h s) (X s + √h • a s)
      rw [add_sub_cancel_left, norm_smul, Real.norm_of_nonneg hpos.le, Real.norm_eq_abs] at e1
      have e2 := taylor1 hf.d1 bl1 (X s) (√h • a s)
      rw [norm_smul, Real.norm_of_nonneg (Real.sqrt_nonneg h), map_smul, smul_eq_mul, mul_pow, Real.sq_sqrt hpos.le,
        Real.norm_eq_abs] at e2
      have e3 : K0 * (h * ‖b h s‖) ≤ K0 * (h * B s) := by gcongr
      have e4 : 0 ≤ K * (h * ‖a s‖ ^ 2) := by positivity
      rw [abs_le] at e1 e2 ⊢
      constructor <;> nlinarith [e1.1, e1.2, e2.1, e2.2]
    · filter_upwards [hb0] with s hs
      have l1 : Tendsto (fun h : ℝ => fderiv ℝ f (X s) (b h s) + 1 / 2 * hess f (X s) (a s) (a s)) (𝓝[>] 0)
          (𝓝 (fderiv ℝ f (X s) (b0 s) + 1 / 2 * hess f (X s) (a s) (a s))) :=
        (((fderiv ℝ f (X s)).continuous.tendsto _).comp hs).add_const _
      refine tendsto_of_tendsto_of_dist l1 ?_
      have l2 : Tendsto (fun h : ℝ => C * (√h * (‖a s‖ ^ 3 + ‖a s‖ * ‖b h s‖) + h * ‖b h s‖ ^ 2)) (𝓝[>] 0) (𝓝 0) := by
        have := ((hsq.mul ((hs.norm.const_mul ‖a s‖).const_add (‖a s‖ ^ 3))).add (hid.mul (hs.norm.pow 2))).const_mul C
        simpa using this
      refine squeeze_zero' (Eventually.of_forall fun h => dist_nonneg) ?_ l2
      filter_upwards [self_mem_nhdsWithin] with h hh
      have hpos : 0 < h := hh
      have hs2 : √h ^ 2 = h := Real.sq_sqrt hpos.le
      have e3 : √h ^ 3 = √h * h := by rw [pow_succ, hs2, mul_comm]
      have e4 : √h ^ 4 = h * h := by rw [show (4 : ℕ) = 2 * 2 from rfl, pow_mul, hs2, sq]
      have := hex (X s) (a s) (b h s) (√h) (Real.sqrt_nonneg _)
      rw [hs2, e3, e4] at this
      rw [Real.dist_eq, abs_sub_comm]
      have e5 : (f (X s + √h • a s + h • b h s) - f (X s) - √h * fderiv ℝ f (X s) (a s)) / h -
          (fderiv ℝ f (X s) (b h s) + 1 / 2 * hess f (X s) (a s) (a s)) =
          (f (X s + √h • a s + h • b h s) - f (X s) - √h * fderiv ℝ f (X s) (a s) -
            h * (fderiv ℝ f (X s) (b h s) + 1 / 2 * hess f (X s) (a s) (a s))) / h := by
        field_simp
      rw [e5, abs_div, abs_of_pos hpos, div_le_iff₀ hpos]
      refine this.trans (le_of_eq ?_)
      ring
  refine key.congr fun h => ?_
  have e3 := integral_sub (is h) iX
  have e2 := integral_sub ((is h).sub iX) (ia.const_mul (√h))
  simp only [Pi.sub_apply] at e2 e3
  rw [integral_div, e2, e3, integral_const_mul, h0, mul_zero, sub_zero]

end Limit
end ZhuSuan.Weak

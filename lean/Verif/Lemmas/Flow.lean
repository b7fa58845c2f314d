import Mathlib.MeasureTheory.Function.Jacobian
import Mathlib.Analysis.SpecialFunctions.Log.Basic
import Mathlib.MeasureTheory.Measure.Haar.Unique
import Mathlib.MeasureTheory.Measure.Lebesgue.EqHaar
import Mathlib.Analysis.Calculus.Deriv.Pi
import Mathlib.Analysis.Calculus.Deriv.Comp
import Mathlib.Analysis.Calculus.Deriv.Mul
import Mathlib.Analysis.Calculus.Deriv.Add
import Mathlib.LinearAlgebra.Matrix.Block

/-!
# Change of variables for log densities
-/

set_option autoImplicit false

open MeasureTheory

namespace ZhuSuan.Flow

variable {ι : Type} [Fintype ι]

/-- If `X` has log density `p` and `f` is a differentiable bijection, then `f X` has log density
`p - log |det f'|`, as a function of the image point. -/
theorem flow_density (f : (ι → ℝ) → ι → ℝ) (f' : (ι → ℝ) → (ι → ℝ) →L[ℝ] (ι → ℝ))
    (hf' : ∀ x, HasFDerivAt f (f' x) x) (hb : Function.Bijective f) (hdet : ∀ x, (f' x).det ≠ 0)
    (p q : (ι → ℝ) → ℝ) (h : ∀ x, q (f x) = p x - Real.log |(f' x).det|) :
    (volume.withDensity fun x => ENNReal.ofReal (Real.exp (p x))).map f =
      volume.withDensity fun y => ENNReal.ofReal (Real.exp (q y)) := by
  have hc : Continuous f := continuous_iff_continuousAt.2 fun x => (hf' x).continuousAt
  ext A hA
  have hpre : MeasurableSet (f ⁻¹' A) := hc.measurable hA
  rw [Measure.map_apply hc.measurable hA, withDensity_apply _ hpre, withDensity_apply _ hA]
  have himg : f '' (f ⁻¹' A) = A := Set.image_preimage_eq _ hb.2
  conv_rhs => rw [← himg]
  rw [lintegral_image_eq_lintegral_abs_det_fderiv_mul volume hpre
    (fun x _ => (hf' x).hasFDerivWithinAt) hb.1.injOn]
  refine lintegral_congr fun x => ?_
  have hpos : 0 < |(f' x).det| := abs_pos.2 (hdet x)
  rw [h, ← ENNReal.ofReal_mul hpos.le, Real.exp_sub, Real.exp_log hpos, mul_div_cancel₀ _ hpos.ne']

/-- An involution that is linear has determinant of absolute value 1. -/
theorem abs_det_involution (f : (ι → ℝ) →L[ℝ] (ι → ℝ)) (h : ∀ x, f (f x) = x) : |f.det| = 1 := by
  have h1 : (f : (ι → ℝ) →ₗ[ℝ] (ι → ℝ)) * (f : (ι → ℝ) →ₗ[ℝ] (ι → ℝ)) = 1 := LinearMap.ext fun x => h x
  have h2 : LinearMap.det (f : (ι → ℝ) →ₗ[ℝ] (ι → ℝ)) * LinearMap.det (f : (ι → ℝ) →ₗ[ℝ] (ι → ℝ)) = 1 := by
    rw [← map_mul, h1, map_one]
  have h3 : |f.det| * |f.det| = 1 := by
    rw [← abs_mul]
    show |LinearMap.det _ * LinearMap.det _| = 1
    rw [h2, abs_one]
  nlinarith [abs_nonneg f.det, mul_self_nonneg (|f.det| - 1)]

/-- If a function is affine in coordinate `i`, its derivative in that direction is the slope. -/
theorem fderiv_single_eq [DecidableEq ι] (g : (ι → ℝ) → ℝ) (g' : (ι → ℝ) →L[ℝ] ℝ) (x : ι → ℝ)
    (hg : HasFDerivAt g g' x) (i : ι) (a c : ℝ) (h : ∀ t, g (Function.update x i t) = a * t + c) :
    g' (Pi.single i 1) = a := by
  have h1 : HasDerivAt (fun t => g (Function.update x i t)) (g' (Pi.single i 1)) (x i) := by
    have hu := hasDerivAt_update x i (x i)
    have hg2 : HasFDerivAt g g' (Function.update x i (x i)) := by rwa [Function.update_eq_self]
    exact hg2.comp_hasDerivAt (x i) hu
  have h2 : (fun t => g (Function.update x i t)) = fun t => a * t + c := funext h
  rw [h2] at h1
  have h3 : HasDerivAt (fun t : ℝ => a * t + c) a (x i) := by
    have := ((hasDerivAt_id (x i)).const_mul a).add_const c
    refine HasDerivAt.congr_deriv this ?_
    simp
  exact h1.unique h3

/-- The determinant of a linear map from its columns. -/
theorem det_toMatrix [DecidableEq ι] (f : (ι → ℝ) →L[ℝ] (ι → ℝ)) :
    f.det = (Matrix.of fun j i => f (Pi.single i 1) j).det := by
  show LinearMap.det _ = _
  rw [← LinearMap.det_toMatrix']
  congr 1

/-- What a step of a flow on pairs of a point and its log density must do: move the point independently of the log
density, bijectively and differentiably with non-zero Jacobian determinant, and subtract the logarithm of its
absolute value from the log density. -/
def IsFlow (F : (ι → ℝ) × ℝ → (ι → ℝ) × ℝ) : Prop :=
  (∀ z l l', (F (z, l)).1 = (F (z, l')).1) ∧ (Function.Bijective fun z => (F (z, 0)).1) ∧
  ∀ z, ∃ f' : (ι → ℝ) →L[ℝ] (ι → ℝ), HasFDerivAt (fun z => (F (z, 0)).1) f' z ∧ f'.det ≠ 0 ∧
    ∀ l, (F (z, l)).2 = l - Real.log |f'.det|

omit [Fintype ι] in
theorem isFlow_id : IsFlow (id : (ι → ℝ) × ℝ → (ι → ℝ) × ℝ) := by
  refine ⟨fun _ _ _ => rfl, Function.bijective_id, fun z => ⟨ContinuousLinearMap.id ℝ _, hasFDerivAt_id z, ?_, fun l => ?_⟩⟩
  · simp [ContinuousLinearMap.det]
  · simp [ContinuousLinearMap.det]

theorem IsFlow.comp {F G : (ι → ℝ) × ℝ → (ι → ℝ) × ℝ} (hG : IsFlow G) (hF : IsFlow F) : IsFlow (G ∘ F) := by
  obtain ⟨g1, g2, g3⟩ := hG
  obtain ⟨f1, f2, f3⟩ := hF
  have e : (fun z => ((G ∘ F) (z, 0)).1) = (fun z => (G (z, 0)).1) ∘ fun z => (F (z, 0)).1 := funext fun z =>
    g1 _ _ _
  refine ⟨fun z l l' => ?_, ?_, fun z => ?_⟩
  · show (G ((F (z, l)).1, (F (z, l)).2)).1 = (G ((F (z, l')).1, (F (z, l')).2)).1
    rw [f1 z l l']
    exact g1 _ _ _
  · rw [e]
    exact g2.comp f2
  · obtain ⟨f', hf, hfd, hfl⟩ := f3 z
    obtain ⟨g', hg, hgd, hgl⟩ := g3 (F (z, 0)).1
    have hdet : (g'.comp f').det = g'.det * f'.det := by
      show LinearMap.det ((g' : (ι → ℝ) →ₗ[ℝ] (ι → ℝ)).comp (f' : (ι → ℝ) →ₗ[ℝ] (ι → ℝ))) = _
      exact LinearMap.det_comp _ _
    refine ⟨g'.comp f', ?_, ?_, fun l => ?_⟩
    · rw [e]
      exact hg.comp z hf
    · rw [hdet]
      exact mul_ne_zero hgd hfd
    · show (G ((F (z, l)).1, (F (z, l)).2)).2 = _
      rw [f1 z l 0, hgl, hfl, hdet, abs_mul, Real.log_mul (abs_ne_zero.2 hgd) (abs_ne_zero.2 hfd)]
      ring

/-- What a flow does to a law. -/
theorem IsFlow.density {F : (ι → ℝ) × ℝ → (ι → ℝ) × ℝ} (hF : IsFlow F) (lp q : (ι → ℝ) → ℝ)
    (hq : ∀ x, q (F (x, lp x)).1 = (F (x, lp x)).2) :
    (volume.withDensity fun x => ENNReal.ofReal (Real.exp (lp x))).map (fun x => (F (x, lp x)).1) =
      volume.withDensity fun y => ENNReal.ofReal (Real.exp (q y)) := by
  obtain ⟨f1, f2, f3⟩ := hF
  choose f' hf hfd hfl using f3
  have e : (fun x => (F (x, lp x)).1) = fun x => (F (x, 0)).1 := funext fun x => f1 _ _ _
  rw [e]
  exact flow_density _ f' hf f2 hfd lp q fun x => by rw [← hfl x (lp x), ← hq x, f1 x (lp x) 0]

omit [Fintype ι] in
/-- The function `q` of `IsFlow.density` exists. -/
theorem IsFlow.exists_unique {F : (ι → ℝ) × ℝ → (ι → ℝ) × ℝ} (hF : IsFlow F) (lp : (ι → ℝ) → ℝ) :
    ∃! q : (ι → ℝ) → ℝ, ∀ x, q (F (x, lp x)).1 = (F (x, lp x)).2 := by
  obtain ⟨f1, f2, _⟩ := hF
  have e : ∀ x, (F (x, lp x)).1 = (F (x, 0)).1 := fun x => f1 _ _ _
  obtain ⟨g, hg⟩ := f2.2.hasRightInverse
  refine ⟨fun y => (F (g y, lp (g y))).2, fun x => ?_, fun q hq => funext fun y => ?_⟩
  · have : g (F (x, lp x)).1 = x := by
      rw [e]
      exact f2.1 (hg _)
    simp only [this]
  · have := hq (g y)
    rw [e] at this
    rw [← this]
    exact congrArg q (hg y).symm

end ZhuSuan.Flow

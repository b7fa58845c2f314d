import Mathlib.MeasureTheory.Function.JacobianOneDim
import Mathlib.MeasureTheory.Measure.WithDensity
import Mathlib.MeasureTheory.Measure.Lebesgue.Basic

/-! # Laws of transformed random variables in one dimension -/

set_option autoImplicit false

open MeasureTheory Set
open scoped ENNReal

namespace ZhuSuan.Meas

/-- Change of variables: if `U` has density `p` on `S` and `T` is injective and differentiable on `S`,
then `T U` has the density `q` on `T '' S` with `|T'| q(T u) = p(u)`. -/
theorem map_withDensity_of_deriv {S : Set ℝ} (hS : MeasurableSet S) {T T' : ℝ → ℝ}
    (hT : Measurable T) (hd : ∀ u ∈ S, HasDerivWithinAt T (T' u) S u) (hi : InjOn T S)
    {p q : ℝ → ℝ≥0∞}
    (h : ∀ u ∈ S, ENNReal.ofReal |T' u| * q (T u) = p u) :
    ((volume.restrict S).withDensity p).map T = (volume.restrict (T '' S)).withDensity q := by
  ext A hA
  rw [Measure.map_apply hT hA, withDensity_apply _ (hT hA), withDensity_apply _ hA,
    Measure.restrict_restrict (hT hA), Measure.restrict_restrict hA]
  have himg : A ∩ T '' S = T '' (T ⁻¹' A ∩ S) := by
    ext x; constructor
    · rintro ⟨hx, u, hu, rfl⟩; exact ⟨u, ⟨hx, hu⟩, rfl⟩
    · rintro ⟨u, ⟨hx, hu⟩, rfl⟩; exact ⟨hx, u, hu, rfl⟩
  rw [himg, lintegral_image_eq_lintegral_abs_deriv_mul ((hT hA).inter hS)
    (fun x hx => (hd x hx.2).mono inter_subset_right) (hi.mono inter_subset_right)]
  exact setLIntegral_congr_fun ((hT hA).inter hS) (fun u hu => (h u hu.2).symm)

end ZhuSuan.Meas

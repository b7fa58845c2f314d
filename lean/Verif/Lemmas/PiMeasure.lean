import Mathlib.MeasureTheory.Constructions.Pi
import Mathlib.MeasureTheory.Measure.WithDensity
import Mathlib.MeasureTheory.Measure.Lebesgue.Basic

/-! # Product measures with densities, and images of measures with densities -/

set_option autoImplicit false

open MeasureTheory Set
open scoped ENNReal

namespace ZhuSuan.Meas

/-- Tonelli for a product of functions of the coordinates, coordinates `0 … n - 1`. -/
theorem lintegral_fin_prod {n : ℕ} {E : Type*} [MeasurableSpace E] (μ : Fin n → Measure E)
    [∀ i, SigmaFinite (μ i)] (f : Fin n → E → ℝ≥0∞) (hf : ∀ i, Measurable (f i)) :
    ∫⁻ x, ∏ i, f i (x i) ∂(Measure.pi μ) = ∏ i, ∫⁻ x, f i x ∂(μ i) := by
  induction n with
  | zero => simp
  | succ n ih =>
    have hmp := (measurePreserving_piFinSuccAbove (α := fun _ : Fin (n + 1) => E) μ 0).symm
    rw [← hmp.lintegral_comp_emb (MeasurableEquiv.measurableEmbedding _)]
    have e : ∀ z : E × (Fin n → E),
        ∏ i, f i ((MeasurableEquiv.piFinSuccAbove (fun _ : Fin (n + 1) => E) 0).symm z i) =
          f 0 z.1 * ∏ i, f (Fin.succ i) (z.2 i) := by
      intro z
      rw [Fin.prod_univ_succ]
      rfl
    simp only [e, Fin.zero_succAbove]
    have hm : Measurable fun x : Fin n → E => ∏ i, f (Fin.succ i) (x i) :=
      Finset.measurable_prod _ fun i _ => (hf _).comp (measurable_pi_apply i)
    rw [lintegral_prod_mul (f := f 0) (g := fun x : Fin n → E => ∏ i, f (Fin.succ i) (x i))
      (hf 0).aemeasurable hm.aemeasurable,
      ih (fun i => μ i.succ) (fun i => f i.succ) (fun i => hf _), Fin.prod_univ_succ]

/-- Tonelli for a product of functions of the coordinates. -/
theorem lintegral_pi_prod {ι : Type*} [Fintype ι] {E : Type*} [MeasurableSpace E] (μ : ι → Measure E)
    [∀ i, SigmaFinite (μ i)] (f : ι → E → ℝ≥0∞) (hf : ∀ i, Measurable (f i)) :
    ∫⁻ x, ∏ i, f i (x i) ∂(Measure.pi μ) = ∏ i, ∫⁻ x, f i x ∂(μ i) := by
  let e := (Fintype.equivFin ι).symm
  have hmp := measurePreserving_piCongrLeft (α := fun _ : ι => E) μ e
  rw [← hmp.lintegral_comp_emb (MeasurableEquiv.measurableEmbedding _)]
  simp_rw [← e.prod_comp, MeasurableEquiv.coe_piCongrLeft, Equiv.piCongrLeft_apply_apply]
  exact lintegral_fin_prod (fun i => μ (e i)) (fun i => f (e i)) fun i => hf _

/-- Independent coordinates with densities have the product of the densities. -/
theorem pi_withDensity {ι : Type*} [Fintype ι] {E : Type*} [MeasurableSpace E] (μ : ι → Measure E)
    [∀ i, SigmaFinite (μ i)] (f : ι → E → ℝ≥0∞) (hf : ∀ i, Measurable (f i))
    [∀ i, SigmaFinite ((μ i).withDensity (f i))] :
    Measure.pi (fun i => (μ i).withDensity (f i)) =
      (Measure.pi μ).withDensity fun x => ∏ i, f i (x i) := by
  refine (Measure.pi_eq fun s hs => ?_)
  rw [withDensity_apply _ (MeasurableSet.univ_pi hs), ← lintegral_indicator (MeasurableSet.univ_pi hs)]
  have e : ∀ x : ι → E, (univ.pi s).indicator (fun x => ∏ i, f i (x i)) x =
      ∏ i, (s i).indicator (f i) (x i) := by
    intro x
    by_cases hx : x ∈ univ.pi s
    · rw [indicator_of_mem hx]
      exact Finset.prod_congr rfl fun i _ => (indicator_of_mem (hx i (mem_univ i)) _).symm
    · rw [indicator_of_notMem hx]
      simp only [mem_pi, mem_univ, true_implies, not_forall] at hx
      obtain ⟨i, hi⟩ := hx
      exact (Finset.prod_eq_zero (Finset.mem_univ i) (indicator_of_notMem hi _)).symm
  simp only [e]
  rw [lintegral_pi_prod μ _ fun i => (hf i).indicator (hs i)]
  refine Finset.prod_congr rfl fun i _ => ?_
  rw [withDensity_apply _ (hs i), lintegral_indicator (hs i)]

/-- If `T` has a left inverse `S` and maps `μ` to `k ν`, then it maps `g μ` to `k (g ∘ S) ν`. -/
theorem map_withDensity_of_map {α β : Type*} [MeasurableSpace α] [MeasurableSpace β] {μ : Measure α}
    {ν : Measure β} {T : α → β} {S : β → α} (hT : Measurable T) (hS : Measurable S)
    (hST : ∀ x, S (T x) = x) {g : α → ℝ≥0∞} (hg : Measurable g) {k : β → ℝ≥0∞} (hk : Measurable k)
    (h : μ.map T = ν.withDensity k) :
    (μ.withDensity g).map T = ν.withDensity fun y => k y * g (S y) := by
  ext A hA
  rw [Measure.map_apply hT hA, withDensity_apply _ (hT hA), withDensity_apply _ hA,
    ← lintegral_indicator (hT hA)]
  have e : ∀ x, (T ⁻¹' A).indicator g x = A.indicator (fun y => g (S y)) (T x) := by
    intro x
    by_cases hx : T x ∈ A
    · rw [indicator_of_mem (by exact hx), indicator_of_mem hx, hST]
    · rw [indicator_of_notMem (by exact hx), indicator_of_notMem hx]
  simp only [e]
  have hm : Measurable (A.indicator fun y => g (S y)) := (hg.comp hS).indicator hA
  rw [← lintegral_map hm hT, h, lintegral_withDensity_eq_lintegral_mul _ hk hm,
    ← lintegral_indicator hA]
  refine lintegral_congr fun y => ?_
  by_cases hy : y ∈ A
  · simp [indicator_of_mem hy]
  · simp [indicator_of_notMem hy]

/-- The same when `S` inverts `T` almost everywhere. -/
theorem map_withDensity_of_map_ae {α β : Type*} [MeasurableSpace α] [MeasurableSpace β] {μ : Measure α}
    {ν : Measure β} {T : α → β} {S : β → α} (hT : Measurable T) (hS : Measurable S)
    (hST : ∀ᵐ x ∂μ, S (T x) = x) {g : α → ℝ≥0∞} (hg : Measurable g) {k : β → ℝ≥0∞}
    (hk : Measurable k) (h : μ.map T = ν.withDensity k) :
    (μ.withDensity g).map T = ν.withDensity fun y => k y * g (S y) := by
  ext A hA
  rw [Measure.map_apply hT hA, withDensity_apply _ (hT hA), withDensity_apply _ hA,
    ← lintegral_indicator (hT hA)]
  have e : (T ⁻¹' A).indicator g =ᵐ[μ] fun x => A.indicator (fun y => g (S y)) (T x) := by
    filter_upwards [hST] with x hx'
    by_cases hx : T x ∈ A
    · rw [indicator_of_mem (by exact hx), indicator_of_mem hx, hx']
    · rw [indicator_of_notMem (by exact hx), indicator_of_notMem hx]
  rw [lintegral_congr_ae e]
  have hm : Measurable (A.indicator fun y => g (S y)) := (hg.comp hS).indicator hA
  rw [← lintegral_map hm hT, h, lintegral_withDensity_eq_lintegral_mul _ hk hm,
    ← lintegral_indicator hA]
  refine lintegral_congr fun y => ?_
  by_cases hy : y ∈ A
  · simp [indicator_of_mem hy]
  · simp [indicator_of_notMem hy]

/-- Translations and invertible matrices: `μ + M x` for `x` with density `g`. -/
theorem map_affine_withDensity {ι : Type*} [Fintype ι] [DecidableEq ι] (M : Matrix ι ι ℝ)
    (hM : M.det ≠ 0) (c : ι → ℝ) {g : (ι → ℝ) → ℝ≥0∞} (hg : Measurable g) :
    (volume.withDensity g).map (fun x => M.mulVec x + c) =
      volume.withDensity fun y => ENNReal.ofReal |M.det⁻¹| * g (M⁻¹.mulVec (y - c)) := by
  have mM : ∀ A : Matrix ι ι ℝ, Measurable fun x : ι → ℝ => A.mulVec x := fun A =>
    (Matrix.toLin' A).continuous_of_finiteDimensional.measurable
  have hT : Measurable fun x : ι → ℝ => M.mulVec x + c := (mM M).add_const c
  have hS : Measurable fun y : ι → ℝ => M⁻¹.mulVec (y - c) := (mM M⁻¹).comp (measurable_id.sub_const c)
  refine map_withDensity_of_map hT hS (fun x => ?_) hg measurable_const ?_
  · have hu : IsUnit M.det := isUnit_iff_ne_zero.2 hM
    simp [Matrix.mulVec_mulVec, Matrix.nonsing_inv_mul _ hu]
  · have e : (fun x : ι → ℝ => M.mulVec x + c) = (fun y => y + c) ∘ (Matrix.toLin' M) := by
      funext x; simp
    rw [e, ← Measure.map_map (g := fun y : ι → ℝ => y + c) (f := Matrix.toLin' M)
      (measurable_add_const c) (mM M),
      Real.map_matrix_volume_pi_eq_smul_volume_pi hM, Measure.map_smul, map_add_right_eq_self,
      withDensity_const]

end ZhuSuan.Meas

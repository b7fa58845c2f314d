import Mathlib.MeasureTheory.Constructions.Pi
import Mathlib.MeasureTheory.Measure.WithDensity
import Mathlib.MeasureTheory.Measure.Typeclasses.SFinite
import Verif.Lemmas.PiMeasure

/-! # Products of measures: blocks of coordinates, densities that are only almost everywhere measurable -/

set_option autoImplicit false

open MeasureTheory Set
open scoped ENNReal

namespace ZhuSuan.Meas

/-- Splitting the coordinates of a product measure into blocks. -/
theorem pi_blocks {ι κ J E : Type*} [Fintype ι] [Fintype κ] [Fintype J] [MeasurableSpace E] (e : ι × κ ≃ J)
    (ν : J → Measure E) [∀ j, SigmaFinite (ν j)] :
    (Measure.pi ν).map (fun x i k => x (e (i, k))) = Measure.pi fun i => Measure.pi fun k => ν (e (i, k)) := by
  have h : (Measure.pi fun i => Measure.pi fun k => ν (e (i, k))).map
      (fun (y : ι → κ → E) j => y (e.symm j).1 (e.symm j).2) = Measure.pi ν := by
    refine (Measure.pi_eq fun s hs => ?_).symm
    have hm : Measurable (fun (y : ι → κ → E) j => y (e.symm j).1 (e.symm j).2) := by fun_prop
    rw [Measure.map_apply hm (MeasurableSet.univ_pi hs)]
    have hp : (fun (y : ι → κ → E) j => y (e.symm j).1 (e.symm j).2) ⁻¹' univ.pi s =
        univ.pi fun i => univ.pi fun k => s (e (i, k)) := by
      ext y
      simp only [mem_preimage, mem_univ_pi]
      exact ⟨fun h i k => by simpa using h (e (i, k)), fun h j => by simpa using h (e.symm j).1 (e.symm j).2⟩
    rw [hp, Measure.pi_pi]
    simp only [Measure.pi_pi]
    rw [← Fintype.prod_prod_type' (f := fun i k => ν (e (i, k)) (s (e (i, k)))),
      ← e.prod_comp (fun j => ν j (s j))]
  rw [← h, Measure.map_map (by fun_prop) (by fun_prop)]
  have : (fun (x : J → E) i k => x (e (i, k))) ∘ (fun (y : ι → κ → E) j => y (e.symm j).1 (e.symm j).2) = id := by
    funext y
    simp
  rw [this, Measure.map_id]

/-- The product of measures with densities, when the densities are almost everywhere measurable. -/
theorem pi_withDensity_ae {ι : Type*} [Fintype ι] {E : Type*} [MeasurableSpace E] (μ : ι → Measure E)
    [∀ i, SigmaFinite (μ i)] (f : ι → E → ℝ≥0∞) (hf : ∀ i, AEMeasurable (f i) (μ i))
    [hs : ∀ i, SigmaFinite ((μ i).withDensity (f i))] :
    Measure.pi (fun i => (μ i).withDensity (f i)) =
      (Measure.pi μ).withDensity fun x => ∏ i, f i (x i) := by
  have e : ∀ i, (μ i).withDensity (f i) = (μ i).withDensity ((hf i).mk (f i)) := fun i =>
    withDensity_congr_ae (hf i).ae_eq_mk
  have : ∀ i, SigmaFinite ((μ i).withDensity ((hf i).mk (f i))) := fun i => by rw [← e i]; exact hs i
  simp_rw [e]
  rw [pi_withDensity μ _ fun i => (hf i).measurable_mk]
  refine withDensity_congr_ae ?_
  have h : ∀ i, ∀ᵐ x ∂(Measure.pi μ), (hf i).mk (f i) (x i) = f i (x i) := fun i =>
    (Measure.quasiMeasurePreserving_eval μ i).ae (hf i).ae_eq_mk.symm
  filter_upwards [ae_all_iff.2 h] with x hx
  exact Finset.prod_congr rfl fun i _ => hx i

/-- Every function is almost everywhere measurable for a measure that lives on a countable set. -/
theorem aemeasurable_of_countable {E : Type*} [MeasurableSpace E] [MeasurableSingletonClass E] {μ : Measure E}
    {s : Set E} (hs : s.Countable) (h : μ sᶜ = 0) (f : E → ℝ≥0∞) : AEMeasurable f μ := by
  classical
  refine ⟨s.indicator f, ?_, ?_⟩
  · refine (measurable_const (a := (0 : ℝ≥0∞))).measurable_of_countable_ne (hs.mono fun x hx => ?_)
    by_contra hx'
    exact hx (by simp [indicator_of_notMem hx'])
  · rw [Filter.EventuallyEq, ae_iff]
    refine measure_mono_null (fun x hx => ?_) h
    intro hx'
    exact hx (indicator_of_mem hx' f).symm

end ZhuSuan.Meas

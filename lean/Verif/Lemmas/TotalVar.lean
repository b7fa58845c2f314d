import Mathlib.MeasureTheory.Integral.Layercake
import Mathlib.MeasureTheory.Integral.Marginal
import Mathlib.MeasureTheory.Integral.Lebesgue.Map

/-!
General facts on how far apart two laws are on all events. Nothing here speaks of the code.
-/

set_option autoImplicit false

open MeasureTheory
open scoped ENNReal

namespace ZhuSuan.MarkovConv

/-- On no event does `μ` exceed `ρ` by more than `e`. -/
def Within {X : Type*} [MeasurableSpace X] (e : ℝ≥0∞) (μ ρ : Measure X) : Prop :=
  ∀ A, MeasurableSet A → μ A ≤ ρ A + e

variable {X : Type*} [MeasurableSpace X] {μ ρ : Measure X} {e : ℝ≥0∞}

/-- The same for means of functions with values between zero and one. -/
theorem Within.lintegral (h : Within e μ ρ) {F : X → ℝ≥0∞} (hF : Measurable F) (h1 : ∀ x, F x ≤ 1) :
    ∫⁻ x, F x ∂μ ≤ ∫⁻ x, F x ∂ρ + e := by
  have hreal : ∀ x, F x = ENNReal.ofReal (F x).toReal := fun x =>
    (ENNReal.ofReal_toReal (ne_top_of_le_ne_top ENNReal.one_ne_top (h1 x))).symm
  have mF : Measurable fun x => (F x).toReal := hF.ennreal_toReal
  have hle : ∀ x, (F x).toReal ≤ 1 := fun x => by
    have := ENNReal.toReal_mono ENNReal.one_ne_top (h1 x)
    simpa using this
  have key : ∀ m : Measure X, ∫⁻ x, F x ∂m = ∫⁻ t in Set.Ioc (0 : ℝ) 1, m {a | t < (F a).toReal} := by
    intro m
    have h2 := lintegral_eq_lintegral_meas_lt m (f := fun x => (F x).toReal)
      (Filter.Eventually.of_forall fun x => ENNReal.toReal_nonneg) mF.aemeasurable
    rw [lintegral_congr hreal, h2]
    have hsplit : Set.Ioi (0 : ℝ) = Set.Ioc 0 1 ∪ Set.Ioi 1 := by
      rw [Set.Ioc_union_Ioi_eq_Ioi zero_le_one]
    rw [hsplit, lintegral_union measurableSet_Ioi (Set.Ioc_disjoint_Ioi le_rfl)]
    have hz : ∫⁻ t in Set.Ioi (1 : ℝ), m {a | t < (F a).toReal} = 0 := by
      rw [setLIntegral_congr_fun (g := fun _ => 0) measurableSet_Ioi]
      · simp
      · intro t ht
        have : {a | t < (F a).toReal} = ∅ := by
          ext a
          simp only [Set.mem_ofPred_eq, Set.mem_empty_iff_false, iff_false, not_lt]
          exact (hle a).trans (le_of_lt ht)
        simp [this]
    rw [hz, add_zero]
  rw [key μ, key ρ]
  calc ∫⁻ t in Set.Ioc (0 : ℝ) 1, μ {a | t < (F a).toReal}
      ≤ ∫⁻ t in Set.Ioc (0 : ℝ) 1, (ρ {a | t < (F a).toReal} + e) :=
        lintegral_mono fun t => h _ (measurableSet_lt measurable_const mF)
    _ = _ := by
        rw [lintegral_add_right _ measurable_const, lintegral_const]
        simp

/-- Image under a measurable map. -/
theorem Within.map (h : Within e μ ρ) {Y : Type*} [MeasurableSpace Y] {f : X → Y} (hf : Measurable f) :
    Within e (μ.map f) (ρ.map f) := by
  intro A hA
  rw [Measure.map_apply hf hA, Measure.map_apply hf hA]
  exact h _ (hf hA)

/-- Independent components: the distances add up. -/
theorem Within.pi {C : Type*} [Fintype C] {X : C → Type*} [∀ c, MeasurableSpace (X c)] {μ ρ : ∀ c, Measure (X c)}
    [∀ c, IsProbabilityMeasure (μ c)] [∀ c, IsProbabilityMeasure (ρ c)] {e : C → ℝ≥0∞}
    (h : ∀ c, Within (e c) (μ c) (ρ c)) : Within (∑ c, e c) (Measure.pi μ) (Measure.pi ρ) := by
  classical
  intro A hA
  have hne : ∀ c, Nonempty (X c) := fun c => (μ c).nonempty_of_neZero
  set x0 : ∀ c, X c := fun c => (hne c).some
  have mF : Measurable (A.indicator (1 : (∀ c, X c) → ℝ≥0∞)) := measurable_one.indicator hA
  have one_le : ∀ (m : ∀ c, Measure (X c)) [∀ c, IsProbabilityMeasure (m c)] (s : Finset C) (x : ∀ c, X c),
      lmarginal m s (A.indicator 1) x ≤ 1 := by
    intro m _ s x
    refine (lintegral_mono fun y => Set.indicator_le_self' (fun _ _ => zero_le) _).trans ?_
    simp
  have key : ∀ (s : Finset C) (x : ∀ c, X c),
      lmarginal μ s (A.indicator 1) x ≤ lmarginal ρ s (A.indicator 1) x + ∑ c ∈ s, e c := by
    intro s
    induction s using Finset.induction_on with
    | empty => intro x; simp
    | insert c s hc ih =>
      intro x
      rw [lmarginal_insert _ mF hc, lmarginal_insert _ mF hc, Finset.sum_insert hc]
      have mu : Measurable fun y : X c => lmarginal ρ s (A.indicator 1) (Function.update x c y) :=
        (Measurable.lmarginal ρ mF).comp (measurable_update x)
      calc ∫⁻ y, lmarginal μ s (A.indicator 1) (Function.update x c y) ∂μ c
          ≤ ∫⁻ y, (lmarginal ρ s (A.indicator 1) (Function.update x c y) + ∑ c ∈ s, e c) ∂μ c :=
            lintegral_mono fun y => ih _
        _ = ∫⁻ y, lmarginal ρ s (A.indicator 1) (Function.update x c y) ∂μ c + ∑ c ∈ s, e c := by
            rw [lintegral_add_right _ measurable_const, lintegral_const]; simp
        _ ≤ (∫⁻ y, lmarginal ρ s (A.indicator 1) (Function.update x c y) ∂ρ c + e c) + ∑ c ∈ s, e c :=
            add_le_add (h c |>.lintegral mu fun y => one_le ρ s _) le_rfl
        _ = _ := add_assoc _ _ _
  have h1 := key Finset.univ x0
  rw [← lintegral_eq_lmarginal_univ, ← lintegral_eq_lmarginal_univ, lintegral_indicator_one hA,
    lintegral_indicator_one hA] at h1
  exact h1

/-- For probabilities, one side gives the other. -/
theorem Within.symm [IsProbabilityMeasure μ] [IsProbabilityMeasure ρ] (h : Within e μ ρ) : Within e ρ μ := by
  intro A hA
  have h1 := h Aᶜ hA.compl
  rw [prob_compl_eq_one_sub hA, prob_compl_eq_one_sub hA] at h1
  have h2 : 1 ≤ μ A + (1 - ρ A + e) := tsub_le_iff_left.1 h1
  have h3 : ρ A + (1 - ρ A) = 1 := add_tsub_cancel_of_le prob_le_one
  have h4 : ρ A + (1 - ρ A) ≤ (μ A + e) + (1 - ρ A) := by
    rw [h3]; refine h2.trans (le_of_eq ?_); ring
  exact (ENNReal.add_le_add_iff_right (ne_top_of_le_ne_top ENNReal.one_ne_top tsub_le_self)).1 h4

theorem within_of_abs [IsProbabilityMeasure μ] [IsProbabilityMeasure ρ] {δ : ℝ}
    (h : ∀ A, MeasurableSet A → |μ.real A - ρ.real A| ≤ δ) : Within (ENNReal.ofReal δ) μ ρ := by
  intro A hA
  have h1 := (abs_le.1 (h A hA)).2
  have hδ : 0 ≤ δ := (abs_nonneg _).trans (h A hA)
  rw [← ENNReal.ofReal_toReal (measure_ne_top μ A), ← ENNReal.ofReal_toReal (measure_ne_top ρ A),
    ← ENNReal.ofReal_add ENNReal.toReal_nonneg hδ]
  refine ENNReal.ofReal_le_ofReal ?_
  change μ.real A ≤ ρ.real A + δ
  linarith

theorem abs_of_within [IsProbabilityMeasure μ] [IsProbabilityMeasure ρ] {δ : ℝ} (hδ : 0 ≤ δ)
    (h : Within (ENNReal.ofReal δ) μ ρ) (A : Set X) (hA : MeasurableSet A) : |μ.real A - ρ.real A| ≤ δ := by
  have key : ∀ (a b : Measure X) [IsProbabilityMeasure a] [IsProbabilityMeasure b],
      Within (ENNReal.ofReal δ) a b → a.real A ≤ b.real A + δ := by
    intro a b _ _ hab
    have h1 := ENNReal.toReal_mono (ENNReal.add_ne_top.2 ⟨measure_ne_top b A, ENNReal.ofReal_ne_top⟩) (hab A hA)
    rwa [ENNReal.toReal_add (measure_ne_top b A) ENNReal.ofReal_ne_top, ENNReal.toReal_ofReal hδ] at h1
  have h1 := key μ ρ h
  have h2 := key ρ μ h.symm
  rw [abs_le]
  constructor <;> linarith

end ZhuSuan.MarkovConv

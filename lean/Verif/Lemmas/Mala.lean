import Verif.Lemmas.HmcInvariant
import Verif.Lemmas.StrongConcave

/-!
# The Metropolis-adjusted Langevin step

A step of SGLD with the exact gradient as a proposal, accepted or rejected so that the posterior is preserved.  This chain is not in
the code; the proofs about SGLD compare with it.
-/

set_option autoImplicit false

open MeasureTheory ProbabilityTheory Filter Topology Set
open ZhuSuan.Sgmcmc
open scoped ENNReal

namespace ZhuSuan.SgWeak

variable {V : Type} {I : V → Type} [Fintype V] [∀ v, Fintype (I v)] (l : Lat I → ℝ) (h : ℝ)

/-- The momentum after half a step. -/
noncomputable def half (y z : Lat I) : Lat I := z + (h / 2) • pd l y

/-- The proposal. -/
noncomputable def prop (y z : Lat I) : Lat I := y + h • half l h y z

/-- The map from a state and a draw to the proposal and the draw that leads back. -/
noncomputable def flow (s : Lat I × Lat I) : Lat I × Lat I :=
  (prop l h s.1 s.2, -(half l h s.1 s.2 + (h / 2) • pd l (prop l h s.1 s.2)))

/-- The energy. -/
noncomputable def ham (s : Lat I × Lat I) : ℝ := -(l s.1 + gl s.2)

/-- The acceptance probability. -/
noncomputable def acc (s : Lat I × Lat I) : ℝ := Real.exp (min (ham l s - ham l (flow l h s)) 0)

/-- The new state. -/
noncomputable def mala (y z : Lat I) (u : ℝ) : Lat I := if u < acc l h (y, z) then prop l h y z else y

theorem flow_flow (s : Lat I × Lat I) : flow l h (flow l h s) = s := by
  have e1 : half l h (prop l h s.1 s.2) (-(half l h s.1 s.2 + (h / 2) • pd l (prop l h s.1 s.2))) = -half l h s.1 s.2 := by
    rw [half]
    abel
  have e2 : prop l h (prop l h s.1 s.2) (-(half l h s.1 s.2 + (h / 2) • pd l (prop l h s.1 s.2))) = s.1 := by
    rw [prop, e1, prop, smul_neg]
    abel
  refine Prod.ext e2 ?_
  simp only [flow]
  rw [e1, e2, half]
  abel

section Preserve

variable {l} (hg : Continuous (pd l)) (hl : Continuous l)
include hg

theorem half_cont : Continuous fun s : Lat I × Lat I => half l h s.1 s.2 := by
  unfold half
  exact continuous_snd.add ((hg.comp continuous_fst).const_smul (h / 2))

theorem prop_cont : Continuous fun s : Lat I × Lat I => prop l h s.1 s.2 := by
  unfold prop
  exact continuous_fst.add ((half_cont h hg).const_smul h)

theorem flow_cont : Continuous (flow l h) := by
  unfold flow
  exact (prop_cont h hg).prodMk ((half_cont h hg).add ((hg.comp (prop_cont h hg)).const_smul (h / 2))).neg

theorem flow_volume : MeasurePreserving (flow l h) (volume : Measure (Lat I × Lat I)) volume := by
  have hK : ∀ c : ℝ, MeasurePreserving (fun s : Lat I × Lat I => (s.1, s.2 + c • pd l s.1))
      ((volume : Measure (Lat I)).prod volume) ((volume : Measure (Lat I)).prod volume) := by
    intro c
    refine MeasurePreserving.skew_product (g := fun y z : Lat I => z + c • pd l y) (MeasurePreserving.id _) ?_ ?_
    · exact (measurable_snd.add ((hg.measurable.comp measurable_fst).const_smul c))
    · exact Eventually.of_forall fun y => (measurePreserving_add_right (volume : Measure (Lat I)) (c • pd l y)).map_eq
  have hD : MeasurePreserving (fun s : Lat I × Lat I => (s.1 + h • s.2, s.2))
      ((volume : Measure (Lat I)).prod volume) ((volume : Measure (Lat I)).prod volume) := by
    have h1 : MeasurePreserving (fun s : Lat I × Lat I => (s.1, s.2 + h • s.1))
        ((volume : Measure (Lat I)).prod volume) ((volume : Measure (Lat I)).prod volume) := by
      refine MeasurePreserving.skew_product (g := fun y z : Lat I => z + h • y) (MeasurePreserving.id _) ?_ ?_
      · exact (measurable_snd.add (measurable_fst.const_smul h))
      · exact Eventually.of_forall fun y => (measurePreserving_add_right (volume : Measure (Lat I)) (h • y)).map_eq
    exact Measure.measurePreserving_swap.comp (h1.comp Measure.measurePreserving_swap)
  have hN : MeasurePreserving (fun s : Lat I × Lat I => (s.1, -s.2))
      ((volume : Measure (Lat I)).prod volume) ((volume : Measure (Lat I)).prod volume) :=
    (MeasurePreserving.id _).prod (measurePreserving_pi (fun v => (volume : Measure (I v → ℝ))) (fun v => volume)
      (f := fun _ y => -y) fun v => Measure.measurePreserving_neg _)
  exact hN.comp ((hK (h / 2)).comp (hD.comp (hK (h / 2))))

include hl

omit hg in
theorem ham_cont : Continuous (ham l) := by
  unfold ham
  exact ((hl.comp continuous_fst).add (gl_smooth.continuous.comp continuous_snd)).neg

theorem acc_cont : Continuous (acc l h) := by
  unfold acc
  have := ham_cont hl
  exact Real.continuous_exp.comp ((this.sub (this.comp (flow_cont h hg))).min continuous_const)

theorem mala_meas : Measurable fun s : Lat I × Lat I × ℝ => mala l h s.1 s.2.1 s.2.2 := by
  unfold mala
  have e : Measurable fun s : Lat I × Lat I × ℝ => (s.1, s.2.1) := by fun_prop
  exact Measurable.ite (measurableSet_lt (measurable_snd.comp measurable_snd) ((acc_cont h hg hl).measurable.comp e))
    ((prop_cont h hg).measurable.comp e) measurable_fst

end Preserve

variable {l}

theorem acc_pos (s : Lat I × Lat I) : 0 < acc l h s := Real.exp_pos _

theorem acc_le (s : Lat I × Lat I) : acc l h s ≤ 1 := Real.exp_le_one_iff.2 (min_le_right _ _)

/-- The mean over the uniform draw. -/
theorem mala_select (F : Lat I → ℝ≥0∞) (y z : Lat I) : ∫⁻ u, F (mala l h y z u) ∂Hmc.unif =
    ENNReal.ofReal (acc l h (y, z)) * F (prop l h y z) + ENNReal.ofReal (1 - acc l h (y, z)) * F y := by
  rw [← Meas.lintegral_uniform_select (acc_pos h (y, z)).le (acc_le h (y, z))]
  refine lintegral_congr fun u => ?_
  by_cases hu : u < acc l h (y, z)
  · rw [indicator_of_mem (by exact hu), indicator_of_notMem (by simpa using hu), add_zero, mala, if_pos hu]
  · rw [indicator_of_notMem (by exact hu), indicator_of_mem (by simpa using hu), zero_add, mala, if_neg hu]

/-- The posterior is preserved. -/
theorem mala_post (hl : LogDens l) (hg : Continuous (pd l)) :
    MeasurePreserving (fun s : Lat I × Lat I × ℝ => mala l h s.1 s.2.1 s.2.2)
      ((posterior l).prod ((normals I).prod Hmc.unif)) (posterior l) := by
  have hc := hl.smooth.continuous
  have hm := mala_meas h hg hc
  have _ := hl.prob
  refine ⟨hm, Measure.ext_of_lintegral _ fun F hF => ?_⟩
  have hFm : Measurable fun s : Lat I × Lat I × ℝ => F (mala l h s.1 s.2.1 s.2.2) := hF.comp hm
  rw [lintegral_map hF hm, lintegral_prod _ hFm.aemeasurable]
  have e1 : ∀ y : Lat I, ∫⁻ a : Lat I × ℝ, F (mala l h y a.1 a.2) ∂(normals I).prod Hmc.unif =
      ∫⁻ z, (ENNReal.ofReal (acc l h (y, z)) * F (prop l h y z) + ENNReal.ofReal (1 - acc l h (y, z)) * F y) ∂normals I := by
    intro y
    have : Measurable fun a : Lat I × ℝ => F (mala l h y a.1 a.2) := hF.comp (hm.comp measurable_prodMk_left)
    rw [lintegral_prod _ this.aemeasurable]
    exact lintegral_congr fun z => mala_select h F y z
  simp only
  rw [lintegral_congr e1]
  have ma := (acc_cont h hg hc).measurable
  have mK : Measurable fun s : Lat I × Lat I =>
      ENNReal.ofReal (acc l h s) * F (prop l h s.1 s.2) + ENNReal.ofReal (1 - acc l h s) * F s.1 :=
    (ma.ennreal_ofReal.mul (hF.comp (prop_cont h hg).measurable)).add
      ((measurable_const.sub ma).ennreal_ofReal.mul (hF.comp measurable_fst))
  rw [← lintegral_prod (μ := posterior l) (ν := normals I) _ mK.aemeasurable, (prod_dens hl).2]
  set Z := ∫ y : Lat I × Lat I, Real.exp (l y.1 + gl y.2) with hZd
  have hZ : 0 ≤ Z⁻¹ := inv_nonneg.2 (integral_nonneg fun y => (Real.exp_pos _).le)
  have mF : Measurable fun s : Lat I × Lat I => F s.1 := hF.comp measurable_fst
  have mH : Measurable fun s : Lat I × Lat I => ENNReal.ofReal (Real.exp (-ham l s)) :=
    (Real.measurable_exp.comp (ham_cont hc).measurable.neg).ennreal_ofReal
  have dens : ∀ K : Lat I × Lat I → ℝ≥0∞, Measurable K →
      ∫⁻ s, K s ∂(posterior fun s : Lat I × Lat I => l s.1 + gl s.2) =
        ENNReal.ofReal Z⁻¹ * ∫⁻ s, ENNReal.ofReal (Real.exp (-ham l s)) * K s := by
    intro K hK
    have mD : Measurable fun x : Lat I × Lat I => ENNReal.ofReal (Real.exp (l x.1 + gl x.2) / Z) :=
      ((Real.continuous_exp.comp ((hc.comp continuous_fst).add
        (gl_smooth.continuous.comp continuous_snd))).measurable.div_const _).ennreal_ofReal
    have mHK : Measurable fun s : Lat I × Lat I => ENNReal.ofReal (Real.exp (-ham l s)) * K s := mH.mul hK
    rw [posterior, lintegral_withDensity_eq_lintegral_mul _ mD hK, ← lintegral_const_mul _ mHK]
    refine lintegral_congr fun s => ?_
    simp only [Pi.mul_apply, ham, neg_neg]
    rw [← mul_assoc, ← ENNReal.ofReal_mul hZ, div_eq_inv_mul]
  have key := Meas.metropolis (flow_volume h hg) (flow_flow l h) (ham_cont hc).measurable mF
  rw [dens _ mK]
  have e2 : ∫⁻ y, F y ∂posterior l = ∫⁻ s : Lat I × Lat I, F s.1 ∂(posterior l).prod (normals I) := by
    rw [lintegral_prod _ mF.aemeasurable]
    simp
  rw [e2, (prod_dens hl).2, dens _ mF]
  exact congrArg _ key

end ZhuSuan.SgWeak

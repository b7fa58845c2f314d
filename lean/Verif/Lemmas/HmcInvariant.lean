import Mathlib.Probability.Distributions.Gaussian.Real
import Verif.Lemmas.Hmc
import Verif.Lemmas.Metropolis
import Verif.Lemmas.PiMeasure

/-!
# Invariance of one HMC chain
-/

set_option autoImplicit false

open MeasureTheory Set ProbabilityTheory
open scoped ENNReal

namespace ZhuSuan.Hmc

variable {ι : Type} [Fintype ι] (mass : ι → ℝ) (g : (ι → ℝ) → ι → ℝ) (l : (ι → ℝ) → ℝ) (n : ℕ) (eps : ℝ)

/-- The trajectory of a single chain. -/
noncomputable def leap1 (x : (ι → ℝ) × (ι → ℝ)) : (ι → ℝ) × (ι → ℝ) :=
  let y := leapfrog (C := Unit) mass (fun q _ => g (q ())) n eps (fun _ => x.1, fun _ => x.2)
  (y.1 (), y.2 ())

/-- The energy. -/
noncomputable def energy (x : (ι → ℝ) × (ι → ℝ)) : ℝ := -l x.1 + 0.5 * ∑ i, x.2 i * x.2 i / mass i

/-- The new state of a single chain. -/
noncomputable def chainStep (q p : ι → ℝ) (u : ℝ) : ι → ℝ :=
  if u < Real.exp (min (energy mass l (q, p) - energy mass l (leap1 mass g n eps (q, p))) 0) then
    (leap1 mass g n eps (q, p)).1 else q

theorem measurePreserving_leap1 (hg : Measurable g) :
    MeasurePreserving (leap1 mass g n eps) (volume.prod volume) (volume.prod volume) := by
  have hE := volume_preserving_funUnique Unit (ι → ℝ)
  have hg' : Measurable fun (q : Unit → ι → ℝ) (_ : Unit) => g (q ()) :=
    measurable_pi_lambda _ fun _ => hg.comp (measurable_pi_apply ())
  have h1 := measurePreserving_leapfrog mass (fun (q : Unit → ι → ℝ) (_ : Unit) => g (q ())) hg' n eps
  exact (hE.prod hE).comp (h1.comp ((hE.symm).prod (hE.symm)))

omit [Fintype ι] in
theorem leap1_neg (x : (ι → ℝ) × (ι → ℝ)) :
    leap1 mass g n eps ((leap1 mass g n eps x).1, -(leap1 mass g n eps x).2) = (x.1, -x.2) := by
  have h := leapfrog_neg (C := Unit) mass (fun q _ => g (q ())) n eps (fun _ => x.1, fun _ => x.2)
  simp only [leap1]
  set y := leapfrog (C := Unit) mass (fun q _ => g (q ())) n eps (fun _ => x.1, fun _ => x.2) with hy
  have e : ((fun _ => y.1 (), fun _ => -y.2 ()) : (Unit → ι → ℝ) × (Unit → ι → ℝ)) = neg y := rfl
  rw [e, h]
  rfl

/-- Integrate and reverse. -/
noncomputable def revLeap (x : (ι → ℝ) × (ι → ℝ)) : (ι → ℝ) × (ι → ℝ) :=
  ((leap1 mass g n eps x).1, -(leap1 mass g n eps x).2)

omit [Fintype ι] in
theorem revLeap_revLeap (x : (ι → ℝ) × (ι → ℝ)) : revLeap mass g n eps (revLeap mass g n eps x) = x := by
  have h := leap1_neg mass g n eps x
  unfold revLeap
  rw [h]
  simp

theorem measurePreserving_revLeap (hg : Measurable g) :
    MeasurePreserving (revLeap mass g n eps) (volume.prod volume) (volume.prod volume) :=
  ((MeasurePreserving.id _).prod (Measure.measurePreserving_neg (volume : Measure (ι → ℝ)))).comp
    (measurePreserving_leap1 mass g n eps hg)

theorem energy_revLeap (x : (ι → ℝ) × (ι → ℝ)) :
    energy mass l (revLeap mass g n eps x) = energy mass l (leap1 mass g n eps x) := by
  simp [energy, revLeap]

theorem measurable_energy (hl : Measurable l) : Measurable (energy mass l) := by
  unfold energy
  have h2 : ∀ i, Measurable fun x : (ι → ℝ) × (ι → ℝ) => x.2 i := fun i =>
    (measurable_pi_apply i).comp measurable_snd
  exact ((hl.comp measurable_fst).neg).add (measurable_const.mul
    (Finset.measurable_sum _ fun i _ => ((h2 i).mul (h2 i)).div_const _))

/-- The law of the momentum, for positive mass: density proportional to `exp (-kinetic energy)`. -/
theorem momentum_law (hm : ∀ i, 0 < mass i) : ∃ K : ℝ≥0∞,
    (Measure.pi fun _ : ι => gaussianReal 0 1).map (fun z i => z i * Real.sqrt (mass i)) =
      volume.withDensity fun p => K * ENNReal.ofReal (Real.exp (-(0.5 * ∑ i, p i * p i / mass i))) := by
  refine ⟨∏ i, ENNReal.ofReal ((Real.sqrt (2 * Real.pi * mass i))⁻¹), ?_⟩
  obtain ⟨v, hc⟩ : ∃ v : ι → NNReal, ∀ i, (v i : ℝ) = mass i :=
    ⟨fun i => ⟨mass i, (hm i).le⟩, fun _ => rfl⟩
  have hv : ∀ i, v i ≠ 0 := fun i h => by
    have := hc i
    rw [h] at this
    exact (hm i).ne this
  have h1 : ∀ i, (gaussianReal 0 1).map (fun z => z * Real.sqrt (mass i)) =
      volume.withDensity (gaussianPDF 0 (v i)) := by
    intro i
    rw [gaussianReal_map_mul_const, mul_zero, ← gaussianReal_of_var_ne_zero 0 (hv i)]
    congr 1
    ext
    simp [Real.sq_sqrt (hm i).le, hc]
  have s1 : ∀ i, SigmaFinite ((gaussianReal 0 1).map (fun z => z * Real.sqrt (mass i))) := fun i => by
    have := Measure.isProbabilityMeasure_map (μ := gaussianReal 0 1)
      (f := fun z : ℝ => z * Real.sqrt (mass i)) (by fun_prop)
    infer_instance
  have s2 : ∀ i, SigmaFinite ((volume : Measure ℝ).withDensity (gaussianPDF 0 (v i))) :=
    fun i => by rw [← h1]; exact s1 i
  rw [Measure.pi_map_pi (μ := fun _ : ι => gaussianReal 0 1)
    (f := fun i z => z * Real.sqrt (mass i)) (fun i => by fun_prop)]
  simp only [h1]
  rw [Meas.pi_withDensity (fun _ : ι => (volume : Measure ℝ))
    (fun i => gaussianPDF 0 (v i)) (fun i => measurable_gaussianPDF _ _)]
  congr 1
  funext p
  have e : ∀ i, gaussianPDF 0 (v i) (p i) =
      ENNReal.ofReal ((Real.sqrt (2 * Real.pi * mass i))⁻¹) *
        ENNReal.ofReal (Real.exp (-(0.5 * (p i * p i / mass i)))) := by
    intro i
    simp only [gaussianPDF, gaussianPDFReal, hc]
    rw [← ENNReal.ofReal_mul (by positivity)]
    congr 3
    simp only [sub_zero]
    have := (hm i).ne'
    field_simp
    norm_num
    ring
  simp only [e]
  rw [Finset.prod_mul_distrib]
  congr 1
  rw [← ENNReal.ofReal_prod_of_nonneg fun i _ => (Real.exp_pos _).le, ← Real.exp_sum,
    Finset.sum_neg_distrib, Finset.mul_sum]

/-- The target of a chain with log density `l` (not normalised). -/
noncomputable def target (l : (ι → ℝ) → ℝ) : Measure (ι → ℝ) :=
  volume.withDensity fun q => ENNReal.ofReal (Real.exp (l q))

instance (l : (ι → ℝ) → ℝ) : SigmaFinite (target l) := by
  unfold target; infer_instance

/-- The law of `tf.random_uniform`. -/
noncomputable def unif : Measure ℝ := volume.restrict (Ico 0 1)

instance : IsProbabilityMeasure unif := ⟨by simp [unif]⟩

theorem measurable_chainStep (hg : Measurable g) (hl : Measurable l) :
    Measurable fun w : (ι → ℝ) × (ι → ℝ) × ℝ => chainStep mass g l n eps w.1 w.2.1 w.2.2 := by
  have h1 : Measurable fun w : (ι → ℝ) × (ι → ℝ) × ℝ => (w.1, w.2.1) :=
    measurable_fst.prodMk (measurable_fst.comp measurable_snd)
  have h2 : Measurable fun w : (ι → ℝ) × (ι → ℝ) × ℝ => leap1 mass g n eps (w.1, w.2.1) :=
    (measurePreserving_leap1 mass g n eps hg).measurable.comp h1
  have h3 : Measurable fun w : (ι → ℝ) × (ι → ℝ) × ℝ => energy mass l (w.1, w.2.1) :=
    (measurable_energy mass l hl).comp h1
  have h4 : Measurable fun w : (ι → ℝ) × (ι → ℝ) × ℝ => energy mass l (leap1 mass g n eps (w.1, w.2.1)) :=
    (measurable_energy mass l hl).comp h2
  refine Measurable.ite ?_ (measurable_fst.comp h2) measurable_fst
  exact measurableSet_lt (measurable_snd.comp measurable_snd)
    (Real.measurable_exp.comp ((h3.sub h4).min measurable_const))

omit [Fintype ι] in
theorem lintegral_joint {X Y : Type*} [MeasurableSpace X] [MeasurableSpace Y] (μ : Measure X) (ν : Measure Y)
    [SFinite ν] {e : X → ℝ≥0∞} {k : Y → ℝ≥0∞} {K : ℝ≥0∞} {D G : X × Y → ℝ≥0∞} (mk : Measurable k)
    (mD : Measurable D) (mG : Measurable G) (h : ∀ x : X × Y, e x.1 * k x.2 = K * D x) :
    ∫⁻ q, e q * ∫⁻ p, k p * G (q, p) ∂ν ∂μ = K * ∫⁻ x, D x * G x ∂(μ.prod ν) := by
  have mDG : Measurable fun x => D x * G x := mD.mul mG
  have mKDG : Measurable fun x => K * (D x * G x) := measurable_const.mul mDG
  rw [← lintegral_const_mul _ mDG, lintegral_prod _ mKDG.aemeasurable]
  refine lintegral_congr fun q => ?_
  have mkGq : Measurable fun p => k p * G (q, p) := mk.mul (mG.comp measurable_prodMk_left)
  rw [← lintegral_const_mul _ mkGq]
  refine lintegral_congr fun p => ?_
  rw [← mul_assoc, h (q, p), mul_assoc]

/-- One chain: refresh the momentum, integrate, accept or reject. -/
theorem chain_lintegral (hg : Measurable g) (hl : Measurable l) (hm : ∀ i, 0 < mass i)
    {F : (ι → ℝ) → ℝ≥0∞} (hF : Measurable F) :
    ∫⁻ q, (∫⁻ z, (∫⁻ u, F (chainStep mass g l n eps q (fun i => z i * Real.sqrt (mass i)) u) ∂unif)
        ∂(Measure.pi fun _ : ι => gaussianReal 0 1)) ∂(target l) = ∫⁻ q, F q ∂(target l) := by
  set a : (ι → ℝ) × (ι → ℝ) → ℝ := fun x =>
    Real.exp (min (energy mass l x - energy mass l (revLeap mass g n eps x)) 0) with ha
  have mE := measurable_energy mass l hl
  have mR := (measurePreserving_revLeap mass g n eps hg).measurable
  have ma : Measurable a := Real.measurable_exp.comp ((mE.sub (mE.comp mR)).min measurable_const)
  -- the draw of the uniform
  have e1 : ∀ q p, ∫⁻ u, F (chainStep mass g l n eps q p u) ∂unif =
      ENNReal.ofReal (a (q, p)) * F (revLeap mass g n eps (q, p)).1 +
        ENNReal.ofReal (1 - a (q, p)) * F q := by
    intro q p
    have hle : a (q, p) ≤ 1 := Real.exp_le_one_iff.2 (min_le_right _ _)
    rw [← Meas.lintegral_uniform_select (Real.exp_pos _).le hle]
    refine lintegral_congr fun u => ?_
    have ea : a (q, p) = Real.exp (min (energy mass l (q, p) -
        energy mass l (leap1 mass g n eps (q, p))) 0) := by
      simp only [ha, energy_revLeap]
    by_cases hu : u < a (q, p)
    · rw [indicator_of_mem (by exact hu), indicator_of_notMem (by simpa using hu), add_zero, chainStep,
        if_pos (ea ▸ hu)]
      rfl
    · rw [indicator_of_notMem (by exact hu), indicator_of_mem (by simpa using hu), zero_add, chainStep,
        if_neg (ea ▸ hu)]
  -- the law of the momentum
  obtain ⟨K, hK⟩ := momentum_law mass hm
  have mz : Measurable fun (z : ι → ℝ) (i : ι) => z i * Real.sqrt (mass i) := by fun_prop
  set G : (ι → ℝ) × (ι → ℝ) → ℝ≥0∞ := fun x =>
    ENNReal.ofReal (a x) * F (revLeap mass g n eps x).1 + ENNReal.ofReal (1 - a x) * F x.1 with hG
  have mG : Measurable G :=
    (ma.ennreal_ofReal.mul (hF.comp (measurable_fst.comp mR))).add
      ((measurable_const.sub ma).ennreal_ofReal.mul (hF.comp measurable_fst))
  set k : (ι → ℝ) → ℝ≥0∞ := fun p =>
    K * ENNReal.ofReal (Real.exp (-(0.5 * ∑ i, p i * p i / mass i))) with hk
  have mk : Measurable k := by
    have : Measurable fun p : ι → ℝ => -(0.5 * ∑ i, p i * p i / mass i) :=
      (measurable_const.mul (Finset.measurable_sum _ fun i _ =>
        ((measurable_pi_apply i).mul (measurable_pi_apply i)).div_const _)).neg
    exact measurable_const.mul (Real.measurable_exp.comp this).ennreal_ofReal
  have mz2 : ∀ {H : (ι → ℝ) → ℝ≥0∞}, Measurable H →
      ∫⁻ z, H (fun i => z i * Real.sqrt (mass i)) ∂(Measure.pi fun _ : ι => gaussianReal 0 1) =
        ∫⁻ p, k p * H p := by
    intro H hH
    rw [← lintegral_map hH mz, hK, lintegral_withDensity_eq_lintegral_mul _ mk hH]
    rfl
  have hk1 : ∫⁻ p, k p = 1 := by
    have h := mz2 (H := fun _ => 1) measurable_const
    simpa using h.symm
  have e2 : ∀ q, ∫⁻ z, (∫⁻ u, F (chainStep mass g l n eps q (fun i => z i * Real.sqrt (mass i)) u) ∂unif)
      ∂(Measure.pi fun _ : ι => gaussianReal 0 1) = ∫⁻ p, k p * G (q, p) := by
    intro q
    simp only [e1]
    have mGq : Measurable fun p => G (q, p) := mG.comp measurable_prodMk_left
    exact mz2 mGq
  have mexp : Measurable fun q => ENNReal.ofReal (Real.exp (l q)) :=
    (Real.measurable_exp.comp hl).ennreal_ofReal
  have mkG : Measurable fun x : (ι → ℝ) × (ι → ℝ) => k x.2 * G x := (mk.comp measurable_snd).mul mG
  rw [lintegral_congr e2, target, lintegral_withDensity_eq_lintegral_mul _ mexp mkG.lintegral_prod_right,
    lintegral_withDensity_eq_lintegral_mul _ mexp hF]
  simp only [Pi.mul_apply]
  -- the joint density is `K exp (-energy)`
  have e3 : ∀ x : (ι → ℝ) × (ι → ℝ), ENNReal.ofReal (Real.exp (l x.1)) * k x.2 =
      K * ENNReal.ofReal (Real.exp (-energy mass l x)) := by
    intro x
    rw [hk]
    simp only
    rw [mul_left_comm, ← ENNReal.ofReal_mul (Real.exp_pos _).le, ← Real.exp_add, energy]
    congr 4
    ring
  have mD : Measurable fun x => ENNReal.ofReal (Real.exp (-energy mass l x)) :=
    (Real.measurable_exp.comp mE.neg).ennreal_ofReal
  have e4 : ∫⁻ q, ENNReal.ofReal (Real.exp (l q)) * ∫⁻ p, k p * G (q, p) =
      K * ∫⁻ x, ENNReal.ofReal (Real.exp (-energy mass l x)) * G x ∂(volume.prod volume) :=
    lintegral_joint volume volume mk mD mG e3
  have mF1 : Measurable fun x : (ι → ℝ) × (ι → ℝ) => F x.1 := hF.comp measurable_fst
  have e5 : ∫⁻ q, ENNReal.ofReal (Real.exp (l q)) * F q =
      K * ∫⁻ x, ENNReal.ofReal (Real.exp (-energy mass l x)) * F x.1 ∂(volume.prod volume) := by
    rw [← lintegral_joint (e := fun q => ENNReal.ofReal (Real.exp (l q))) volume volume mk mD mF1 e3]
    refine lintegral_congr fun q => ?_
    simp only
    rw [lintegral_mul_const _ mk, hk1, one_mul]
  rw [e4, e5]
  congr 1
  have h := Meas.metropolis (measurePreserving_revLeap mass g n eps hg) (revLeap_revLeap mass g n eps) mE
    (F := fun x => F x.1) (hF.comp measurable_fst)
  exact h

/-- The same as an equality of laws. -/
theorem chain_law (hg : Measurable g) (hl : Measurable l) (hm : ∀ i, 0 < mass i) :
    ((target l).prod ((Measure.pi fun _ : ι => gaussianReal 0 1).prod unif)).map
      (fun w => chainStep mass g l n eps w.1 (fun i => w.2.1 i * Real.sqrt (mass i)) w.2.2) = target l := by
  have hT : Measurable fun w : (ι → ℝ) × (ι → ℝ) × ℝ =>
      chainStep mass g l n eps w.1 (fun i => w.2.1 i * Real.sqrt (mass i)) w.2.2 := by
    have mz : Measurable fun w : (ι → ℝ) × (ι → ℝ) × ℝ =>
        (w.1, (fun i => w.2.1 i * Real.sqrt (mass i) : ι → ℝ), w.2.2) := by fun_prop
    exact (measurable_chainStep mass g l n eps hg hl).comp mz
  ext A hA
  have hF : Measurable (A.indicator (1 : (ι → ℝ) → ℝ≥0∞)) := measurable_const.indicator hA
  rw [← lintegral_indicator_one hA, lintegral_map hF hT,
    ← lintegral_indicator_one hA]
  have h := chain_lintegral mass g l n eps hg hl hm hF
  refine Eq.trans ?_ h
  have mc : Measurable fun w : (ι → ℝ) × (ι → ℝ) × ℝ => A.indicator (1 : (ι → ℝ) → ℝ≥0∞)
      (chainStep mass g l n eps w.1 (fun i => w.2.1 i * Real.sqrt (mass i)) w.2.2) := hF.comp hT
  rw [lintegral_prod _ mc.aemeasurable]
  refine lintegral_congr fun q => ?_
  have mq : Measurable fun w : (ι → ℝ) × ℝ => A.indicator (1 : (ι → ℝ) → ℝ≥0∞)
      (chainStep mass g l n eps q (fun i => w.1 i * Real.sqrt (mass i)) w.2) :=
    mc.comp measurable_prodMk_left
  exact lintegral_prod _ mq.aemeasurable

end ZhuSuan.Hmc

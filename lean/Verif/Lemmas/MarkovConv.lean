import Mathlib.Analysis.InnerProductSpace.Adjoint
import Mathlib.MeasureTheory.Function.L2Space
import Mathlib.MeasureTheory.Function.AEEqOfIntegral
import Mathlib.MeasureTheory.Measure.Prod
import Mathlib.MeasureTheory.Measure.Decomposition.RadonNikodym
import Mathlib.Topology.Order.MonotoneConvergence

/-!
General facts on a Markov chain that is given by a random map `T x w`, with `w` drawn afresh
at every step from a law `ν`. Nothing here speaks of the code.

If a step satisfies detailed balance for a probability `π`, and from every point it can reach
every set that `π` does not neglect, then the law of the state tends to `π` in total variation:
first for a start law with a density, then for a start at a point.
-/

set_option autoImplicit false

open MeasureTheory Filter Topology
open scoped ENNReal RealInnerProductSpace

namespace ZhuSuan.MarkovConv

section Hilbert

variable {H : Type*} [NormedAddCommGroup H] [InnerProductSpace ℝ H] [CompleteSpace H]

/-- A symmetric contraction: the even powers settle at a vector that two steps do not move. -/
theorem even_powers (K : H →L[ℝ] H) (hs : ∀ f g, ⟪K f, g⟫ = ⟪f, K g⟫) (hc : ∀ f, ‖K f‖ ≤ ‖f‖)
    (f : H) : ∃ g, Tendsto (fun n => K^[2 * n] f) atTop (𝓝 g) ∧ K (K g) = g := by
  have hs' : ∀ n (f g : H), ⟪K^[n] f, g⟫ = ⟪f, K^[n] g⟫ := by
    intro n
    induction n with
    | zero => intro f g; rfl
    | succ n ih =>
      intro f g
      rw [Function.iterate_succ_apply, ih, hs, Function.iterate_succ_apply']
  set b : ℕ → ℝ := fun n => ⟪K^[n] f, K^[n] f⟫ with hb
  have hanti : Antitone b := by
    refine antitone_nat_of_succ_le fun n => ?_
    simp only [hb, Function.iterate_succ_apply', real_inner_self_eq_norm_sq]
    exact pow_le_pow_left₀ (norm_nonneg _) (hc _) 2
  have hin : ∀ n m, ⟪K^[2 * n] f, K^[2 * m] f⟫ = b (n + m) := by
    intro n m
    have e1 : K^[2 * n] f = K^[n] (K^[n] f) := by rw [← Function.iterate_add_apply]; congr 1; ring
    have e2 : K^[n] (K^[2 * m] f) = K^[m] (K^[n + m] f) := by
      rw [← Function.iterate_add_apply, ← Function.iterate_add_apply]; congr 1; ring
    have e3 : K^[m] (K^[n] f) = K^[n + m] f := by rw [← Function.iterate_add_apply]; congr 1; ring
    rw [e1, hs', e2, ← hs', e3]
  have hbdd : BddBelow (Set.range b) := ⟨0, by rintro _ ⟨n, rfl⟩; exact real_inner_self_nonneg⟩
  have hlim := tendsto_atTop_ciInf hanti hbdd
  have hge : ∀ n, ⨅ k, b k ≤ b n := fun n => ciInf_le hbdd n
  have hC : CauchySeq fun n => K^[2 * n] f := by
    rw [Metric.cauchySeq_iff']
    intro ε hε
    have h1 : ∀ᶠ n in atTop, b n < (⨅ k, b k) + ε ^ 2 / 2 :=
      hlim.eventually (gt_mem_nhds (by have := pow_pos hε 2; linarith))
    obtain ⟨N, hN⟩ := eventually_atTop.1 h1
    refine ⟨N, fun n hn => ?_⟩
    rw [dist_eq_norm]
    have h2 : ‖K^[2 * n] f - K^[2 * N] f‖ ^ 2 < ε ^ 2 := by
      rw [← real_inner_self_eq_norm_sq, inner_sub_sub_self, real_inner_comm (K^[2 * n] f) (K^[2 * N] f), hin, hin, hin]
      have a1 := hN (n + n) (by omega)
      have a2 := hN (N + N) (by omega)
      have a3 := hge (n + N)
      linarith
    exact lt_of_pow_lt_pow_left₀ 2 hε.le h2
  obtain ⟨g, hg⟩ := cauchySeq_tendsto_of_complete hC
  refine ⟨g, hg, ?_⟩
  have h3 : Tendsto (fun n => K (K (K^[2 * n] f))) atTop (𝓝 (K (K g))) :=
    ((K.continuous.comp K.continuous).tendsto g).comp hg
  have h4 : (fun n => K (K (K^[2 * n] f))) = fun n => K^[2 * (n + 1)] f := by
    funext n
    rw [show 2 * (n + 1) = (2 * n).succ.succ by omega, Function.iterate_succ_apply', Function.iterate_succ_apply']
  rw [h4] at h3
  exact tendsto_nhds_unique h3 (hg.comp (tendsto_add_atTop_nat 1))

end Hilbert

section Chain

variable {X N : Type*} [MeasurableSpace X] [MeasurableSpace N]

/-- The law of the state one step later. -/
noncomputable def step (T : X → N → X) (ν : Measure N) (μ : Measure X) : Measure X :=
  (μ.prod ν).map fun w => T w.1 w.2

variable {T : X → N → X} {ν : Measure N} [IsProbabilityMeasure ν]

theorem step_univ (hT : Measurable fun w : X × N => T w.1 w.2) (μ : Measure X) [SFinite μ] :
    step T ν μ Set.univ = μ Set.univ := by
  rw [step, Measure.map_apply hT MeasurableSet.univ, Set.preimage_univ, ← Set.univ_prod_univ, Measure.prod_prod]
  simp

theorem step_apply (hT : Measurable fun w : X × N => T w.1 w.2) (μ : Measure X) [SFinite μ]
    {A : Set X} (hA : MeasurableSet A) : step T ν μ A = ∫⁻ x, ν {w | T x w ∈ A} ∂μ := by
  rw [step, Measure.map_apply hT hA, Measure.prod_apply (hT hA)]
  rfl

instance step_finite (μ : Measure X) [IsFiniteMeasure μ] : IsFiniteMeasure (step T ν μ) := by
  unfold step; infer_instance

instance step_iter_finite (n : ℕ) (μ : Measure X) [IsFiniteMeasure μ] : IsFiniteMeasure ((step T ν)^[n] μ) := by
  induction n with
  | zero => exact ‹_›
  | succ n ih => rw [Function.iterate_succ_apply']; infer_instance

theorem step_iter_univ (hT : Measurable fun w : X × N => T w.1 w.2) (n : ℕ) (μ : Measure X) [IsFiniteMeasure μ] :
    (step T ν)^[n] μ Set.univ = μ Set.univ := by
  induction n with
  | zero => rfl
  | succ n ih => rw [Function.iterate_succ_apply', step_univ hT, ih]

theorem step_add (hT : Measurable fun w : X × N => T w.1 w.2) (μ ρ : Measure X) [IsFiniteMeasure μ]
    [IsFiniteMeasure ρ] : step T ν (μ + ρ) = step T ν μ + step T ν ρ := by
  ext A hA
  rw [Measure.add_apply, step_apply hT _ hA, step_apply hT _ hA, step_apply hT _ hA, lintegral_add_measure]

theorem step_iter_add (hT : Measurable fun w : X × N => T w.1 w.2) (n : ℕ) (μ ρ : Measure X) [IsFiniteMeasure μ]
    [IsFiniteMeasure ρ] : (step T ν)^[n] (μ + ρ) = (step T ν)^[n] μ + (step T ν)^[n] ρ := by
  induction n with
  | zero => rfl
  | succ n ih =>
    rw [Function.iterate_succ_apply', ih, step_add hT, ← Function.iterate_succ_apply' (step T ν),
      ← Function.iterate_succ_apply' (step T ν)]

theorem step_smul (hT : Measurable fun w : X × N => T w.1 w.2) (r : ℝ≥0∞) (hr : r ≠ ∞) (μ : Measure X)
    [IsFiniteMeasure μ] : step T ν (r • μ) = r • step T ν μ := by
  have : IsFiniteMeasure (r • μ) := Measure.smul_finite μ hr
  ext A hA
  rw [Measure.smul_apply, step_apply hT _ hA, step_apply hT _ hA, lintegral_smul_measure]

theorem step_iter_smul (hT : Measurable fun w : X × N => T w.1 w.2) (n : ℕ) (r : ℝ≥0∞) (hr : r ≠ ∞)
    (μ : Measure X) [IsFiniteMeasure μ] : (step T ν)^[n] (r • μ) = r • (step T ν)^[n] μ := by
  induction n with
  | zero => rfl
  | succ n ih => rw [Function.iterate_succ_apply', ih, step_smul hT r hr, ← Function.iterate_succ_apply' (step T ν)]

theorem step_dirac (hT : Measurable fun w : X × N => T w.1 w.2) (x : X) :
    step T ν (Measure.dirac x) = ν.map (T x) := by
  ext A hA
  have mx : Measurable (T x) := hT.comp measurable_prodMk_left
  have m : Measurable fun x => ν {w | T x w ∈ A} := measurable_measure_prodMk_left (hT hA)
  rw [step_apply hT _ hA, lintegral_dirac' _ m, Measure.map_apply mx hA]
  rfl

theorem step_ac (hT : Measurable fun w : X × N => T w.1 w.2) {μ ρ : Measure X} [SFinite μ] [SFinite ρ]
    (h : μ ≪ ρ) : step T ν μ ≪ step T ν ρ := by
  refine Measure.AbsolutelyContinuous.mk fun A hA h0 => ?_
  have m : Measurable fun x => ν {w | T x w ∈ A} := measurable_measure_prodMk_left (hT hA)
  rw [step_apply hT _ hA, lintegral_eq_zero_iff m] at h0 ⊢
  exact h.ae_eq h0

variable {π : Measure X} [IsProbabilityMeasure π]

/-- Detailed balance of one step. -/
def Balanced (T : X → N → X) (ν : Measure N) (π : Measure X) : Prop :=
  (π.prod ν).map (fun w => (w.1, T w.1 w.2)) = (π.prod ν).map (fun w => (T w.1 w.2, w.1))

omit [IsProbabilityMeasure π] in
theorem Balanced.invariant (hT : Measurable fun w : X × N => T w.1 w.2) (h : Balanced T ν π) :
    step T ν π = π := by
  have h1 := congrArg (fun m => m.map Prod.fst) h
  beta_reduce at h1
  rw [Measure.map_map measurable_fst (measurable_fst.prodMk hT),
    Measure.map_map measurable_fst (hT.prodMk measurable_fst)] at h1
  have e1 : (Prod.fst ∘ fun w : X × N => (w.1, T w.1 w.2)) = Prod.fst := rfl
  have e2 : (Prod.fst ∘ fun w : X × N => (T w.1 w.2, w.1)) = fun w => T w.1 w.2 := rfl
  rw [e1, e2, Measure.map_fst_prod] at h1
  simp only [measure_univ, one_smul] at h1
  exact h1.symm

omit [IsProbabilityMeasure π] in
theorem Balanced.mp (hT : Measurable fun w : X × N => T w.1 w.2) (h : Balanced T ν π) :
    MeasurePreserving (fun w : X × N => T w.1 w.2) (π.prod ν) π := ⟨hT, h.invariant hT⟩

/-- Read a function at the next state. -/
noncomputable def opU (hT : Measurable fun w : X × N => T w.1 w.2) (h : Balanced T ν π) :
    Lp ℝ 2 π →ₗᵢ[ℝ] Lp ℝ 2 (π.prod ν) := Lp.compMeasurePreservingₗᵢ ℝ _ (h.mp hT)

/-- Read a function at the present state. -/
noncomputable def opV (ν : Measure N) [IsProbabilityMeasure ν] (π : Measure X) [IsProbabilityMeasure π] :
    Lp ℝ 2 π →ₗᵢ[ℝ] Lp ℝ 2 (π.prod ν) := Lp.compMeasurePreservingₗᵢ ℝ _ measurePreserving_fst

/-- The mean of a function at the next state, given the present one. -/
noncomputable def opK (hT : Measurable fun w : X × N => T w.1 w.2) (h : Balanced T ν π) :
    Lp ℝ 2 π →L[ℝ] Lp ℝ 2 π :=
  (ContinuousLinearMap.adjoint (opV ν π).toContinuousLinearMap).comp (opU hT h).toContinuousLinearMap

variable (hT : Measurable fun w : X × N => T w.1 w.2) (h : Balanced T ν π)

theorem inner_opK (f g : Lp ℝ 2 π) : ⟪opK hT h f, g⟫ = ⟪opU hT h f, opV ν π g⟫ := by
  simp only [opK, ContinuousLinearMap.comp_apply, ContinuousLinearMap.adjoint_inner_left]
  rfl

theorem opK_le (f : Lp ℝ 2 π) : ‖opK hT h f‖ ≤ ‖f‖ := by
  have h1 : ‖opK hT h f‖ ^ 2 ≤ ‖f‖ * ‖opK hT h f‖ := by
    rw [← real_inner_self_eq_norm_sq, inner_opK]
    refine (real_inner_le_norm _ _).trans ?_
    rw [LinearIsometry.norm_map, LinearIsometry.norm_map]
  by_contra hc
  push Not at hc
  have h2 : 0 < ‖opK hT h f‖ := (norm_nonneg f).trans_lt hc
  nlinarith

omit [IsProbabilityMeasure π] in
theorem opU_ae (f : Lp ℝ 2 π) : opU hT h f =ᵐ[π.prod ν] fun w => f (T w.1 w.2) :=
  Lp.coeFn_compMeasurePreserving f (h.mp hT)

theorem opV_ae (f : Lp ℝ 2 π) : opV ν π f =ᵐ[π.prod ν] fun w => f w.1 :=
  Lp.coeFn_compMeasurePreserving f measurePreserving_fst

theorem inner_UV (f g : Lp ℝ 2 π) :
    ⟪opU hT h f, opV ν π g⟫ = ∫ w, f (T w.1 w.2) * g w.1 ∂(π.prod ν) := by
  rw [L2.inner_def]
  refine integral_congr_ae ?_
  filter_upwards [opU_ae hT h f, opV_ae (ν := ν) g] with w h1 h2
  rw [h1, h2, real_inner_comm]
  rfl

theorem opK_symm (f g : Lp ℝ 2 π) : ⟪opK hT h f, g⟫ = ⟪f, opK hT h g⟫ := by
  rw [inner_opK, real_inner_comm (opK hT h g) f, inner_opK, inner_UV, inner_UV]
  have mF : StronglyMeasurable fun p : X × X => f p.2 * g p.1 :=
    ((Lp.stronglyMeasurable f).comp_measurable measurable_snd).mul
      ((Lp.stronglyMeasurable g).comp_measurable measurable_fst)
  have e1 := integral_map (μ := π.prod ν) (measurable_fst.prodMk hT).aemeasurable mF.aestronglyMeasurable
  have e2 := integral_map (μ := π.prod ν) (hT.prodMk measurable_fst).aemeasurable mF.aestronglyMeasurable
  rw [show ((π.prod ν).map fun w => (w.1, T w.1 w.2)) = _ from h] at e1
  refine e1.symm.trans (e2.trans ?_)
  exact integral_congr_ae (Eventually.of_forall fun w => mul_comm _ _)

/-- The constant function one. -/
noncomputable def one (π : Measure X) [IsProbabilityMeasure π] : Lp ℝ 2 π := indicatorConstLp 2 MeasurableSet.univ (measure_ne_top π _) 1

theorem one_ae : one π =ᵐ[π] fun _ => (1 : ℝ) := by
  filter_upwards [indicatorConstLp_coeFn (p := 2) (μ := π) (hs := MeasurableSet.univ) (hμs := measure_ne_top π _) (c := (1 : ℝ))] with x hx
  rw [one, hx]; simp

/-- From every point, whatever `π` does not neglect is reached in one step. -/
def Reaches (T : X → N → X) (ν : Measure N) (π : Measure X) : Prop :=
  ∀ x A, MeasurableSet A → ν {w | T x w ∈ A} = 0 → π A = 0

theorem fixed_const (hr : Reaches T ν π) (g : Lp ℝ 2 π) (hg : opK hT h (opK hT h g) = g) :
    ∃ c : ℝ, g = c • one π := by
  set k := opK hT h g with hk
  have n1 : ‖k‖ ≤ ‖g‖ := opK_le hT h g
  have n2 : ‖g‖ ≤ ‖k‖ := by rw [← hg]; exact opK_le hT h k
  have hUV : opU hT h g = opV ν π k := by
    rw [← sub_eq_zero, ← norm_eq_zero, ← sq_eq_zero_iff, ← real_inner_self_eq_norm_sq, inner_sub_sub_self,
      real_inner_comm (opU hT h g) (opV ν π k), ← inner_opK, ← hk, real_inner_self_eq_norm_sq,
      real_inner_self_eq_norm_sq, real_inner_self_eq_norm_sq, LinearIsometry.norm_map, LinearIsometry.norm_map,
      le_antisymm n1 n2]
    ring
  have hae : ∀ᵐ w ∂(π.prod ν), g (T w.1 w.2) = k w.1 := by
    filter_upwards [opU_ae hT h g, opV_ae (ν := ν) k] with w h1 h2
    rw [← h1, ← h2, hUV]
  have hae2 := Measure.ae_ae_of_ae_prod hae
  have : (ae π).NeBot := ae_neBot.2 (IsProbabilityMeasure.ne_zero π)
  obtain ⟨x, hx⟩ := hae2.exists
  refine ⟨k x, Lp.ext ?_⟩
  have mA : MeasurableSet {y | g y ≠ k x} :=
    (Lp.stronglyMeasurable g).measurable (measurableSet_singleton (k x)).compl
  have h0 : π {y | g y ≠ k x} = 0 := hr x _ mA hx
  have h1 : ∀ᵐ y ∂π, g y = k x := by rw [ae_iff]; exact h0
  filter_upwards [h1, Lp.coeFn_smul (k x) (one π), one_ae (π := π)] with y a b c
  rw [a, b, Pi.smul_apply, c]; simp

theorem opK_one : opK hT h (one π) = one π := by
  have hUV : opU hT h (one π) = opV ν π (one π) := by
    refine Lp.ext ?_
    have a1 : ∀ᵐ w ∂(π.prod ν), one π (T w.1 w.2) = 1 := (h.mp hT).quasiMeasurePreserving.ae one_ae
    have a2 : ∀ᵐ w ∂(π.prod ν), one π w.1 = 1 :=
      (measurePreserving_fst (μ := π) (ν := ν)).quasiMeasurePreserving.ae one_ae
    filter_upwards [opU_ae hT h (one π), opV_ae (ν := ν) (one π), a1, a2] with w h1 h2 h3 h4
    rw [h1, h2, h3, h4]
  refine ext_inner_right ℝ fun g => ?_
  rw [inner_opK, hUV, LinearIsometry.inner_map_map]

theorem inner_one (f : Lp ℝ 2 π) : ⟪one π, f⟫ = ∫ x, f x ∂π := by
  rw [one, L2.inner_indicatorConstLp_one]; simp

/-- Averages tend to the average under `π`. -/
theorem tendsto_opK (hr : Reaches T ν π) (f : Lp ℝ 2 π) :
    Tendsto (fun n => (opK hT h)^[n] f) atTop (𝓝 ((∫ x, f x ∂π) • one π)) := by
  obtain ⟨g, hg, hfix⟩ := even_powers (opK hT h) (opK_symm hT h) (opK_le hT h) f
  obtain ⟨c, rfl⟩ := fixed_const hT h hr g hfix
  have hone : ∀ n, ⟪one π, (opK hT h)^[n] f⟫ = ∫ x, f x ∂π := by
    intro n
    induction n with
    | zero => exact inner_one f
    | succ n ih => rw [Function.iterate_succ_apply', ← opK_symm, opK_one, ih]
  have hc : c = ∫ x, f x ∂π := by
    have h1 : Tendsto (fun n => ⟪one π, (opK hT h)^[2 * n] f⟫) atTop (𝓝 ⟪one π, c • one π⟫) :=
      (tendsto_const_nhds).inner hg
    simp only [hone] at h1
    have h2 := tendsto_nhds_unique h1 tendsto_const_nhds
    rw [inner_smul_right, inner_one, integral_congr_ae one_ae] at h2
    simpa using h2
  rw [← hc]
  have hodd : Tendsto (fun n => (opK hT h)^[2 * n + 1] f) atTop (𝓝 (c • one π)) := by
    have h1 := ((opK hT h).continuous.tendsto _).comp hg
    rw [map_smul, opK_one] at h1
    refine h1.congr fun n => ?_
    rw [Function.iterate_succ_apply']; rfl
  rw [Metric.tendsto_atTop] at hg hodd ⊢
  intro ε hε
  obtain ⟨N1, h1⟩ := hg ε hε
  obtain ⟨N2, h2⟩ := hodd ε hε
  refine ⟨2 * N1 + 2 * N2 + 1, fun n hn => ?_⟩
  obtain ⟨m, hm | hm⟩ := Nat.even_or_odd' n
  · rw [hm]; exact h1 m (by omega)
  · rw [hm]; exact h2 m (by omega)

/-- The law with density `f`. -/
noncomputable def dens (f : Lp ℝ 2 π) : Measure X := π.withDensity fun x => ENNReal.ofReal (f x)

theorem integrable_Lp2 (f : Lp ℝ 2 π) : Integrable f π := (Lp.memLp f).integrable one_le_two

instance dens_finite (f : Lp ℝ 2 π) : IsFiniteMeasure (dens f) :=
  isFiniteMeasure_withDensity_ofReal (integrable_Lp2 f).2

/-- The indicator of a set. -/
noncomputable def ind (π : Measure X) [IsProbabilityMeasure π] {A : Set X} (hA : MeasurableSet A) : Lp ℝ 2 π :=
  indicatorConstLp 2 hA (measure_ne_top π A) 1

theorem dens_real (f : Lp ℝ 2 π) (hf : 0 ≤ᵐ[π] f) {A : Set X} (hA : MeasurableSet A) :
    (dens f).real A = ⟪ind π hA, f⟫ := by
  rw [ind, L2.inner_indicatorConstLp_one, Measure.real, dens, withDensity_apply _ hA,
    integral_eq_lintegral_of_nonneg_ae (ae_restrict_of_ae hf) (Lp.stronglyMeasurable f).aestronglyMeasurable.restrict]

theorem step_dens_real (f : Lp ℝ 2 π) (hf : 0 ≤ᵐ[π] f) {A : Set X} (hA : MeasurableSet A) :
    (step T ν (dens f)).real A = ⟪ind π hA, opK hT h f⟫ := by
  rw [← opK_symm, inner_opK, inner_UV]
  have mf : Measurable fun x => ENNReal.ofReal (f x) := (Lp.stronglyMeasurable f).measurable.ennreal_ofReal
  have e1 : (fun w : X × N => ind π hA (T w.1 w.2) * f w.1) =ᵐ[π.prod ν]
      ((fun w : X × N => T w.1 w.2) ⁻¹' A).indicator fun w => f w.1 := by
    have a1 : ∀ᵐ w ∂(π.prod ν), ind π hA (T w.1 w.2) = A.indicator (fun _ => (1 : ℝ)) (T w.1 w.2) :=
      (h.mp hT).quasiMeasurePreserving.ae indicatorConstLp_coeFn
    filter_upwards [a1] with w hw
    rw [hw]
    by_cases hwA : T w.1 w.2 ∈ A
    · rw [Set.indicator_of_mem hwA, Set.indicator_of_mem (show w ∈ (fun w : X × N => T w.1 w.2) ⁻¹' A from hwA), one_mul]
    · rw [Set.indicator_of_notMem hwA, Set.indicator_of_notMem (show w ∉ (fun w : X × N => T w.1 w.2) ⁻¹' A from hwA),
        zero_mul]
  have hf' : ∀ᵐ w ∂(π.prod ν), 0 ≤ f w.1 :=
    (measurePreserving_fst (μ := π) (ν := ν)).quasiMeasurePreserving.ae hf
  rw [integral_congr_ae e1, integral_indicator (hT hA),
    integral_eq_lintegral_of_nonneg_ae (ae_restrict_of_ae hf')
      ((Lp.stronglyMeasurable f).comp_measurable measurable_fst).aestronglyMeasurable.restrict,
    Measure.real, step, Measure.map_apply hT hA, dens, prod_withDensity_left mf, withDensity_apply _ (hT hA)]

theorem opK_nonneg (f : Lp ℝ 2 π) (hf : 0 ≤ᵐ[π] f) : 0 ≤ᵐ[π] opK hT h f := by
  refine ae_nonneg_of_forall_setIntegral_nonneg (integrable_Lp2 _) fun A hA _ => ?_
  have h1 := step_dens_real hT h f hf hA
  rw [ind, L2.inner_indicatorConstLp_one] at h1
  rw [← h1]
  exact measureReal_nonneg

theorem step_dens (f : Lp ℝ 2 π) (hf : 0 ≤ᵐ[π] f) : step T ν (dens f) = dens (opK hT h f) := by
  ext A hA
  rw [← ENNReal.toReal_eq_toReal_iff' (measure_ne_top _ _) (measure_ne_top _ _)]
  exact (step_dens_real hT h f hf hA).trans (dens_real _ (opK_nonneg hT h f hf) hA).symm

theorem step_iter_dens (f : Lp ℝ 2 π) (hf : 0 ≤ᵐ[π] f) (n : ℕ) :
    (step T ν)^[n] (dens f) = dens ((opK hT h)^[n] f) ∧ 0 ≤ᵐ[π] ((opK hT h)^[n] f : Lp ℝ 2 π) := by
  induction n with
  | zero => exact ⟨rfl, hf⟩
  | succ n ih =>
    rw [Function.iterate_succ_apply', Function.iterate_succ_apply', ih.1]
    exact ⟨step_dens hT h _ ih.2, opK_nonneg hT h _ ih.2⟩

theorem ind_norm_le {A : Set X} (hA : MeasurableSet A) : ‖ind π hA‖ ≤ 1 := by
  rw [ind, norm_indicatorConstLp two_ne_zero ENNReal.ofNat_ne_top, norm_one, one_mul]
  exact Real.rpow_le_one measureReal_nonneg measureReal_le_one (by positivity)

theorem inner_ind_one {A : Set X} (hA : MeasurableSet A) : ⟪ind π hA, one π⟫ = π.real A := by
  rw [ind, L2.inner_indicatorConstLp_one, integral_congr_ae (ae_restrict_of_ae one_ae)]
  simp

theorem tv_L2 (f : Lp ℝ 2 π) (hf : 0 ≤ᵐ[π] f) (n : ℕ) {A : Set X} (hA : MeasurableSet A) :
    |((step T ν)^[n] (dens f)).real A - (dens f).real Set.univ * π.real A| ≤
      ‖(opK hT h)^[n] f - (∫ x, f x ∂π) • one π‖ := by
  obtain ⟨e, he⟩ := step_iter_dens hT h f hf n
  have hu : (dens f).real Set.univ = ∫ x, f x ∂π := by
    rw [dens_real f hf MeasurableSet.univ]; exact inner_one f
  rw [e, dens_real _ he hA, hu, ← inner_ind_one hA, ← inner_smul_right, ← inner_sub_right]
  refine (abs_real_inner_le_norm _ _).trans ?_
  calc ‖ind π hA‖ * _ ≤ 1 * _ := mul_le_mul_of_nonneg_right (ind_norm_le hA) (norm_nonneg _)
    _ = _ := one_mul _

include hT in
/-- A measure moves by no more than its mass. -/
theorem tv_trivial (n : ℕ) (ρ : Measure X) [IsFiniteMeasure ρ] {A : Set X} :
    |((step T ν)^[n] ρ).real A - ρ.real Set.univ * π.real A| ≤ ρ.real Set.univ := by
  have h1 : ((step T ν)^[n] ρ).real A ≤ ρ.real Set.univ := by
    have : ρ.real Set.univ = ((step T ν)^[n] ρ).real Set.univ := by
      rw [Measure.real, Measure.real, step_iter_univ hT]
    rw [this]; exact measureReal_mono (Set.subset_univ _)
  have h2 : 0 ≤ ((step T ν)^[n] ρ).real A := measureReal_nonneg
  have h3 : ρ.real Set.univ * π.real A ≤ ρ.real Set.univ * 1 :=
    mul_le_mul_of_nonneg_left measureReal_le_one measureReal_nonneg
  have h4 : 0 ≤ ρ.real Set.univ * π.real A := mul_nonneg measureReal_nonneg measureReal_nonneg
  rw [abs_le]
  constructor <;> linarith

include hT h in
/-- A start law that has a density: the law of the state tends to `π`, evenly over all events. -/
theorem tv_density (hr : Reaches T ν π) (μ : Measure X) [IsFiniteMeasure μ] (hμ : μ ≪ π) :
    ∀ ε > 0, ∃ n0, ∀ n ≥ n0, ∀ A, MeasurableSet A →
      |((step T ν)^[n] μ).real A - μ.real Set.univ * π.real A| ≤ ε := by
  intro ε hε
  set f : X → ℝ≥0∞ := μ.rnDeriv π with hfdef
  have mf : Measurable f := Measure.measurable_rnDeriv μ π
  have hμf : π.withDensity f = μ := Measure.withDensity_rnDeriv_eq μ π hμ
  have mk : ∀ k : ℕ, Measurable fun x => min (f x) (k : ℝ≥0∞) := fun k => mf.min measurable_const
  have hlim : Tendsto (fun k : ℕ => ∫⁻ x, min (f x) (k : ℝ≥0∞) ∂π) atTop (𝓝 (∫⁻ x, f x ∂π)) := by
    refine lintegral_tendsto_of_tendsto_of_monotone (fun k => (mk k).aemeasurable) ?_ ?_
    · exact Eventually.of_forall fun x a b hab => min_le_min_left _ (by exact_mod_cast hab)
    · refine Eventually.of_forall fun x => ?_
      have h1 : Tendsto (fun k : ℕ => min (f x) (k : ℝ≥0∞)) atTop (𝓝 (min (f x) ∞)) :=
        tendsto_const_nhds.min ENNReal.tendsto_nat_nhds_top
      simpa using h1
  have hfin : ∫⁻ x, f x ∂π ≠ ∞ := by
    have := measure_ne_top μ Set.univ
    rw [← hμf, withDensity_apply _ MeasurableSet.univ] at this
    simpa using this
  have hreal := (ENNReal.tendsto_toReal hfin).comp hlim
  obtain ⟨k, hk⟩ := (hreal.eventually (lt_mem_nhds (show (∫⁻ x, f x ∂π).toReal - ε / 2 < _ by linarith))).exists
  simp only [Function.comp_apply] at hk
  set fk : X → ℝ≥0∞ := fun x => min (f x) (k : ℝ≥0∞) with hfk
  have hfkfin : ∫⁻ x, fk x ∂π ≠ ∞ :=
    ne_top_of_le_ne_top hfin (lintegral_mono fun x => min_le_left _ _)
  have hbd : MemLp (fun x => (fk x).toReal) 2 π := by
    refine MemLp.of_bound (mk k).ennreal_toReal.aestronglyMeasurable (k : ℝ) (Eventually.of_forall fun x => ?_)
    rw [Real.norm_eq_abs, abs_of_nonneg ENNReal.toReal_nonneg]
    have := ENNReal.toReal_mono (ENNReal.natCast_ne_top k) (min_le_right (f x) (k : ℝ≥0∞))
    simpa using this
  set F : Lp ℝ 2 π := hbd.toLp _ with hF
  have hFae : F =ᵐ[π] fun x => (fk x).toReal := hbd.coeFn_toLp
  have hF0 : 0 ≤ᵐ[π] F := by
    filter_upwards [hFae] with x hx
    rw [hx]; exact ENNReal.toReal_nonneg
  have hdF : dens F = π.withDensity fk := by
    refine withDensity_congr_ae ?_
    filter_upwards [hFae] with x hx
    rw [hx, ENNReal.ofReal_toReal]
    exact ne_top_of_le_ne_top (ENNReal.natCast_ne_top k) (min_le_right _ _)
  set ρ : Measure X := π.withDensity fun x => f x - fk x with hρ
  have hsum : μ = dens F + ρ := by
    rw [hdF, hρ, ← withDensity_add_left (mk k), ← hμf]
    congr 1
    funext x
    exact (add_tsub_cancel_of_le (min_le_left _ _)).symm
  have hρle : ρ ≤ μ := by rw [hsum]; exact Measure.le_add_left le_rfl
  have : IsFiniteMeasure ρ := isFiniteMeasure_of_le μ hρle
  have hmass : μ.real Set.univ = (dens F).real Set.univ + ρ.real Set.univ := by
    conv_lhs => rw [hsum]
    rw [measureReal_add_apply]
  have hρε : ρ.real Set.univ ≤ ε / 2 := by
    have e1 : (dens F).real Set.univ = (∫⁻ x, fk x ∂π).toReal := by
      rw [hdF, Measure.real, withDensity_apply _ MeasurableSet.univ]; simp
    have e2 : μ.real Set.univ = (∫⁻ x, f x ∂π).toReal := by
      rw [← hμf, Measure.real, withDensity_apply _ MeasurableSet.univ]; simp
    linarith
  have hconv := tendsto_opK hT h hr F
  rw [Metric.tendsto_atTop] at hconv
  obtain ⟨n0, hn0⟩ := hconv (ε / 2) (by linarith)
  refine ⟨n0, fun n hn A hA => ?_⟩
  have t1 := tv_L2 hT h F hF0 n hA
  have t2 := hn0 n hn
  rw [dist_eq_norm] at t2
  have t3 := tv_trivial (ν := ν) (π := π) hT n ρ (A := A)
  have e : ((step T ν)^[n] μ).real A = ((step T ν)^[n] (dens F)).real A + ((step T ν)^[n] ρ).real A := by
    conv_lhs => rw [hsum, step_iter_add hT]
    rw [measureReal_add_apply]
  rw [e, hmass]
  rw [abs_le] at t1 t3 ⊢
  constructor <;> nlinarith [t1.1, t1.2, t3.1, t3.2]

/-- One step from a point: it stays there with a probability below one, and otherwise moves
according to a density. -/
def Spreads (T : X → N → X) (ν : Measure N) (π : Measure X) (x : X) : Prop :=
  ∃ (r : ℝ≥0∞) (κ : Measure X), r < 1 ∧ κ ≪ π ∧ ν.map (T x) = r • Measure.dirac x + κ

include hT h in
/-- A start at a point: the law of the state tends to `π`, evenly over all events. -/
theorem tv_point (hr : Reaches T ν π) (x : X) (hx : Spreads T ν π x) :
    ∀ ε > 0, ∃ n0, ∀ n ≥ n0, ∀ A, MeasurableSet A →
      |((step T ν)^[n] (Measure.dirac x)).real A - π.real A| ≤ ε := by
  intro ε hε
  obtain ⟨r, κ, hr1, hκ, hK⟩ := hx
  have hrt : r ≠ ∞ := (hr1.trans ENNReal.one_lt_top).ne
  have mx : Measurable (T x) := hT.comp measurable_prodMk_left
  have hκfin : IsFiniteMeasure κ := by
    have : IsProbabilityMeasure (ν.map (T x)) := Measure.isProbabilityMeasure_map mx.aemeasurable
    exact isFiniteMeasure_of_le (ν.map (T x)) (by rw [hK]; exact Measure.le_add_left le_rfl)
  have hdec : ∀ m : ℕ, ∃ ρ : Measure X, IsFiniteMeasure ρ ∧ ρ ≪ π ∧
      (step T ν)^[m] (Measure.dirac x) = r ^ m • Measure.dirac x + ρ := by
    intro m
    induction m with
    | zero => exact ⟨0, inferInstance, Measure.AbsolutelyContinuous.zero _, by simp⟩
    | succ m ih =>
      obtain ⟨ρ, f1, f2, f3⟩ := ih
      refine ⟨r ^ m • κ + step T ν ρ, ?_, ?_, ?_⟩
      · have : IsFiniteMeasure (r ^ m • κ) := Measure.smul_finite κ (ENNReal.pow_ne_top hrt)
        infer_instance
      · refine Measure.AbsolutelyContinuous.add_left (hκ.smul_left _) ?_
        have := step_ac (ν := ν) hT f2
        rwa [h.invariant hT] at this
      · have : IsFiniteMeasure (r ^ m • Measure.dirac x) := Measure.smul_finite _ (ENNReal.pow_ne_top hrt)
        rw [Function.iterate_succ_apply', f3, step_add hT, step_smul hT _ (ENNReal.pow_ne_top hrt), step_dirac hT, hK,
          smul_add, smul_smul, ← pow_succ, add_assoc]
  have hpow : Tendsto (fun m : ℕ => (r ^ m).toReal) atTop (𝓝 0) := by
    have : (fun m : ℕ => (r ^ m).toReal) = fun m => r.toReal ^ m := by funext m; rw [ENNReal.toReal_pow]
    rw [this]
    refine tendsto_pow_atTop_nhds_zero_of_lt_one ENNReal.toReal_nonneg ?_
    rw [← ENNReal.toReal_one]
    exact (ENNReal.toReal_lt_toReal hrt ENNReal.one_ne_top).2 hr1
  obtain ⟨m, hm⟩ := (hpow.eventually (gt_mem_nhds (show (0 : ℝ) < ε / 2 by linarith))).exists
  obtain ⟨ρ, f1, f2, f3⟩ := hdec m
  obtain ⟨n0, hn0⟩ := tv_density hT h hr ρ f2 (ε / 2) (by linarith)
  refine ⟨n0 + m, fun n hn A hA => ?_⟩
  obtain ⟨j, rfl⟩ : ∃ j, n = j + m := ⟨n - m, by omega⟩
  have : IsFiniteMeasure (r ^ m • Measure.dirac x) := Measure.smul_finite _ (ENNReal.pow_ne_top hrt)
  have : IsFiniteMeasure (r ^ m • (step T ν)^[j] (Measure.dirac x)) :=
    Measure.smul_finite _ (ENNReal.pow_ne_top hrt)
  have e : ((step T ν)^[j + m] (Measure.dirac x)).real A =
      (r ^ m).toReal * ((step T ν)^[j] (Measure.dirac x)).real A + ((step T ν)^[j] ρ).real A := by
    rw [Function.iterate_add_apply, f3, step_iter_add hT, step_iter_smul hT _ _ (ENNReal.pow_ne_top hrt),
      measureReal_add_apply, measureReal_ennreal_smul_apply]
  have hmass : 1 = (r ^ m).toReal + ρ.real Set.univ := by
    have := step_iter_univ (ν := ν) hT m (Measure.dirac x)
    rw [f3] at this
    have h2 := congrArg ENNReal.toReal this
    have h3 : (r ^ m • Measure.dirac x + ρ).real Set.univ = (r ^ m).toReal + ρ.real Set.univ := by
      rw [measureReal_add_apply, measureReal_ennreal_smul_apply]; simp
    rw [← h3, Measure.real, h2]; simp
  have t1 := hn0 j (by omega) A hA
  have s1 : ((step T ν)^[j] (Measure.dirac x)).real A ≤ 1 := by
    have : ((step T ν)^[j] (Measure.dirac x)).real Set.univ = 1 := by
      rw [Measure.real, step_iter_univ hT]; simp
    rw [← this]; exact measureReal_mono (Set.subset_univ _)
  have s0 : 0 ≤ ((step T ν)^[j] (Measure.dirac x)).real A := measureReal_nonneg
  have p1 : π.real A ≤ 1 := measureReal_le_one
  have p0 : 0 ≤ π.real A := measureReal_nonneg
  have r0 : 0 ≤ (r ^ m).toReal := ENNReal.toReal_nonneg
  rw [e]
  have hsplit : (r ^ m).toReal * ((step T ν)^[j] (Measure.dirac x)).real A + ((step T ν)^[j] ρ).real A - π.real A =
      (r ^ m).toReal * (((step T ν)^[j] (Measure.dirac x)).real A - π.real A) +
        (((step T ν)^[j] ρ).real A - ρ.real Set.univ * π.real A) := by
    have : ρ.real Set.univ = 1 - (r ^ m).toReal := by linarith
    rw [this]; ring
  rw [hsplit]
  refine (abs_add_le _ _).trans ?_
  have a1 : |(r ^ m).toReal * (((step T ν)^[j] (Measure.dirac x)).real A - π.real A)| ≤ ε / 2 := by
    rw [abs_mul, abs_of_nonneg r0]
    have : |((step T ν)^[j] (Measure.dirac x)).real A - π.real A| ≤ 1 := by
      rw [abs_le]; constructor <;> linarith
    calc _ ≤ (r ^ m).toReal * 1 := mul_le_mul_of_nonneg_left this r0
      _ ≤ _ := by linarith
  linarith

include hT h in
/-- The same when the start is that point with some probability and otherwise has a density. -/
theorem tv_mix (hr : Reaches T ν π) (x : X) (hx : Spreads T ν π x) (μ : Measure X) [IsProbabilityMeasure μ]
    (r : ℝ≥0∞) (κ : Measure X) (hκ : κ ≪ π) (hμ : μ = r • Measure.dirac x + κ) :
    ∀ ε > 0, ∃ n0, ∀ n ≥ n0, ∀ A, MeasurableSet A → |((step T ν)^[n] μ).real A - π.real A| ≤ ε := by
  intro ε hε
  have hu : r + κ Set.univ = 1 := by
    have h1 : μ Set.univ = 1 := measure_univ
    rw [hμ] at h1
    simpa using h1
  have hr1 : r ≤ 1 := by rw [← hu]; exact le_self_add
  have hrt : r ≠ ∞ := ne_top_of_le_ne_top ENNReal.one_ne_top hr1
  have hκfin : IsFiniteMeasure κ :=
    ⟨lt_of_le_of_lt (by rw [← hu]; exact le_add_self) ENNReal.one_lt_top⟩
  obtain ⟨n1, h1⟩ := tv_point hT h hr x hx (ε / 2) (by linarith)
  obtain ⟨n2, h2⟩ := tv_density hT h hr κ hκ (ε / 2) (by linarith)
  refine ⟨n1 + n2, fun n hn A hA => ?_⟩
  have : IsFiniteMeasure (r • Measure.dirac x) := Measure.smul_finite _ hrt
  have : IsFiniteMeasure (r • (step T ν)^[n] (Measure.dirac x)) := Measure.smul_finite _ hrt
  have e : ((step T ν)^[n] μ).real A =
      r.toReal * ((step T ν)^[n] (Measure.dirac x)).real A + ((step T ν)^[n] κ).real A := by
    rw [hμ, step_iter_add hT, step_iter_smul hT _ _ hrt, measureReal_add_apply, measureReal_ennreal_smul_apply]
  have hmass : κ.real Set.univ = 1 - r.toReal := by
    have h3 := congrArg ENNReal.toReal hu
    rw [ENNReal.toReal_add hrt (measure_ne_top _ _), ENNReal.toReal_one] at h3
    rw [Measure.real]
    linarith
  have t1 := h1 n (by omega) A hA
  have t2 := h2 n (by omega) A hA
  have r0 : 0 ≤ r.toReal := ENNReal.toReal_nonneg
  have r1 : r.toReal ≤ 1 := by
    have := ENNReal.toReal_mono ENNReal.one_ne_top hr1
    simpa using this
  have hsplit : ((step T ν)^[n] μ).real A - π.real A =
      r.toReal * (((step T ν)^[n] (Measure.dirac x)).real A - π.real A) +
        (((step T ν)^[n] κ).real A - κ.real Set.univ * π.real A) := by
    rw [e, hmass]; ring
  rw [hsplit]
  refine (abs_add_le _ _).trans ?_
  rw [abs_mul, abs_of_nonneg r0]
  have : r.toReal * |((step T ν)^[n] (Measure.dirac x)).real A - π.real A| ≤ 1 * (ε / 2) :=
    mul_le_mul r1 t1 (abs_nonneg _) zero_le_one
  linarith

end Chain

end ZhuSuan.MarkovConv

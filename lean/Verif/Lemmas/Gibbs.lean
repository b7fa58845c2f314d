import Mathlib.MeasureTheory.Integral.Marginal
import Verif.Lemmas.HmcReversible

/-!
# HMC within Gibbs

Sampling one block of variables from a transition that leaves its conditional distribution given the others invariant
leaves the joint distribution invariant.
-/

set_option autoImplicit false

open MeasureTheory Set ProbabilityTheory Function
open scoped ENNReal

namespace ZhuSuan.Gibbs

open Hmc

variable {δ κ N : Type} [Fintype δ] [DecidableEq δ] [Fintype κ] [MeasurableSpace N]

/-- The joint distribution with log density `J` (not normalised). -/
noncomputable def joint (J : (δ → κ → ℝ) → ℝ) : Measure (δ → κ → ℝ) :=
  volume.withDensity fun x => ENNReal.ofReal (Real.exp (J x))

instance (J : (δ → κ → ℝ) → ℝ) : SigmaFinite (joint J) := by unfold joint; infer_instance

omit [Fintype δ] [Fintype κ] in
theorem measurable_update' (i : δ) :
    Measurable fun p : (δ → κ → ℝ) × (κ → ℝ) => update p.1 i p.2 := by
  refine measurable_pi_lambda _ fun j => ?_
  by_cases h : j = i
  · subst h
    simp only [update_self]
    exact measurable_snd
  · simp only [update_of_ne h]
    exact (measurable_pi_apply j).comp measurable_fst

theorem block_law (ν : Measure N) [SFinite ν] (J : (δ → κ → ℝ) → ℝ) (hJ : Measurable J) (i : δ)
    (l : (δ → κ → ℝ) → (κ → ℝ) → ℝ) (hl : ∀ x, Measurable (l x))
    (hJl : ∀ x q q', J (update x i q) - J (update x i q') = l x q - l x q')
    (T : (δ → κ → ℝ) → (κ → ℝ) → N → κ → ℝ)
    (mT : Measurable fun w : (δ → κ → ℝ) × (κ → ℝ) × N => T w.1 w.2.1 w.2.2)
    (hT0 : ∀ x q, T (update x i q) = T x)
    (hT : ∀ x (F : (κ → ℝ) → ℝ≥0∞), Measurable F →
      ∫⁻ q, ∫⁻ w, F (T x q w) ∂ν ∂(target (l x)) = ∫⁻ q, F q ∂(target (l x))) :
    ((joint J).prod ν).map (fun w => update w.1 i (T w.1 (w.1 i) w.2)) = joint J := by
  have mE : Measurable fun x => ENNReal.ofReal (Real.exp (J x)) := (Real.measurable_exp.comp hJ).ennreal_ofReal
  have mi : Measurable fun w : (δ → κ → ℝ) × N => (w.1, w.1 i, w.2) :=
    measurable_fst.prodMk (((measurable_pi_apply i).comp measurable_fst).prodMk measurable_snd)
  have mS : Measurable fun w : (δ → κ → ℝ) × N => update w.1 i (T w.1 (w.1 i) w.2) := by
    have h := mT.comp mi
    exact (measurable_update' i).comp (measurable_fst.prodMk h)
  ext A hA
  set F : (δ → κ → ℝ) → ℝ≥0∞ := A.indicator 1 with hF
  have mF : Measurable F := measurable_const.indicator hA
  have mFS : Measurable fun w : (δ → κ → ℝ) × N => F (update w.1 i (T w.1 (w.1 i) w.2)) := mF.comp mS
  rw [← lintegral_indicator_one hA, lintegral_map mF mS, ← lintegral_indicator_one hA, lintegral_prod _ mFS.aemeasurable]
  have mG : Measurable fun x => ∫⁻ w, F (update x i (T x (x i) w)) ∂ν := mFS.lintegral_prod_right'
  rw [joint, lintegral_withDensity_eq_lintegral_mul _ mE mG, lintegral_withDensity_eq_lintegral_mul _ mE mF]
  refine lintegral_eq_of_lmarginal_eq (μ := fun _ : δ => (volume : Measure (κ → ℝ))) {i} (mE.mul mG) (mE.mul mF) ?_
  rw [lmarginal_singleton, lmarginal_singleton]
  funext x
  simp only [Pi.mul_apply, update_self, update_idem, hT0]
  have e : ∀ q, ENNReal.ofReal (Real.exp (J (update x i q))) =
      ENNReal.ofReal (Real.exp (J (update x i 0) - l x 0)) * ENNReal.ofReal (Real.exp (l x q)) := by
    intro q
    rw [← ENNReal.ofReal_mul (Real.exp_pos _).le, ← Real.exp_add]
    congr 2
    have := hJl x q 0
    linarith
  have mFx : Measurable fun q => F (update x i q) :=
    mF.comp ((measurable_update' i).comp (measurable_const.prodMk measurable_id))
  have mT' : Measurable fun w : (κ → ℝ) × N => T x w.1 w.2 := mT.comp (measurable_const.prodMk measurable_id)
  have mx : Measurable fun q => ∫⁻ w, F (update x i (T x q w)) ∂ν := by
    have : Measurable fun w : (κ → ℝ) × N => F (update x i (T x w.1 w.2)) := mFx.comp mT'
    exact this.lintegral_prod_right'
  have ml : Measurable fun q => ENNReal.ofReal (Real.exp (l x q)) := (Real.measurable_exp.comp (hl x)).ennreal_ofReal
  simp only [e, mul_assoc]
  have m1 : Measurable fun q => ENNReal.ofReal (Real.exp (l x q)) * ∫⁻ w, F (update x i (T x q w)) ∂ν := ml.mul mx
  have m2 : Measurable fun q => ENNReal.ofReal (Real.exp (l x q)) * F (update x i q) := ml.mul mFx
  rw [lintegral_const_mul _ m1, lintegral_const_mul _ m2]
  congr 1
  have h := hT x _ mFx
  rw [target, lintegral_withDensity_eq_lintegral_mul _ ml mx, lintegral_withDensity_eq_lintegral_mul _ ml mFx] at h
  exact h

/-! ## The step of a chain depends measurably on the other variables -/

section Param

variable {X : Type} [MeasurableSpace X] (mass : κ → ℝ) (g : X → (κ → ℝ) → κ → ℝ) (l : X → (κ → ℝ) → ℝ) (n : ℕ) (eps : ℝ)

omit [Fintype κ] in
theorem measurable_leap1_param (hg : Measurable fun w : X × (κ → ℝ) => g w.1 w.2) :
    Measurable fun w : X × (κ → ℝ) × (κ → ℝ) => leap1 mass (g w.1) n eps w.2 := by
  have key : ∀ (L : List ℕ), Measurable fun w : X × (Unit → κ → ℝ) × (Unit → κ → ℝ) =>
      L.foldl (fun (x : (Unit → κ → ℝ) × (Unit → κ → ℝ)) i =>
        leapfrogIntegrator mass (fun q _ => g w.1 (q ())) (if 0 < i then eps else Flt.ofReal 0)
          (if i < n ∧ 0 < i then eps else eps / Flt.ofReal 2) x) w.2 := by
    intro L
    induction L using List.reverseRecOn with
    | nil => exact measurable_snd
    | append_singleton L i ih =>
      simp only [List.foldl_append, List.foldl_cons, List.foldl_nil]
      generalize (if 0 < i then eps else Flt.ofReal 0 : ℝ) = s1
      generalize (if i < n ∧ 0 < i then eps else eps / Flt.ofReal 2 : ℝ) = s2
      have h1 : Measurable fun y : X × (Unit → κ → ℝ) × (Unit → κ → ℝ) =>
          leapfrogIntegrator mass (fun q _ => g y.1 (q ())) s1 s2 y.2 := by
        have hq : Measurable fun y : X × (Unit → κ → ℝ) × (Unit → κ → ℝ) =>
            (fun c i => y.2.1 c i + s1 * velocity mass y.2.2 c i : Unit → κ → ℝ) := by
          unfold velocity
          fun_prop
        have hq' : Measurable fun y : X × (Unit → κ → ℝ) × (Unit → κ → ℝ) =>
            (fun i => y.2.1 () i + s1 * velocity mass y.2.2 () i : κ → ℝ) := (measurable_pi_apply ()).comp hq
        have hgq := hg.comp (measurable_fst.prodMk hq')
        refine hq.prodMk (measurable_pi_lambda _ fun u => measurable_pi_lambda _ fun i => ?_)
        have a1 : Measurable fun y : X × (Unit → κ → ℝ) × (Unit → κ → ℝ) => y.2.2 u i := by fun_prop
        exact a1.add (measurable_const.mul ((measurable_pi_apply i).comp hgq))
      exact h1.comp (measurable_fst.prodMk ih)
  have h0 : Measurable fun w : X × (κ → ℝ) × (κ → ℝ) =>
      (w.1, ((fun _ => w.2.1 : Unit → κ → ℝ), (fun _ => w.2.2 : Unit → κ → ℝ))) := by fun_prop
  have h := (key (List.range (n + 1))).comp h0
  exact ((measurable_pi_apply ()).comp (measurable_fst.comp h)).prodMk
    ((measurable_pi_apply ()).comp (measurable_snd.comp h))

theorem measurable_chainStep_param (hg : Measurable fun w : X × (κ → ℝ) => g w.1 w.2)
    (hl : Measurable fun w : X × (κ → ℝ) => l w.1 w.2) :
    Measurable fun w : X × (κ → ℝ) × (κ → ℝ) × ℝ => chainStep mass (g w.1) (l w.1) n eps w.2.1 w.2.2.1 w.2.2.2 := by
  have m1 : Measurable fun w : X × (κ → ℝ) × (κ → ℝ) × ℝ => (w.1, (w.2.1, w.2.2.1)) := by fun_prop
  have hleap : Measurable fun w : X × (κ → ℝ) × (κ → ℝ) × ℝ => leap1 mass (g w.1) n eps (w.2.1, w.2.2.1) :=
    (measurable_leap1_param mass g n eps hg).comp m1
  have henergy : Measurable fun w : X × (κ → ℝ) × (κ → ℝ) => energy mass (l w.1) w.2 := by
    have a1 : Measurable fun w : X × (κ → ℝ) × (κ → ℝ) => (w.1, w.2.1) := by fun_prop
    have a2 : Measurable fun w : X × (κ → ℝ) × (κ → ℝ) => 0.5 * ∑ i, w.2.2 i * w.2.2 i / mass i := by fun_prop
    exact ((hl.comp a1).neg).add a2
  have h3 : Measurable fun w : X × (κ → ℝ) × (κ → ℝ) × ℝ => energy mass (l w.1) (w.2.1, w.2.2.1) := henergy.comp m1
  have h4 : Measurable fun w : X × (κ → ℝ) × (κ → ℝ) × ℝ =>
      energy mass (l w.1) (leap1 mass (g w.1) n eps (w.2.1, w.2.2.1)) := henergy.comp (measurable_fst.prodMk hleap)
  refine Measurable.ite ?_ (measurable_fst.comp hleap) (measurable_fst.comp measurable_snd)
  exact measurableSet_lt (measurable_snd.comp (measurable_snd.comp measurable_snd))
    (Real.measurable_exp.comp ((h3.sub h4).min measurable_const))

end Param

/-- One chain of HMC on one block. -/
theorem hmc_block_law (J : (δ → κ → ℝ) → ℝ) (hJ : Measurable J) (i : δ)
    (l : (δ → κ → ℝ) → (κ → ℝ) → ℝ) (hl : Measurable fun w : (δ → κ → ℝ) × (κ → ℝ) => l w.1 w.2)
    (hl0 : ∀ x q, l (update x i q) = l x)
    (hJl : ∀ x q q', J (update x i q) - J (update x i q') = l x q - l x q')
    (g : (δ → κ → ℝ) → (κ → ℝ) → κ → ℝ) (hg : Measurable fun w : (δ → κ → ℝ) × (κ → ℝ) => g w.1 w.2)
    (hg0 : ∀ x q, g (update x i q) = g x) (n : ℕ) (eps : ℝ) :
    ((joint J).prod ((Measure.pi fun _ : κ => gaussianReal 0 1).prod unif)).map
      (fun w => update w.1 i (chainStep (fun _ => 1) (g w.1) (l w.1) n eps (w.1 i) w.2.1 w.2.2)) = joint J := by
  refine block_law _ J hJ i l (fun x => hl.comp (measurable_const.prodMk measurable_id)) hJl
    (fun x q (w : (κ → ℝ) × ℝ) => chainStep (fun _ => 1) (g x) (l x) n eps q w.1 w.2)
    (measurable_chainStep_param _ g l n eps hg hl) (fun x q => by rw [hl0, hg0]) fun x F hF => ?_
  have hgx : Measurable (g x) := hg.comp (measurable_const.prodMk measurable_id)
  have hlx : Measurable (l x) := hl.comp (measurable_const.prodMk measurable_id)
  have h := chain_lintegral (fun _ => 1) (g x) (l x) n eps hgx hlx (fun _ => one_pos) hF
  simp only [Real.sqrt_one, mul_one] at h
  rw [← h]
  refine lintegral_congr fun q => ?_
  have m1 : Measurable fun w : (κ → ℝ) × ℝ => F (chainStep (fun _ => 1) (g x) (l x) n eps q w.1 w.2) :=
    hF.comp ((measurable_chainStep (fun _ => 1) (g x) (l x) n eps hgx hlx).comp (measurable_const.prodMk measurable_id))
  exact lintegral_prod _ m1.aemeasurable

/-- All chains: independent chains stay independent. -/
theorem chains_law {C X Y : Type} [Fintype C] [MeasurableSpace X] [MeasurableSpace Y] (μ : Measure X) [SigmaFinite μ]
    (ν1 : Measure Y) [SigmaFinite ν1] (ν2 : Measure N) [SigmaFinite ν2] (T : X × Y × N → X) (mT : Measurable T)
    (h : (μ.prod (ν1.prod ν2)).map T = μ) :
    ((Measure.pi fun _ : C => μ).prod ((Measure.pi fun _ : C => ν1).prod (Measure.pi fun _ : C => ν2))).map
      (fun w c => T (w.1 c, w.2.1 c, w.2.2 c)) = Measure.pi fun _ : C => μ := by
  have h1 := measurePreserving_arrowProdEquivProdArrow Y N C (fun _ => ν1) (fun _ => ν2)
  have h2 := measurePreserving_arrowProdEquivProdArrow X (Y × N) C (fun _ => μ) (fun _ => ν1.prod ν2)
  have h3 := ((MeasurePreserving.id (Measure.pi fun _ : C => μ)).prod h1).comp h2
  have mall : Measurable fun (w : (C → X) × (C → Y) × (C → N)) c => T (w.1 c, w.2.1 c, w.2.2 c) := by
    refine measurable_pi_lambda _ fun c => mT.comp ?_
    exact ((measurable_pi_apply c).comp measurable_fst).prodMk
      (((measurable_pi_apply c).comp (measurable_fst.comp measurable_snd)).prodMk
        ((measurable_pi_apply c).comp (measurable_snd.comp measurable_snd)))
  rw [← h3.map_eq, Measure.map_map mall h3.measurable]
  have hs : SigmaFinite ((μ.prod (ν1.prod ν2)).map T) := by rw [h]; infer_instance
  have h4 := Measure.pi_map_pi (μ := fun _ : C => μ.prod (ν1.prod ν2)) (f := fun _ => T) (fun c => mT.aemeasurable)
  simp only [h] at h4
  exact h4

end ZhuSuan.Gibbs

import Verif.Lemmas.HmcInvariant

/-!
# Detailed balance of one chain of HMC, and laws of iterated transitions
-/

set_option autoImplicit false

open MeasureTheory Set ProbabilityTheory
open scoped ENNReal

namespace ZhuSuan.Meas

/-- The Metropolis test after a volume-preserving involution satisfies detailed balance. -/
theorem metropolis_pair {X : Type*} [MeasurableSpace X] {μ : Measure X} {Φ : X → X}
    (hΦ : MeasurePreserving Φ μ μ) (hi : ∀ x, Φ (Φ x) = x) {H : X → ℝ} (hH : Measurable H)
    {F : X → X → ℝ≥0∞} (hF : Measurable fun p : X × X => F p.1 p.2) :
    ∫⁻ x, ENNReal.ofReal (Real.exp (-H x)) *
      (ENNReal.ofReal (Real.exp (min (H x - H (Φ x)) 0)) * F x (Φ x) +
        ENNReal.ofReal (1 - Real.exp (min (H x - H (Φ x)) 0)) * F x x) ∂μ =
    ∫⁻ x, ENNReal.ofReal (Real.exp (-H x)) *
      (ENNReal.ofReal (Real.exp (min (H x - H (Φ x)) 0)) * F (Φ x) x +
        ENNReal.ofReal (1 - Real.exp (min (H x - H (Φ x)) 0)) * F x x) ∂μ := by
  set m : X → ℝ≥0∞ := fun x => ENNReal.ofReal (min (Real.exp (-H x)) (Real.exp (-H (Φ x)))) with hm
  have hHΦ : Measurable fun x => H (Φ x) := hH.comp hΦ.measurable
  have mm : Measurable m := by
    have := (Real.measurable_exp.comp hH.neg).min (Real.measurable_exp.comp hHΦ.neg)
    exact this.ennreal_ofReal
  have e1 : ∀ x, ENNReal.ofReal (Real.exp (-H x)) *
      ENNReal.ofReal (Real.exp (min (H x - H (Φ x)) 0)) = m x := by
    intro x
    rw [← ENNReal.ofReal_mul (Real.exp_pos _).le, ← Real.exp_add, hm]
    congr 1
    rcases le_total (H x) (H (Φ x)) with h | h
    · rw [min_eq_left (by linarith), min_eq_right (Real.exp_le_exp.2 (by linarith))]
      congr 1; ring
    · rw [min_eq_right (by linarith), min_eq_left (Real.exp_le_exp.2 (by linarith))]
      congr 1; ring
  have e3 : ∀ x, m (Φ x) = m x := fun x => by
    simp only [hm]
    rw [hi, min_comm]
  have m1 : Measurable fun x => m x * F x (Φ x) := mm.mul (hF.comp (measurable_id.prodMk hΦ.measurable))
  have m2 : Measurable fun x => m x * F (Φ x) x := mm.mul (hF.comp (hΦ.measurable.prodMk measurable_id))
  simp only [mul_add, ← mul_assoc, e1]
  rw [lintegral_add_left m1, lintegral_add_left m2]
  congr 1
  rw [← hΦ.lintegral_comp m2]
  refine lintegral_congr fun x => ?_
  rw [e3, hi]

/-- A sequence of transitions, each with its own noise. -/
def iter {Q N : Type} (T : ℕ → Q → N → Q) (q : Q) : (k : ℕ) → (Fin k → N) → Q
  | 0, _ => q
  | k + 1, w => T k (iter T q k fun i => w i.castSucc) (w (Fin.last k))

variable {Q N : Type} [MeasurableSpace Q] [MeasurableSpace N]

theorem measurable_iter {T : ℕ → Q → N → Q} (hT : ∀ k, Measurable fun p : Q × N => T k p.1 p.2) (k : ℕ) :
    Measurable fun p : Q × (Fin k → N) => iter T p.1 k p.2 := by
  induction k with
  | zero => exact measurable_fst
  | succ k ih =>
    have h1 : Measurable fun p : Q × (Fin (k + 1) → N) => (p.1, fun i : Fin k => p.2 i.castSucc) :=
      measurable_fst.prodMk (measurable_pi_lambda _ fun i => (measurable_pi_apply _).comp measurable_snd)
    exact (hT k).comp ((ih.comp h1).prodMk ((measurable_pi_apply _).comp measurable_snd))

/-- If every transition leaves `μ` invariant, so do any number of them. -/
theorem iter_law {μ : Measure Q} [SigmaFinite μ] {ν : Measure N} [IsProbabilityMeasure ν] {T : ℕ → Q → N → Q}
    (hT : ∀ k, Measurable fun p : Q × N => T k p.1 p.2)
    (hinv : ∀ k, (μ.prod ν).map (fun p => T k p.1 p.2) = μ) (n : ℕ) :
    (μ.prod (Measure.pi fun _ : Fin n => ν)).map (fun p => iter T p.1 n p.2) = μ := by
  induction n with
  | zero =>
    show (μ.prod (Measure.pi fun _ : Fin 0 => ν)).map Prod.fst = μ
    rw [← Measure.fst, Measure.fst_prod]
  | succ n ih =>
    have h1 := (measurePreserving_piFinSuccAbove (fun _ : Fin (n + 1) => ν) (Fin.last n))
    have h2 : MeasurePreserving (fun p : Q × (Fin (n + 1) → N) =>
        (((p.1, fun i : Fin n => p.2 i.castSucc) : Q × (Fin n → N)), p.2 (Fin.last n)))
        (μ.prod (Measure.pi fun _ : Fin (n + 1) => ν)) ((μ.prod (Measure.pi fun _ : Fin n => ν)).prod ν) := by
      have a1 := (MeasurePreserving.id μ).prod h1
      have a2 := (MeasurePreserving.id μ).prod
        (Measure.measurePreserving_swap (μ := ν) (ν := Measure.pi fun _ : Fin n => ν))
      have a3 := (measurePreserving_prodAssoc μ (Measure.pi fun _ : Fin n => ν) ν).symm
      have a4 := a3.comp (a2.comp a1)
      convert a4 using 2
      rename_i p
      simp [MeasurableEquiv.piFinSuccAbove, MeasurableEquiv.prodAssoc, Fin.insertNthEquiv]
      rfl
    have mi := measurable_iter hT n
    have e : (fun p : Q × (Fin (n + 1) → N) => iter T p.1 (n + 1) p.2) =
        (fun p : Q × N => T n p.1 p.2) ∘ (Prod.map (fun p : Q × (Fin n → N) => iter T p.1 n p.2) id) ∘
        (fun p : Q × (Fin (n + 1) → N) =>
        (((p.1, fun i : Fin n => p.2 i.castSucc) : Q × (Fin n → N)), p.2 (Fin.last n))) := rfl
    have mp : Measurable (Prod.map (fun p : Q × (Fin n → N) => iter T p.1 n p.2) (id : N → N)) :=
      mi.prodMap measurable_id
    rw [e, ← Measure.map_map (hT n) (mp.comp h2.measurable), ← Measure.map_map mp h2.measurable, h2.map_eq,
      ← Measure.map_prod_map _ _ mi measurable_id, ih, Measure.map_id]
    exact hinv n

end ZhuSuan.Meas

namespace ZhuSuan.Hmc

variable {ι : Type} [Fintype ι] (mass : ι → ℝ) (g : (ι → ℝ) → ι → ℝ) (l : (ι → ℝ) → ℝ) (n : ℕ) (eps : ℝ)

/-- One chain: the positions before and after, weighted with the energy. -/
theorem chain_pair_lintegral (hg : Measurable g) (hl : Measurable l) (hm : ∀ i, 0 < mass i) :
    ∃ K : ℝ≥0∞, ∀ F : (ι → ℝ) → (ι → ℝ) → ℝ≥0∞, (Measurable fun p : (ι → ℝ) × (ι → ℝ) => F p.1 p.2) →
    ∫⁻ q, (∫⁻ z, (∫⁻ u, F q (chainStep mass g l n eps q (fun i => z i * Real.sqrt (mass i)) u) ∂unif)
        ∂(Measure.pi fun _ : ι => gaussianReal 0 1)) ∂(target l) =
      K * ∫⁻ x, ENNReal.ofReal (Real.exp (-energy mass l x)) *
        (ENNReal.ofReal (Real.exp (min (energy mass l x - energy mass l (revLeap mass g n eps x)) 0)) *
            F x.1 (revLeap mass g n eps x).1 +
          ENNReal.ofReal (1 - Real.exp (min (energy mass l x - energy mass l (revLeap mass g n eps x)) 0)) *
            F x.1 x.1) ∂(volume.prod volume) := by
  set a : (ι → ℝ) × (ι → ℝ) → ℝ := fun x =>
    Real.exp (min (energy mass l x - energy mass l (revLeap mass g n eps x)) 0) with ha
  have mE := measurable_energy mass l hl
  have mR := (measurePreserving_revLeap mass g n eps hg).measurable
  have ma : Measurable a := Real.measurable_exp.comp ((mE.sub (mE.comp mR)).min measurable_const)
  obtain ⟨K, hK⟩ := momentum_law mass hm
  refine ⟨K, fun F hF => ?_⟩
  -- the draw of the uniform
  have e1 : ∀ q p, ∫⁻ u, F q (chainStep mass g l n eps q p u) ∂unif =
      ENNReal.ofReal (a (q, p)) * F q (revLeap mass g n eps (q, p)).1 +
        ENNReal.ofReal (1 - a (q, p)) * F q q := by
    intro q p
    have hle : a (q, p) ≤ 1 := Real.exp_le_one_iff.2 (min_le_right _ _)
    rw [← Meas.lintegral_uniform_select (Real.exp_pos _).le hle]
    refine lintegral_congr fun u => ?_
    have ea : a (q, p) = Real.exp (min (energy mass l (q, p) -
        energy mass l (leap1 mass g n eps (q, p))) 0) := by
      simp only [ha, energy_revLeap]
    by_cases hu : u < a (q, p)
    · rw [indicator_of_mem (by exact hu), indicator_of_notMem (by simpa using hu), add_zero, chainStep,
        if_pos (ea ▸ hu)]
      rfl
    · rw [indicator_of_notMem (by exact hu), indicator_of_mem (by simpa using hu), zero_add, chainStep,
        if_neg (ea ▸ hu)]
  have mz : Measurable fun (z : ι → ℝ) (i : ι) => z i * Real.sqrt (mass i) := by fun_prop
  set G : (ι → ℝ) × (ι → ℝ) → ℝ≥0∞ := fun x =>
    ENNReal.ofReal (a x) * F x.1 (revLeap mass g n eps x).1 + ENNReal.ofReal (1 - a x) * F x.1 x.1 with hG
  have mF1 : Measurable fun x : (ι → ℝ) × (ι → ℝ) => F x.1 (revLeap mass g n eps x).1 :=
    hF.comp (measurable_fst.prodMk (measurable_fst.comp mR))
  have mF2 : Measurable fun x : (ι → ℝ) × (ι → ℝ) => F x.1 x.1 :=
    hF.comp (measurable_fst.prodMk measurable_fst)
  have mG : Measurable G :=
    (ma.ennreal_ofReal.mul mF1).add ((measurable_const.sub ma).ennreal_ofReal.mul mF2)
  set k : (ι → ℝ) → ℝ≥0∞ := fun p =>
    K * ENNReal.ofReal (Real.exp (-(0.5 * ∑ i, p i * p i / mass i))) with hk
  have mk : Measurable k := by
    have : Measurable fun p : ι → ℝ => -(0.5 * ∑ i, p i * p i / mass i) :=
      (measurable_const.mul (Finset.measurable_sum _ fun i _ =>
        ((measurable_pi_apply i).mul (measurable_pi_apply i)).div_const _)).neg
    exact measurable_const.mul (Real.measurable_exp.comp this).ennreal_ofReal
  have mz2 : ∀ {H : (ι → ℝ) → ℝ≥0∞}, Measurable H →
      ∫⁻ z, H (fun i => z i * Real.sqrt (mass i)) ∂(Measure.pi fun _ : ι => gaussianReal 0 1) =
        ∫⁻ p, k p * H p := by
    intro H hH
    rw [← lintegral_map hH mz, hK, lintegral_withDensity_eq_lintegral_mul _ mk hH]
    rfl
  have e2 : ∀ q, ∫⁻ z, (∫⁻ u, F q (chainStep mass g l n eps q (fun i => z i * Real.sqrt (mass i)) u) ∂unif)
      ∂(Measure.pi fun _ : ι => gaussianReal 0 1) = ∫⁻ p, k p * G (q, p) := by
    intro q
    simp only [e1]
    have mGq : Measurable fun p => G (q, p) := mG.comp measurable_prodMk_left
    exact mz2 mGq
  have mexp : Measurable fun q => ENNReal.ofReal (Real.exp (l q)) :=
    (Real.measurable_exp.comp hl).ennreal_ofReal
  have mkG : Measurable fun x : (ι → ℝ) × (ι → ℝ) => k x.2 * G x := (mk.comp measurable_snd).mul mG
  rw [lintegral_congr e2, target, lintegral_withDensity_eq_lintegral_mul _ mexp mkG.lintegral_prod_right]
  simp only [Pi.mul_apply]
  have e3 : ∀ x : (ι → ℝ) × (ι → ℝ), ENNReal.ofReal (Real.exp (l x.1)) * k x.2 =
      K * ENNReal.ofReal (Real.exp (-energy mass l x)) := by
    intro x
    rw [hk]
    simp only
    rw [mul_left_comm, ← ENNReal.ofReal_mul (Real.exp_pos _).le, ← Real.exp_add, energy]
    congr 4
    ring
  have mD : Measurable fun x => ENNReal.ofReal (Real.exp (-energy mass l x)) :=
    (Real.measurable_exp.comp mE.neg).ennreal_ofReal
  exact lintegral_joint volume volume mk mD mG e3

/-- Detailed balance of one chain. -/
theorem chain_reversible (hg : Measurable g) (hl : Measurable l) (hm : ∀ i, 0 < mass i) :
    ((target l).prod ((Measure.pi fun _ : ι => gaussianReal 0 1).prod unif)).map
      (fun w => (w.1, chainStep mass g l n eps w.1 (fun i => w.2.1 i * Real.sqrt (mass i)) w.2.2)) =
    ((target l).prod ((Measure.pi fun _ : ι => gaussianReal 0 1).prod unif)).map
      (fun w => (chainStep mass g l n eps w.1 (fun i => w.2.1 i * Real.sqrt (mass i)) w.2.2, w.1)) := by
  have hT : Measurable fun w : (ι → ℝ) × (ι → ℝ) × ℝ =>
      chainStep mass g l n eps w.1 (fun i => w.2.1 i * Real.sqrt (mass i)) w.2.2 := by
    have mz : Measurable fun w : (ι → ℝ) × (ι → ℝ) × ℝ =>
        (w.1, (fun i => w.2.1 i * Real.sqrt (mass i) : ι → ℝ), w.2.2) := by fun_prop
    exact (measurable_chainStep mass g l n eps hg hl).comp mz
  obtain ⟨K, hK⟩ := chain_pair_lintegral mass g l n eps hg hl hm
  have key : ∀ F : (ι → ℝ) → (ι → ℝ) → ℝ≥0∞, (Measurable fun p : (ι → ℝ) × (ι → ℝ) => F p.1 p.2) →
      ∫⁻ w, F w.1 (chainStep mass g l n eps w.1 (fun i => w.2.1 i * Real.sqrt (mass i)) w.2.2)
        ∂((target l).prod ((Measure.pi fun _ : ι => gaussianReal 0 1).prod unif)) =
      K * ∫⁻ x, ENNReal.ofReal (Real.exp (-energy mass l x)) *
        (ENNReal.ofReal (Real.exp (min (energy mass l x - energy mass l (revLeap mass g n eps x)) 0)) *
            F x.1 (revLeap mass g n eps x).1 +
          ENNReal.ofReal (1 - Real.exp (min (energy mass l x - energy mass l (revLeap mass g n eps x)) 0)) *
            F x.1 x.1) ∂(volume.prod volume) := by
    intro F hF
    rw [← hK F hF]
    have mc : Measurable fun w : (ι → ℝ) × (ι → ℝ) × ℝ =>
        F w.1 (chainStep mass g l n eps w.1 (fun i => w.2.1 i * Real.sqrt (mass i)) w.2.2) :=
      hF.comp (measurable_fst.prodMk hT)
    rw [lintegral_prod _ mc.aemeasurable]
    refine lintegral_congr fun q => ?_
    have mq : Measurable fun w : (ι → ℝ) × ℝ =>
        F q (chainStep mass g l n eps q (fun i => w.1 i * Real.sqrt (mass i)) w.2) :=
      mc.comp measurable_prodMk_left
    exact lintegral_prod _ mq.aemeasurable
  ext A hA
  have hF : Measurable (A.indicator (1 : (ι → ℝ) × (ι → ℝ) → ℝ≥0∞)) := measurable_const.indicator hA
  rw [← lintegral_indicator_one hA, ← lintegral_indicator_one hA, lintegral_map hF (measurable_fst.prodMk hT),
    lintegral_map hF (hT.prodMk measurable_fst)]
  have h1 := key (fun x y => A.indicator 1 (x, y)) hF
  have h2 := key (fun x y => A.indicator 1 (y, x)) (hF.comp measurable_swap)
  refine h1.trans (Eq.trans ?_ h2.symm)
  congr 1
  have mF : Measurable fun p : ((ι → ℝ) × (ι → ℝ)) × ((ι → ℝ) × (ι → ℝ)) =>
      A.indicator (1 : (ι → ℝ) × (ι → ℝ) → ℝ≥0∞) (p.1.1, p.2.1) :=
    hF.comp ((measurable_fst.comp measurable_fst).prodMk (measurable_fst.comp measurable_snd))
  exact Meas.metropolis_pair (measurePreserving_revLeap mass g n eps hg) (revLeap_revLeap mass g n eps)
    (measurable_energy mass l hl) (F := fun x y => A.indicator 1 (x.1, y.1)) mF

end ZhuSuan.Hmc

import Mathlib.Analysis.Asymptotics.SpecificAsymptotics
import Mathlib.Analysis.SpecificLimits.Normed
import Mathlib.MeasureTheory.Function.ConvergenceInMeasure
import Mathlib.MeasureTheory.Constructions.Pi
import Mathlib.MeasureTheory.Integral.Prod
import Verif.Lemmas.MarkovConv
import Verif.Lemmas.TotalVar
import Verif.Lemmas.HmcReversible

/-!
General facts on the path of a Markov chain and on averages along it. Nothing here speaks of the code.
-/

set_option autoImplicit false

open MeasureTheory Filter Topology
open scoped ENNReal RealInnerProductSpace

namespace ZhuSuan.MarkovConv

open Meas

variable {X N : Type} [MeasurableSpace X] [MeasurableSpace N] {T : X → N → X} {ν : Measure N}
  [IsProbabilityMeasure ν]

/-- The state after `k` steps. -/
abbrev pos (T : X → N → X) (q : X) (k : ℕ) (w : Fin k → N) : X := iter (fun _ => T) q k w

/-- The draws of `n + 1` steps: those of the first `n`, and the last one. -/
theorem split_last (μ : Measure X) [SigmaFinite μ] (n : ℕ) :
    MeasurePreserving (fun p : X × (Fin (n + 1) → N) =>
        (((p.1, fun i : Fin n => p.2 i.castSucc) : X × (Fin n → N)), p.2 (Fin.last n)))
        (μ.prod (Measure.pi fun _ : Fin (n + 1) => ν)) ((μ.prod (Measure.pi fun _ : Fin n => ν)).prod ν) := by
  have h1 := (measurePreserving_piFinSuccAbove (fun _ : Fin (n + 1) => ν) (Fin.last n))
  have a1 := (MeasurePreserving.id μ).prod h1
  have a2 := (MeasurePreserving.id μ).prod
    (Measure.measurePreserving_swap (μ := ν) (ν := Measure.pi fun _ : Fin n => ν))
  have a3 := (measurePreserving_prodAssoc μ (Measure.pi fun _ : Fin n => ν) ν).symm
  have a4 := a3.comp (a2.comp a1)
  convert a4 using 2
  rename_i p
  simp [MeasurableEquiv.piFinSuccAbove, MeasurableEquiv.prodAssoc, Fin.insertNthEquiv]
  rfl

/-- The draws of `j + m` steps: those of the first `j`, and those of the last `m`. -/
theorem split_add (j m : ℕ) :
    MeasurePreserving (fun w : Fin (j + m) → N => ((fun i => w (Fin.castAdd m i), fun i => w (Fin.natAdd j i)) :
      (Fin j → N) × (Fin m → N)))
      (Measure.pi fun _ => ν) ((Measure.pi fun _ => ν).prod (Measure.pi fun _ => ν)) := by
  have h1 := (measurePreserving_piCongrLeft (fun _ : Fin (j + m) => ν) finSumFinEquiv).symm
  have h2 := measurePreserving_sumPiEquivProdPi (fun _ : Fin j ⊕ Fin m => ν)
  have h3 := h2.comp h1
  have e : (fun w : Fin (j + m) → N => ((fun i => w (Fin.castAdd m i), fun i => w (Fin.natAdd j i)) :
      (Fin j → N) × (Fin m → N))) = (MeasurableEquiv.sumPiEquivProdPi fun _ : Fin j ⊕ Fin m => N) ∘
      (MeasurableEquiv.piCongrLeft (fun _ : Fin (j + m) => N) finSumFinEquiv).symm := by
    funext w
    refine Prod.ext (funext fun i => ?_) (funext fun i => ?_)
    · rfl
    · rfl
  rw [e]
  exact h3

variable (hT : Measurable fun w : X × N => T w.1 w.2)

include hT in
theorem measurable_pos (k : ℕ) : Measurable fun p : X × (Fin k → N) => pos T p.1 k p.2 :=
  measurable_iter (fun _ => hT) k

omit [MeasurableSpace X] [MeasurableSpace N] in
theorem pos_add (q : X) (j m : ℕ) (w : Fin (j + m) → N) :
    pos T q (j + m) w = pos T (pos T q j fun i => w (Fin.castAdd m i)) m fun i => w (Fin.natAdd j i) := by
  induction m with
  | zero => rfl
  | succ m ih =>
    have h := ih fun i => w i.castSucc
    show T (pos T q (j + m) fun i => w i.castSucc) (w (Fin.last (j + m))) = _
    rw [h]
    rfl

include hT in
/-- The law of the state after `n` steps. -/
theorem pos_law (μ : Measure X) [IsFiniteMeasure μ] (n : ℕ) :
    (μ.prod (Measure.pi fun _ : Fin n => ν)).map (fun p => pos T p.1 n p.2) = (step T ν)^[n] μ := by
  induction n with
  | zero =>
    show (μ.prod (Measure.pi fun _ : Fin 0 => ν)).map Prod.fst = μ
    rw [← Measure.fst, Measure.fst_prod]
  | succ n ih =>
    have h2 := split_last (ν := ν) μ n
    have mi := measurable_pos hT n
    have e : (fun p : X × (Fin (n + 1) → N) => pos T p.1 (n + 1) p.2) =
        (fun p : X × N => T p.1 p.2) ∘ (Prod.map (fun p : X × (Fin n → N) => pos T p.1 n p.2) id) ∘
        (fun p : X × (Fin (n + 1) → N) =>
        (((p.1, fun i : Fin n => p.2 i.castSucc) : X × (Fin n → N)), p.2 (Fin.last n))) := rfl
    have mp : Measurable (Prod.map (fun p : X × (Fin n → N) => pos T p.1 n p.2) (id : N → N)) :=
      mi.prodMap measurable_id
    rw [e, ← Measure.map_map hT (mp.comp h2.measurable), ← Measure.map_map mp h2.measurable, h2.map_eq,
      ← Measure.map_prod_map _ _ mi measurable_id, ih, Measure.map_id, Function.iterate_succ_apply']
    rfl

include hT in
/-- The same from a given start. -/
theorem pos_law_point (q : X) (n : ℕ) :
    (Measure.pi fun _ : Fin n => ν).map (fun w => pos T q n w) = (step T ν)^[n] (Measure.dirac q) := by
  rw [← pos_law hT, Measure.dirac_prod, Measure.map_map (measurable_pos hT n) measurable_prodMk_left]
  rfl

/-- The sum of `f` along the path, the start not counted. -/
noncomputable def pathSum (T : X → N → X) (f : X → ℝ) (q : X) : (k : ℕ) → (Fin k → N) → ℝ
  | 0, _ => 0
  | k + 1, w => pathSum T f q k (fun i => w i.castSucc) + f (pos T q (k + 1) w)

omit [MeasurableSpace X] [MeasurableSpace N] in
theorem pathSum_add (f : X → ℝ) (q : X) (j m : ℕ) (w : Fin (j + m) → N) :
    pathSum T f q (j + m) w = pathSum T f q j (fun i => w (Fin.castAdd m i)) +
      pathSum T f (pos T q j fun i => w (Fin.castAdd m i)) m fun i => w (Fin.natAdd j i) := by
  induction m with
  | zero => simp [pathSum]
  | succ m ih =>
    have h := ih fun i => w i.castSucc
    show pathSum T f q (j + m) (fun i => w i.castSucc) + f (pos T q (j + (m + 1)) w) = _
    rw [h, pos_add q j (m + 1) w, pathSum, add_assoc]
    rfl

omit [MeasurableSpace X] [MeasurableSpace N] in
theorem pathSum_eq (f : X → ℝ) (q : X) (n : ℕ) (w : Fin n → N) :
    pathSum T f q n w = ∑ k : Fin n, f (pos T q (k + 1) fun i => w (Fin.castLE k.2 i)) := by
  induction n with
  | zero => rfl
  | succ n ih => rw [pathSum, ih, Fin.sum_univ_castSucc]; rfl

include hT in
theorem measurable_pathSum {f : X → ℝ} (hf : Measurable f) (k : ℕ) :
    Measurable fun p : X × (Fin k → N) => pathSum T f p.1 k p.2 := by
  induction k with
  | zero => exact measurable_const
  | succ k ih =>
    have h1 : Measurable fun p : X × (Fin (k + 1) → N) => (p.1, fun i : Fin k => p.2 i.castSucc) :=
      measurable_fst.prodMk (measurable_pi_lambda _ fun i => (measurable_pi_apply _).comp measurable_snd)
    exact (ih.comp h1).add (hf.comp (measurable_pos hT (k + 1)))

omit [MeasurableSpace X] [MeasurableSpace N] in
theorem pathSum_le {f : X → ℝ} {B : ℝ} (hB : ∀ x, |f x| ≤ B) (q : X) (k : ℕ) (w : Fin k → N) :
    |pathSum T f q k w| ≤ k * B := by
  induction k with
  | zero => simp [pathSum]
  | succ k ih =>
    rw [pathSum]
    refine (abs_add_le _ _).trans ?_
    have := ih fun i => w i.castSucc
    have h2 := hB (pos T q (k + 1) w)
    push_cast
    linarith

/-! ## The mean of a function one step later -/

/-- The mean of `G` one step later. -/
noncomputable def mean (T : X → N → X) (ν : Measure N) (G : X → ℝ) (x : X) : ℝ := ∫ w, G (T x w) ∂ν

include hT in
theorem measurable_mean {G : X → ℝ} (hG : Measurable G) : Measurable (mean T ν G) := by
  have h : StronglyMeasurable fun p : X × N => G (T p.1 p.2) := (hG.comp hT).stronglyMeasurable
  exact h.integral_prod_right.measurable

omit [MeasurableSpace X] in
theorem mean_le {G : X → ℝ} {B : ℝ} (hB : ∀ x, |G x| ≤ B) (x : X) : |mean T ν G x| ≤ B := by
  have h := norm_integral_le_of_norm_le_const (μ := ν) (f := fun w => G (T x w)) (C := B)
    (Eventually.of_forall fun w => hB _)
  simpa [mean] using h

variable {π : Measure X} [IsProbabilityMeasure π]

/-- A bounded measurable function is integrable. -/
theorem integrable_bdd {Y : Type*} [MeasurableSpace Y] (m : Measure Y) [IsFiniteMeasure m] {G : Y → ℝ}
    (hG : Measurable G) {B : ℝ} (hB : ∀ x, |G x| ≤ B) : Integrable G m :=
  Integrable.of_bound hG.aestronglyMeasurable B (Eventually.of_forall hB)

include hT in
/-- Condition on all but the last draw. -/
theorem integral_last (n : ℕ) {H : X × (Fin n → N) → ℝ} (hH : Measurable H) {B : ℝ} (hHB : ∀ x, |H x| ≤ B)
    {G : X → ℝ} (hG : Measurable G) {B' : ℝ} (hGB : ∀ x, |G x| ≤ B') :
    ∫ p, H (p.1, fun i : Fin n => p.2 i.castSucc) * G (pos T p.1 (n + 1) p.2)
      ∂(π.prod (Measure.pi fun _ : Fin (n + 1) => ν)) =
    ∫ p, H p * mean T ν G (pos T p.1 n p.2) ∂(π.prod (Measure.pi fun _ : Fin n => ν)) := by
  have h2 := split_last (ν := ν) π n
  set Φ : (X × (Fin n → N)) × N → ℝ := fun r => H r.1 * G (T (pos T r.1.1 n r.1.2) r.2) with hΦ
  have mΦ : Measurable Φ := (hH.comp measurable_fst).mul
    (hG.comp (hT.comp (((measurable_pos hT n).comp measurable_fst).prodMk measurable_snd)))
  have bΦ : ∀ r, |Φ r| ≤ |B| * |B'| := fun r => by
    rw [hΦ, abs_mul]
    exact mul_le_mul ((hHB _).trans (le_abs_self _)) ((hGB _).trans (le_abs_self _)) (abs_nonneg _) (abs_nonneg _)
  have e1 := integral_map (μ := π.prod (Measure.pi fun _ : Fin (n + 1) => ν)) h2.measurable.aemeasurable
    mΦ.aestronglyMeasurable
  rw [h2.map_eq] at e1
  have e2 : ∫ p, H (p.1, fun i : Fin n => p.2 i.castSucc) * G (pos T p.1 (n + 1) p.2)
      ∂(π.prod (Measure.pi fun _ : Fin (n + 1) => ν)) = ∫ r, Φ r ∂((π.prod (Measure.pi fun _ : Fin n => ν)).prod ν) :=
    e1.symm
  rw [e2, integral_prod _ (integrable_bdd _ mΦ bΦ)]
  refine integral_congr_ae (Eventually.of_forall fun p => ?_)
  simp only [hΦ]
  rw [integral_const_mul]
  rfl

/-! ## Averages in the stationary chain -/

section Stationary

variable (h : Balanced T ν π) {F : X → ℝ} (hF : Measurable F) {B : ℝ} (hB : ∀ x, |F x| ≤ B)

omit [MeasurableSpace X] in
include hB in
theorem mean_iter_le (m : ℕ) (x : X) : |(mean T ν)^[m] F x| ≤ B := by
  induction m generalizing x with
  | zero => exact hB x
  | succ m ih => rw [Function.iterate_succ_apply']; exact mean_le ih x

include hT hF in
theorem measurable_mean_iter (m : ℕ) : Measurable ((mean T ν)^[m] F) := by
  induction m with
  | zero => exact hF
  | succ m ih => rw [Function.iterate_succ_apply']; exact measurable_mean hT ih

/-- The correlation between the values of `F` at two times `m` apart. -/
noncomputable def corr (T : X → N → X) (ν : Measure N) (π : Measure X) (F : X → ℝ) (m : ℕ) : ℝ :=
  ∫ x, F x * (mean T ν)^[m] F x ∂π

include hF hB in
theorem memLp_bdd : MemLp F 2 π := MemLp.of_bound hF.aestronglyMeasurable B (Eventually.of_forall hB)

include hT h in
/-- The operator is the mean one step later. -/
theorem opK_toLp {G : X → ℝ} (hG : Measurable G) {B : ℝ} (hGB : ∀ x, |G x| ≤ B) (h1 : MemLp G 2 π)
    (h2 : MemLp (mean T ν G) 2 π) : opK hT h (h1.toLp G) = h2.toLp _ := by
  refine ext_inner_right ℝ fun k => ?_
  rw [inner_opK, inner_UV, L2.inner_def]
  have a1 : ∀ᵐ w ∂(π.prod ν), h1.toLp G (T w.1 w.2) = G (T w.1 w.2) :=
    (h.mp hT).quasiMeasurePreserving.ae h1.coeFn_toLp
  have mk := (Lp.stronglyMeasurable k)
  have mG : Measurable fun w : X × N => G (T w.1 w.2) := hG.comp hT
  have e1 : ∫ w, h1.toLp G (T w.1 w.2) * k w.1 ∂(π.prod ν) = ∫ w, G (T w.1 w.2) * k w.1 ∂(π.prod ν) :=
    integral_congr_ae (a1.mono fun w hw => by simp only [hw])
  have ik : Integrable (fun w : X × N => k w.1) (π.prod ν) := (integrable_Lp2 k).comp_fst ν
  have i1 : Integrable (fun w : X × N => G (T w.1 w.2) * k w.1) (π.prod ν) :=
    ik.bdd_mul mG.aestronglyMeasurable (c := B) (Eventually.of_forall fun w => hGB _)
  rw [e1, integral_prod _ i1]
  refine integral_congr_ae ?_
  filter_upwards [h2.coeFn_toLp] with x hx
  rw [hx, real_inner_comm]
  simp only [mean]
  rw [integral_mul_const]
  rfl

include hT h hF hB in
theorem opK_iter_toLp (m : ℕ) (h1 : MemLp F 2 π) (h2 : MemLp ((mean T ν)^[m] F) 2 π) :
    (opK hT h)^[m] (h1.toLp F) = h2.toLp _ := by
  induction m with
  | zero => rfl
  | succ m ih =>
    have h3 : MemLp ((mean T ν)^[m] F) 2 π := memLp_bdd (measurable_mean_iter hT hF m) (mean_iter_le hB m)
    have h4 : MemLp (mean T ν ((mean T ν)^[m] F)) 2 π := by
      rw [← Function.iterate_succ_apply' (mean T ν)]; exact h2
    rw [Function.iterate_succ_apply', ih h3, opK_toLp hT h (measurable_mean_iter hT hF m) (mean_iter_le hB m) h3 h4]
    congr 1
    rw [Function.iterate_succ_apply']

include hT h hF hB in
theorem corr_tendsto (hr : Reaches T ν π) (h0 : ∫ x, F x ∂π = 0) : Tendsto (corr T ν π F) atTop (𝓝 0) := by
  have h1 : MemLp F 2 π := memLp_bdd hF hB
  have h2 := tendsto_opK hT h hr (h1.toLp F)
  rw [integral_congr_ae h1.coeFn_toLp, h0, zero_smul] at h2
  have h3 : Tendsto (fun m => ⟪h1.toLp F, (opK hT h)^[m] (h1.toLp F)⟫) atTop (𝓝 ⟪h1.toLp F, 0⟫) :=
    tendsto_const_nhds.inner h2
  rw [inner_zero_right] at h3
  refine h3.congr fun m => ?_
  have h4 : MemLp ((mean T ν)^[m] F) 2 π := memLp_bdd (measurable_mean_iter hT hF m) (mean_iter_le hB m)
  rw [opK_iter_toLp hT h hF hB m h1 h4, L2.inner_def]
  refine integral_congr_ae ?_
  filter_upwards [h1.coeFn_toLp, h4.coeFn_toLp] with x a b
  rw [a, b, real_inner_comm]
  rfl

include hT h in
/-- In the stationary chain the state has the law `π` at all times. -/
theorem pos_stationary (n : ℕ) :
    (π.prod (Measure.pi fun _ : Fin n => ν)).map (fun p => pos T p.1 n p.2) = π := by
  rw [pos_law hT]
  induction n with
  | zero => rfl
  | succ n ih => rw [Function.iterate_succ_apply', ih, h.invariant hT]

include hT h in
theorem integral_pos_stationary (n : ℕ) {G : X → ℝ} (hG : Measurable G) :
    ∫ p, G (pos T p.1 n p.2) ∂(π.prod (Measure.pi fun _ : Fin n => ν)) = ∫ x, G x ∂π := by
  conv_rhs => rw [← pos_stationary hT h n]
  rw [integral_map (measurable_pos hT n).aemeasurable hG.aestronglyMeasurable]

include hT h hF hB in
theorem cross (n j : ℕ) :
    ∫ p, pathSum T F p.1 n p.2 * (mean T ν)^[j] F (pos T p.1 n p.2) ∂(π.prod (Measure.pi fun _ : Fin n => ν)) =
      ∑ m ∈ Finset.range n, corr T ν π F (j + m) := by
  induction n generalizing j with
  | zero => simp [pathSum]
  | succ n ih =>
    have mG := measurable_mean_iter (ν := ν) hT hF j
    have bG := mean_iter_le (T := T) (ν := ν) hB j
    have mS := measurable_pathSum hT hF n
    have bS : ∀ p : X × (Fin n → N), |pathSum T F p.1 n p.2| ≤ n * B := fun p => pathSum_le hB _ _ _
    have split : Measurable fun p : X × (Fin (n + 1) → N) => (p.1, fun i : Fin n => p.2 i.castSucc) :=
      measurable_fst.prodMk (measurable_pi_lambda _ fun i => (measurable_pi_apply _).comp measurable_snd)
    have mp := measurable_pos hT (n + 1)
    have i1 : Integrable (fun p : X × (Fin (n + 1) → N) => pathSum T F p.1 n (fun i => p.2 i.castSucc) *
        (mean T ν)^[j] F (pos T p.1 (n + 1) p.2)) (π.prod (Measure.pi fun _ : Fin (n + 1) => ν)) :=
      integrable_bdd _ ((mS.comp split).mul (mG.comp mp)) (B := |n * B| * |B|) fun p => by
        rw [abs_mul]
        exact mul_le_mul ((pathSum_le hB _ _ _).trans (le_abs_self _)) ((bG _).trans (le_abs_self _)) (abs_nonneg _)
          (abs_nonneg _)
    have i2 : Integrable (fun p : X × (Fin (n + 1) → N) => F (pos T p.1 (n + 1) p.2) *
        (mean T ν)^[j] F (pos T p.1 (n + 1) p.2)) (π.prod (Measure.pi fun _ : Fin (n + 1) => ν)) :=
      integrable_bdd _ ((hF.comp mp).mul (mG.comp mp)) (B := |B| * |B|) fun p => by
        rw [abs_mul]
        exact mul_le_mul ((hB _).trans (le_abs_self _)) ((bG _).trans (le_abs_self _)) (abs_nonneg _)
          (abs_nonneg _)
    simp only [pathSum, add_mul]
    rw [integral_add i1 i2, Finset.sum_range_succ']
    congr 1
    · have e := integral_last (π := π) (ν := ν) hT n mS bS mG bG
      simp only [] at e
      rw [e]
      have e2 := ih (j + 1)
      rw [Function.iterate_succ_apply'] at e2
      rw [e2]
      exact Finset.sum_congr rfl fun m _ => by rw [show j + 1 + m = j + (m + 1) by ring]
    · have e := integral_pos_stationary hT h (n + 1) (hF.mul mG)
      exact e

include hT h hF hB in
theorem second_moment (n : ℕ) :
    ∫ p, pathSum T F p.1 n p.2 ^ 2 ∂(π.prod (Measure.pi fun _ : Fin n => ν)) ≤
      n * (2 * ∑ m ∈ Finset.range (n + 1), |corr T ν π F m|) := by
  induction n with
  | zero => simp [pathSum]
  | succ n ih =>
    have mS := measurable_pathSum hT hF n
    have bS : ∀ p : X × (Fin n → N), |pathSum T F p.1 n p.2| ≤ n * B := fun p => pathSum_le hB _ _ _
    have split : Measurable fun p : X × (Fin (n + 1) → N) => (p.1, fun i : Fin n => p.2 i.castSucc) :=
      measurable_fst.prodMk (measurable_pi_lambda _ fun i => (measurable_pi_apply _).comp measurable_snd)
    have mp := measurable_pos hT (n + 1)
    set P := π.prod (Measure.pi fun _ : Fin (n + 1) => ν) with hP
    have hb2 : ∀ {a b c d : ℝ}, |a| ≤ c → |b| ≤ d → |a * b| ≤ |c| * |d| := fun h1 h2 => by
      rw [abs_mul]
      exact mul_le_mul (h1.trans (le_abs_self _)) (h2.trans (le_abs_self _)) (abs_nonneg _) (abs_nonneg _)
    have i0 : Integrable (fun p : X × (Fin (n + 1) → N) => pathSum T F p.1 n (fun i => p.2 i.castSucc) *
        pathSum T F p.1 n (fun i => p.2 i.castSucc)) P :=
      integrable_bdd _ ((mS.comp split).mul (mS.comp split)) fun p =>
        hb2 (pathSum_le hB _ _ _) (pathSum_le hB _ _ _)
    have i1 : Integrable (fun p : X × (Fin (n + 1) → N) => pathSum T F p.1 n (fun i => p.2 i.castSucc) *
        F (pos T p.1 (n + 1) p.2)) P :=
      integrable_bdd _ ((mS.comp split).mul (hF.comp mp)) fun p => hb2 (pathSum_le hB _ _ _) (hB _)
    have i2 : Integrable (fun p : X × (Fin (n + 1) → N) => F (pos T p.1 (n + 1) p.2) *
        F (pos T p.1 (n + 1) p.2)) P :=
      integrable_bdd _ ((hF.comp mp).mul (hF.comp mp)) fun p => hb2 (hB _) (hB _)
    have e : ∀ p : X × (Fin (n + 1) → N), pathSum T F p.1 (n + 1) p.2 ^ 2 =
        (pathSum T F p.1 n (fun i => p.2 i.castSucc) * pathSum T F p.1 n (fun i => p.2 i.castSucc) +
          2 * (pathSum T F p.1 n (fun i => p.2 i.castSucc) * F (pos T p.1 (n + 1) p.2))) +
          F (pos T p.1 (n + 1) p.2) * F (pos T p.1 (n + 1) p.2) := fun p => by rw [pathSum]; ring
    have i3 : Integrable (fun p : X × (Fin (n + 1) → N) => pathSum T F p.1 n (fun i => p.2 i.castSucc) *
        pathSum T F p.1 n (fun i => p.2 i.castSucc) +
        2 * (pathSum T F p.1 n (fun i => p.2 i.castSucc) * F (pos T p.1 (n + 1) p.2))) P := i0.add (i1.const_mul 2)
    rw [integral_congr_ae (Eventually.of_forall e), integral_add i3 i2, integral_add i0 (i1.const_mul 2),
      integral_const_mul]
    have t0 : ∫ p : X × (Fin (n + 1) → N), pathSum T F p.1 n (fun i => p.2 i.castSucc) *
        pathSum T F p.1 n (fun i => p.2 i.castSucc) ∂P =
        ∫ p, pathSum T F p.1 n p.2 ^ 2 ∂(π.prod (Measure.pi fun _ : Fin n => ν)) := by
      have e1 := integral_last (π := π) (ν := ν) hT n (mS.mul mS) (B := |n * B| * |n * B|)
        (fun p => hb2 (bS p) (bS p)) (G := fun _ => 1) measurable_const (B' := 1) (fun _ => by simp)
      simp only [mul_one, mean, integral_const, probReal_univ, smul_eq_mul] at e1
      refine e1.trans (integral_congr_ae (Eventually.of_forall fun p => ?_))
      simp only [Pi.mul_apply]
      ring
    have t1 : ∫ p : X × (Fin (n + 1) → N), pathSum T F p.1 n (fun i => p.2 i.castSucc) *
        F (pos T p.1 (n + 1) p.2) ∂P = ∑ m ∈ Finset.range n, corr T ν π F (1 + m) :=
      (integral_last (π := π) (ν := ν) hT n mS bS hF hB).trans (cross hT h hF hB n 1)
    have t2 : ∫ p : X × (Fin (n + 1) → N), F (pos T p.1 (n + 1) p.2) * F (pos T p.1 (n + 1) p.2) ∂P =
        corr T ν π F 0 := integral_pos_stationary hT h (n + 1) (hF.mul hF)
    rw [t0, t1, t2]
    have s1 : ∑ m ∈ Finset.range n, corr T ν π F (1 + m) ≤ ∑ m ∈ Finset.range n, |corr T ν π F (m + 1)| :=
      Finset.sum_le_sum fun m _ => by rw [add_comm 1 m]; exact le_abs_self _
    have s2 : ∑ m ∈ Finset.range (n + 1), |corr T ν π F m| =
        ∑ m ∈ Finset.range n, |corr T ν π F (m + 1)| + |corr T ν π F 0| := Finset.sum_range_succ' _ _
    have s3 : ∑ m ∈ Finset.range (n + 1 + 1), |corr T ν π F m| =
        ∑ m ∈ Finset.range (n + 1), |corr T ν π F m| + |corr T ν π F (n + 1)| := Finset.sum_range_succ _ _
    have s4 : corr T ν π F 0 ≤ |corr T ν π F 0| := le_abs_self _
    have s5 : 0 ≤ |corr T ν π F (n + 1)| := abs_nonneg _
    have s6 : 0 ≤ |corr T ν π F 0| := abs_nonneg _
    have s7 : (0 : ℝ) ≤ n := Nat.cast_nonneg n
    push_cast
    rw [s3]
    nlinarith [mul_nonneg s7 s5]

include hT h hF hB in
/-- Averages of a bounded function with mean zero. -/
theorem avg_bdd (hr : Reaches T ν π) (h0 : ∫ x, F x ∂π = 0) :
    ∀ η > 0, ∃ n0, ∀ n ≥ n0,
      ∫ p, |pathSum T F p.1 n p.2| ∂(π.prod (Measure.pi fun _ : Fin n => ν)) ≤ n * η := by
  intro η hη
  have h1 : Tendsto (fun m => |corr T ν π F m|) atTop (𝓝 0) := by
    have := (corr_tendsto hT h hF hB hr h0).abs
    rwa [abs_zero] at this
  have h2 := (Filter.Tendsto.cesaro h1).comp (tendsto_add_atTop_nat 1)
  have h3 := h2.eventually (gt_mem_nhds (show (0 : ℝ) < η ^ 2 / 4 by positivity))
  obtain ⟨n0, hn0⟩ := eventually_atTop.1 h3
  refine ⟨n0 + 1, fun n hn => ?_⟩
  have h4 := hn0 n (by omega)
  simp only [Function.comp_apply] at h4
  have hnpos : (1 : ℝ) ≤ n := by exact_mod_cast (by omega : 1 ≤ n)
  have h5 : ∑ m ∈ Finset.range (n + 1), |corr T ν π F m| ≤ ((n : ℝ) + 1) * (η ^ 2 / 4) := by
    have : (0 : ℝ) < ((n + 1 : ℕ) : ℝ) := by positivity
    rw [inv_mul_lt_iff₀ this] at h4
    push_cast at h4
    exact h4.le
  have h6 := second_moment hT h hF hB n
  have mS := measurable_pathSum hT hF n
  have bS : ∀ p : X × (Fin n → N), |pathSum T F p.1 n p.2| ≤ n * B := fun p => pathSum_le hB _ _ _
  set P := π.prod (Measure.pi fun _ : Fin n => ν) with hP
  have i1 : Integrable (fun p : X × (Fin n → N) => |pathSum T F p.1 n p.2|) P := (integrable_bdd P mS bS).abs
  have i2 : Integrable (fun p : X × (Fin n → N) => pathSum T F p.1 n p.2 ^ 2) P :=
    integrable_bdd P (mS.pow_const 2) (B := (n * B) ^ 2) fun p => by
      rw [abs_pow]
      exact pow_le_pow_left₀ (abs_nonneg _) (bS p) 2
  have h7 : ∫ p, |pathSum T F p.1 n p.2| ∂P ≤
      ∫ p, ((1 / (2 * (n * η))) * pathSum T F p.1 n p.2 ^ 2 + n * η / 2) ∂P := by
    refine integral_mono i1 ((i2.const_mul _).add (integrable_const _)) fun p => ?_
    have hpos : 0 < (n : ℝ) * η := by positivity
    have := sq_nonneg (|pathSum T F p.1 n p.2| - n * η)
    have h8 := sq_abs (pathSum T F p.1 n p.2)
    show |pathSum T F p.1 n p.2| ≤ (1 / (2 * (n * η))) * pathSum T F p.1 n p.2 ^ 2 + n * η / 2
    rw [one_div_mul_eq_div, div_add' _ _ _ (by positivity), le_div_iff₀ (by positivity)]
    nlinarith
  rw [integral_add (i2.const_mul _) (integrable_const _), integral_const_mul, integral_const] at h7
  simp only [probReal_univ, one_smul] at h7
  have h9 : ∫ p, pathSum T F p.1 n p.2 ^ 2 ∂P ≤ (n * η) ^ 2 := by
    refine h6.trans ?_
    calc (n : ℝ) * (2 * ∑ m ∈ Finset.range (n + 1), |corr T ν π F m|)
        ≤ n * (2 * (((n : ℝ) + 1) * (η ^ 2 / 4))) := by gcongr
      _ ≤ _ := by nlinarith [sq_nonneg η, mul_nonneg (sub_nonneg.2 hnpos) (sq_nonneg η), sq_nonneg (n * η)]
  have h10 : (1 / (2 * (n * η))) * ∫ p, pathSum T F p.1 n p.2 ^ 2 ∂P ≤ (1 / (2 * (n * η))) * (n * η) ^ 2 :=
    mul_le_mul_of_nonneg_left h9 (by positivity)
  have h11 : (1 / (2 * (n * η))) * (n * η) ^ 2 = n * η / 2 := by
    have : (n : ℝ) * η ≠ 0 := by positivity
    field_simp
  linarith

end Stationary

omit [MeasurableSpace X] [MeasurableSpace N] in
theorem pathSum_split (f a b : X → ℝ) (c : ℝ) (hf : ∀ x, f x = a x + b x + c) (q : X) (n : ℕ) (w : Fin n → N) :
    pathSum T f q n w = pathSum T a q n w + pathSum T b q n w + n * c := by
  induction n with
  | zero => simp [pathSum]
  | succ n ih =>
    rw [pathSum, pathSum, pathSum, ih, hf]
    push_cast
    ring

include hT in
theorem lintegral_pathSum (h : Balanced T ν π) {r : X → ℝ} (hr : Measurable r) (n : ℕ) :
    ∫⁻ p, ‖pathSum T r p.1 n p.2‖ₑ ∂(π.prod (Measure.pi fun _ : Fin n => ν)) ≤ n * ∫⁻ x, ‖r x‖ₑ ∂π := by
  induction n with
  | zero => simp [pathSum]
  | succ n ih =>
    have h2 := split_last (ν := ν) π n
    have h3 := (measurePreserving_fst (μ := π.prod (Measure.pi fun _ : Fin n => ν)) (ν := ν)).comp h2
    have mS := measurable_pathSum hT hr n
    have mp := measurable_pos hT (n + 1)
    have e1 := h3.lintegral_comp mS.enorm
    have e2 : ∫⁻ p, ‖r (pos T p.1 (n + 1) p.2)‖ₑ ∂(π.prod (Measure.pi fun _ : Fin (n + 1) => ν)) =
        ∫⁻ x, ‖r x‖ₑ ∂π := by
      conv_rhs => rw [← pos_stationary hT h (n + 1)]
      rw [lintegral_map hr.enorm mp]
    calc ∫⁻ p, ‖pathSum T r p.1 (n + 1) p.2‖ₑ ∂(π.prod (Measure.pi fun _ : Fin (n + 1) => ν))
        ≤ ∫⁻ p, (‖pathSum T r p.1 n (fun i => p.2 i.castSucc)‖ₑ + ‖r (pos T p.1 (n + 1) p.2)‖ₑ)
            ∂(π.prod (Measure.pi fun _ : Fin (n + 1) => ν)) := lintegral_mono fun p => enorm_add_le _ _
      _ = ∫⁻ p, ‖pathSum T r p.1 n p.2‖ₑ ∂(π.prod (Measure.pi fun _ : Fin n => ν)) + ∫⁻ x, ‖r x‖ₑ ∂π := by
          have me : Measurable fun p : X × (Fin (n + 1) → N) => ‖r (pos T p.1 (n + 1) p.2)‖ₑ := (hr.comp mp).enorm
          rw [lintegral_add_right _ me, e2]
          congr 1
      _ ≤ _ := by
          push_cast
          rw [add_mul, one_mul]
          exact add_le_add ih le_rfl

include hT in
/-- Averages of an integrable function in the stationary chain. -/
theorem avg_stationary (h : Balanced T ν π) (hr : Reaches T ν π) {f : X → ℝ} (hf : Measurable f)
    (hi : Integrable f π) : ∀ η > 0, ∃ n0, ∀ n ≥ n0,
      ∫⁻ p, ‖pathSum T f p.1 n p.2 - n * ∫ x, f x ∂π‖ₑ ∂(π.prod (Measure.pi fun _ : Fin n => ν)) ≤
        n * ENNReal.ofReal η := by
  intro η hη
  set c := ∫ x, f x ∂π with hc
  -- cut `f` off at a high level
  set fk : ℕ → X → ℝ := fun k x => max (-(k : ℝ)) (min (f x) k) with hfk
  have mk : ∀ k, Measurable (fk k) := fun k => measurable_const.max (hf.min measurable_const)
  have bk : ∀ k x, |fk k x| ≤ k := fun k x => by
    have : (0 : ℝ) ≤ k := Nat.cast_nonneg k
    rw [abs_le]
    exact ⟨le_max_left _ _, max_le (by linarith) (min_le_right _ _)⟩
  have dk : ∀ k x, |f x - fk k x| ≤ |f x| := fun k x => by
    have hk0 : (0 : ℝ) ≤ k := Nat.cast_nonneg k
    simp only [hfk]
    rcases le_total (f x) k with h1 | h1
    · rw [min_eq_left h1]
      rcases le_total (-(k : ℝ)) (f x) with h2 | h2
      · rw [max_eq_right h2, sub_self, abs_zero]; exact abs_nonneg _
      · rw [max_eq_left h2, abs_of_nonpos (by linarith), abs_of_nonpos (by linarith)]; linarith
    · rw [min_eq_right h1, max_eq_right (by linarith), abs_of_nonneg (by linarith), abs_of_nonneg (by linarith)]
      linarith
  have hlim : Tendsto (fun k => ∫ x, |f x - fk k x| ∂π) atTop (𝓝 (∫ _, (0 : ℝ) ∂π)) := by
    refine tendsto_integral_of_dominated_convergence (fun x => |f x|)
      (fun k => (hf.sub (mk k)).abs.aestronglyMeasurable) hi.abs (fun k => Eventually.of_forall fun x => ?_)
      (Eventually.of_forall fun x => ?_)
    · rw [Real.norm_eq_abs, abs_abs]; exact dk k x
    · refine tendsto_const_nhds.congr' ?_
      filter_upwards [eventually_ge_atTop (Nat.ceil |f x|)] with k hk
      have h1 : |f x| ≤ k := (Nat.le_ceil _).trans (by exact_mod_cast hk)
      rw [abs_le] at h1
      simp only [hfk]
      rw [min_eq_left h1.2, max_eq_right h1.1, sub_self, abs_zero]
  rw [integral_zero] at hlim
  obtain ⟨k, hk⟩ := (hlim.eventually (gt_mem_nhds (show (0 : ℝ) < η / 3 by linarith))).exists
  set ck := ∫ x, fk k x ∂π with hck
  have ik : Integrable (fk k) π := integrable_bdd π (mk k) (bk k)
  have hcc : |ck - c| ≤ η / 3 := by
    rw [hck, hc, ← integral_sub ik hi]
    refine (abs_integral_le_integral_abs).trans ?_
    refine le_trans (le_of_eq (integral_congr_ae (Eventually.of_forall fun x => ?_))) hk.le
    exact abs_sub_comm _ _
  have hb0 : ∫ x, (fk k x - ck) ∂π = 0 := by
    rw [integral_sub ik (integrable_const _), integral_const]; simp [hck]
  have mk' : Measurable fun x => fk k x - ck := (mk k).sub measurable_const
  obtain ⟨n0, hn0⟩ := avg_bdd hT h mk' (B := k + |ck|)
    (fun x => (abs_sub _ _).trans (add_le_add (bk k x) le_rfl)) hr hb0 (η / 3) (by linarith)
  refine ⟨n0, fun n hn => ?_⟩
  set P := π.prod (Measure.pi fun _ : Fin n => ν) with hP
  have mS1 := measurable_pathSum hT mk' n
  have mr : Measurable fun x => f x - fk k x := hf.sub (mk k)
  have mS2 := measurable_pathSum hT mr n
  have e : ∀ p : X × (Fin n → N), pathSum T f p.1 n p.2 - n * c =
      pathSum T (fun x => fk k x - ck) p.1 n p.2 + pathSum T (fun x => f x - fk k x) p.1 n p.2 + n * (ck - c) := by
    intro p
    rw [pathSum_split f (fun x => fk k x - ck) (fun x => f x - fk k x) ck (fun x => by ring)]
    ring
  have b1 : ∫⁻ p, ‖pathSum T (fun x => fk k x - ck) p.1 n p.2‖ₑ ∂P ≤ n * ENNReal.ofReal (η / 3) := by
    have h1 := hn0 n hn
    have hbd : ∀ p : X × (Fin n → N), |pathSum T (fun x => fk k x - ck) p.1 n p.2| ≤ n * (k + |ck|) := fun p =>
      pathSum_le (fun x => (abs_sub _ _).trans (add_le_add (bk k x) le_rfl)) _ _ _
    have i1 := integrable_bdd P mS1 hbd
    have e1 := ofReal_integral_norm_eq_lintegral_enorm i1
    rw [← e1, ← ENNReal.ofReal_natCast, ← ENNReal.ofReal_mul (Nat.cast_nonneg n)]
    exact ENNReal.ofReal_le_ofReal h1
  have b2 : ∫⁻ p, ‖pathSum T (fun x => f x - fk k x) p.1 n p.2‖ₑ ∂P ≤ n * ENNReal.ofReal (η / 3) := by
    refine (lintegral_pathSum hT h mr n).trans (mul_le_mul_right ?_ _)
    have e1 := ofReal_integral_norm_eq_lintegral_enorm (hi.sub ik)
    simp only [Pi.sub_apply] at e1
    rw [← e1]
    exact ENNReal.ofReal_le_ofReal hk.le
  have b3 : ‖(n : ℝ) * (ck - c)‖ₑ ≤ n * ENNReal.ofReal (η / 3) := by
    rw [Real.enorm_eq_ofReal_abs, abs_mul, Nat.abs_cast, ENNReal.ofReal_mul (Nat.cast_nonneg n), ENNReal.ofReal_natCast]
    exact mul_le_mul_right (ENNReal.ofReal_le_ofReal hcc) _
  calc ∫⁻ p, ‖pathSum T f p.1 n p.2 - n * c‖ₑ ∂P
      ≤ ∫⁻ p, (‖pathSum T (fun x => fk k x - ck) p.1 n p.2‖ₑ + ‖pathSum T (fun x => f x - fk k x) p.1 n p.2‖ₑ +
          ‖(n : ℝ) * (ck - c)‖ₑ) ∂P := lintegral_mono fun p => by
        rw [e]; exact (enorm_add_le _ _).trans (add_le_add (enorm_add_le _ _) le_rfl)
    _ = ∫⁻ p, ‖pathSum T (fun x => fk k x - ck) p.1 n p.2‖ₑ ∂P +
        ∫⁻ p, ‖pathSum T (fun x => f x - fk k x) p.1 n p.2‖ₑ ∂P + ‖(n : ℝ) * (ck - c)‖ₑ := by
        rw [lintegral_add_right _ measurable_const, lintegral_add_right _ mS2.enorm, lintegral_const]
        simp
    _ ≤ n * ENNReal.ofReal (η / 3) + n * ENNReal.ofReal (η / 3) + n * ENNReal.ofReal (η / 3) :=
        add_le_add (add_le_add b1 b2) b3
    _ = n * ENNReal.ofReal η := by
        rw [← mul_add, ← mul_add, ← ENNReal.ofReal_add (by positivity) (by positivity),
          ← ENNReal.ofReal_add (by positivity) (by positivity)]
        congr 2
        ring

include hT in
/-- The draws and states after `j` steps from a start law `μ`. -/
theorem split_start (μ : Measure X) [IsProbabilityMeasure μ] (j m : ℕ) {E : Set (X × (Fin m → N))}
    (hE : MeasurableSet E) :
    (μ.prod (Measure.pi fun _ : Fin (j + m) => ν))
      {p | (pos T p.1 j (fun i => p.2 (Fin.castAdd m i)), fun i => p.2 (Fin.natAdd j i)) ∈ E} =
    (((step T ν)^[j] μ).prod (Measure.pi fun _ : Fin m => ν)) E := by
  have a1 := (MeasurePreserving.id μ).prod (split_add (ν := ν) j m)
  have a2 := (measurePreserving_prodAssoc μ (Measure.pi fun _ : Fin j => ν) (Measure.pi fun _ : Fin m => ν)).symm
  have mj := measurable_pos hT j
  have a3 : MeasurePreserving (fun p : X × (Fin j → N) => pos T p.1 j p.2)
      (μ.prod (Measure.pi fun _ : Fin j => ν)) ((step T ν)^[j] μ) := ⟨mj, pos_law hT μ j⟩
  have a4 := (a3.prod (MeasurePreserving.id (Measure.pi fun _ : Fin m => ν))).comp (a2.comp a1)
  rw [← a4.measure_preimage hE.nullMeasurableSet]
  rfl

include hT in
/-- The law of large numbers for a start law from which the chain settles; `H` is any extra term. -/
theorem avg_start (h : Balanced T ν π) (hr : Reaches T ν π) (μ : Measure X) [IsProbabilityMeasure μ]
    (htv : ∀ ε > 0, ∃ j, Within (ENNReal.ofReal ε) ((step T ν)^[j] μ) π) {f : X → ℝ} (hf : Measurable f)
    (hi : Integrable f π) {H : X → ℝ} (hH : Measurable H) :
    ∀ δ > 0, ∀ ε > 0, ∃ n0, ∀ n ≥ n0,
      (μ.prod (Measure.pi fun _ : Fin n => ν))
        {p | n * δ < |H p.1 + pathSum T f p.1 n p.2 - n * ∫ x, f x ∂π|} ≤ ENNReal.ofReal ε := by
  intro δ hδ ε hε
  set c := ∫ x, f x ∂π with hc
  obtain ⟨j, hj⟩ := htv (ε / 3) (by linarith)
  -- the first `j` steps
  have mj := measurable_pathSum hT hf j
  set U : X × (Fin j → N) → ℝ := fun p => |H p.1 + pathSum T f p.1 j p.2 - j * c| with hU
  have mU : Measurable U := (((hH.comp measurable_fst).add mj).sub measurable_const).abs
  have hU0 : Tendsto (fun n : ℕ => (μ.prod (Measure.pi fun _ : Fin j => ν)) {p | n * (δ / 2) < U p}) atTop (𝓝 0) := by
    have h1 := tendsto_measure_iInter_atTop (μ := μ.prod (Measure.pi fun _ : Fin j => ν))
      (s := fun n : ℕ => {p : X × (Fin j → N) | n * (δ / 2) < U p})
      (fun n => (measurableSet_lt measurable_const mU).nullMeasurableSet)
      (fun a b hab p hp => by
        have h2 : (a : ℝ) * (δ / 2) ≤ b * (δ / 2) := by gcongr
        exact lt_of_le_of_lt h2 hp)
      ⟨0, measure_ne_top _ _⟩
    have h3 : (⋂ n : ℕ, {p : X × (Fin j → N) | n * (δ / 2) < U p}) = ∅ := by
      ext p
      simp only [Set.mem_iInter, Set.mem_ofPred_eq, Set.mem_empty_iff_false, iff_false, not_forall, not_lt]
      obtain ⟨n, hn⟩ := exists_nat_ge (U p / (δ / 2))
      exact ⟨n, by rwa [div_le_iff₀ (by linarith)] at hn⟩
    rw [h3, measure_empty] at h1
    exact h1
  obtain ⟨n1, hn1⟩ := eventually_atTop.1
    (hU0.eventually (ge_mem_nhds (ENNReal.ofReal_pos.2 (show (0 : ℝ) < ε / 3 by linarith))))
  -- the later steps
  obtain ⟨n2, hn2⟩ := avg_stationary hT h hr hf hi (δ / 2 * (ε / 3)) (by positivity)
  refine ⟨n1 + n2 + j + 1, fun n hn => ?_⟩
  obtain ⟨m, rfl⟩ : ∃ m, n = j + m := ⟨n - j, by omega⟩
  have hm1 : (0 : ℝ) < m := by exact_mod_cast (by omega : 0 < m)
  have mm := measurable_pathSum hT hf m
  set E : Set (X × (Fin m → N)) := {p | m * (δ / 2) < |pathSum T f p.1 m p.2 - m * c|} with hE
  have mE : MeasurableSet E := measurableSet_lt measurable_const (mm.sub measurable_const).abs
  have q1 := hn1 (j + m) (by omega)
  have q2 := hn2 m (by omega)
  set P := μ.prod (Measure.pi fun _ : Fin (j + m) => ν) with hP
  have cover : {p : X × (Fin (j + m) → N) | ((j + m : ℕ) : ℝ) * δ < |H p.1 + pathSum T f p.1 (j + m) p.2 -
        ((j + m : ℕ) : ℝ) * c|} ⊆
      {p | ((j + m : ℕ) : ℝ) * (δ / 2) < U (p.1, fun i => p.2 (Fin.castAdd m i))} ∪
      {p | (pos T p.1 j (fun i => p.2 (Fin.castAdd m i)), fun i => p.2 (Fin.natAdd j i)) ∈ E} := by
    intro p hp
    by_contra hno
    simp only [Set.mem_union, not_or, Set.mem_ofPred_eq, not_lt, hE, hU] at hno hp
    obtain ⟨u1, u2⟩ := hno
    rw [pathSum_add] at hp
    have u3 : (m : ℝ) * (δ / 2) ≤ ((j + m : ℕ) : ℝ) * (δ / 2) := by
      push_cast
      nlinarith [Nat.cast_nonneg (α := ℝ) j]
    have u4 := abs_add_le (H p.1 + pathSum T f p.1 j (fun i => p.2 (Fin.castAdd m i)) - j * c)
      (pathSum T f (pos T p.1 j fun i => p.2 (Fin.castAdd m i)) m (fun i => p.2 (Fin.natAdd j i)) - m * c)
    have u5 : H p.1 + (pathSum T f p.1 j (fun i => p.2 (Fin.castAdd m i)) +
        pathSum T f (pos T p.1 j fun i => p.2 (Fin.castAdd m i)) m (fun i => p.2 (Fin.natAdd j i))) -
        ((j + m : ℕ) : ℝ) * c =
        (H p.1 + pathSum T f p.1 j (fun i => p.2 (Fin.castAdd m i)) - j * c) +
        (pathSum T f (pos T p.1 j fun i => p.2 (Fin.castAdd m i)) m (fun i => p.2 (Fin.natAdd j i)) - m * c) := by
      push_cast; ring
    rw [u5] at hp
    linarith
  have r1 : P {p | ((j + m : ℕ) : ℝ) * (δ / 2) < U (p.1, fun i => p.2 (Fin.castAdd m i))} ≤ ENNReal.ofReal (ε / 3) := by
    have a1 := (MeasurePreserving.id μ).prod
      ((measurePreserving_fst (μ := Measure.pi fun _ : Fin j => ν) (ν := Measure.pi fun _ : Fin m => ν)).comp
        (split_add (ν := ν) j m))
    have mS : MeasurableSet {p : X × (Fin j → N) | ((j + m : ℕ) : ℝ) * (δ / 2) < U p} :=
      measurableSet_lt measurable_const mU
    refine le_trans (le_of_eq ?_) q1
    rw [← a1.measure_preimage mS.nullMeasurableSet]
    rfl
  have r2 : P {p | (pos T p.1 j (fun i => p.2 (Fin.castAdd m i)), fun i => p.2 (Fin.natAdd j i)) ∈ E} ≤
      ENNReal.ofReal (ε / 3) + ENNReal.ofReal (ε / 3) := by
    rw [hP, split_start hT μ j m mE, Measure.prod_apply mE]
    have mh : Measurable fun x => (Measure.pi fun _ : Fin m => ν) (Prod.mk x ⁻¹' E) := measurable_measure_prodMk_left mE
    refine (hj.lintegral mh fun x => prob_le_one).trans (add_le_add ?_ le_rfl)
    rw [← Measure.prod_apply mE]
    have hpos : (0 : ℝ) < m * (δ / 2) := by positivity
    have mk := mul_meas_ge_le_lintegral₀ (μ := π.prod (Measure.pi fun _ : Fin m => ν))
      (f := fun p => ‖pathSum T f p.1 m p.2 - m * c‖ₑ) (mm.sub measurable_const).enorm.aemeasurable
      (ENNReal.ofReal (m * (δ / 2)))
    have hsub : E ⊆ {p | ENNReal.ofReal (m * (δ / 2)) ≤ ‖pathSum T f p.1 m p.2 - m * c‖ₑ} := by
      intro p hp
      simp only [Set.mem_ofPred_eq, Real.enorm_eq_ofReal_abs]
      exact ENNReal.ofReal_le_ofReal (le_of_lt hp)
    have hle := (mul_le_mul_right (measure_mono (μ := π.prod (Measure.pi fun _ : Fin m => ν)) hsub)
      (ENNReal.ofReal (m * (δ / 2)))).trans (mk.trans q2)
    have e1 : (m : ℝ≥0∞) * ENNReal.ofReal (δ / 2 * (ε / 3)) =
        ENNReal.ofReal (m * (δ / 2)) * ENNReal.ofReal (ε / 3) := by
      rw [← ENNReal.ofReal_natCast, ← ENNReal.ofReal_mul (Nat.cast_nonneg m), ← ENNReal.ofReal_mul hpos.le]
      congr 1
      ring
    rw [e1] at hle
    exact (ENNReal.mul_le_mul_iff_right (ENNReal.ofReal_pos.2 hpos).ne' ENNReal.ofReal_ne_top).1 hle
  calc P _ ≤ _ := measure_mono cover
    _ ≤ _ := measure_union_le _ _
    _ ≤ ENNReal.ofReal (ε / 3) + (ENNReal.ofReal (ε / 3) + ENNReal.ofReal (ε / 3)) := add_le_add r1 r2
    _ = ENNReal.ofReal ε := by
      rw [← ENNReal.ofReal_add (by positivity) (by positivity), ← ENNReal.ofReal_add (by positivity) (by positivity)]
      congr 1
      ring

end ZhuSuan.MarkovConv

import Verif.Lemmas.PiMeasure
import Verif.Model.Toy
import Verif.Props.Elbo
import Verif.Props.HmcConv
import Verif.Props.HmcRuns
import Verif.Props.Minibatch
import Verif.Props.Normal
import Verif.Spec.Toy
import Mathlib.InformationTheory.KullbackLeibler.Basic
import Mathlib.Probability.Distributions.Gaussian.Basic

/-!
# C104: the toy examples
-/

set_option autoImplicit false

open MeasureTheory ProbabilityTheory InformationTheory

namespace ZhuSuan.Toy

open Minibatch

instance (m s : ℝ) : IsProbabilityMeasure (normal m s) := by unfold normal; infer_instance

theorem normal_eq (m : ℝ) {s : ℝ} (hs : 0 < s) :
    normal m s = volume.withDensity fun x => ENNReal.ofReal (Real.exp (Uni.Normal.logProb m (Real.log s) x)) := by
  have h := Uni.C18_density m (.std s) hs
  have e : Uni.sq s = Real.toNNReal (s ^ 2) := by
    ext
    rw [Real.coe_toNNReal _ (sq_nonneg _)]
    rfl
  have e' : (Uni.StdArg.std s).getStd = s := rfl
  rw [e', e] at h
  rw [normal, gaussianReal_of_var_ne_zero _ (by rw [Ne, Real.toNNReal_eq_zero]; nlinarith)]
  congr 1
  funext x
  rw [gaussianPDF, ← h]
  rfl

/-! ## The mixture -/

section
variable (mu1 mu2 s : ℝ)

theorem logSumExp_max (a b m : ℝ) : m + Real.log (Real.exp (a - m) + Real.exp (b - m)) = Real.log (Real.exp a + Real.exp b) := by
  have h : Real.exp a + Real.exp b = Real.exp m * (Real.exp (a - m) + Real.exp (b - m)) := by
    rw [mul_add, ← Real.exp_add, ← Real.exp_add]
    congr 2 <;> ring
  rw [h, Real.log_mul (Real.exp_pos _).ne' (by positivity), Real.log_exp]

theorem exponent_pdf {s : ℝ} (hs : 0 < s) (m x : ℝ) :
    gaussianPDFReal m (Real.toNNReal (s ^ 2)) x = Real.exp (exponent s m x) / (s * Real.sqrt (2 * Real.pi)) := by
  rw [gaussianPDFReal, Real.coe_toNNReal _ (sq_nonneg _), exponent]
  have e1 : Real.sqrt (2 * Real.pi * s ^ 2) = s * Real.sqrt (2 * Real.pi) := by
    rw [Real.sqrt_mul (by positivity), Real.sqrt_sq hs.le, mul_comm]
  have e2 : -(x - m) ^ 2 / (2 * s ^ 2) = -0.5 * ((x - m) / s) ^ 2 := by
    field_simp
    ring
  rw [e1, e2]
  field_simp

/-- The log joint of `mixture_sgnht.py` is the log density of the mixture, up to a constant.  The arguments of the two exponentials in it are
at most zero and their sum is between one and two, so that nothing overflows and the logarithm is not of zero. -/
theorem C104_mixture {s : ℝ} (hs : 0 < s) (x : ℝ) :
    mixtureLogJoint mu1 mu2 s x =
      Real.log ((gaussianPDFReal mu1 (Real.toNNReal (s ^ 2)) x + gaussianPDFReal mu2 (Real.toNNReal (s ^ 2)) x) / 2) +
        Real.log (2 * s * Real.sqrt (2 * Real.pi)) ∧
    (let a1 := exponent s mu1 x
     let a2 := exponent s mu2 x
     a1 - max a1 a2 ≤ 0 ∧ a2 - max a1 a2 ≤ 0 ∧ 1 ≤ Real.exp (a1 - max a1 a2) + Real.exp (a2 - max a1 a2) ∧
      Real.exp (a1 - max a1 a2) + Real.exp (a2 - max a1 a2) ≤ 2) := by
  constructor
  · unfold mixtureLogJoint
    dsimp only
    rw [logSumExp_max, exponent_pdf hs, exponent_pdf hs, ← Real.log_mul (by positivity) (by positivity)]
    congr 1
    field_simp
  · intro a1 a2
    have h1 : a1 - max a1 a2 ≤ 0 := by linarith [le_max_left a1 a2]
    have h2 : a2 - max a1 a2 ≤ 0 := by linarith [le_max_right a1 a2]
    refine ⟨h1, h2, ?_, ?_⟩
    · rcases max_choice a1 a2 with h | h
      · rw [h, sub_self, Real.exp_zero]
        linarith [Real.exp_pos (a2 - a1)]
      · rw [h, sub_self, Real.exp_zero]
        linarith [Real.exp_pos (a1 - a2)]
    · linarith [Real.exp_le_one_iff.2 h1, Real.exp_le_one_iff.2 h2]

/-- The gradient that is computed is the derivative of the log joint, whatever is taken for the derivative of the maximum. -/
theorem C104_mixture_grad (d x : ℝ) : HasDerivAt (mixtureLogJoint mu1 mu2 s) (mixtureGrad mu1 mu2 s d x) x := by
  have e : mixtureLogJoint mu1 mu2 s = fun x => Real.log (Real.exp (exponent s mu1 x) + Real.exp (exponent s mu2 x)) := by
    funext x
    exact logSumExp_max _ _ _
  have hx : ∀ m : ℝ, HasDerivAt (exponent s m) (-0.5 * (2 * ((x - m) / s) * (1 / s))) x := fun m => by
    have h := ((((hasDerivAt_id x).sub_const m).div_const s).pow 2).const_mul (-0.5)
    refine h.congr_deriv ?_
    simp
  have h := (((hx mu1).exp).add ((hx mu2).exp)).log (x := x) (by
    show Real.exp _ + Real.exp _ ≠ 0
    positivity)
  rw [e]
  refine h.congr_deriv ?_
  unfold mixtureGrad
  dsimp only
  simp only [Pi.add_apply]
  set m := max (exponent s mu1 x) (exponent s mu2 x)
  set d1 := -0.5 * (2 * ((x - mu1) / s) * (1 / s))
  set d2 := -0.5 * (2 * ((x - mu2) / s) * (1 / s))
  rw [Real.exp_sub, Real.exp_sub]
  have h1 := Real.exp_pos (exponent s mu1 x)
  have h2 := Real.exp_pos (exponent s mu2 x)
  have h3 := Real.exp_pos m
  field_simp
  ring

/-- The printed mean and standard deviation are those of the mixture. -/
theorem C104_mixture_moments (s : ℝ) :
    ∫ x, x ∂mixture mu1 mu2 s = expectedMean mu1 mu2 ∧
      Real.sqrt (∫ x, (x - ∫ y, y ∂mixture mu1 mu2 s) ^ 2 ∂mixture mu1 mu2 s) = totalStdev mu1 mu2 s := by
  have i1 : ∀ m : ℝ, Integrable (fun x : ℝ => x) (normal m s) := fun m => (memLp_id_gaussianReal 1).integrable le_rfl
  have i2 : ∀ m c : ℝ, Integrable (fun x : ℝ => (x - c) ^ 2) (normal m s) := fun m c =>
    ((memLp_id_gaussianReal 2).sub (memLp_const c)).integrable_sq
  have e1 : ∀ m : ℝ, ∫ x, x ∂normal m s = m := fun m => integral_id_gaussianReal
  have v : ∀ m : ℝ, ∫ x, (x - m) ^ 2 ∂normal m s = s ^ 2 := fun m => by
    have h := variance_fun_id_gaussianReal (μ := m) (v := Real.toNNReal (s ^ 2))
    rw [variance_eq_integral aemeasurable_id'] at h
    rw [Real.coe_toNNReal _ (sq_nonneg _)] at h
    have := e1 m
    unfold normal at this ⊢
    rwa [this] at h
  have hint : ∀ f : ℝ → ℝ, Integrable f (normal mu1 s) → Integrable f (normal mu2 s) →
      ∫ x, f x ∂mixture mu1 mu2 s = ((∫ x, f x ∂normal mu1 s) + ∫ x, f x ∂normal mu2 s) / 2 := by
    intro f h1 h2
    rw [mixture, integral_smul_measure, integral_add_measure h1 h2]
    simp
    ring
  have em : ∫ x, x ∂mixture mu1 mu2 s = expectedMean mu1 mu2 := by
    rw [hint _ (i1 _) (i1 _), e1, e1, expectedMean]
    ring
  refine ⟨em, ?_⟩
  have e2 : ∀ m c : ℝ, ∫ x, (x - c) ^ 2 ∂normal m s = s ^ 2 + (m - c) ^ 2 := fun m c => by
    have e : ∀ x : ℝ, (x - c) ^ 2 = (x - m) ^ 2 + (2 * (m - c) * x + (c ^ 2 - m ^ 2)) := fun x => by ring
    have j1 := i2 m m
    have j2 : Integrable (fun x : ℝ => 2 * (m - c) * x + (c ^ 2 - m ^ 2)) (normal m s) := ((i1 m).const_mul _).add (integrable_const _)
    simp only [e]
    rw [integral_add j1 j2, v, integral_add ((i1 m).const_mul _) (integrable_const _), integral_const_mul, e1, integral_const,
      probReal_univ, one_smul]
    ring
  rw [em, hint _ (i2 _ _) (i2 _ _), e2, e2, totalStdev, expectedMean]
  congr 1
  ring

end

/-! ## What is kept, and the density estimate -/

theorem filter_length (n : ℕ) (p : ℕ → Bool) : ((List.range n).filter p).length = ((Finset.range n).filter fun t => p t).card := by
  rw [← List.toFinset_card_of_nodup ((List.nodup_range).filter _)]
  congr 1
  ext t
  simp

/-- `mixture_sgnht.py` keeps every hundredth sample of the last third of the iterations: one in three hundred of them, 100 of 30000. -/
theorem C104_mixture_kept (k : ℕ) : (mixtureKept (300 * k)).length = k ∧
    ∀ t, t ∈ mixtureKept (300 * k) ↔ 200 * k ≤ t ∧ t < 300 * k ∧ 100 ∣ t := by
  have hm : ∀ t, t ∈ mixtureKept (300 * k) ↔ 200 * k ≤ t ∧ t < 300 * k ∧ 100 ∣ t := by
    intro t
    have e : 300 * k * 2 / 3 = 200 * k := by omega
    simp only [mixtureKept, List.mem_filter, List.mem_range, e, Bool.and_eq_true, decide_eq_true_eq, beq_iff_eq, Nat.dvd_iff_mod_eq_zero]
    tauto
  refine ⟨?_, hm⟩
  have hn : (mixtureKept (300 * k)).Nodup := (List.nodup_range).filter _
  rw [← List.toFinset_card_of_nodup hn]
  have e : (mixtureKept (300 * k)).toFinset = (Finset.range k).image fun j => 200 * k + 100 * j := by
    ext t
    rw [List.mem_toFinset, hm, Finset.mem_image]
    constructor
    · rintro ⟨h1, h2, c, rfl⟩
      exact ⟨c - 2 * k, Finset.mem_range.2 (by omega), by omega⟩
    · rintro ⟨j, hj, rfl⟩
      have := Finset.mem_range.1 hj
      exact ⟨by omega, by omega, by omega⟩
  rw [e, Finset.card_image_of_injective _ fun a b h => by simpa using h, Finset.card_range]

theorem foldl_sum {α : Type} (f : α → ℝ) (l : List α) (a : ℝ) : l.foldl (fun y b => y + f b) a = a + (l.map f).sum := by
  induction l generalizing a with
  | nil => simp
  | cons b l ih => rw [List.foldl_cons, ih, List.map_cons, List.sum_cons]; ring

/-- The density estimate is the mean of normal densities centred at the samples, however it is cut into batches. -/
theorem C104_kde {w : ℝ} (hw : 0 < w) (x : ℝ) (mu : List ℝ) (b : ℕ) (hb : 0 < b) (hd : b ∣ mu.length) :
    kde w x mu b = some ((mu.map fun m => gaussianPDFReal m (Real.toNNReal (w ^ 2)) x).sum / mu.length) := by
  obtain ⟨k, hk⟩ := hd
  have hl : mu.length / b = k := by rw [hk, Nat.mul_div_cancel_left _ hb]
  rw [kde, if_pos (by rw [hk]; exact Nat.mul_mod_right b k), foldl_sum, zero_add, hl]
  congr 1
  have hterm : ∀ t ∈ List.range k, kdeTerm w x mu b t =
      ((slice mu (t * b) ((t + 1) * b)).map fun m => gaussianPDFReal m (Real.toNNReal (w ^ 2)) x).sum / b := by
    intro t ht
    have hlen : (slice mu (t * b) ((t + 1) * b)).length = b := by
      have : (t + 1) * b ≤ b * k := by rw [mul_comm b]; exact Nat.mul_le_mul_right _ (List.mem_range.1 ht)
      rw [slice, List.length_drop, List.length_take, hk, min_eq_left this, add_mul, one_mul]
      omega
    rw [kdeTerm, mean, List.length_map, hlen, ← mul_div_assoc, ← List.sum_map_mul_left]
    congr 2
    refine List.map_congr_left fun m _ => ?_
    rw [exponent_pdf hw, exponent]
    have e : -0.5 / w ^ 2 * (x - m) ^ 2 = -0.5 * ((x - m) / w) ^ 2 := by
      field_simp
    rw [e]
    field_simp
  rw [List.map_congr_left hterm]
  have hs := slices_take mu b k
  rw [mul_comm k b, ← hk, List.take_length] at hs
  have hsum : ∀ (f : ℝ → ℝ) (ts : List ℕ), (ts.map fun t => ((slice mu (t * b) ((t + 1) * b)).map f).sum / b).sum =
      ((ts.flatMap fun t => slice mu (t * b) ((t + 1) * b)).map f).sum / b := by
    intro f ts
    induction ts with
    | nil => simp
    | cons t ts ih => rw [List.map_cons, List.sum_cons, ih, List.flatMap_cons, List.map_append, List.sum_append, add_div]
  rw [hsum, hs, hk]
  rcases Nat.eq_zero_or_pos k with h0 | h0
  · subst h0
    simp
  · have : (b : ℝ) ≠ 0 := by positivity
    have : (k : ℝ) ≠ 0 := by positivity
    push_cast
    field_simp

/-- The density estimate is a probability density. -/
theorem C104_kde_density {w : ℝ} (hw : 0 < w) (mu : List ℝ) (hmu : mu ≠ []) (b : ℕ) (hb : 0 < b) (hd : b ∣ mu.length) :
    ∃ f : ℝ → ℝ, (∀ x, kde w x mu b = some (f x)) ∧ (∀ x, 0 ≤ f x) ∧ Integrable f ∧ ∫ x, f x = 1 := by
  refine ⟨_, fun x => C104_kde hw x mu b hb hd, fun x => ?_, ?_⟩
  · refine div_nonneg (List.sum_nonneg fun y hy => ?_) (Nat.cast_nonneg _)
    obtain ⟨m, _, rfl⟩ := List.mem_map.1 hy
    exact gaussianPDFReal_nonneg _ _ _
  · have hv : Real.toNNReal (w ^ 2) ≠ 0 := by rw [Ne, Real.toNNReal_eq_zero]; nlinarith
    have key : ∀ l : List ℝ, Integrable (fun x => (l.map fun m => gaussianPDFReal m (Real.toNNReal (w ^ 2)) x).sum) ∧
        ∫ x, (l.map fun m => gaussianPDFReal m (Real.toNNReal (w ^ 2)) x).sum = l.length := by
      intro l
      induction l with
      | nil => simp
      | cons m l ih =>
        simp only [List.map_cons, List.sum_cons]
        have h1 := integrable_gaussianPDFReal m (Real.toNNReal (w ^ 2))
        refine ⟨h1.add ih.1, ?_⟩
        rw [integral_add h1 ih.1, ih.2, integral_gaussianPDFReal_eq_one m hv, List.length_cons]
        push_cast
        ring
    obtain ⟨h1, h2⟩ := key mu
    refine ⟨h1.div_const _, ?_⟩
    rw [integral_div, h2, div_self]
    have := List.length_pos_iff.2 hmu
    positivity

/-- If every sample has the distribution `P` then the expected density estimate is the density of `P` blurred with a normal distribution of
the width of the kernel. -/
theorem C104_kde_expected {Ω : Type} [MeasurableSpace Ω] (R : Measure Ω) (P : Measure ℝ) [IsProbabilityMeasure P] {n : ℕ} (hn : 0 < n)
    (X : Fin n → Ω → ℝ) (hX : ∀ i, AEMeasurable (X i) R) (hP : ∀ i, R.map (X i) = P) {w : ℝ} (hw : 0 < w) (b : ℕ) (hb : 0 < b)
    (hd : b ∣ n) (x : ℝ) :
    ∃ f : Ω → ℝ, (∀ ω, kde w x (List.ofFn fun i => X i ω) b = some (f ω)) ∧
      ∫ ω, f ω ∂R = ∫ m, gaussianPDFReal m (Real.toNNReal (w ^ 2)) x ∂P := by
  refine ⟨_, fun ω => C104_kde hw x _ b hb (by rwa [List.length_ofFn]), ?_⟩
  simp only [List.map_ofFn, List.sum_ofFn, List.length_ofFn, Function.comp_def]
  have hc : Continuous fun m : ℝ => gaussianPDFReal m (Real.toNNReal (w ^ 2)) x := by
    unfold gaussianPDFReal
    fun_prop
  have hbd : Integrable (fun m : ℝ => gaussianPDFReal m (Real.toNNReal (w ^ 2)) x) P := by
    refine Integrable.of_bound hc.aestronglyMeasurable (Real.sqrt (2 * Real.pi * (Real.toNNReal (w ^ 2) : ℝ)))⁻¹
      (Filter.Eventually.of_forall fun m => ?_)
    rw [Real.norm_eq_abs, abs_of_nonneg (gaussianPDFReal_nonneg _ _ _), gaussianPDFReal]
    refine mul_le_of_le_one_right (by positivity) (Real.exp_le_one_iff.2 ?_)
    rw [neg_div]
    exact neg_nonpos.2 (by positivity)
  have i1 : ∀ i, Integrable (fun ω => gaussianPDFReal (X i ω) (Real.toNNReal (w ^ 2)) x) R := fun i => by
    rw [← hP i] at hbd
    exact (integrable_map_measure hc.aestronglyMeasurable (hX i)).1 hbd
  have e1 : ∀ i, ∫ ω, gaussianPDFReal (X i ω) (Real.toNNReal (w ^ 2)) x ∂R = ∫ m, gaussianPDFReal m (Real.toNNReal (w ^ 2)) x ∂P := fun i => by
    rw [← hP i, integral_map (hX i) hc.aestronglyMeasurable]
  rw [integral_div, integral_finsetSum _ fun i _ => i1 i]
  simp only [e1]
  rw [Finset.sum_const, Finset.card_univ, Fintype.card_fin, nsmul_eq_mul]
  have : (n : ℝ) ≠ 0 := by positivity
  field_simp

/-! ## `gaussian.py` -/

section
variable {n : ℕ}

theorem stdev_pos (j : Fin n) : 0 < stdev j := by unfold stdev; positivity

theorem joint_density : (Measure.pi fun j : Fin n => normal 0 (stdev j)) =
    volume.withDensity fun q => ENNReal.ofReal (Real.exp (gaussianLogJoint q)) := by
  have h : ∀ j : Fin n, normal 0 (stdev j) =
      volume.withDensity fun x => ENNReal.ofReal (Real.exp (Uni.Normal.logProb 0 (Real.log (stdev j)) x)) := fun j => normal_eq 0 (stdev_pos j)
  have hp : ∀ j : Fin n, IsProbabilityMeasure
      ((volume : Measure ℝ).withDensity fun x => ENNReal.ofReal (Real.exp (Uni.Normal.logProb 0 (Real.log (stdev j)) x))) := fun j => by
    rw [← h j]; infer_instance
  simp only [h]
  rw [Meas.pi_withDensity (μ := fun _ : Fin n => (volume : Measure ℝ)) _ fun j => by unfold Uni.Normal.logProb; fun_prop, volume_pi]
  congr 1
  funext w
  rw [gaussianLogJoint, Real.exp_sum, ENNReal.ofReal_prod_of_nonneg fun _ _ => (Real.exp_pos _).le]

theorem joint_total : ∫⁻ q : Fin n → ℝ, ENNReal.ofReal (Real.exp (gaussianLogJoint q)) = 1 := by
  have h := congrArg (fun μ => μ Set.univ) (joint_density (n := n))
  simp only [measure_univ, withDensity_apply _ MeasurableSet.univ, Measure.restrict_univ] at h
  exact h.symm

/-- The target of HMC in `gaussian.py`: independent normals with mean 0 and standard deviations 1, 1/2, 1/3, ...; the gradients are those of
the log density. -/
theorem C104_gaussian : Hmc.posterior (gaussianLogJoint (n := n)) = (Measure.pi fun j : Fin n => normal 0 (1 / ((j : ℕ) + 1))) ∧
    ∀ (q : Fin n → ℝ) (j : Fin n), HasDerivAt (fun x => gaussianLogJoint (Function.update q j x)) (gaussianGrad q j) (q j) := by
  constructor
  · rw [Hmc.posterior, joint_total, inv_one, one_smul, ← joint_density]
    rfl
  · intro q j
    have e : (fun x => gaussianLogJoint (Function.update q j x)) = fun x =>
        Uni.Normal.logProb 0 (Real.log (stdev j)) x + ∑ i ∈ Finset.univ.erase j, Uni.Normal.logProb 0 (Real.log (stdev i)) (q i) := by
      funext x
      rw [gaussianLogJoint, ← Finset.add_sum_erase _ _ (Finset.mem_univ j), Function.update_self]
      congr 1
      exact Finset.sum_congr rfl fun i hi => by rw [Function.update_of_ne (Finset.ne_of_mem_erase hi)]
    rw [e]
    refine HasDerivAt.add_const _ ?_
    unfold Uni.Normal.logProb gaussianGrad
    have h := ((((hasDerivAt_id (q j)).sub_const 0).pow 2).const_mul (0.5 * Real.exp (-2 * Real.log (stdev j)))).const_sub
      (-0.5 * Real.log (2 * Real.pi) - Real.log (stdev j))
    refine h.congr_deriv ?_
    simp

/-- All samples that are kept were drawn after the adaptation of step size and mass had ended for good, and there are as many iterations
between as were used for adaptation. -/
theorem C104_gaussian_schedule (nIters : ℕ) :
    (∀ i ∈ gaussianKept nIters, ∀ i' ≥ i - (nIters / 2 - nIters / 2 / 2), gaussianFeed nIters i' = ⟨false, false⟩) ∧
      (∀ i < nIters / 2 / 2, gaussianFeed nIters i = ⟨true, true⟩) ∧ (gaussianKept nIters).length = nIters - nIters / 2 := by
  refine ⟨fun i hi i' h => ?_, fun i hi => by simp [gaussianFeed, hi], ?_⟩
  · have h1 : nIters / 2 ≤ i := by
      have := (List.mem_filter.1 hi).2
      simpa using this
    have : ¬ i' < nIters / 2 / 2 := by omega
    simp [gaussianFeed, this]
  · rw [gaussianKept, filter_length]
    have e : ((Finset.range nIters).filter fun t => decide (t ≥ nIters / 2) = true) = Finset.Ico (nIters / 2) nIters := by
      ext t
      simp only [Finset.mem_filter, Finset.mem_range, decide_eq_true_eq, Finset.mem_Ico]
      tauto
    rw [e, Nat.card_Ico]

theorem measurable_joint : Measurable (gaussianLogJoint (n := n)) := by
  unfold gaussianLogJoint Uni.Normal.logProb
  fun_prop

theorem measurable_grad : Measurable (gaussianGrad (n := n)) := by
  unfold gaussianGrad
  fun_prop

theorem grad_eq (q : Fin n → ℝ) (j : Fin n) : gaussianGrad q j = -((j : ℝ) + 1) ^ 2 * q j := by
  have e : Real.exp (-2 * Real.log (stdev j)) = ((j : ℝ) + 1) ^ 2 := by
    have hj : (0 : ℝ) < (j : ℕ) + 1 := by positivity
    rw [stdev, one_div, Real.log_inv, show -2 * -Real.log ((j : ℝ) + 1) = Real.log ((j : ℝ) + 1) + Real.log ((j : ℝ) + 1) by ring,
      Real.exp_add, Real.exp_log hj, sq]
  rw [gaussianGrad, e]
  ring

/-- The trajectories are short if the five steps are short compared with the standard deviations, in units of the estimated ones. -/
theorem short {C : Type} (s : Hmc.State ℝ C (Fin n)) (eps : ℝ) (he : 0 < eps) (hv : ∀ j, 0 < s.ewmv.var j)
    (h : ∀ j : Fin n, s.ewmv.var j * ((j : ℝ) + 1) ^ 2 * (5 * eps) ^ 2 ≤ 1) :
    Hmc.ShortPath (C := C) (Hmc.burnedMass gaussianCfg s) (fun _ => gaussianGrad) gaussianCfg.nLeapfrogs eps := by
  have hp : 0 < (5 * eps) ^ 2 := by positivity
  refine ⟨by norm_num [gaussianCfg], he, ((5 * eps) ^ 2)⁻¹, by positivity, ?_, fun c x y => ?_⟩
  · show ((5 * eps) ^ 2)⁻¹ * ((5 : ℕ) * eps) ^ 2 ≤ 1
    push_cast
    rw [inv_mul_cancel₀ hp.ne']
  · refine (pi_norm_le_iff_of_nonneg (by positivity)).2 fun j => ?_
    have hb := norm_le_pi_norm (x - y) j
    have e : (gaussianGrad x j - gaussianGrad y j) / Hmc.burnedMass gaussianCfg s j =
        -(s.ewmv.var j * ((j : ℝ) + 1) ^ 2) * (x - y) j := by
      have hm : Hmc.burnedMass gaussianCfg s j = 1 / s.ewmv.var j := by simp [Hmc.burnedMass, gaussianCfg]
      rw [hm, grad_eq, grad_eq, Pi.sub_apply]
      field_simp
      ring
    have hnn : 0 ≤ s.ewmv.var j * ((j : ℝ) + 1) ^ 2 := mul_nonneg (hv j).le (sq_nonneg _)
    rw [e, norm_mul, norm_neg, Real.norm_eq_abs (s.ewmv.var j * _), abs_of_nonneg hnn]
    refine mul_le_mul ?_ hb (norm_nonneg _) (by positivity)
    rw [inv_eq_one_div, le_div_iff₀ hp]
    exact h j

/-- After the adaptation, HMC in `gaussian.py` keeps the chains at independent draws from the target, if they are. -/
theorem C104_gaussian_stationary {C : Type} [Fintype C] (s : Hmc.State ℝ C (Fin n)) (ht : 10 ≤ s.t) (hv : ∀ j, 0 < s.ewmv.var j) (k : ℕ) :
    let target : Measure (C → Fin n → ℝ) := Measure.pi fun _ => Measure.pi fun j => normal 0 (1 / ((j : ℕ) + 1))
    ∃ final : (C → Fin n → ℝ) × (Fin k → (C → Fin n → ℝ) × (C → ℝ)) → C → Fin n → ℝ, Measurable final ∧
      (∀ q w, ∃ s', Hmc.runs gaussianCfg (fun q c => gaussianLogJoint (q c)) (fun q c => gaussianGrad (q c)) ⟨false, false⟩ { s with q := q } k w =
        some s' ∧ s'.q = final (q, w)) ∧
      (target.prod (Measure.pi fun _ => Hmc.draws C (Fin n))).map final = target := by
  intro target
  obtain ⟨final, h1, h2, h3⟩ := Hmc.C52_runs_after_burn_in gaussianCfg ⟨false, false⟩ rfl rfl (fun _ : C => gaussianLogJoint)
    (fun _ => measurable_joint) (fun _ => gaussianGrad) (fun _ => measurable_grad) s (by omega) ht (fun _ => hv) k
  rw [← joint_density] at h3
  refine ⟨final, h1, fun q w => ?_, h3⟩
  obtain ⟨s', a, b, _⟩ := h2 q w
  exact ⟨s', a, b⟩

/-- After the adaptation, wherever it left the chains, the averages of every chain tend to the expectations under the target, if the
trajectories are short.  So the printed mean tends to zero, and the mean of the squares to the square of the printed standard deviation. -/
theorem C104_gaussian_averages {C : Type} [Fintype C] (s : Hmc.State ℝ C (Fin n)) (ht : 10 ≤ s.t) (hv : ∀ j, 0 < s.ewmv.var j)
    (he : 0 < s.stepSize) (h0 : ∀ j : Fin n, s.ewmv.var j * ((j : ℝ) + 1) ^ 2 * (5 * s.stepSize) ^ 2 ≤ 1)
    (h1 : ∀ j : Fin n, s.ewmv.var j * ((j : ℝ) + 1) ^ 2 * (5 * Real.exp s.tuner.logEpsBar) ^ 2 ≤ 1) (c : C) (j : Fin n) (p : ℕ)
    (hp : p = 1 ∨ p = 2) :
    ∀ δ > 0, ∀ ε > 0, ∃ k0, ∀ k ≥ k0, ∃ x : Fin k → (Fin k → (C → Fin n → ℝ) × (C → ℝ)) → C → Fin n → ℝ,
      (∀ (i : Fin k) w, ∃ s', Hmc.runs gaussianCfg (fun q c => gaussianLogJoint (q c)) (fun q c => gaussianGrad (q c)) ⟨false, false⟩ s (i + 1)
        (fun r => w (Fin.castLE i.2 r)) = some s' ∧ s'.q = x i w) ∧
      (Measure.pi fun _ : Fin k => Hmc.draws C (Fin n))
        {w | δ < |(∑ i, x i w c j ^ p) / k - if p = 1 then 0 else (1 / ((j : ℝ) + 1)) ^ 2|} ≤ ENNReal.ofReal ε := by
  have hs0 := short s s.stepSize he hv h0
  have hs1 := short s _ (Real.exp_pos _) hv h1
  have b0 : Hmc.burnedStep gaussianCfg s 0 = s.stepSize := by simp [Hmc.burnedStep]
  have b1 : Hmc.burnedStep gaussianCfg s 1 = Real.exp s.tuner.logEpsBar := by simp [Hmc.burnedStep, gaussianCfg]
  rw [← b0] at hs0
  rw [← b1] at hs1
  have hpost := (C104_gaussian (n := n)).1
  have hlp : MemLp (id : ℝ → ℝ) p (normal 0 (1 / ((j : ℕ) + 1))) := memLp_id_gaussianReal' _ (by simp)
  have i1 : Integrable (fun y : ℝ => y ^ p) (normal 0 (1 / ((j : ℕ) + 1))) := by
    rcases hp with rfl | rfl
    · have h1 : Integrable id (normal 0 (1 / ((j : ℕ) + 1))) := memLp_one_iff_integrable.1 (by simpa using hlp)
      exact h1.congr (Filter.Eventually.of_forall fun y => (pow_one y).symm)
    · exact hlp.integrable_sq
  have hi : Integrable (fun q : Fin n → ℝ => q j ^ p) (Hmc.posterior (gaussianLogJoint (n := n))) := by
    rw [hpost]
    exact integrable_comp_eval (μ := fun j : Fin n => normal 0 (1 / ((j : ℕ) + 1))) (i := j) i1
  have e : ∫ q, q j ^ p ∂(Hmc.posterior (gaussianLogJoint (n := n))) = if p = 1 then 0 else (1 / ((j : ℝ) + 1)) ^ 2 := by
    rw [hpost, integral_comp_eval (μ := fun j : Fin n => normal 0 (1 / ((j : ℕ) + 1))) (i := j) (f := fun y => y ^ p) i1.aestronglyMeasurable]
    rcases hp with rfl | rfl
    · rw [if_pos rfl]
      simp only [pow_one]
      exact integral_id_gaussianReal
    · rw [if_neg (by norm_num)]
      have h := variance_fun_id_gaussianReal (μ := 0) (v := Real.toNNReal ((1 / ((j : ℝ) + 1)) ^ 2))
      rw [variance_eq_integral aemeasurable_id', Real.coe_toNNReal _ (sq_nonneg _), integral_id_gaussianReal] at h
      simpa [normal] using h
  have h := Hmc.C87_after_burn_in gaussianCfg ⟨false, false⟩ rfl rfl (fun _ : C => gaussianLogJoint)
    (fun _ => measurable_joint) (fun _ => by rw [joint_total]; exact ENNReal.one_ne_top) (fun _ => gaussianGrad) (fun _ => measurable_grad) s (by omega) ht (fun _ => hv)
    hs0 hs1 c (fun q => q j ^ p) ((measurable_pi_apply j).pow_const p) hi
  rw [e] at h
  exact h

end

/-! ## `toy2d_intractable.py` -/

theorem normal_exp (m l : ℝ) : normal m (Real.exp l) = volume.withDensity fun x => ENNReal.ofReal (Real.exp (Uni.Normal.logProb m l x)) := by
  rw [normal_eq m (Real.exp_pos l), Real.log_exp]

theorem normal_sample (m l : ℝ) : (normal 0 1).map (Uni.Normal.sample m (Real.exp l)) = normal m (Real.exp l) := by
  have h := Uni.C18_sampler m (.logstd l) trivial
  have e : normal 0 1 = gaussianReal 0 1 := by simp [normal]
  rw [e, normal_exp]
  exact h

theorem continuous_logProb (m l : ℝ) : Continuous (Uni.Normal.logProb m l) := by
  unfold Uni.Normal.logProb
  fun_prop

theorem continuous_logP : Continuous logP := by
  unfold logP Uni.Normal.logProb
  fun_prop

theorem continuous_logQ (q : Q) : Continuous q.logQ := by
  unfold Q.logQ Uni.Normal.logProb
  fun_prop

theorem measurable_sample (q : Q) : Measurable q.sample := by
  unfold Q.sample Uni.Normal.sample
  fun_prop

/-- The draws of the variational net are independent normals, and `logQ` is their log density. -/
theorem C104_variational (q : Q) :
    ((normal 0 1).prod (normal 0 1)).map q.sample = (normal q.m1 (Real.exp q.l1)).prod (normal q.m2 (Real.exp q.l2)) ∧
      (normal q.m1 (Real.exp q.l1)).prod (normal q.m2 (Real.exp q.l2)) =
        volume.withDensity fun z => ENNReal.ofReal (Real.exp (q.logQ z)) := by
  constructor
  · have h := Measure.map_prod_map (normal 0 1) (normal 0 1) (f := Uni.Normal.sample q.m1 (Real.exp q.l1))
      (g := Uni.Normal.sample q.m2 (Real.exp q.l2)) (by unfold Uni.Normal.sample; fun_prop) (by unfold Uni.Normal.sample; fun_prop)
    rw [normal_sample, normal_sample] at h
    exact h.symm
  · have hl : ∀ m l, Measurable fun x : ℝ => ENNReal.ofReal (Real.exp (Uni.Normal.logProb m l x)) := fun m l =>
      (Real.continuous_exp.comp (continuous_logProb m l)).measurable.ennreal_ofReal
    rw [normal_exp, normal_exp, prod_withDensity (hl _ _) (hl _ _), Measure.volume_eq_prod]
    congr 1
    funext z
    rw [← ENNReal.ofReal_mul (Real.exp_pos _).le, ← Real.exp_add]
    rfl

/-- The log joint is the log density of the funnel. -/
theorem C104_funnel : funnel = volume.withDensity fun z => ENNReal.ofReal (Real.exp (logP z)) := by
  have hm : Measurable fun w : ℝ × ℝ => (Real.exp w.1 * w.2, w.1) := by fun_prop
  refine Measure.ext_of_lintegral _ fun f hf => ?_
  have hP : Measurable fun z : ℝ × ℝ => ENNReal.ofReal (Real.exp (logP z)) := (Real.continuous_exp.comp continuous_logP).measurable.ennreal_ofReal
  have hl : ∀ m l, Measurable fun x : ℝ => ENNReal.ofReal (Real.exp (Uni.Normal.logProb m l x)) := fun m l =>
    (Real.continuous_exp.comp (continuous_logProb m l)).measurable.ennreal_ofReal
  have h1 : ∀ a : ℝ, ∫⁻ b, f (Real.exp a * b, a) ∂normal 0 1 = ∫⁻ z, ENNReal.ofReal (Real.exp (Uni.Normal.logProb 0 a z)) * f (z, a) := by
    intro a
    have hs : Measurable (Uni.Normal.sample 0 (Real.exp a)) := by unfold Uni.Normal.sample; fun_prop
    have hfa : Measurable fun z => f (z, a) := by fun_prop
    have h2 : ∫⁻ z, f (z, a) ∂((normal 0 1).map (Uni.Normal.sample 0 (Real.exp a))) = ∫⁻ b, f (Uni.Normal.sample 0 (Real.exp a) b, a) ∂normal 0 1 :=
      lintegral_map hfa hs
    rw [normal_sample, normal_exp, lintegral_withDensity_eq_lintegral_mul _ (hl 0 a) hfa] at h2
    refine Eq.trans (lintegral_congr fun b => ?_) h2.symm
    simp [Uni.Normal.sample, mul_comm]
  have hg : Measurable fun a : ℝ => ∫⁻ z, ENNReal.ofReal (Real.exp (Uni.Normal.logProb 0 a z)) * f (z, a) := by
    refine Measurable.lintegral_prod_left' (f := fun p : ℝ × ℝ => ENNReal.ofReal (Real.exp (Uni.Normal.logProb 0 p.2 p.1)) * f p) ?_
    refine Measurable.mul ?_ hf
    have : Continuous fun p : ℝ × ℝ => Uni.Normal.logProb 0 p.2 p.1 := by unfold Uni.Normal.logProb; fun_prop
    exact (Real.continuous_exp.comp this).measurable.ennreal_ofReal
  rw [funnel, lintegral_map hf hm, lintegral_prod _ (by fun_prop)]
  simp only [h1]
  rw [normal_eq 0 (by norm_num : (0 : ℝ) < 1.35), lintegral_withDensity_eq_lintegral_mul _ (hl 0 _) hg,
    lintegral_withDensity_eq_lintegral_mul _ hP hf, Measure.volume_eq_prod, lintegral_prod_symm _ (hP.mul hf).aemeasurable]
  refine lintegral_congr fun a => ?_
  simp only [Pi.mul_apply]
  have hfa : Measurable fun z => ENNReal.ofReal (Real.exp (Uni.Normal.logProb 0 a z)) * f (z, a) := by
    have : Measurable fun z => f (z, a) := by fun_prop
    exact (hl 0 a).mul this
  rw [← lintegral_const_mul _ hfa]
  refine lintegral_congr fun z => ?_
  rw [← mul_assoc, ← ENNReal.ofReal_mul (Real.exp_pos _).le, ← Real.exp_add]
  rfl

instance : IsProbabilityMeasure funnel := by
  unfold funnel
  exact Measure.isProbabilityMeasure_map (by fun_prop)

/-- The expected lower bound as a function of the variational variables. -/
noncomputable def bound (q : Q) : ℝ :=
  -Real.log 1.35 - (q.m2 ^ 2 + Real.exp q.l2 ^ 2) / (2 * 1.35 ^ 2) - q.m2 -
    (q.m1 ^ 2 + Real.exp q.l1 ^ 2) * Real.exp (-2 * q.m2 + 2 * Real.exp q.l2 ^ 2) / 2 + q.l1 + q.l2 + 1

theorem integral_sq (m s c : ℝ) : Integrable (fun x : ℝ => (x - c) ^ 2) (normal m s) ∧
    ∫ x, (x - c) ^ 2 ∂normal m s = (m - c) ^ 2 + s ^ 2 := by
  have hlp : MemLp (fun x : ℝ => x - c) 2 (normal m s) := (memLp_id_gaussianReal' 2 (by simp)).sub (memLp_const c)
  have hi : Integrable (fun x : ℝ => x - c) (normal m s) := hlp.integrable (by norm_num)
  refine ⟨hlp.integrable_sq, ?_⟩
  have h1 : ∫ x, (x - c) ∂normal m s = m - c := by
    have hid : Integrable (fun x : ℝ => x) (normal m s) := (memLp_id_gaussianReal' 2 (by simp)).integrable (by norm_num)
    rw [integral_sub hid (integrable_const c), integral_const]
    have : ∫ x, x ∂normal m s = m := integral_id_gaussianReal
    simp [this]
  have h2 : Var[fun x : ℝ => x - c; normal m s] = s ^ 2 := by
    rw [variance_sub_const (by fun_prop)]
    have := variance_fun_id_gaussianReal (μ := m) (v := Real.toNNReal (s ^ 2))
    rw [Real.coe_toNNReal _ (sq_nonneg _)] at this
    exact this
  rw [variance_eq_sub hlp] at h2
  simp only [Pi.pow_apply] at h2
  rw [h1] at h2
  linarith

theorem integral_exp (m s : ℝ) : Integrable (fun x : ℝ => Real.exp (-2 * x)) (normal m s) ∧
    ∫ x, Real.exp (-2 * x) ∂normal m s = Real.exp (-2 * m + 2 * s ^ 2) := by
  refine ⟨integrable_exp_mul_gaussianReal _, ?_⟩
  have h := congrFun (mgf_id_gaussianReal (μ := m) (v := Real.toNNReal (s ^ 2))) (-2)
  rw [Real.coe_toNNReal _ (sq_nonneg _)] at h
  have e : mgf id (gaussianReal m (Real.toNNReal (s ^ 2))) (-2) = ∫ x, Real.exp (-2 * x) ∂normal m s := rfl
  rw [← e, h]
  congr 1
  ring

theorem expected_diff (q : Q) :
    Integrable (fun z => logP z - q.logQ z) ((normal q.m1 (Real.exp q.l1)).prod (normal q.m2 (Real.exp q.l2))) ∧
      ∫ z, (logP z - q.logQ z) ∂((normal q.m1 (Real.exp q.l1)).prod (normal q.m2 (Real.exp q.l2))) = bound q := by
  set P1 := normal q.m1 (Real.exp q.l1) with hP1
  set P2 := normal q.m2 (Real.exp q.l2) with hP2
  have hx := integral_exp q.m2 (Real.exp q.l2)
  rw [← hP2] at hx
  have a1 := integral_sq q.m1 (Real.exp q.l1) 0
  have a1' := integral_sq q.m1 (Real.exp q.l1) q.m1
  have a2 := integral_sq q.m2 (Real.exp q.l2) 0
  have a2' := integral_sq q.m2 (Real.exp q.l2) q.m2
  rw [← hP1] at a1 a1'
  rw [← hP2] at a2 a2'
  have aid : Integrable (fun x : ℝ => x) P2 ∧ ∫ x, x ∂P2 = q.m2 :=
    ⟨(memLp_id_gaussianReal' 2 (by simp)).integrable (by norm_num), integral_id_gaussianReal⟩
  -- the five terms
  have t1 : Integrable (fun z : ℝ × ℝ => (z.2 - 0) ^ 2) (P1.prod P2) := a2.1.comp_snd P1
  have t2 : Integrable (fun z : ℝ × ℝ => z.2) (P1.prod P2) := aid.1.comp_snd P1
  have t3 : Integrable (fun z : ℝ × ℝ => (z.1 - 0) ^ 2 * Real.exp (-2 * z.2)) (P1.prod P2) := a1.1.mul_prod hx.1
  have t4 : Integrable (fun z : ℝ × ℝ => (z.1 - q.m1) ^ 2) (P1.prod P2) := a1'.1.comp_fst P2
  have t5 : Integrable (fun z : ℝ × ℝ => (z.2 - q.m2) ^ 2) (P1.prod P2) := a2'.1.comp_snd P1
  have v1 : ∫ z, (z.2 - 0) ^ 2 ∂(P1.prod P2) = q.m2 ^ 2 + Real.exp q.l2 ^ 2 := by
    rw [integral_fun_snd (fun y : ℝ => (y - 0) ^ 2), a2.2]; simp
  have v2 : ∫ z, z.2 ∂(P1.prod P2) = q.m2 := by rw [integral_fun_snd (fun y : ℝ => y), aid.2]; simp
  have v3 : ∫ z, (z.1 - 0) ^ 2 * Real.exp (-2 * z.2) ∂(P1.prod P2) =
      (q.m1 ^ 2 + Real.exp q.l1 ^ 2) * Real.exp (-2 * q.m2 + 2 * Real.exp q.l2 ^ 2) := by
    rw [integral_prod_mul (fun x : ℝ => (x - 0) ^ 2) (fun y : ℝ => Real.exp (-2 * y)), a1.2, hx.2, sub_zero]
  have v4 : ∫ z, (z.1 - q.m1) ^ 2 ∂(P1.prod P2) = Real.exp q.l1 ^ 2 := by
    rw [integral_fun_fst (fun y : ℝ => (y - q.m1) ^ 2), a1'.2]; simp
  have v5 : ∫ z, (z.2 - q.m2) ^ 2 ∂(P1.prod P2) = Real.exp q.l2 ^ 2 := by
    rw [integral_fun_snd (fun y : ℝ => (y - q.m2) ^ 2), a2'.2]; simp
  have hc : Real.exp (-2 * Real.log 1.35) = 1 / 1.35 ^ 2 := by
    rw [show -2 * Real.log 1.35 = -(Real.log 1.35 + Real.log 1.35) by ring, Real.exp_neg, Real.exp_add, Real.exp_log (by norm_num)]
    norm_num
  have e : ∀ z : ℝ × ℝ, logP z - q.logQ z = (-Real.log 1.35 + q.l1 + q.l2) - 1 / (2 * 1.35 ^ 2) * (z.2 - 0) ^ 2 - z.2 -
      1 / 2 * ((z.1 - 0) ^ 2 * Real.exp (-2 * z.2)) + 1 / 2 * Real.exp (-2 * q.l1) * (z.1 - q.m1) ^ 2 +
      1 / 2 * Real.exp (-2 * q.l2) * (z.2 - q.m2) ^ 2 := by
    intro z
    simp only [logP, Q.logQ, Uni.Normal.logProb, hc]
    ring
  have hE : ∀ l : ℝ, Real.exp (-2 * l) * Real.exp l ^ 2 = 1 := fun l => by
    rw [sq, ← Real.exp_add, ← Real.exp_add, ← Real.exp_zero]
    congr 1
    ring
  have g0 : Integrable (fun _ : ℝ × ℝ => (-Real.log 1.35 + q.l1 + q.l2)) (P1.prod P2) := integrable_const _
  have g1 := t1.const_mul (1 / (2 * 1.35 ^ 2))
  have g3 := t3.const_mul (1 / 2)
  have g4 := t4.const_mul (1 / 2 * Real.exp (-2 * q.l1))
  have g5 := t5.const_mul (1 / 2 * Real.exp (-2 * q.l2))
  have i1 : Integrable (fun z : ℝ × ℝ => (-Real.log 1.35 + q.l1 + q.l2) - 1 / (2 * 1.35 ^ 2) * (z.2 - 0) ^ 2) (P1.prod P2) := g0.sub g1
  have i2 : Integrable (fun z : ℝ × ℝ => (-Real.log 1.35 + q.l1 + q.l2) - 1 / (2 * 1.35 ^ 2) * (z.2 - 0) ^ 2 - z.2) (P1.prod P2) := i1.sub t2
  have i3 : Integrable (fun z : ℝ × ℝ => (-Real.log 1.35 + q.l1 + q.l2) - 1 / (2 * 1.35 ^ 2) * (z.2 - 0) ^ 2 - z.2 -
      1 / 2 * ((z.1 - 0) ^ 2 * Real.exp (-2 * z.2))) (P1.prod P2) := i2.sub g3
  have i4 : Integrable (fun z : ℝ × ℝ => (-Real.log 1.35 + q.l1 + q.l2) - 1 / (2 * 1.35 ^ 2) * (z.2 - 0) ^ 2 - z.2 -
      1 / 2 * ((z.1 - 0) ^ 2 * Real.exp (-2 * z.2)) + 1 / 2 * Real.exp (-2 * q.l1) * (z.1 - q.m1) ^ 2) (P1.prod P2) := i3.add g4
  refine ⟨(i4.add g5).congr (Filter.Eventually.of_forall fun z => (e z).symm), ?_⟩
  simp only [e]
  rw [integral_add i4 g5, integral_add i3 g4, integral_sub i2 g3, integral_sub i1 t2, integral_sub g0 g1]
  simp only [integral_const_mul, v1, v2, v3, v4, v5, integral_const, probReal_univ, one_smul]
  have h1 := hE q.l1
  have h2 := hE q.l2
  have r1 : 1 / 2 * Real.exp (-2 * q.l1) * Real.exp q.l1 ^ 2 = 1 / 2 := by rw [mul_assoc, h1, mul_one]
  have r2 : 1 / 2 * Real.exp (-2 * q.l2) * Real.exp q.l2 ^ 2 = 1 / 2 := by rw [mul_assoc, h2, mul_one]
  rw [r1, r2, bound]
  ring

/-- The expected lower bound of `toy2d_intractable.py` is minus the divergence of the variational distribution from the funnel, which is
finite. -/
theorem C104_toy2d (q : Q) {K : ℕ} (hK : 0 < K) :
    klDiv ((normal q.m1 (Real.exp q.l1)).prod (normal q.m2 (Real.exp q.l2))) funnel ≠ ⊤ ∧
      ∫ e, lowerBound q e ∂particles K = -(klDiv ((normal q.m1 (Real.exp q.l1)).prod (normal q.m2 (Real.exp q.l2))) funnel).toReal := by
  obtain ⟨hi, hb⟩ := expected_diff q
  obtain ⟨hs, hd⟩ := C104_variational q
  have hp : Measurable fun z => Real.exp (logP z) := (Real.continuous_exp.comp continuous_logP).measurable
  have hq : Measurable fun z => Real.exp (q.logQ z) := (Real.continuous_exp.comp (continuous_logQ q)).measurable
  have one : ∀ f : ℝ × ℝ → ℝ, Measurable f → (∀ z, 0 ≤ f z) → IsProbabilityMeasure (volume.withDensity fun z => ENNReal.ofReal (f z)) →
      Integrable f ∧ ∫ z, f z = 1 := by
    intro f hf h0 hP
    have h : ∫⁻ z, ENNReal.ofReal (f z) = 1 := by
      have := measure_univ (μ := volume.withDensity fun z => ENNReal.ofReal (f z))
      rwa [withDensity_apply _ MeasurableSet.univ, Measure.restrict_univ] at this
    refine ⟨⟨hf.aestronglyMeasurable, ?_⟩, ?_⟩
    · rw [hasFiniteIntegral_iff_ofReal (Filter.Eventually.of_forall h0), h]
      exact ENNReal.one_lt_top
    · rw [integral_eq_lintegral_of_nonneg_ae (Filter.Eventually.of_forall h0) hf.aestronglyMeasurable, h, ENNReal.toReal_one]
  obtain ⟨p1, p2⟩ := one _ hp (fun z => (Real.exp_pos _).le) (by rw [← C104_funnel]; infer_instance)
  obtain ⟨q1, q2⟩ := one _ hq (fun z => (Real.exp_pos _).le) (by rw [← hd]; infer_instance)
  have hev : Grad.evidence volume (fun z => Real.exp (logP z)) = 1 := p2
  have hlm : Grad.LatentModel volume (fun z => Real.exp (logP z)) (fun z => Real.exp (q.logQ z)) :=
    ⟨hp, hq, fun z => (Real.exp_pos _).le, fun z => (Real.exp_pos _).le, p1, by rw [hev]; exact one_pos, q1, q2,
      fun z h => absurd h (Real.exp_pos _).ne'⟩
  have hpost : Grad.posterior volume (fun z => Real.exp (logP z)) = funnel := by
    rw [Grad.posterior, hev, C104_funnel]
    simp
  have hlaw : Grad.law volume (fun z => Real.exp (q.logQ z)) = (normal q.m1 (Real.exp q.l1)).prod (normal q.m2 (Real.exp q.l2)) := hd.symm
  have h := Grad.C39_elbo_gap hlm (logp := fun z => Grad.Dual.const (logP z)) (logq := fun z => Grad.Dual.const (q.logQ z))
    (fun z => (Real.log_exp _).symm) (fun z => (Real.log_exp _).symm) (by rw [hlaw]; simpa only [Real.log_exp] using hi) (K - 1)
  rw [hev, hpost, hlaw, Real.log_one, zero_sub] at h
  refine ⟨h.1, ?_⟩
  rw [← h.2]
  obtain ⟨K, rfl⟩ : ∃ k, K = k + 1 := ⟨K - 1, by omega⟩
  rw [show K + 1 - 1 = K from rfl]
  have hmap : (particles (K + 1)).map (fun e k => q.sample (e k)) = Grad.samples volume (fun z => Real.exp (q.logQ z)) (K + 1) := by
    have h3 := Measure.pi_map_pi (μ := fun _ : Fin (K + 1) => (normal 0 1).prod (normal 0 1)) (f := fun _ => q.sample)
      fun _ => (measurable_sample q).aemeasurable
    rw [particles, h3, Grad.samples, hlaw, hs]
  rw [← hmap, integral_map]
  · refine integral_congr_ae (Filter.Eventually.of_forall fun e => ?_)
    simp only [Grad.elboObjective_val, lowerBound]
    rfl
  · exact (measurable_pi_lambda _ fun k => (measurable_sample q).comp (measurable_pi_apply k)).aemeasurable
  · simp only [Grad.elboObjective_val]
    have : Measurable fun z : Fin (K + 1) → ℝ × ℝ => (∑ k, (logP (z k) - q.logQ (z k))) / ((K + 1 : ℕ) : ℝ) := by
      refine Measurable.div_const (Finset.measurable_sum _ fun k _ => ?_) _
      exact (continuous_logP.measurable.comp (measurable_pi_apply k)).sub ((continuous_logQ q).measurable.comp (measurable_pi_apply k))
    exact this.aestronglyMeasurable

/-- The expected lower bound in closed form, and its best value: no product of normals comes closer to the funnel than `log(1 + 2 * 1.35 ** 2) / 2`, and one
does, with both means zero. -/
theorem C104_toy2d_best (q : Q) {K : ℕ} (hK : 0 < K) :
    ∫ e, lowerBound q e ∂particles K = -Real.log 1.35 - (q.m2 ^ 2 + Real.exp q.l2 ^ 2) / (2 * 1.35 ^ 2) - q.m2 -
        (q.m1 ^ 2 + Real.exp q.l1 ^ 2) * Real.exp (-2 * q.m2 + 2 * Real.exp q.l2 ^ 2) / 2 + q.l1 + q.l2 + 1 ∧
      ∫ e, lowerBound q e ∂particles K ≤ -Real.log (1 + 2 * 1.35 ^ 2) / 2 ∧
      (∫ e, lowerBound q e ∂particles K = -Real.log (1 + 2 * 1.35 ^ 2) / 2 ↔
        q.m1 = 0 ∧ q.m2 = 0 ∧ Real.exp q.l2 ^ 2 = 1.35 ^ 2 / (1 + 2 * 1.35 ^ 2) ∧ q.l1 = -(1.35 ^ 2 / (1 + 2 * 1.35 ^ 2))) := by
  have hexp : ∫ e, lowerBound q e ∂particles K = bound q := by
    have h := expected_diff q
    have hs := (C104_variational q).1
    rw [← hs] at h
    have hmeas : AEStronglyMeasurable (fun z => logP z - q.logQ z) (((normal 0 1).prod (normal 0 1)).map q.sample) :=
      (continuous_logP.sub (continuous_logQ q)).aestronglyMeasurable
    rw [integrable_map_measure hmeas (measurable_sample q).aemeasurable, integral_map (measurable_sample q).aemeasurable hmeas] at h
    have hc : ∀ k : Fin K, ∫ e, (logP (q.sample (e k)) - q.logQ (q.sample (e k))) ∂particles K = bound q := fun k => by
      rw [← h.2]
      exact integral_comp_eval (μ := fun _ : Fin K => (normal 0 1).prod (normal 0 1)) (i := k)
        (f := fun e => logP (q.sample e) - q.logQ (q.sample e)) h.1.aestronglyMeasurable
    unfold lowerBound
    have hi : ∀ k : Fin K, Integrable (fun e : Fin K → ℝ × ℝ => logP (q.sample (e k)) - q.logQ (q.sample (e k))) (particles K) := fun k =>
      integrable_comp_eval (μ := fun _ : Fin K => (normal 0 1).prod (normal 0 1)) (i := k) h.1
    rw [integral_div, integral_finsetSum _ fun k _ => hi k]
    simp only [hc]
    rw [Finset.sum_const, Finset.card_univ, Fintype.card_fin, nsmul_eq_mul]
    have : (K : ℝ) ≠ 0 := by positivity
    field_simp
  refine ⟨hexp, ?_⟩
  rw [hexp]
  set c : ℝ := 1.35 ^ 2 with hc
  have hcp : 0 < c := by rw [hc]; norm_num
  set E := Real.exp (-2 * q.m2 + 2 * Real.exp q.l2 ^ 2) with hE
  set u := Real.exp q.l1 ^ 2 * E with hu
  set v := Real.exp q.l2 ^ 2 * ((1 + 2 * c) / c) with hv
  have hup : 0 < u := by positivity
  have hvp : 0 < v := by positivity
  have lu : Real.log u = 2 * q.l1 - 2 * q.m2 + 2 * Real.exp q.l2 ^ 2 := by
    rw [hu, Real.log_mul (by positivity) (by positivity), Real.log_pow, Real.log_exp, hE, Real.log_exp]
    push_cast
    ring
  have lv : Real.log v = 2 * q.l2 + Real.log (1 + 2 * c) - 2 * Real.log 1.35 := by
    rw [hv, Real.log_mul (by positivity) (by positivity), Real.log_pow, Real.log_exp, Real.log_div (by positivity) (by positivity), hc,
      Real.log_pow]
    push_cast
    ring
  have hb : bound q = -Real.log (1 + 2 * c) / 2 + (Real.log u - u + 1) / 2 + (Real.log v - v + 1) / 2 - q.m1 ^ 2 * E / 2 -
      q.m2 ^ 2 / (2 * c) := by
    have hv' : v = Real.exp q.l2 ^ 2 / c + 2 * Real.exp q.l2 ^ 2 := by
      rw [hv]
      field_simp
    rw [lu, lv, hv', bound, ← hE, ← hc, hu]
    field_simp
    ring
  have fu := Real.log_le_sub_one_of_pos hup
  have fv := Real.log_le_sub_one_of_pos hvp
  have f1 : 0 ≤ q.m1 ^ 2 * E / 2 := by positivity
  have f2 : 0 ≤ q.m2 ^ 2 / (2 * c) := by positivity
  refine ⟨by rw [hb]; linarith, ?_⟩
  constructor
  · intro h
    rw [hb] at h
    have m1 : q.m1 ^ 2 * E / 2 = 0 := by linarith
    have m2 : q.m2 ^ 2 / (2 * c) = 0 := by linarith
    have hm1 : q.m1 = 0 := by
      have : q.m1 ^ 2 = 0 := by
        rcases mul_eq_zero.1 (by linarith : q.m1 ^ 2 * E = 0) with h | h
        · exact h
        · exact absurd h (Real.exp_pos _).ne'
      exact pow_eq_zero_iff (by norm_num) |>.1 this
    have hm2 : q.m2 = 0 := by
      have : q.m2 ^ 2 = 0 := (div_eq_zero_iff.1 m2).resolve_right (by positivity)
      exact pow_eq_zero_iff (by norm_num) |>.1 this
    have eu : u = 1 := by
      by_contra hne
      have := Real.log_lt_sub_one_of_pos hup hne
      linarith
    have ev : v = 1 := by
      by_contra hne
      have := Real.log_lt_sub_one_of_pos hvp hne
      linarith
    have hs2 : Real.exp q.l2 ^ 2 = c / (1 + 2 * c) := by
      rw [hv] at ev
      field_simp at ev ⊢
      linarith
    refine ⟨hm1, hm2, hs2, ?_⟩
    rw [eu, Real.log_one, hm2, hs2] at lu
    linarith
  · rintro ⟨hm1, hm2, hs2, hl1⟩
    have ev : v = 1 := by
      rw [hv, hs2]
      field_simp
    have eu : Real.log u = 0 := by
      rw [lu, hm2, hs2, hl1]
      ring
    have eu' : u = 1 := Real.eq_one_of_pos_of_log_eq_zero hup eu
    rw [hb, eu', ev, hm1, hm2]
    simp

/-- The first contours are those of the density of the funnel. -/
theorem C104_model_contour (z : ℝ × ℝ) : modelContour z = Real.exp (logP z) := by
  have h : ∀ x s : ℝ, 0 < s → Real.log (normPdf x 0 s) = Uni.Normal.logProb 0 (Real.log s) x := by
    intro x s hs
    have e : Real.exp (-2 * Real.log s) = (s ^ 2)⁻¹ := by
      rw [show -2 * Real.log s = -(Real.log s + Real.log s) by ring, Real.exp_neg, Real.exp_add, Real.exp_log hs, sq]
    rw [normPdf, Real.log_div (by positivity) hs.ne', Real.log_div (by positivity) (by positivity), Real.log_exp, Real.log_sqrt (by positivity)]
    simp only [Uni.Normal.logProb, e]
    field_simp
    ring
  rw [modelContour, h _ _ (by norm_num), h _ _ (Real.exp_pos _), Real.log_exp]
  rfl

/-- The second contours are those of normals whose standard deviations are the square roots of the ones that were found. -/
theorem C104_variational_contour (q : Q) (z : ℝ × ℝ) : variationalContour q z = Real.exp (Q.logQ ⟨q.m1, q.l1 / 2, q.m2, q.l2 / 2⟩ z) := by
  have h1 : 1 / (2 * Real.pi * Real.sqrt (Real.exp q.l1 * Real.exp q.l2)) = Real.exp (-Real.log (2 * Real.pi) - q.l1 / 2 - q.l2 / 2) := by
    have e : Real.sqrt (Real.exp q.l1 * Real.exp q.l2) = Real.exp (q.l1 / 2 + q.l2 / 2) := by
      rw [← Real.exp_add, Real.sqrt_eq_rpow, ← Real.exp_mul]
      congr 1
      ring
    rw [e, show -Real.log (2 * Real.pi) - q.l1 / 2 - q.l2 / 2 = -(Real.log (2 * Real.pi) + (q.l1 / 2 + q.l2 / 2)) by ring, Real.exp_neg,
      Real.exp_add (Real.log _), Real.exp_log (by positivity), one_div]
  rw [variationalContour, h1, ← Real.exp_add]
  congr 1
  simp only [Q.logQ, Uni.Normal.logProb]
  rw [show -2 * (q.l1 / 2) = -q.l1 by ring, show -2 * (q.l2 / 2) = -q.l2 by ring, Real.exp_neg, Real.exp_neg]
  field_simp
  ring

/-- So they show the variational distribution only when both standard deviations are one. -/
theorem C104_contours_differ (q : Q) : (∀ z, variationalContour q z = Real.exp (q.logQ z)) ↔ q.l1 = 0 ∧ q.l2 = 0 := by
  simp only [C104_variational_contour, Real.exp_eq_exp]
  constructor
  · intro h
    have key : ∀ m l : ℝ, Uni.Normal.logProb m (l / 2) (m + 1) - Uni.Normal.logProb m (l / 2) m =
        Uni.Normal.logProb m l (m + 1) - Uni.Normal.logProb m l m → l = 0 := by
      intro m l hh
      simp only [Uni.Normal.logProb] at hh
      have : Real.exp (-2 * (l / 2)) = Real.exp (-2 * l) := by
        have h5 : (0.5 : ℝ) ≠ 0 := by norm_num
        have : 0.5 * Real.exp (-2 * (l / 2)) = 0.5 * Real.exp (-2 * l) := by
          ring_nf at hh ⊢
          linarith
        exact mul_left_cancel₀ h5 this
      have := Real.exp_injective this
      linarith
    constructor
    · have a := h (q.m1 + 1, 0)
      have b := h (q.m1, 0)
      simp only [Q.logQ] at a b
      exact key q.m1 q.l1 (by linarith)
    · have a := h (0, q.m2 + 1)
      have b := h (0, q.m2)
      simp only [Q.logQ] at a b
      exact key q.m2 q.l2 (by linarith)
  · rintro ⟨h1, h2⟩ z
    simp [Q.logQ, h1, h2]

/-! ## Cases that meet the hypotheses -/

/-- The run of `mixture_sgnht.py` keeps 100 samples of each chain, the first at iteration 20000. -/
example : (mixtureKept 30000).length = 100 ∧ 20000 ∈ mixtureKept 30000 ∧ 20001 ∉ mixtureKept 30000 := by
  obtain ⟨h1, h2⟩ := C104_mixture_kept 100
  exact ⟨h1, (h2 20000).2 ⟨by norm_num, by norm_num, by norm_num⟩, fun h => by have := ((h2 20001).1 h).2.2; omega⟩

/-- The estimate from two samples with one sample in a batch. -/
example (x : ℝ) : kde 1 x [0, 1] 1 = some (([0, 1].map fun m => gaussianPDFReal m (Real.toNNReal (1 ^ 2)) x).sum / 2) :=
  C104_kde one_pos x [0, 1] 1 one_pos (one_dvd _)

/-- Samples that are all equal to one variable. -/
example : ∃ f : ℝ → ℝ, (∀ ω, kde 1 0 (List.ofFn fun _ : Fin 2 => ω) 2 = some (f ω)) ∧
    ∫ ω, f ω ∂normal 0 1 = ∫ m, gaussianPDFReal m (Real.toNNReal (1 ^ 2)) 0 ∂normal 0 1 :=
  C104_kde_expected (normal 0 1) (normal 0 1) (by norm_num) (fun _ ω => ω) (fun _ => aemeasurable_id') (fun _ => Measure.map_id) one_pos 2
    (by norm_num) dvd_rfl 0

/-- In `gaussian.py` the adaptation ends at iteration 50 and the samples from iteration 100 on are kept. -/
example : gaussianFeed 200 49 = ⟨true, true⟩ ∧ gaussianFeed 200 50 = ⟨false, false⟩ ∧ (gaussianKept 200).length = 100 :=
  ⟨rfl, rfl, (C104_gaussian_schedule 200).2.2⟩

/-- With the exact variances, steps of at most a fifth are short enough. -/
example {C : Type} [Fintype C] (s : Hmc.State ℝ C (Fin 10)) (ht : s.t = 50) (hv : ∀ j, s.ewmv.var j = (1 / ((j : ℝ) + 1)) ^ 2)
    (he : s.stepSize = 0.2) (hl : s.tuner.logEpsBar = Real.log 0.1) :
    10 ≤ s.t ∧ (∀ j, 0 < s.ewmv.var j) ∧ (∀ j : Fin 10, s.ewmv.var j * ((j : ℝ) + 1) ^ 2 * (5 * s.stepSize) ^ 2 ≤ 1) ∧
      ∀ j : Fin 10, s.ewmv.var j * ((j : ℝ) + 1) ^ 2 * (5 * Real.exp s.tuner.logEpsBar) ^ 2 ≤ 1 := by
  have h : ∀ j : Fin 10, s.ewmv.var j * ((j : ℝ) + 1) ^ 2 = 1 := fun j => by
    have : (j : ℝ) + 1 ≠ 0 := by positivity
    rw [hv]
    field_simp
  refine ⟨by omega, fun j => by rw [hv]; positivity, fun j => ?_, fun j => ?_⟩
  · rw [h, he]; norm_num
  · rw [h, hl, Real.exp_log (by norm_num)]; norm_num

/-- The variational variables at the start of `toy2d_intractable.py` are not the best ones. -/
example : ∫ e, lowerBound ⟨-2, -5, -2, -5⟩ e ∂particles 500 < -Real.log (1 + 2 * 1.35 ^ 2) / 2 := by
  obtain ⟨_, h2, h3⟩ := C104_toy2d_best ⟨-2, -5, -2, -5⟩ (by norm_num : 0 < 500)
  refine lt_of_le_of_ne h2 fun h => ?_
  have := (h3.1 h).1
  norm_num at this

/-- The best ones exist. -/
example : ∃ q : Q, ∫ e, lowerBound q e ∂particles 500 = -Real.log (1 + 2 * 1.35 ^ 2) / 2 := by
  refine ⟨⟨0, -(1.35 ^ 2 / (1 + 2 * 1.35 ^ 2)), 0, Real.log (1.35 ^ 2 / (1 + 2 * 1.35 ^ 2)) / 2⟩,
    (C104_toy2d_best _ (by norm_num)).2.2.2 ⟨rfl, rfl, ?_, rfl⟩⟩
  rw [sq, ← Real.exp_add, add_halves, Real.exp_log (by norm_num)]

/-- The contours at the start do not show the variational distribution. -/
example : ¬ ∀ z, variationalContour ⟨-2, -5, -2, -5⟩ z = Real.exp (Q.logQ ⟨-2, -5, -2, -5⟩ z) := by
  rw [C104_contours_differ]
  norm_num

end ZhuSuan.Toy

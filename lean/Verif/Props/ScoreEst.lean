import Mathlib.Probability.StrongLaw
import Mathlib.Logic.Equiv.Fin.Basic
import Verif.Props.Estimators

/-!
# C42, C44 and C45: the score function estimators and the importance estimator
-/

set_option autoImplicit false

namespace ZhuSuan.Grad
open MeasureTheory Dual

variable {Z : Type*} [MeasurableSpace Z]

/-! ### C42 -/

theorem reinforceCost1_der (vr : Bool) (b : Option Dual) (mm logp logq : Dual) :
    (reinforceCost1 vr b mm logp logq).der =
      -logp.der - (logp.val - logq.val) * logq.der +
        (if vr then ((b.map Dual.val).getD 0 + mm.val) else 0) * logq.der := by
  cases vr <;> cases b <;>
    simp [reinforceCost1, reinforceSignal, entropyTerm] <;> ring

section
variable {μ : Measure Z} {lp lq : ℝ → Z → ℝ} {lp' lq' : Z → ℝ} {θ : ℝ} {K : ℕ}

/-- C42.  The expected gradient of the `reinforce` cost of `K + 1` samples that carry no gradient is the
gradient of minus the expected elbo, with or without variance reduction, for every value `mm` of the
moving mean and every baseline whose value for a sample is a function of the other samples (a function of
the observations only is the constant case). -/
theorem C42_unbiased (h : ElboFamily μ lp lq lp' lq' θ) (vr : Bool) (mm : Dual)
    (b : Fin (K + 1) → Option ((Fin K → Z) → Dual))
    (hb : ∀ k g, b k = some g → Integrable (fun w => (g w).val)
      (samples μ (fun z => Real.exp (lq θ z)) K)) :
    HasDerivAt (fun t => -∫ z, (elboObjective (fun k => const (lp t (z k)))
        (fun k => const (lq t (z k)))).val ∂(samples μ (fun z => Real.exp (lq t z)) (K + 1)))
      (∫ z, (reinforceCost vr (fun k => (b k).map fun g => g fun i => z (k.succAbove i)) mm
        (fun k => ⟨lp θ (z k), lp' (z k)⟩) (fun k => ⟨lq θ (z k), lq' (z k)⟩)).der
        ∂(samples μ (fun z => Real.exp (lq θ z)) (K + 1))) θ := by
  have hprob := h.prob
  obtain ⟨si, s0⟩ := h.score_zero
  set ν : Measure Z := law μ fun z => Real.exp (lq θ z) with hν
  -- the expected elbo does not depend on the number of samples
  have hobj : ∀ t, ∫ z, (elboObjective (fun k => const (lp t (z k)))
        (fun k => const (lq t (z k)))).val ∂(samples μ (fun z => Real.exp (lq t z)) (K + 1)) =
      ∫ z, (lp t z - lq t z) ∂(law μ fun z => Real.exp (lq t z)) := by
    intro t
    simp only [elboObjective_val, val_const]
    rw [integral_div, integral_finsetSum _ fun k _ =>
      integrable_comp_eval (μ := fun _ : Fin (K + 1) => law μ fun z => Real.exp (lq t z)) (i := k)
        (h.elbo_int t)]
    have e : ∀ k : Fin (K + 1), ∫ z, (lp t (z k) - lq t (z k))
          ∂(samples μ (fun z => Real.exp (lq t z)) (K + 1)) =
        ∫ z, (lp t z - lq t z) ∂(law μ fun z => Real.exp (lq t z)) := fun k =>
      integral_comp_eval (μ := fun _ : Fin (K + 1) => law μ fun z => Real.exp (lq t z)) (i := k)
        (h.elbo_int t).1
    simp only [e]
    simp
    field_simp
  simp only [hobj]
  refine h.elbo.leibniz.neg.congr_deriv ?_
  -- the part of the cost that depends on one sample only
  set f : Z → ℝ := fun z => -lp' z - (lp θ z - lq θ z) * lq' z with hf
  have ilp : Integrable lp' ν := by
    refine (h.elbo.int_F'.add si).congr (Filter.Eventually.of_forall fun z => ?_)
    simp
  have isF : Integrable (fun z => (lp θ z - lq θ z) * lq' z) ν :=
    h.elbo.int_sF.congr (Filter.Eventually.of_forall fun z => mul_comm _ _)
  have fi : Integrable f ν := ilp.neg.sub isF
  have fval : ∫ z, f z ∂ν = -∫ z, (lq' z * (lp θ z - lq θ z) + (lp' z - lq' z)) ∂ν := by
    have e1 : ∫ z, (lq' z * (lp θ z - lq θ z) + (lp' z - lq' z)) ∂ν =
        ∫ z, (lp θ z - lq θ z) * lq' z ∂ν + ∫ z, lp' z ∂ν := by
      rw [integral_add h.elbo.int_sF h.elbo.int_F', integral_sub ilp si, s0, sub_zero]
      congr 1
      exact integral_congr_ae (Filter.Eventually.of_forall fun z => mul_comm _ _)
    have inl : Integrable (fun z => -lp' z) ν := ilp.neg
    simp only [hf]
    rw [e1, integral_sub inl isF, integral_neg]
    ring
  -- the control variate of sample k
  set c : Fin (K + 1) → (Fin K → Z) → ℝ := fun k w =>
    if vr then ((((b k).map fun g => g w).map Dual.val).getD 0 + mm.val) else 0 with hc
  have ci : ∀ k, Integrable (c k) (Measure.pi fun _ : Fin K => ν) := by
    intro k
    simp only [hc]
    cases vr
    · simp
    · simp only [if_true]
      refine Integrable.add ?_ (integrable_const _)
      cases hbk : b k with
      | none => simp
      | some g => simpa [hbk] using hb k g hbk
  have cost : ∀ z : Fin (K + 1) → Z,
      (reinforceCost vr (fun k => (b k).map fun g => g fun i => z (k.succAbove i)) mm
        (fun k => ⟨lp θ (z k), lp' (z k)⟩) (fun k => ⟨lq θ (z k), lq' (z k)⟩)).der =
      (∑ k, (f (z k) + lq' (z k) * c k (fun i => z (k.succAbove i)))) / ((K + 1 : ℕ) : ℝ) := by
    intro z
    simp only [reinforceCost, reduceMean_der, reinforceCost1_der, hf, hc]
    congr 1
    refine Finset.sum_congr rfl fun k _ => ?_
    ring
  simp only [cost]
  have i1 : ∀ k : Fin (K + 1), Integrable (fun z : Fin (K + 1) → Z => f (z k))
      (Measure.pi fun _ => ν) := fun k =>
    integrable_comp_eval (μ := fun _ : Fin (K + 1) => ν) (i := k) fi
  have i2 : ∀ k : Fin (K + 1), Integrable
      (fun z : Fin (K + 1) → Z => lq' (z k) * c k (fun i => z (k.succAbove i)))
      (Measure.pi fun _ => ν) := fun k => integrable_score_mul_rest ν lq' si k (c k) (ci k)
  have i3 : ∀ k : Fin (K + 1), Integrable
      (fun z : Fin (K + 1) → Z => f (z k) + lq' (z k) * c k (fun i => z (k.succAbove i)))
      (Measure.pi fun _ => ν) := fun k => (i1 k).add (i2 k)
  rw [integral_div, integral_finsetSum _ fun k _ => i3 k]
  have e : ∀ k : Fin (K + 1), ∫ z : Fin (K + 1) → Z,
      (f (z k) + lq' (z k) * c k (fun i => z (k.succAbove i))) ∂(Measure.pi fun _ => ν) =
      ∫ z, f z ∂ν := by
    intro k
    rw [integral_add (i1 k) (i2 k), integral_score_mul_rest ν lq' s0 k (c k), add_zero]
    exact integral_comp_eval (μ := fun _ : Fin (K + 1) => ν) (i := k) fi.1
  simp only [e]
  rw [fval, Finset.sum_const, Finset.card_univ, Fintype.card_fin, nsmul_eq_mul,
    mul_div_cancel_left₀ _ (by positivity : ((K + 1 : ℕ) : ℝ) ≠ 0)]

end

/-- C42 for finite latent spaces: differentiable families need no further condition. -/
theorem C42_unbiased_finite [Fintype Z] [MeasurableSingletonClass Z] {K : ℕ} (lp lq : ℝ → Z → ℝ)
    (lp' lq' : Z → ℝ) (θ : ℝ) (dp : ∀ z, HasDerivAt (fun t => lp t z) (lp' z) θ)
    (dq : ∀ z, HasDerivAt (fun t => lq t z) (lq' z) θ) (h1 : ∀ t, ∑ z, Real.exp (lq t z) = 1)
    (vr : Bool) (mm : Dual) (b : Fin (K + 1) → Option ((Fin K → Z) → Dual)) :
    HasDerivAt (fun t => -∑ z : Fin (K + 1) → Z, (∏ k, Real.exp (lq t (z k))) *
        (elboObjective (fun k => const (lp t (z k))) (fun k => const (lq t (z k)))).val)
      (∑ z : Fin (K + 1) → Z, (∏ k, Real.exp (lq θ (z k))) *
        (reinforceCost vr (fun k => (b k).map fun g => g fun i => z (k.succAbove i)) mm
        (fun k => ⟨lp θ (z k), lp' (z k)⟩) (fun k => ⟨lq θ (z k), lq' (z k)⟩)).der) θ := by
  have hf := elboFamily_finite lp lq lp' lq' θ dp dq h1
  have hp := hf.prob
  have := C42_unbiased hf vr mm b fun k g _ => Integrable.of_finite
  simp only [samples_finite_integral _ fun z => (Real.exp_pos _).le] at this
  exact this

/-- C42.  The baseline cost does not train the model: its gradient is that of
`½(signal - baseline)²` in the baseline only. -/
theorem C42_baseline_cost {K : ℕ} (b logp logq : Fin K → Dual) :
    (baselineCost b logp logq).der =
      (∑ k, -((logp k).val - (logq k).val - (b k).val) * (b k).der) / K := by
  simp only [baselineCost, reduceMean_der]
  congr 1
  refine Finset.sum_congr rfl fun k _ => ?_
  simp [square, entropyTerm]
  ring

/-! ### C44 -/

theorem xEx_val {K : ℕ} (x : Fin (K + 1) → Dual) (i j : Fin (K + 1)) :
    (xEx x i j).val = if i = j then (∑ l, (x l).val - (x i).val) / K else (x i).val := by
  unfold xEx meanExcept
  split_ifs <;> simp

theorem controlVariate_val {K : ℕ} (x : Fin (K + 1) → Dual) (j : Fin (K + 1)) :
    (controlVariate x j).val = LME (fun i =>
      if i = j then (∑ l, (x l).val - (x i).val) / K else (x i).val) := by
  simp only [controlVariate, logMeanExp_val, xEx_val, LME]

/-- C44.  The control variate of sample `j` is the log mean of the other weights and their geometric
mean. -/
theorem C44_control_variate {K : ℕ} (x : Fin (K + 2) → Dual) (j : Fin (K + 2)) :
    (controlVariate x j).val = Real.log ((Real.exp ((∑ i : Fin (K + 1), (x (j.succAbove i)).val) /
      (K + 1 : ℕ)) + ∑ i : Fin (K + 1), Real.exp (x (j.succAbove i)).val) / (K + 2 : ℕ)) := by
  rw [controlVariate_val, LME]
  congr 2
  rw [Fin.sum_univ_succAbove _ j]
  congr 1
  · rw [if_pos rfl, Fin.sum_univ_succAbove (fun l => (x l).val) j]
    congr 2
    ring
  · exact Finset.sum_congr rfl fun i _ => by rw [if_neg (Fin.succAbove_ne j i)]

/-- C44.  The control variate of sample `j` does not depend on sample `j`. -/
theorem C44_control_variate_indep {K : ℕ} (x y : Fin (K + 2) → Dual) (j : Fin (K + 2))
    (h : ∀ i, i ≠ j → (x i).val = (y i).val) :
    (controlVariate x j).val = (controlVariate y j).val := by
  rw [C44_control_variate, C44_control_variate]
  simp only [fun i => h (j.succAbove i) (Fin.succAbove_ne j i)]

theorem vimcoCost_der {K : ℕ} (a b : Fin (K + 1) → Dual) :
    (vimcoCost a b).der =
      -((∑ j, (b j).der) * LME (fun k => (a k).val - (b k).val) + (iwObjective a b).der) +
        ∑ j, (b j).der * (controlVariate (fun k => a k + entropyTerm (b k)) j).val := by
  simp only [vimcoCost, der_sub, der_neg, reduceSum_der, der_mul, der_stop, val_stop, mul_zero,
    add_zero, entropyTerm, neg_neg, val_sub, iwObjective]
  have : (logMeanExp fun k => a k + -b k).val = LME (fun k => (a k).val - (b k).val) := by
    simp only [logMeanExp_val, val_add, val_neg, sub_eq_add_neg, LME]
  rw [this]
  simp only [mul_sub, Finset.sum_sub_distrib, ← Finset.sum_mul]
  ring

section
variable {μ : Measure Z} {lp lq : ℝ → Z → ℝ} {lp' lq' : Z → ℝ} {θ : ℝ} {K : ℕ}

/-- The conditions under which the expected importance weighted objective of `K + 2` samples can be
differentiated under the expectation. -/
structure IwFamily (μ : Measure Z) (lp lq : ℝ → Z → ℝ) (lp' lq' : Z → ℝ) (θ : ℝ) (K : ℕ) : Prop where
  dp : ∀ z, HasDerivAt (fun t => lp t z) (lp' z) θ
  dq : ∀ z, HasDerivAt (fun t => lq t z) (lq' z) θ
  prob : ∀ t, IsProbabilityMeasure (law μ fun z => Real.exp (lq t z))
  score : ScoreRegular (fun t => law μ fun z => Real.exp (lq t z)) lq' (fun _ _ => 1) (fun _ => 0) θ
  iw : ScoreRegular (fun t => samples μ (fun z => Real.exp (lq t z)) (K + 2))
    (fun z => ∑ k, lq' (z k)) (fun t z => LME (fun k => lp t (z k) - lq t (z k)))
    (fun z => ∑ i, Real.exp (lp θ (z i) - lq θ (z i)) / (∑ j, Real.exp (lp θ (z j) - lq θ (z j))) *
      (lp' (z i) - lq' (z i))) θ
  cv_int : ∀ j : Fin (K + 2), Integrable (fun z : Fin (K + 2) → Z => lq' (z j) * (controlVariate
    (fun k => const (lp θ (z k)) + entropyTerm (const (lq θ (z k)))) j).val)
    (samples μ (fun z => Real.exp (lq θ z)) (K + 2))

/-- C44.  The expected gradient of the `vimco` cost of `K + 2` samples that carry no gradient is the
gradient of minus the expected importance weighted objective. -/
theorem C44_unbiased (h : IwFamily μ lp lq lp' lq' θ K) :
    HasDerivAt (fun t => -∫ z, (iwObjective (fun k => const (lp t (z k)))
        (fun k => const (lq t (z k)))).val ∂(samples μ (fun z => Real.exp (lq t z)) (K + 2)))
      (∫ z, (vimcoCost (fun k => ⟨lp θ (z k), lp' (z k)⟩) (fun k => ⟨lq θ (z k), lq' (z k)⟩)).der
        ∂(samples μ (fun z => Real.exp (lq θ z)) (K + 2))) θ := by
  have hprob := h.prob θ
  have s0 : ∫ z, lq' z ∂(law μ fun z => Real.exp (lq θ z)) = 0 := by
    have h1 := h.score.leibniz
    have : (fun t => ∫ _, (1 : ℝ) ∂(law μ fun z => Real.exp (lq t z))) = fun _ => 1 := by
      funext t
      have := h.prob t
      simp
    rw [this] at h1
    simpa using h1.unique (hasDerivAt_const θ (1 : ℝ))
  simp only [iwObjective_val, val_const]
  refine h.iw.leibniz.neg.congr_deriv ?_
  simp only [vimcoCost_der, iwObjective_der]
  have hcv : ∀ (z : Fin (K + 2) → Z) (j : Fin (K + 2)),
      (controlVariate (fun k => (⟨lp θ (z k), lp' (z k)⟩ : Dual) +
        entropyTerm ⟨lq θ (z k), lq' (z k)⟩) j).val =
      (controlVariate (fun k => const (lp θ (z k)) + entropyTerm (const (lq θ (z k)))) j).val :=
    fun z j => C44_control_variate_indep _ _ j fun i _ => by simp [entropyTerm]
  simp only [hcv]
  have hA : Integrable (fun z : Fin (K + 2) → Z =>
      -(((∑ x, lq' (z x)) * LME fun k => lp θ (z k) - lq θ (z k)) + ∑ x, Real.exp (lp θ (z x) - lq θ (z x)) /
        (∑ x, Real.exp (lp θ (z x) - lq θ (z x))) * (lp' (z x) - lq' (z x))))
      (samples μ (fun z => Real.exp (lq θ z)) (K + 2)) := (h.iw.int_sF.add h.iw.int_F').neg
  rw [integral_add hA (integrable_finsetSum _ fun j _ => h.cv_int j),
    integral_neg, integral_finsetSum _ fun j _ => h.cv_int j]
  have e : ∀ j : Fin (K + 2), ∫ z : Fin (K + 2) → Z, lq' (z j) * (controlVariate
      (fun k => const (lp θ (z k)) + entropyTerm (const (lq θ (z k)))) j).val
      ∂(samples μ (fun z => Real.exp (lq θ z)) (K + 2)) = 0 := by
    intro j
    have := integral_score_mul_rest (law μ fun z => Real.exp (lq θ z)) (K := K + 1) lq' s0 j
      (fun w => Real.log ((Real.exp ((∑ i : Fin (K + 1), (lp θ (w i) - lq θ (w i))) / (K + 1 : ℕ)) +
        ∑ i : Fin (K + 1), Real.exp (lp θ (w i) - lq θ (w i))) / (K + 2 : ℕ)))
    rw [← this]
    refine integral_congr_ae (Filter.Eventually.of_forall fun z => ?_)
    simp only [C44_control_variate, val_add, val_const, entropyTerm, val_neg, ← sub_eq_add_neg]
  simp only [e, Finset.sum_const_zero, add_zero]

end

/-- C44 for finite latent spaces: differentiable families need no further condition. -/
theorem C44_unbiased_finite [Fintype Z] [MeasurableSingletonClass Z] {K : ℕ} (lp lq : ℝ → Z → ℝ)
    (lp' lq' : Z → ℝ) (θ : ℝ) (dp : ∀ z, HasDerivAt (fun t => lp t z) (lp' z) θ)
    (dq : ∀ z, HasDerivAt (fun t => lq t z) (lq' z) θ) (h1 : ∀ t, ∑ z, Real.exp (lq t z) = 1) :
    HasDerivAt (fun t => -∑ z : Fin (K + 2) → Z, (∏ k, Real.exp (lq t (z k))) *
        (iwObjective (fun k => const (lp t (z k))) (fun k => const (lq t (z k)))).val)
      (∑ z : Fin (K + 2) → Z, (∏ k, Real.exp (lq θ (z k))) *
        (vimcoCost (fun k => ⟨lp θ (z k), lp' (z k)⟩) (fun k => ⟨lq θ (z k), lq' (z k)⟩)).der) θ := by
  have hp : ∀ t, IsProbabilityMeasure (law (Measure.count : Measure Z) fun z => Real.exp (lq t z)) :=
    fun t => isProb_count _ (fun z => (Real.exp_pos _).le) (h1 t)
  have hf : IwFamily (Measure.count : Measure Z) lp lq lp' lq' θ K :=
    ⟨dp, dq, hp, scoreRegular_finite_one lq lq' θ dq h1 _ _ fun z => hasDerivAt_const θ (1 : ℝ),
      scoreRegular_finite lq lq' θ dq h1 _ _ fun z =>
        hasDerivAt_LME (fun t k => lp t (z k) - lq t (z k)) (fun k => lp' (z k) - lq' (z k)) θ
          fun k => (dp (z k)).sub (dq (z k)),
      fun j => Integrable.of_finite⟩
  have := C44_unbiased hf
  simp only [samples_finite_integral _ fun z => (Real.exp_pos _).le] at this
  exact this

/-- C44.  A sample axis of size below two is refused, when it is known statically while building the cost,
otherwise while running it; other sizes are accepted. -/
theorem C44_refused (staticSize : Option ℕ) (size : ℕ) (h : ∀ k, staticSize = some k → k = size) :
    (vimcoCheck staticSize size = .ok ↔ 2 ≤ size) ∧
    (vimcoCheck staticSize size = .valueError ↔ (staticSize = some size ∧ size < 2)) := by
  cases staticSize with
  | none => simp only [vimcoCheck]; split_ifs <;> simp <;> omega
  | some k =>
    have := h k rfl
    subst this
    simp only [vimcoCheck]; split_ifs <;> simp <;> omega

/-- C44.  The transposition used to bring the sample axis last exchanges it with the last axis, so
applying it twice restores the order. -/
theorem C44_perm (n axis : ℕ) (h : axis < n) :
    (vimcoPerm n axis).length = n ∧
      ∀ i < n, (vimcoPerm n axis).getD i 0 = Equiv.swap axis (n - 1) i := by
  refine ⟨by simp [vimcoPerm], fun i hi => ?_⟩
  simp only [vimcoPerm, List.getD_eq_getElem?_getD, List.getElem?_map, List.getElem?_range hi,
    Option.map_some, Option.getD_some, Equiv.swap_apply_def]

/-! ### C45 -/

theorem importanceWeight_val {K : ℕ} (a b : Fin (K + 1) → Dual) (k : Fin (K + 1)) :
    (importanceWeight a b k).val =
      Real.exp ((a k).val - (b k).val) / ∑ j, Real.exp ((a j).val - (b j).val) := by
  simp only [importanceWeight, val_stop, val_div, val_exp, val_sub, val_add, entropyTerm, val_neg,
    reduceSum_val, ← sub_eq_add_neg]
  rw [sum_exp_shift (fun j => (a j).val - (b j).val), Real.exp_sub _ (reduceMax _).val]
  rw [div_div_div_cancel_right₀ (Real.exp_pos _).ne']

/-- C45.  The weights are the importance weights `p/q` divided by their sum. -/
theorem C45_self_normalised {K : ℕ} (a b : Fin (K + 1) → Dual) (p q : Fin (K + 1) → ℝ)
    (hp : ∀ k, 0 < p k) (hq : ∀ k, 0 < q k) (ha : ∀ k, (a k).val = Real.log (p k))
    (hb : ∀ k, (b k).val = Real.log (q k)) (k : Fin (K + 1)) :
    (importanceWeight a b k).val = (p k / q k) / ∑ j, p j / q j := by
  simp only [importanceWeight_val, ha, hb, Real.exp_sub, fun k => Real.exp_log (hp k),
    fun k => Real.exp_log (hq k)]

/-- C45.  The weights are positive and sum to one. -/
theorem C45_weights {K : ℕ} (a b : Fin (K + 1) → Dual) :
    (∀ k, 0 < (importanceWeight a b k).val) ∧ ∑ k, (importanceWeight a b k).val = 1 := by
  have hs := sum_exp_pos' (fun k => (a k).val - (b k).val)
  simp only [importanceWeight_val]
  refine ⟨fun k => div_pos (Real.exp_pos _) hs, ?_⟩
  rw [← Finset.sum_div, div_self hs.ne']

/-- C45.  They do not change when the log joint is shifted by a constant. -/
theorem C45_shift {K : ℕ} (a b : Fin (K + 1) → Dual) (c : ℝ) (k : Fin (K + 1)) :
    (importanceWeight (fun k => const c + a k) b k).val = (importanceWeight a b k).val := by
  simp only [importanceWeight_val, val_add, val_const, add_sub_assoc, Real.exp_add, ← Finset.mul_sum]
  rw [mul_div_mul_left _ _ (Real.exp_pos c).ne']

/-- C45.  They are not differentiated through, so the gradient of the cost is the weighted gradient of
`-log q`, and the model receives none. -/
theorem C45_gradient {K : ℕ} (a b : Fin (K + 1) → Dual) :
    (∀ k, (importanceWeight a b k).der = 0) ∧
    (importanceCost a b).val = ∑ k, (importanceWeight a b k).val * -(b k).val ∧
    (importanceCost a b).der = ∑ k, (importanceWeight a b k).val * -(b k).der := by
  have h0 : ∀ k, (importanceWeight a b k).der = 0 := fun k => rfl
  refine ⟨h0, rfl, ?_⟩
  simp only [importanceCost, reduceSum_der, der_mul, h0, zero_mul, zero_add, entropyTerm, der_neg]

/-- The divergence `KL(post ‖ q)` between positive distributions on a finite set. -/
noncomputable def KL [Fintype Z] (post q : Z → ℝ) : ℝ := ∑ z, post z * Real.log (post z / q z)

/-- C45.  When the samples cover a finite latent space exactly in the proportions of `q`, the gradient of
the cost is the gradient of `KL(posterior ‖ q)`. -/
theorem C45_exhaustive {K : ℕ} {Z : Type*} [Fintype Z] [DecidableEq Z] (p : Z → ℝ) (lq : ℝ → Z → ℝ)
    (lq' lpder : Z → ℝ) (θ : ℝ) (hp : ∀ z, 0 < p z)
    (dq : ∀ z, HasDerivAt (fun t => lq t z) (lq' z) θ) (smp : Fin (K + 1) → Z)
    (hsmp : ∀ z, ((Finset.univ.filter fun k => smp k = z).card : ℝ) =
      (K + 1 : ℕ) * Real.exp (lq θ z)) :
    HasDerivAt (fun t => KL (fun z => p z / ∑ y, p y) (fun z => Real.exp (lq t z)))
      (importanceCost (fun k => ⟨Real.log (p (smp k)), lpder (smp k)⟩)
        (fun k => ⟨lq θ (smp k), lq' (smp k)⟩)).der θ := by
  have hne : Nonempty Z := ⟨smp 0⟩
  have hE : 0 < ∑ z, p z := Finset.sum_pos (fun z _ => hp z) Finset.univ_nonempty
  have hk : ((K + 1 : ℕ) : ℝ) ≠ 0 := by positivity
  -- sums over the samples are sums over the space
  have hfib : ∀ f : Z → ℝ, ∑ k, f (smp k) = ∑ z, (K + 1 : ℕ) * Real.exp (lq θ z) * f z := by
    intro f
    rw [← Finset.sum_fiberwise Finset.univ smp (fun k => f (smp k))]
    refine Finset.sum_congr rfl fun z _ => ?_
    rw [Finset.sum_congr rfl (g := fun _ => f z) fun k hk => by rw [(Finset.mem_filter.mp hk).2]]
    rw [Finset.sum_const, nsmul_eq_mul, hsmp]
  have hw : ∀ z, Real.exp (Real.log (p z) - lq θ z) = p z / Real.exp (lq θ z) := fun z => by
    rw [Real.exp_sub, Real.exp_log (hp z)]
  have hder : (importanceCost (fun k => ⟨Real.log (p (smp k)), lpder (smp k)⟩)
        (fun k => ⟨lq θ (smp k), lq' (smp k)⟩)).der = ∑ z, p z / (∑ y, p y) * -lq' z := by
    rw [(C45_gradient _ _).2.2]
    simp only [importanceWeight_val, hw]
    rw [hfib fun z => p z / Real.exp (lq θ z)]
    rw [hfib fun z => p z / Real.exp (lq θ z) /
      (∑ z, (K + 1 : ℕ) * Real.exp (lq θ z) * (p z / Real.exp (lq θ z))) * -lq' z]
    have e1 : ∑ z, (K + 1 : ℕ) * Real.exp (lq θ z) * (p z / Real.exp (lq θ z)) =
        (K + 1 : ℕ) * ∑ z, p z := by
      rw [Finset.mul_sum]
      refine Finset.sum_congr rfl fun z _ => ?_
      have := (Real.exp_pos (lq θ z)).ne'
      field_simp
    rw [e1]
    refine Finset.sum_congr rfl fun z _ => ?_
    have := (Real.exp_pos (lq θ z)).ne'
    field_simp
  rw [hder]
  unfold KL
  refine HasDerivAt.fun_sum fun z _ => ?_
  have hpost : 0 < p z / ∑ y, p y := div_pos (hp z) hE
  have : (fun t => p z / (∑ y, p y) * Real.log (p z / (∑ y, p y) / Real.exp (lq t z))) =
      fun t => p z / (∑ y, p y) * (Real.log (p z / ∑ y, p y) - lq t z) := by
    funext t
    rw [Real.log_div hpost.ne' (Real.exp_pos _).ne', Real.log_exp]
  rw [this]
  exact (((dq z).const_sub _).const_mul _)

/-- A concrete case of the covering hypothesis: two latent values, three samples, `q = (1/3, 2/3)`. -/
example : ∀ z : Bool, ((Finset.univ.filter fun k : Fin (2 + 1) => decide (k = 0) = z).card : ℝ) =
    (2 + 1 : ℕ) * Real.exp (Real.log (if z then 1 / 3 else 2 / 3)) := by
  intro z
  rw [Real.exp_log (by cases z <;> norm_num)]
  cases z
  · have : (Finset.univ.filter fun k : Fin (2 + 1) => decide (k = 0) = false).card = 2 := by decide
    rw [this]; norm_num
  · have : (Finset.univ.filter fun k : Fin (2 + 1) => decide (k = 0) = true).card = 1 := by decide
    rw [this]; norm_num

open ProbabilityTheory in
/-- C45.  With independent samples of `q`, the gradient of the cost converges almost surely, as the number
of samples grows, to the posterior expectation of `-∂ log q`: the gradient of `KL(posterior ‖ q)`. -/
theorem C45_consistent {Ω : Type*} [MeasurableSpace Ω] {P : Measure Ω} {μ : Measure Z}
    {p q lq' lpder : Z → ℝ} (hpos : ∀ z, 0 < p z) (qpos : ∀ z, 0 < q z)
    (h : LatentModel μ p q) (hm : Measurable lq') (hint : Integrable (fun z => p z * lq' z) μ)
    (X : ℕ → Ω → Z) (hX : ∀ i, Measurable (X i)) (hind : Pairwise fun i j => IndepFun (X i) (X j) P)
    (hlaw : ∀ i, P.map (X i) = law μ q) :
    ∀ᵐ ω ∂P, Filter.Tendsto (fun K : ℕ => (importanceCost
        (fun k : Fin (K + 1) => ⟨Real.log (p (X k ω)), lpder (X k ω)⟩)
        (fun k => ⟨Real.log (q (X k ω)), lq' (X k ω)⟩)).der) Filter.atTop
      (nhds (∫ z, -lq' z ∂(posterior μ p))) := by
  have hprob := h.isProb
  have hE := h.evidence_pos
  have slln : ∀ f : Z → ℝ, Measurable f → Integrable f (law μ q) →
      ∀ᵐ ω ∂P, Filter.Tendsto (fun n : ℕ => (∑ i ∈ Finset.range n, f (X i ω)) / n) Filter.atTop
        (nhds (∫ z, f z ∂(law μ q))) := by
    intro f fm fi
    have e : ∫ z, f z ∂(law μ q) = P[fun ω => f (X 0 ω)] := by
      rw [← hlaw 0, integral_map (hX 0).aemeasurable fm.aestronglyMeasurable]
    rw [e]
    refine strong_law_ae_real (fun i ω => f (X i ω)) ?_ ?_ ?_
    · have := hlaw 0 ▸ fi
      exact this.comp_measurable (hX 0)
    · intro i j hij
      exact (hind hij).comp fm fm
    · intro i
      refine (IdentDistrib.comp ⟨(hX i).aemeasurable, (hX 0).aemeasurable, ?_⟩ fm)
      rw [hlaw i, hlaw 0]
  have wm : Measurable fun z => p z / q z := h.p_meas.div h.q_meas
  have hi : ∀ f : Z → ℝ, Integrable f (law μ q) ↔ Integrable (fun z => f z * q z) μ := by
    intro f
    rw [law, integrable_withDensity_iff h.q_meas.ennreal_ofReal
      (Filter.Eventually.of_forall fun z => ENNReal.ofReal_lt_top)]
    simp [ENNReal.toReal_ofReal, h.q_nonneg]
  have w1 : Integrable (fun z => p z / q z) (law μ q) := by
    rw [hi]
    refine h.p_int.congr (Filter.Eventually.of_forall fun z => ?_)
    have := (qpos z).ne'
    simp only; field_simp
  have w2 : Integrable (fun z => p z / q z * lq' z) (law μ q) := by
    rw [hi]
    refine hint.congr (Filter.Eventually.of_forall fun z => ?_)
    have := (qpos z).ne'
    simp only; field_simp
  have v1 : ∫ z, p z / q z ∂(law μ q) = evidence μ p := by
    rw [law_integral μ q h.q_meas h.q_nonneg, evidence]
    refine integral_congr_ae (Filter.Eventually.of_forall fun z => ?_)
    have := (qpos z).ne'
    simp only; field_simp
  have v2 : ∫ z, p z / q z * lq' z ∂(law μ q) = ∫ z, p z * lq' z ∂μ := by
    rw [law_integral μ q h.q_meas h.q_nonneg]
    refine integral_congr_ae (Filter.Eventually.of_forall fun z => ?_)
    have := (qpos z).ne'
    simp only; field_simp
  have v3 : ∫ z, -lq' z ∂(posterior μ p) = -((∫ z, p z * lq' z ∂μ) / evidence μ p) := by
    rw [integral_neg, posterior]
    rw [show (μ.withDensity fun z => ENNReal.ofReal (p z / evidence μ p)) =
      law μ (fun z => p z / evidence μ p) from rfl,
      law_integral μ _ (h.p_meas.div_const _) (fun z => div_nonneg (h.p_nonneg z) hE.le),
      ← integral_div]
    congr 1
    refine integral_congr_ae (Filter.Eventually.of_forall fun z => ?_)
    simp only; ring
  filter_upwards [slln _ wm w1, slln _ (wm.mul hm) w2] with ω h1 h2
  rw [v1] at h1
  simp only [Pi.mul_apply] at h2
  rw [v2] at h2
  have h3 := (h2.div h1 hE.ne').neg
  rw [v3]
  refine (h3.comp (Filter.tendsto_add_atTop_nat 1)).congr fun K => ?_
  simp only [Function.comp_apply, Pi.div_apply]
  rw [(C45_gradient _ _).2.2]
  simp only [C45_self_normalised
    (fun k : Fin (K + 1) => (⟨Real.log (p (X k ω)), lpder (X k ω)⟩ : Dual))
    (fun k => ⟨Real.log (q (X k ω)), lq' (X k ω)⟩)
    (fun k : Fin (K + 1) => p (X k ω)) (fun k => q (X k ω))
    (fun k => hpos _) (fun k => qpos _) (fun k => rfl) (fun k => rfl)]
  have hk : ((K + 1 : ℕ) : ℝ) ≠ 0 := by positivity
  rw [div_div_div_cancel_right₀ hk, Finset.sum_range, Finset.sum_range, Finset.sum_div,
    ← Finset.sum_neg_distrib]
  exact Finset.sum_congr rfl fun k _ => by ring

end ZhuSuan.Grad

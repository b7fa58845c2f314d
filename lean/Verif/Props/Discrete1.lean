import Mathlib.Probability.Distributions.Poisson.Basic
import Mathlib.Probability.Distributions.Binomial
import Verif.Lemmas.Measure
import Verif.Model.Univariate

/-!
# C20 Bernoulli, C25 Poisson, C26 Binomial
-/

set_option autoImplicit false

open MeasureTheory ProbabilityTheory Set
open scoped ENNReal NNReal Nat

namespace ZhuSuan.Uni

theorem sigmoid_pos (x : ℝ) : 0 < sigmoid x := by unfold sigmoid; positivity

theorem sigmoid_lt_one (x : ℝ) : sigmoid x < 1 := by
  unfold sigmoid
  rw [div_lt_one (by positivity)]
  have := Real.exp_pos (-x); linarith

theorem one_sub_sigmoid (x : ℝ) : 1 - sigmoid x = 1 / (1 + Real.exp x) := by
  unfold sigmoid
  rw [Real.exp_neg]
  have := Real.exp_pos x
  field_simp
  ring

theorem sigmoid_eq (x : ℝ) : sigmoid x = Real.exp x / (1 + Real.exp x) := by
  unfold sigmoid
  rw [Real.exp_neg]
  have := Real.exp_pos x
  field_simp
  ring

theorem exp_neg_softplus (x : ℝ) : Real.exp (-softplus x) = 1 / (1 + Real.exp x) := by
  unfold softplus
  rw [Real.exp_neg, Real.exp_log (by positivity), one_div]

/-- TensorFlow's numerically stable formula is the cross entropy. -/
theorem sigmoidCrossEntropy_eq (z x : ℝ) : sigmoidCrossEntropy z x = softplus x - x * z := by
  unfold sigmoidCrossEntropy softplus
  rcases le_total 0 x with h | h
  · rw [max_eq_left h, abs_of_nonneg h]
    have : 1 + Real.exp x = Real.exp x * (1 + Real.exp (-x)) := by
      rw [mul_add, mul_one, ← Real.exp_add]; simp; ring
    rw [this, Real.log_mul (by positivity) (by positivity), Real.log_exp]
    ring
  · rw [max_eq_right h, abs_of_nonpos h, neg_neg]; ring

/-- `Bernoulli.prob(1) = sigmoid(logits)`, `Bernoulli.prob(0) = 1 - sigmoid(logits)`, total 1. -/
theorem C20_mass (logits : ℝ) :
    Real.exp (Bernoulli.logProb logits 1) = sigmoid logits ∧
    Real.exp (Bernoulli.logProb logits 0) = 1 - sigmoid logits ∧
    Real.exp (Bernoulli.logProb logits 0) + Real.exp (Bernoulli.logProb logits 1) = 1 := by
  have h1 : Real.exp (Bernoulli.logProb logits 1) = sigmoid logits := by
    unfold Bernoulli.logProb
    rw [sigmoidCrossEntropy_eq, show -(softplus logits - logits * 1) = logits + -softplus logits by ring,
      Real.exp_add, exp_neg_softplus, sigmoid_eq]
    ring
  have h0 : Real.exp (Bernoulli.logProb logits 0) = 1 - sigmoid logits := by
    unfold Bernoulli.logProb
    rw [sigmoidCrossEntropy_eq, one_sub_sigmoid, mul_zero, sub_zero, exp_neg_softplus]
  exact ⟨h1, h0, by rw [h0, h1]; ring⟩

/-- The sampler, fed a uniform draw on `[0, 1)`, returns 1 with probability exactly `prob(1)` and 0 with
probability `prob(0)`, and nothing else. -/
theorem C20_sampler (logits : ℝ) :
    volume.restrict (Ico (0 : ℝ) 1) {u | Bernoulli.sample logits u = 1} =
      ENNReal.ofReal (Real.exp (Bernoulli.logProb logits 1)) ∧
    volume.restrict (Ico (0 : ℝ) 1) {u | Bernoulli.sample logits u = 0} =
      ENNReal.ofReal (Real.exp (Bernoulli.logProb logits 0)) ∧
    ∀ u, Bernoulli.sample logits u = 0 ∨ Bernoulli.sample logits u = 1 := by
  obtain ⟨h1, h0, _⟩ := C20_mass logits
  have p0 := sigmoid_pos logits
  have p1 := sigmoid_lt_one logits
  have e1 : {u | Bernoulli.sample logits u = 1} = Iio (sigmoid logits) := by
    ext u; simp only [Bernoulli.sample, ind, mem_setOf_eq, mem_Iio]; split_ifs <;> simp_all
  have e0 : {u | Bernoulli.sample logits u = 0} = Ici (sigmoid logits) := by
    ext u; simp only [Bernoulli.sample, ind, mem_setOf_eq, mem_Ici]; split_ifs <;> simp_all
  refine ⟨?_, ?_, fun u => ?_⟩
  · rw [e1, Measure.restrict_apply measurableSet_Iio, h1]
    have : Iio (sigmoid logits) ∩ Ico (0 : ℝ) 1 = Ico 0 (sigmoid logits) := by
      ext u; simp only [mem_inter_iff, mem_Iio, mem_Ico]
      constructor
      · rintro ⟨a, b, _⟩; exact ⟨b, a⟩
      · rintro ⟨a, b⟩; exact ⟨b, a, b.trans p1⟩
    rw [this, Real.volume_Ico, sub_zero]
  · rw [e0, Measure.restrict_apply measurableSet_Ici, h0]
    have : Ici (sigmoid logits) ∩ Ico (0 : ℝ) 1 = Ico (sigmoid logits) 1 := by
      ext u; simp only [mem_inter_iff, mem_Ici, mem_Ico]
      constructor
      · rintro ⟨a, _, b⟩; exact ⟨a, b⟩
      · rintro ⟨a, b⟩; exact ⟨a, p0.le.trans a, b⟩
    rw [this, Real.volume_Ico]
  · simp only [Bernoulli.sample, ind]; split_ifs <;> simp

/-! ## Poisson -/

/-- `Poisson.prob(k) = rate^k e^{-rate} / k!`. -/
theorem C25_mass (rate : ℝ) (hr : 0 < rate) (k : ℕ) :
    Real.exp (Poisson.logProb rate k) = Real.exp (-rate) * rate ^ k / k ! := by
  unfold Poisson.logProb lgamma
  rw [Real.Gamma_nat_eq_factorial, Real.exp_sub, Real.exp_log (by exact_mod_cast Nat.factorial_pos k),
    sub_eq_add_neg, Real.exp_add, ← Real.log_pow, Real.exp_log (by positivity)]
  ring

/-- It is the Poisson distribution, and sums to 1. -/
theorem C25_total (rate : ℝ) (hr : 0 < rate) :
    HasSum (fun k : ℕ => Real.exp (Poisson.logProb rate k)) 1 ∧
    ∀ k : ℕ, poissonMeasure (NNReal.mk rate hr.le) {k} = ENNReal.ofReal (Real.exp (Poisson.logProb rate k)) := by
  constructor
  · simp_rw [C25_mass rate hr]
    exact hasSum_one_poissonMeasure (NNReal.mk rate hr.le)
  · intro k
    rw [poissonMeasure_singleton, C25_mass rate hr]; rfl

/-! ## Binomial -/

/-- `Binomial.prob(k) = C(n,k) p^k (1-p)^(n-k)` with `p = sigmoid(logits)`. -/
theorem C26_mass (n : ℕ) (logits : ℝ) (k : ℕ) (hk : k ≤ n) :
    Real.exp (Binomial.logProb n logits k) =
      (n.choose k : ℝ) * sigmoid logits ^ k * (1 - sigmoid logits) ^ (n - k) := by
  unfold Binomial.logProb lgamma
  have e : (n : ℝ) - k + 1 = ((n - k : ℕ) : ℝ) + 1 := by push_cast [Nat.cast_sub hk]; ring
  have f1 : (0 : ℝ) < (n ! : ℝ) := by exact_mod_cast Nat.factorial_pos n
  have f2 : (0 : ℝ) < ((n - k)! : ℝ) := by exact_mod_cast Nat.factorial_pos _
  have f3 : (0 : ℝ) < (k ! : ℝ) := by exact_mod_cast Nat.factorial_pos k
  simp only []
  rw [e, Real.Gamma_nat_eq_factorial, Real.Gamma_nat_eq_factorial, Real.Gamma_nat_eq_factorial,
    Real.exp_add, Real.exp_add, Real.exp_sub, Real.exp_sub, Real.exp_log f1, Real.exp_log f2,
    Real.exp_log f3, Real.exp_nat_mul, Real.exp_nat_mul, exp_neg_softplus, Nat.cast_choose ℝ hk,
    one_sub_sigmoid, sigmoid_eq]
  have hn : (1 / (1 + Real.exp logits)) ^ n =
      (1 / (1 + Real.exp logits)) ^ k * (1 / (1 + Real.exp logits)) ^ (n - k) := by
    rw [← pow_add]; congr 1; omega
  rw [hn]
  have : (1 / (1 + Real.exp logits)) ^ k = 1 / (1 + Real.exp logits) ^ k := by rw [div_pow, one_pow]
  rw [this, div_pow (Real.exp logits)]
  field_simp

/-- Sums to 1 over `0..n`. -/
theorem C26_total (n : ℕ) (logits : ℝ) :
    ∑ k ∈ Finset.range (n + 1), Real.exp (Binomial.logProb n logits k) = 1 := by
  have h : ∀ k ∈ Finset.range (n + 1), Real.exp (Binomial.logProb n logits k) =
      sigmoid logits ^ k * (1 - sigmoid logits) ^ (n - k) * (n.choose k : ℝ) := by
    intro k hk
    rw [C26_mass n logits k (by simpa [Nat.lt_succ_iff] using hk)]; ring
  rw [Finset.sum_congr rfl h, ← add_pow]
  simp

/-- The categorical draws inside the sampler: weights `stackedLogits` give category 1 with probability
`sigmoid(logits)` and category 0 with the rest. -/
theorem C26_draw (logits : ℝ) :
    Real.exp (Binomial.stackedLogits logits).2 = sigmoid logits ∧
    Real.exp (Binomial.stackedLogits logits).1 = 1 - sigmoid logits := by
  constructor
  · simp only [Binomial.stackedLogits]
    rw [Real.exp_add, exp_neg_softplus, sigmoid_eq]; ring
  · simp only [Binomial.stackedLogits]
    rw [exp_neg_softplus, one_sub_sigmoid]

/-- The probability that `n` independent categorical draws with the weights above have the outcome
vector `w` (`true` = category 1). -/
noncomputable def Binomial.outcomeProb {n : ℕ} (logits : ℝ) (w : Fin n → Bool) : ℝ :=
  ∏ i, if w i then Real.exp (Binomial.stackedLogits logits).2
    else Real.exp (Binomial.stackedLogits logits).1

/-- `Binomial._sample` (1036–1045): the number of ones among the `n` draws. -/
def Binomial.count {n : ℕ} (w : Fin n → Bool) : ℕ := (Finset.univ.filter (fun i => w i = true)).card

/-- The sampler's law: the total probability of the outcome vectors with `k` ones is `prob(k)`. -/
theorem C26_sampler (n : ℕ) (logits : ℝ) (k : ℕ) (hk : k ≤ n) :
    ∑ w : Fin n → Bool with Binomial.count w = k, Binomial.outcomeProb logits w =
      Real.exp (Binomial.logProb n logits k) := by
  obtain ⟨h1, h0⟩ := C26_draw logits
  rw [C26_mass n logits k hk]
  have hw : ∀ w : Fin n → Bool, Binomial.count w = k → Binomial.outcomeProb logits w =
      sigmoid logits ^ k * (1 - sigmoid logits) ^ (n - k) := by
    intro w hw
    unfold Binomial.outcomeProb
    rw [Finset.prod_ite, Finset.prod_const, Finset.prod_const, h1, h0]
    unfold Binomial.count at hw
    rw [hw]
    congr 2
    have := Finset.card_filter_add_card_filter_not (s := (Finset.univ : Finset (Fin n)))
      (fun i => w i = true)
    simp only [Finset.card_univ, Fintype.card_fin] at this
    omega
  rw [Finset.sum_congr rfl (fun w hw' => hw w (Finset.mem_filter.1 hw').2), Finset.sum_const,
    nsmul_eq_mul, mul_assoc]
  congr 2
  have : (Finset.univ.filter (fun w : Fin n → Bool => Binomial.count w = k)).card =
      ((Finset.univ : Finset (Fin n)).powersetCard k).card := by
    refine Finset.card_bij (fun w _ => Finset.univ.filter (fun i => w i = true)) ?_ ?_ ?_
    · intro w hw
      rw [Finset.mem_powersetCard]
      exact ⟨Finset.subset_univ _, (Finset.mem_filter.1 hw).2⟩
    · intro w _ w' _ h
      funext i
      have := congrArg (fun s => i ∈ s) h
      simp only [Finset.mem_filter, Finset.mem_univ, true_and, eq_iff_iff] at this
      cases h1 : w i <;> cases h2 : w' i <;> simp_all
    · intro s hs
      classical
      refine ⟨fun i => decide (i ∈ s), ?_, ?_⟩
      · rw [Finset.mem_filter]
        refine ⟨Finset.mem_univ _, ?_⟩
        unfold Binomial.count
        simp only [decide_eq_true_eq, Finset.filter_mem_eq_inter, Finset.univ_inter]
        exact (Finset.mem_powersetCard.1 hs).2
      · simp
  rw [this, Finset.card_powersetCard, Finset.card_univ, Fintype.card_fin]

/-- Non-trivial instance: 2 successes out of 3. -/
example : (2 : ℕ) ≤ 3 := by norm_num

end ZhuSuan.Uni

import Mathlib.Data.Nat.Choose.Multinomial
import Verif.Lemmas.LogSumExp
import Verif.Spec.Categorical

/-!
# C21 Categorical and OnehotCategorical, C31 Multinomial and UnnormalizedMultinomial
-/

set_option autoImplicit false

open MeasureTheory
open scoped ENNReal Nat

namespace ZhuSuan.Num

variable {n : ℕ}

theorem softmax_pos (logits : Fin (n + 1) → ℝ) (k : Fin (n + 1)) : 0 < softmax logits k :=
  div_pos (Real.exp_pos _) (sum_exp_pos logits)

theorem softmax_sum (logits : Fin (n + 1) → ℝ) : ∑ k, softmax logits k = 1 := by
  simp only [softmax]
  rw [← Finset.sum_div, div_self (sum_exp_pos logits).ne']

theorem exp_normalized (logits : Fin (n + 1) → ℝ) (k : Fin (n + 1)) :
    Real.exp (logits k - logSumExp logits) = softmax logits k := by
  rw [Real.exp_sub, exp_logSumExp]; rfl

theorem categoricalLaw_singleton (logits : Fin (n + 1) → ℝ) (k : Fin (n + 1)) :
    categoricalLaw logits {k} = ENNReal.ofReal (softmax logits k) := by
  simp only [categoricalLaw, Measure.coe_finset_sum, Finset.sum_apply, Measure.smul_apply, smul_eq_mul]
  rw [Finset.sum_eq_single k]
  · simp
  · intro j _ hj
    simp [hj]
  · simp

instance (logits : Fin (n + 1) → ℝ) : IsProbabilityMeasure (categoricalLaw logits) := by
  constructor
  simp only [categoricalLaw, Measure.coe_finset_sum, Finset.sum_apply, Measure.smul_apply, smul_eq_mul,
    measure_univ, mul_one]
  rw [← ENNReal.ofReal_sum_of_nonneg fun i _ => (softmax_pos logits i).le, softmax_sum, ENNReal.ofReal_one]

/-! ## C21 -/

/-- C21.  `Categorical.prob(k)` is `softmax(logits)[k]`, the probability with which `tf.random.categorical`
returns `k`. -/
theorem C21_mass (logits : Fin (n + 1) → ℝ) (k : Fin (n + 1)) :
    Real.exp (categoricalLogProb logits k) = softmax logits k ∧
    categoricalLaw logits {k} = ENNReal.ofReal (Real.exp (categoricalLogProb logits k)) := by
  have : Real.exp (categoricalLogProb logits k) = softmax logits k := by
    rw [categoricalLogProb, neg_neg, exp_normalized]
  exact ⟨this, by rw [this, categoricalLaw_singleton]⟩

/-- C21.  It sums to one over the categories. -/
theorem C21_total (logits : Fin (n + 1) → ℝ) : ∑ k, Real.exp (categoricalLogProb logits k) = 1 := by
  simp only [C21_mass]
  exact softmax_sum logits

/-- C21.  Adding a constant to all logits changes nothing. -/
theorem C21_shift (logits : Fin (n + 1) → ℝ) (c : ℝ) (k : Fin (n + 1)) (given : Fin (n + 1) → ℝ) :
    categoricalLogProb (fun i => logits i + c) k = categoricalLogProb logits k ∧
    onehotLogProb (fun i => logits i + c) given = onehotLogProb logits given := by
  constructor
  · simp only [categoricalLogProb, logSumExp_shift]; ring
  · simp only [onehotLogProb, logSumExp_shift, add_sub_add_right_eq_sub]

/-- C21.  `OnehotCategorical` at the one-hot vector of `k` is `Categorical` at `k`. -/
theorem C21_onehot (logits : Fin (n + 1) → ℝ) (k : Fin (n + 1)) :
    onehotLogProb logits (oneHot k) = categoricalLogProb logits k := by
  simp [onehotLogProb, categoricalLogProb, Fn.sum, oneHot]

/-- C21.  One-hot samples are one-hot: a single entry is one, the others are zero. -/
theorem C21_onehot_sample (k : Fin (n + 1)) :
    (∃! i, (oneHot k i : ℝ) = 1) ∧ ∀ i, oneHot k i = 1 ∨ oneHot k i = 0 := by
  refine ⟨⟨k, by simp [oneHot], fun j hj => ?_⟩, fun i => ?_⟩
  · by_contra h
    simp [oneHot, h] at hj
  · simp only [oneHot]
    split_ifs <;> simp

theorem oneHot_injective : Function.Injective (oneHot : Fin n → Fin n → ℝ) := by
  intro a b h
  have := congrFun h a
  by_contra hab
  simp [oneHot, hab] at this

/-- C21.  The law of the one-hot samples has the mass function `OnehotCategorical.prob` on one-hot vectors,
and nothing elsewhere. -/
theorem C21_onehot_law (logits : Fin (n + 1) → ℝ) :
    (∀ k, (categoricalLaw logits).map oneHot {oneHot k} =
      ENNReal.ofReal (Real.exp (onehotLogProb logits (oneHot k)))) ∧
    (categoricalLaw logits).map oneHot {v | ¬ ∃ k, v = oneHot k} = 0 := by
  have hm : Measurable (oneHot : Fin (n + 1) → Fin (n + 1) → ℝ) := measurable_of_countable _
  constructor
  · intro k
    rw [Measure.map_apply hm (measurableSet_singleton _), C21_onehot, ← (C21_mass logits k).2]
    congr 1
    ext j
    simp [oneHot_injective.eq_iff]
  · have hs : MeasurableSet {v : Fin (n + 1) → ℝ | ¬ ∃ k : Fin (n + 1), v = oneHot k} := by
      have : {v : Fin (n + 1) → ℝ | ¬ ∃ k : Fin (n + 1), v = oneHot k} =
          (Set.range (oneHot : Fin (n + 1) → Fin (n + 1) → ℝ))ᶜ := by
        ext v; simp [eq_comm]
      rw [this]
      exact (Set.finite_range _).measurableSet.compl
    rw [Measure.map_apply hm hs]
    convert measure_empty
    · ext j
      simp
    · infer_instance

/-- A concrete case: two categories with probabilities 1/4 and 3/4. -/
example : Real.exp (categoricalLogProb ![(0 : ℝ), Real.log 3] 1) = 3 / 4 := by
  rw [(C21_mass _ _).1]
  simp [softmax, Fin.sum_univ_two, Real.exp_log]
  norm_num

/-! ## C31 -/

/-- The logits are log probabilities, by normalisation or because they are given so. -/
def Proper (normalize : Bool) (logits : Fin (n + 1) → ℝ) : Prop :=
  normalize = true ∨ ∑ i, Real.exp (logits i) = 1

theorem exp_normLogits {b : Bool} {logits : Fin (n + 1) → ℝ} (h : Proper b logits) (i : Fin (n + 1)) :
    Real.exp (normLogits b logits i) = softmax logits i := by
  rcases h with rfl | h
  · exact exp_normalized logits i
  · cases b
    · simp [normLogits, softmax, h]
    · exact exp_normalized logits i

theorem exp_logCombination (c : Fin n → ℕ) (N : ℕ) :
    Real.exp (logCombination (N : ℝ) fun i => (c i : ℝ)) = (N ! : ℝ) / ∏ i, ((c i)! : ℝ) := by
  simp only [logCombination, Fn.lgamma, Fn.ofReal, Fn.sum, Uni.lgamma, Real.Gamma_nat_eq_factorial]
  rw [Real.exp_sub, Real.exp_log (by exact_mod_cast Nat.factorial_pos N), Real.exp_sum]
  congr 1
  exact Finset.prod_congr rfl fun i _ => Real.exp_log (by exact_mod_cast Nat.factorial_pos _)

/-- C31.  `Multinomial.prob` of a count vector: `n!/∏ c_i! * ∏ p_i ^ c_i`, whether the number of
experiments is given or taken from the counts. -/
theorem C31_mass {b : Bool} {logits : Fin (n + 1) → ℝ} (h : Proper b logits) (c : Fin (n + 1) → ℕ)
    (N : ℕ) (N? : Option ℕ) (hN : N? = some N ∨ N? = none ∧ ∑ i, c i = N) :
    Real.exp (multinomialLogProb b N? logits fun i => (c i : ℝ)) =
      (N ! : ℝ) / (∏ i, ((c i)! : ℝ)) * ∏ i, softmax logits i ^ c i := by
  have e : multinomialLogProb b N? logits (fun i => (c i : ℝ)) =
      logCombination (N : ℝ) (fun i => (c i : ℝ)) + ∑ i, (c i : ℝ) * normLogits b logits i := by
    rcases hN with rfl | ⟨rfl, rfl⟩
    · rfl
    · simp [multinomialLogProb, Fn.sum]
  rw [e, Real.exp_add, exp_logCombination, Real.exp_sum]
  congr 1
  refine Finset.prod_congr rfl fun i _ => ?_
  rw [Real.exp_nat_mul, exp_normLogits h]

/-- C31.  It sums to one over the count vectors with total `N`. -/
theorem C31_total {b : Bool} {logits : Fin (n + 1) → ℝ} (h : Proper b logits) (N : ℕ) :
    ∑ c ∈ Finset.univ.piAntidiag N,
      Real.exp (multinomialLogProb b (some N) logits fun i => ((c i : ℕ) : ℝ)) = 1 := by
  have key := Finset.sum_pow_eq_sum_piAntidiag (Finset.univ : Finset (Fin (n + 1))) (softmax logits) N
  rw [softmax_sum, one_pow] at key
  rw [key]
  refine Finset.sum_congr rfl fun c hc => ?_
  rw [C31_mass h c N (some N) (.inl rfl)]
  congr 1
  have hs : ∑ i, c i = N := (Finset.mem_piAntidiag.1 hc).1
  have sp := Nat.multinomial_spec (Finset.univ : Finset (Fin (n + 1))) c
  rw [hs] at sp
  have sp' : (∏ i, ((c i)! : ℝ)) * (Nat.multinomial Finset.univ c : ℝ) = (N ! : ℝ) := by
    exact_mod_cast sp
  rw [← sp', mul_div_cancel_left₀]
  exact Finset.prod_ne_zero_iff.2 fun i _ => by exact_mod_cast (Nat.factorial_pos _).ne'

/-- The count vectors of the sum above are exactly those with total `N`. -/
theorem counts_total (N : ℕ) (c : Fin (n + 1) → ℕ) :
    c ∈ (Finset.univ : Finset (Fin (n + 1))).piAntidiag N ↔ ∑ i, c i = N := by
  simp [Finset.mem_piAntidiag]

/-- C31.  The property asks for probability 0 elsewhere.  When the number of experiments is taken from the
counts there is no elsewhere; when it is given, the code does not compare it with the counts, and every
count vector gets a positive probability. -/
theorem C31_nonzero_elsewhere (b : Bool) (logits : Fin (n + 1) → ℝ) (N : ℕ) (c : Fin (n + 1) → ℝ) :
    0 < Real.exp (multinomialLogProb b (some N) logits c) := Real.exp_pos _

/-- C31.  So summed over all count vectors (of any total) it is more than one. -/
theorem C31_total_exceeded (logits : Fin (n + 1) → ℝ) (N : ℕ) :
    ∃ S : Finset (Fin (n + 1) → ℕ),
      1 < ∑ c ∈ S, Real.exp (multinomialLogProb true (some N) logits fun i => (c i : ℝ)) := by
  let c0 : Fin (n + 1) → ℕ := fun _ => N + 1
  have hc0 : c0 ∉ (Finset.univ : Finset (Fin (n + 1))).piAntidiag N := by
    rw [counts_total]
    simp only [c0, Finset.sum_const, Finset.card_univ, Fintype.card_fin, smul_eq_mul]
    have : N + 1 ≤ (n + 1) * (N + 1) := Nat.le_mul_of_pos_left _ (by omega)
    omega
  refine ⟨insert c0 (Finset.univ.piAntidiag N), ?_⟩
  rw [Finset.sum_insert hc0, C31_total (.inl rfl) N]
  have := C31_nonzero_elsewhere true logits N fun i => (c0 i : ℝ)
  linarith

/-- C31.  `UnnormalizedMultinomial` is `Multinomial` without the log multinomial coefficient. -/
theorem C31_unnormalized (b : Bool) (logits : Fin (n + 1) → ℝ) (c : Fin (n + 1) → ℕ) :
    multinomialLogProb b none logits (fun i => (c i : ℝ)) =
      unnormalizedMultinomialLogProb b logits (fun i => (c i : ℝ)) +
        Real.log (Nat.multinomial Finset.univ c) := by
  have e : (∑ i, (c i : ℝ)) = ((∑ i, c i : ℕ) : ℝ) := by push_cast; rfl
  have hl : logCombination (∑ i, (c i : ℝ)) (fun i => (c i : ℝ)) =
      Real.log (Nat.multinomial Finset.univ c) := by
    rw [e, ← Real.log_exp (logCombination _ _), exp_logCombination]
    congr 1
    have sp := Nat.multinomial_spec (Finset.univ : Finset (Fin (n + 1))) c
    have sp' : (∏ i, ((c i)! : ℝ)) * (Nat.multinomial Finset.univ c : ℝ) = ((∑ i, c i)! : ℝ) := by
      exact_mod_cast sp
    rw [← sp', mul_div_cancel_left₀]
    exact Finset.prod_ne_zero_iff.2 fun i _ => by exact_mod_cast (Nat.factorial_pos _).ne'
  simp only [multinomialLogProb, unnormalizedMultinomialLogProb, Fn.sum, hl]
  ring

/-- C31.  The probability of an ordered sequence of draws with counts `c`. -/
theorem C31_unnormalized_mass {b : Bool} {logits : Fin (n + 1) → ℝ} (h : Proper b logits)
    (c : Fin (n + 1) → ℕ) : Real.exp (unnormalizedMultinomialLogProb b logits fun i => (c i : ℝ)) =
      ∏ i, softmax logits i ^ c i := by
  simp only [unnormalizedMultinomialLogProb, Fn.sum]
  rw [Real.exp_sum]
  refine Finset.prod_congr rfl fun i _ => ?_
  rw [Real.exp_nat_mul, exp_normLogits h]

/-! ### The sampler -/

/-- The number of draws equal to `i`. -/
def count {k N : ℕ} (d : Fin N → Fin k) (i : Fin k) : ℕ := (Finset.univ.filter fun e => d e = i).card

theorem multinomialCount_eq {k N : ℕ} (d : Fin N → Fin k) (i : Fin k) :
    multinomialCount d i = (count d i : ℝ) := by
  simp [multinomialCount, oneHot, count, Finset.sum_boole, eq_comm]

theorem count_cons {k N : ℕ} (j : Fin k) (d : Fin N → Fin k) (i : Fin k) :
    count (Fin.cons j d : Fin (N + 1) → Fin k) i = (if j = i then 1 else 0) + count d i := by
  simp only [count, Finset.card_filter, Fin.sum_univ_succ, Fin.cons_zero, Fin.cons_succ]

theorem card_count {k : ℕ} (N : ℕ) (c : Fin k → ℕ) (h : ∑ i, c i = N) :
    (∏ i, (c i)!) * (Finset.univ.filter fun d : Fin N → Fin k => count d = c).card = N ! := by
  induction N generalizing c with
  | zero =>
    have hc : c = 0 := by
      funext i
      have := Finset.sum_eq_zero_iff.1 h i (Finset.mem_univ i)
      exact this
    subst hc
    have : (Finset.univ.filter fun d : Fin 0 → Fin k => count d = 0) = Finset.univ := by
      ext d
      simp only [Finset.mem_filter, Finset.mem_univ, true_and, iff_true]
      funext i
      simp [count]
    rw [this]
    simp
  | succ N ih =>
    have split : (Finset.univ.filter fun d : Fin (N + 1) → Fin k => count d = c).card =
        ∑ j, (Finset.univ.filter fun d : Fin N → Fin k =>
          count (Fin.cons j d : Fin (N + 1) → Fin k) = c).card := by
      rw [Finset.card_filter, ← (Fin.consEquiv fun _ => Fin k).sum_comp, Fintype.sum_prod_type]
      refine Finset.sum_congr rfl fun j _ => ?_
      rw [Finset.card_filter]
      rfl
    rw [split, Finset.mul_sum]
    have each : ∀ j, (∏ i, (c i)!) * (Finset.univ.filter fun d : Fin N → Fin k =>
        count (Fin.cons j d : Fin (N + 1) → Fin k) = c).card = c j * N ! := by
      intro j
      rcases Nat.eq_zero_or_pos (c j) with hj | hj
      · have : (Finset.univ.filter fun d : Fin N → Fin k =>
            count (Fin.cons j d : Fin (N + 1) → Fin k) = c) = ∅ := by
          ext d
          simp only [Finset.mem_filter, Finset.mem_univ, true_and, Finset.notMem_empty, iff_false]
          intro e
          have := congrFun e j
          rw [count_cons] at this
          simp [hj] at this
        rw [this, hj]
        simp
      · let c' : Fin k → ℕ := Function.update c j (c j - 1)
        have hc' : ∑ i, c' i = N := by
          have h1 := Finset.sum_update_of_mem (Finset.mem_univ j) c (c j - 1)
          have h2 := Finset.sum_erase_add Finset.univ c (Finset.mem_univ j)
          rw [← Finset.sdiff_singleton_eq_erase] at h2
          simp only [c']
          rw [h1]
          omega
        have hf : (Finset.univ.filter fun d : Fin N → Fin k =>
            count (Fin.cons j d : Fin (N + 1) → Fin k) = c) =
            Finset.univ.filter fun d : Fin N → Fin k => count d = c' := by
          ext d
          simp only [Finset.mem_filter, Finset.mem_univ, true_and, funext_iff, count_cons, c']
          refine forall_congr' fun i => ?_
          by_cases hi : j = i
          · subst hi
            simp
            omega
          · rw [Function.update_of_ne (Ne.symm hi)]
            simp [hi]
        have hp : (∏ i, (c i)!) = c j * ∏ i, (c' i)! := by
          rw [← Finset.mul_prod_erase _ _ (Finset.mem_univ j),
            ← Finset.mul_prod_erase _ (fun i => (c' i)!) (Finset.mem_univ j)]
          have e : ∏ i ∈ Finset.univ.erase j, (c' i)! = ∏ i ∈ Finset.univ.erase j, (c i)! := by
            refine Finset.prod_congr rfl fun i hi => ?_
            simp only [c']
            rw [Function.update_of_ne (Finset.ne_of_mem_erase hi)]
          rw [e]
          simp only [c', Function.update_self]
          rw [← mul_assoc, Nat.mul_factorial_pred hj.ne']
        rw [hf, hp, mul_assoc, ih c' hc']
    rw [Finset.sum_congr rfl fun j _ => each j, ← Finset.sum_mul, h, Nat.factorial_succ]

/-- C31.  Counting `N` independent categorical draws has `Multinomial.prob` as its mass function. -/
theorem C31_sampler {b : Bool} {logits : Fin (n + 1) → ℝ} (h : Proper b logits) (N : ℕ)
    (c : Fin (n + 1) → ℕ) (hc : ∑ i, c i = N) :
    (Measure.pi fun _ : Fin N => categoricalLaw logits)
        {d | multinomialCount d = fun i => (c i : ℝ)} =
      ENNReal.ofReal (Real.exp (multinomialLogProb b (some N) logits fun i => (c i : ℝ))) := by
  have hset : {d : Fin N → Fin (n + 1) | multinomialCount d = fun i => (c i : ℝ)} =
      (Finset.univ.filter fun d : Fin N → Fin (n + 1) => count d = c : Finset _) := by
    ext d
    simp only [Set.mem_setOf_eq, Finset.coe_filter, Finset.mem_univ, true_and, funext_iff,
      multinomialCount_eq]
    exact forall_congr' fun i => by norm_cast
  rw [hset, ← sum_measure_singleton]
  have each : ∀ d ∈ (Finset.univ.filter fun d : Fin N → Fin (n + 1) => count d = c),
      (Measure.pi fun _ : Fin N => categoricalLaw logits) {d} =
        ENNReal.ofReal (∏ i, softmax logits i ^ c i) := by
    intro d hd
    have hd' : count d = c := (Finset.mem_filter.1 hd).2
    rw [Measure.pi_singleton]
    simp only [categoricalLaw_singleton]
    rw [← ENNReal.ofReal_prod_of_nonneg fun i _ => (softmax_pos _ _).le, ← hd']
    congr 1
    rw [← Finset.prod_fiberwise (s := Finset.univ) (g := d)]
    refine Finset.prod_congr rfl fun i _ => ?_
    rw [Finset.prod_congr rfl (g := fun _ => softmax logits i), Finset.prod_const]
    · rfl
    · intro e he
      rw [(Finset.mem_filter.1 he).2]
  rw [Finset.sum_congr rfl each, Finset.sum_const, nsmul_eq_mul, C31_mass h c N (some N) (.inl rfl)]
  have hp : 0 ≤ ∏ i, softmax logits i ^ c i :=
    Finset.prod_nonneg fun i _ => pow_nonneg (softmax_pos _ _).le _
  rw [← ENNReal.ofReal_natCast, ← ENNReal.ofReal_mul (Nat.cast_nonneg _)]
  congr 2
  have key := card_count N c hc
  have key' : (∏ i, ((c i)! : ℝ)) *
      ((Finset.univ.filter fun d : Fin N → Fin (n + 1) => count d = c).card : ℝ) = (N ! : ℝ) := by
    exact_mod_cast key
  rw [← key', mul_div_cancel_left₀]
  exact Finset.prod_ne_zero_iff.2 fun i _ => by exact_mod_cast (Nat.factorial_pos _).ne'

/-- C31.  The counts of a sample always add up to the number of experiments. -/
theorem C31_sample_total {k N : ℕ} (d : Fin N → Fin k) : ∑ i, multinomialCount d i = N := by
  simp only [multinomialCount]
  rw [Finset.sum_comm]
  simp [oneHot]

/-- C31.  What holds of the mass function: total one over the count vectors with the right total, the
sampler has it as its law.  Missing: zero elsewhere, which is false of the code
(`C31_nonzero_elsewhere`). -/
theorem C31_mass_function_partial {b : Bool} {logits : Fin (n + 1) → ℝ} (h : Proper b logits) (N : ℕ) :
    (∑ c ∈ Finset.univ.piAntidiag N,
      Real.exp (multinomialLogProb b (some N) logits fun i => ((c i : ℕ) : ℝ)) = 1) ∧
    ∀ c : Fin (n + 1) → ℕ, ∑ i, c i = N →
      (Measure.pi fun _ : Fin N => categoricalLaw logits)
          {d | multinomialCount d = fun i => (c i : ℝ)} =
        ENNReal.ofReal (Real.exp (multinomialLogProb b (some N) logits fun i => (c i : ℝ))) :=
  ⟨C31_total h N, fun c hc => C31_sampler h N c hc⟩

/-- A concrete case: logits that are already normalised, and three throws. -/
example : Proper false ![Real.log (1 / 2), Real.log (1 / 2)] ∧ (∑ i, (![1, 2] : Fin 2 → ℕ) i) = 3 := by
  refine ⟨.inr ?_, by decide⟩
  rw [Fin.sum_univ_two]
  change Real.exp (Real.log (1 / 2)) + Real.exp (Real.log (1 / 2)) = 1
  rw [Real.exp_log (by norm_num)]
  norm_num

end ZhuSuan.Num

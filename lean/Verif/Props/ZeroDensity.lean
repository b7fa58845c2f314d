import Verif.Model.ZeroDensity
import Verif.Props.Checked

/-!
# C116: samples of density zero in the multi-sample objectives

English: a sample whose density under the model is zero (`log_prob` is `-inf`) counts as a sample of weight zero in `log_sum_exp`, `log_mean_exp`, the
importance weighted objective, `is_loglikelihood` and the `importance` cost.  This holds as long as some sample has a positive density.  If all have
density zero the result is NaN, not `-inf`, and one such batch entry makes the mean over the batch NaN.  The `vimco` cost is NaN as soon as one sample
has density zero.  AIS does not return then: `Props/AisRun.lean`.
-/
set_option autoImplicit false

namespace ZhuSuan.ZeroDensity
open XF Checked

variable {n : ℕ}

/-- The logarithm of a density that may be zero. -/
def LogDensity (a : XF) : Prop := a = ninf ∨ ∃ r, a = fin r

/-- The density, from its logarithm. -/
noncomputable def density : XF → ℝ
  | fin r => Real.exp r
  | _ => 0

theorem nan_add (a : XF) : nan + a = nan := by cases a <;> rfl
theorem add_nan (a : XF) : a + nan = nan := by cases a <;> rfl
theorem mul_nan (a : XF) : a * nan = nan := by cases a <;> rfl
theorem nan_div (a : XF) : nan / a = nan := by cases a <;> rfl
theorem sub_nan (a : XF) : a - nan = nan := by cases a <;> rfl
theorem nan_sub (a : XF) : nan - a = nan := by cases a <;> rfl

theorem sum_nan {ι : Type} {s : Finset ι} {f : ι → XF} {i : ι} (hi : i ∈ s) (h : f i = nan) : ∑ j ∈ s, f j = nan := by
  classical
  rw [← Finset.add_sum_erase s f hi, h, nan_add]

theorem maxVal_nan {x : Fin (n + 1) → XF} {i : Fin (n + 1)} (h : x i = nan) : maxVal x = nan := by
  rw [maxVal, if_pos ⟨i, h⟩]

theorem logMeanExp_nan {x : Fin (n + 1) → XF} {i : Fin (n + 1)} (h : x i = nan) : logMeanExp x = nan := by
  simp only [logMeanExp, maxVal_nan h]
  exact add_nan _

theorem maxVal_density {x : Fin (n + 1) → XF} (hx : ∀ i, LogDensity (x i)) (h0 : ∃ i r, x i = fin r) : ∃ m, maxVal x = fin m := by
  have h1 : ¬ ∃ i, x i = nan := by rintro ⟨i, hi⟩; rcases hx i with h | ⟨r, h⟩ <;> simp [hi] at h
  have h2 : ¬ ∃ i, x i = inf := by rintro ⟨i, hi⟩; rcases hx i with h | ⟨r, h⟩ <;> simp [hi] at h
  have h3 : ¬ ∀ i, x i = ninf := by obtain ⟨i, r, hi⟩ := h0; intro h; simpa [hi] using h i
  exact ⟨_, by rw [maxVal, if_neg h1, if_neg h2, if_neg h3]⟩

theorem exp_sub_density {a : XF} (ha : LogDensity a) (m : ℝ) : XF.exp (a - fin m) = fin (density a * Real.exp (-m)) := by
  rcases ha with rfl | ⟨r, rfl⟩
  · show XF.exp ninf = _
    simp [XF.exp, density]
  · simp [density, ← Real.exp_add, sub_eq_add_neg]

theorem density_nonneg (a : XF) : 0 ≤ density a := by
  cases a <;> simp [density, Real.exp_nonneg]

theorem sum_density_pos {x : Fin (n + 1) → XF} (h0 : ∃ i r, x i = fin r) : 0 < ∑ i, density (x i) := by
  obtain ⟨i, r, hi⟩ := h0
  refine lt_of_lt_of_le (Real.exp_pos r) ?_
  have := Finset.single_le_sum (f := fun i => density (x i)) (fun i _ => density_nonneg _) (Finset.mem_univ i)
  simpa [hi, density] using this

/-- **C116** `log_sum_exp` of log densities, some of which may be `-inf`, is the logarithm of the sum of the densities. -/
theorem C116_log_sum_exp_partial {x : Fin (n + 1) → XF} (hx : ∀ i, LogDensity (x i)) (h0 : ∃ i r, x i = fin r) :
    logSumExp x = fin (Real.log (∑ i, density (x i))) := by
  obtain ⟨m, hm⟩ := maxVal_density hx h0
  have hp := sum_density_pos h0
  simp only [logSumExp, hm, exp_sub_density (hx _), fin_sum, ← Finset.sum_mul]
  rw [fin_log _ (by positivity), fin_add, Real.log_mul hp.ne' (Real.exp_pos _).ne', Real.log_exp, neg_add_cancel_right]

/-- **C116** `log_mean_exp` of log densities, some of which may be `-inf`, is the logarithm of the mean of the densities. -/
theorem C116_log_mean_exp_partial {x : Fin (n + 1) → XF} (hx : ∀ i, LogDensity (x i)) (h0 : ∃ i r, x i = fin r) :
    logMeanExp x = fin (Real.log ((∑ i, density (x i)) / (n + 1))) := by
  obtain ⟨m, hm⟩ := maxVal_density hx h0
  have hp := sum_density_pos h0
  have hn : (0 : ℝ) < n + 1 := by positivity
  simp only [logMeanExp, hm, exp_sub_density (hx _), fin_sum, ← Finset.sum_mul]
  rw [fin_div _ _ hn.ne', mul_div_right_comm, fin_log _ (by positivity), fin_add, Real.log_mul (by positivity) (Real.exp_pos _).ne', Real.log_exp,
    neg_add_cancel_right]

theorem logW_density {logp logq : Fin (n + 1) → XF} (hp : ∀ k, LogDensity (logp k)) {q : Fin (n + 1) → ℝ} (hq : ∀ k, logq k = fin (q k)) (k : Fin (n + 1)) :
    LogDensity (logW logp logq k) ∧ density (logW logp logq k) = density (logp k) / Real.exp (q k) := by
  unfold logW
  rw [hq k, fin_neg]
  rcases hp k with h | ⟨r, h⟩ <;> rw [h]
  · exact ⟨.inl rfl, by simp [density]; rfl⟩
  · exact ⟨.inr ⟨_, rfl⟩, by simp [density, Real.exp_add, Real.exp_neg]; rfl⟩

/-- **C116** The importance weighted objective (and `is_loglikelihood`) is the logarithm of the mean of the importance weights, where samples of density
zero have weight zero, if one sample has a positive density. -/
theorem C116_objective_partial {logp logq : Fin (n + 1) → XF} (hp : ∀ k, LogDensity (logp k)) {q : Fin (n + 1) → ℝ} (hq : ∀ k, logq k = fin (q k))
    (h0 : ∃ k r, logp k = fin r) :
    objective logp logq = fin (Real.log ((∑ k, density (logp k) / Real.exp (q k)) / (n + 1))) := by
  have h0' : ∃ i r, logW logp logq i = fin r := by
    obtain ⟨k, r, h⟩ := h0
    exact ⟨k, r + -q k, by rw [logW, h, hq, fin_neg, fin_add]⟩
  rw [objective, C116_log_mean_exp_partial (fun k => (logW_density hp hq k).1) h0']
  simp only [(logW_density hp hq _).2]

/-- **C116** The full claim is false: with all samples of density zero both functions, and the objective, give NaN, where the exact value is `-inf`. -/
theorem C116_all_zero_refuted {x : Fin (n + 1) → XF} (h : ∀ i, x i = ninf) :
    logSumExp x = nan ∧ logMeanExp x = nan ∧
    XF.log (fin (∑ i, density (x i))) = ninf ∧ XF.log (fin ((∑ i, density (x i)) / (n + 1))) = ninf := by
  have hm : maxVal x = ninf := by
    rw [maxVal, if_neg (by simp [h]), if_neg (by simp [h]), if_pos h]
  refine ⟨?_, ?_, by simp [h, density, XF.log], by simp [h, density, XF.log]⟩
  · rw [logSumExp, hm, sum_nan (Finset.mem_univ 0) (by rw [h 0]; rfl)]; rfl
  · rw [logMeanExp, hm, sum_nan (Finset.mem_univ 0) (by rw [h 0]; rfl), nan_div]; rfl

/-- **C116** `tf.reduce_logsumexp`, which the documentation recommends in place of `log_sum_exp`, gives `-inf` there. -/
theorem C116_reduce_logsumexp {x : Fin (n + 1) → XF} (h : ∀ i, x i = ninf) : XF.logSumExp x = ninf := by
  have hm : maxVal x = ninf := by
    rw [maxVal, if_neg (by simp [h]), if_neg (by simp [h]), if_pos h]
  have : ∀ i, XF.exp (x i - fin 0) = fin 0 := fun i => by rw [h i]; rfl
  simp only [XF.logSumExp, hm, XF.isFinite, if_false, this, fin_sum]
  simp only [Finset.sum_const_zero, XF.log, lt_self_iff_false, if_false, if_true]
  rfl

/-- **C116** One batch entry all of whose samples have density zero makes the mean over the batch NaN, whatever the other entries are. -/
theorem C116_batch {m : ℕ} {logp logq : Fin (m + 1) → Fin (n + 1) → XF} {b : Fin (m + 1)} (hp : ∀ k, logp b k = ninf) {q : Fin (n + 1) → ℝ}
    (hq : ∀ k, logq b k = fin (q k)) :
    reduceMean (fun b => objective (logp b) (logq b)) = nan := by
  have : objective (logp b) (logq b) = nan :=
    (C116_all_zero_refuted (x := logW (logp b) (logq b)) fun k => by rw [logW, hp, hq]; rfl).2.1
  rw [reduceMean, sum_nan (Finset.mem_univ b) this, nan_div]

/-- **C116** One sample of density zero makes the `vimco` cost NaN, whatever the other samples are. -/
theorem C116_vimco {logp logq : Fin (n + 1) → XF} {k : Fin (n + 1)} (hp : logp k = ninf) {q : ℝ} (hq : logq k = fin q) :
    vimcoCost logp logq = nan := by
  have hw : logW logp logq k = ninf := by rw [logW, hp, hq]; rfl
  have hc : controlVariate (logW logp logq) k = nan := by
    refine logMeanExp_nan (i := k) ?_
    simp only [if_true, hw]
    rw [show (ninf - ninf : XF) = nan from rfl, nan_add]
  simp only [vimcoCost]
  rw [sum_nan (Finset.mem_univ k) (by rw [hc, sub_nan, mul_nan])]
  exact nan_sub _

/-- **C116** The `importance` cost weighs the samples by their normalised importance weights, where samples of density zero have weight zero, if one
sample has a positive density. -/
theorem C116_importance_partial {logp logq : Fin (n + 1) → XF} (hp : ∀ k, LogDensity (logp k)) {q : Fin (n + 1) → ℝ} (hq : ∀ k, logq k = fin (q k))
    (h0 : ∃ k r, logp k = fin r) :
    importanceCost logp logq =
      fin (∑ k, density (logp k) / Real.exp (q k) / (∑ i, density (logp i) / Real.exp (q i)) * -q k) := by
  have h0' : ∃ i r, logW logp logq i = fin r := by
    obtain ⟨k, r, h⟩ := h0
    exact ⟨k, r + -q k, by rw [logW, h, hq, fin_neg, fin_add]⟩
  obtain ⟨m, hm⟩ := maxVal_density (fun k => (logW_density hp hq k).1) h0'
  have hpos := sum_density_pos h0'
  simp only [importanceCost, hm, exp_sub_density (logW_density hp hq _).1, fin_sum, ← Finset.sum_mul, hq, fin_neg]
  simp only [(logW_density hp hq _).2] at hpos ⊢
  have he := Real.exp_pos (-m)
  simp only [fin_div _ _ (mul_pos hpos he).ne', fin_mul, fin_sum, mul_div_mul_right _ _ he.ne']

/-- A concrete case: three samples, the second of density zero, under a standard proposal density.  The objective is finite, the `vimco` cost NaN. -/
example : ∃ logp logq : Fin (2 + 1) → XF, (∀ k, LogDensity (logp k)) ∧ (∀ k, logq k = fin (-1)) ∧ (∃ k r, logp k = fin r) ∧ logp 1 = ninf ∧
    objective logp logq = fin (Real.log ((∑ k, density (logp k) / Real.exp (-1)) / (2 + 1))) ∧ vimcoCost logp logq = nan := by
  let logp : Fin (2 + 1) → XF := ![fin (-2), ninf, fin (-5)]
  have h1 : ∀ k, LogDensity (logp k) := by
    intro k; fin_cases k
    · exact .inr ⟨-2, rfl⟩
    · exact .inl rfl
    · exact .inr ⟨-5, rfl⟩
  refine ⟨logp, fun _ => fin (-1), h1, fun _ => rfl, ⟨0, -2, rfl⟩, rfl, ?_, C116_vimco (k := 1) rfl rfl⟩
  exact_mod_cast C116_objective_partial h1 (fun _ => rfl) ⟨0, -2, rfl⟩

end ZhuSuan.ZeroDensity

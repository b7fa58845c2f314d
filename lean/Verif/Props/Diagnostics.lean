import Mathlib.Tactic.Linarith
import Mathlib.Tactic.FieldSimp
import Mathlib.Tactic.Positivity
import Mathlib.Tactic.LinearCombination
import Mathlib.Algebra.Order.BigOperators.Group.Finset
import Verif.Model.Diagnostics
import Verif.Spec.Ess

/-!
# C63  Effective sample size
-/

set_option autoImplicit false

open Finset

namespace ZhuSuan.Diagnostics

open ZhuSuan.Ess

theorem fin_sub (a b : ℝ) : XF.fin a - XF.fin b = XF.fin (a - b) := by
  show XF.add _ (XF.neg _) = _
  simp [XF.neg, XF.add, sub_eq_add_neg]

theorem fin_mul (a b : ℝ) : XF.fin a * XF.fin b = XF.fin (a * b) := rfl

theorem fin_add (a b : ℝ) : XF.fin a + XF.fin b = XF.fin (a + b) := rfl

theorem fin_div (a b : ℝ) (h : b ≠ 0) : XF.fin a / XF.fin b = XF.fin (a / b) := by
  show XF.div _ _ = _
  simp [XF.div, h]

theorem fin_sum (n : ℕ) (x : ℕ → ℝ) : Flt.sum (fun i : Fin n => XF.fin (x i)) = XF.fin (∑ i ∈ range n, x i) := by
  show ∑ i : Fin n, XF.fin (x i) = _
  rw [Fin.sum_univ_eq_sum_range (fun i => XF.fin (x i)) n]
  induction n with
  | zero => rfl
  | succ n ih => rw [sum_range_succ, sum_range_succ, ih, fin_add]

theorem npMean_fin (n : ℕ) (hn : n ≠ 0) (x : ℕ → ℝ) : npMean n (fun i => .fin (x i)) = .fin (mean n x) := by
  rw [npMean, fin_sum, fin_div _ _ (by exact_mod_cast hn), mean]

theorem npVar_fin (n : ℕ) (hn : n ≠ 0) (x : ℕ → ℝ) : npVar n (fun i => .fin (x i)) = .fin (varN n x) := by
  simp only [npVar, npMean_fin n hn, fin_sub, fin_mul]
  rw [mean, varN]
  simp only [pow_two]

/-- A chain that is not constant has positive variance. -/
theorem varN_pos (n : ℕ) (x : ℕ → ℝ) (h : NonConstant n x) : 0 < varN n x := by
  obtain ⟨i, hi, j, hj, hij⟩ := h
  have hn : 0 < (n : ℝ) := by exact_mod_cast (by omega : 0 < n)
  refine div_pos ?_ hn
  rcases ne_or_eq (x i) (mean n x) with h | h
  · exact sum_pos' (fun _ _ => sq_nonneg _) ⟨i, mem_range.2 hi, by
      have := sub_ne_zero.2 h; positivity⟩
  · refine sum_pos' (fun _ _ => sq_nonneg _) ⟨j, mem_range.2 hj, ?_⟩
    have := sub_ne_zero.2 (fun e => hij (h.trans e.symm) : x j ≠ mean n x)
    positivity

theorem nonConstant_two (n : ℕ) (x : ℕ → ℝ) (h : NonConstant n x) : 2 ≤ n := by
  obtain ⟨i, hi, j, hj, hij⟩ := h
  by_contra hc
  have h1 : i = j := by omega
  exact hij (h1 ▸ rfl)

/-- The loop with finite values. -/
theorem sumRho_fin (r : ℕ → ℝ) : ∀ (k t : ℕ) (acc : ℝ), ∃ T, t ≤ T ∧ T ≤ t + k ∧ (∀ j, t ≤ j → j < T → 0 ≤ r j) ∧
    (T = t + k ∨ r T < 0) ∧
    sumRho (fun j => .fin (r j)) k t (.fin acc) = .fin (acc + ∑ j ∈ Ico t T, r j) := by
  intro k
  induction k with
  | zero => exact fun t acc => ⟨t, le_refl _, le_refl _, fun j h1 h2 => by omega, Or.inl rfl, by simp [sumRho]⟩
  | succ k ih =>
    intro t acc
    by_cases h : r t < 0
    · refine ⟨t, le_refl _, by omega, fun j h1 h2 => by omega, Or.inr h, ?_⟩
      rw [sumRho, if_pos (show XF.lt (.fin (r t)) (.fin 0) from h)]
      simp
    · obtain ⟨T, h1, h2, h3, h4, h5⟩ := ih (t + 1) (acc + r t)
      refine ⟨T, by omega, by omega, fun j hj1 hj2 => ?_, ?_, ?_⟩
      · rcases eq_or_lt_of_le hj1 with e | e
        · exact e ▸ not_lt.1 h
        · exact h3 j e hj2
      · rcases h4 with h4 | h4
        · exact Or.inl (by omega)
        · exact Or.inr h4
      · rw [sumRho, if_neg (show ¬XF.lt (.fin (r t)) (.fin 0) from h), fin_add, h5,
          sum_eq_sum_Ico_succ_bot (by omega : t < T)]
        congr 1
        ring

/-- C63, partial: for every chain of real samples that is not constant, `effective_sample_size_1d` returns
`n / (1 + 2 (ρ 0 + ρ 1 + … + ρ (T-1)))` with `T` the first lag whose autocorrelation is negative.  Missing: the
estimator (Stan's, which the documentation names) starts at lag 1; see `C63_lag_zero`. -/
theorem C63_estimator_partial (n : ℕ) (x : ℕ → ℝ) (h : NonConstant n x) :
    ∃ T, FirstNegative n x T ∧
      ess1d n (fun i => .fin (x i)) = .fin (n / (1 + 2 * ∑ t ∈ range T, rho n x t)) := by
  have hv := varN_pos n x h
  have hn2 := nonConstant_two n x h
  have hn0 : n ≠ 0 := by omega
  have hnR : (n : ℝ) ≠ 0 := by exact_mod_cast hn0
  have hn1 : (n : ℝ) - 1 ≠ 0 := by
    have : (2 : ℝ) ≤ n := by exact_mod_cast hn2
    intro h; linarith
  obtain ⟨T, _, h2, h3, h4, h5⟩ := sumRho_fin (rho n x) n 0 0
  have hT : FirstNegative n x T := ⟨by omega, fun t ht => h3 t (by omega) ht, by simpa using h4⟩
  refine ⟨T, hT, ?_⟩
  have hU : varN n x * n / (n - 1) = varU n x := by
    rw [varN, varU]
    field_simp
  have hN : varU n x * (n - 1) / n = varN n x := by
    rw [varN, varU]
    field_simp
  have hac : ∀ lag, lag < n → npMean (n - lag) (fun i => (XF.fin (x i) - XF.fin (mean n x)) *
      (XF.fin (x (i + lag)) - XF.fin (mean n x))) = .fin (autoCov n x lag) := by
    intro lag hlag
    simp only [fin_sub, fin_mul]
    rw [npMean_fin (n - lag) (by omega) (fun i => (x i - mean n x) * (x (i + lag) - mean n x))]
    rfl
  have hrho : ∀ (f : ℕ → XF), (∀ t < n, f t = .fin (rho n x t)) → ∀ (k t : ℕ) (acc : XF), t + k ≤ n →
      sumRho f k t acc = sumRho (fun t => .fin (rho n x t)) k t acc := by
    intro f hf k
    induction k with
    | zero => intros; rfl
    | succ k ih =>
      intro t acc htk
      rw [sumRho, sumRho, hf t (by omega), ih _ _ (by omega)]
  have hsum : 0 ≤ ∑ t ∈ range T, rho n x t := sum_nonneg fun t ht => hT.2.1 t (mem_range.1 ht)
  simp only [ess1d, npMean_fin n hn0, npVar_fin n hn0, fin_mul, fin_div _ _ hn1, fin_div _ _ hnR, hU, hN]
  rw [hrho _ (fun t ht => ?_) n 0 _ (by omega), h5]
  · simp only [zero_add, Nat.Ico_zero_eq_range, fin_mul, fin_add]
    rw [fin_div _ _ (by positivity)]
  · rw [hac t ht, fin_sub, fin_div _ _ hv.ne', fin_sub, rho]

/-- The truncation lag is unique. -/
theorem firstNegative_unique (n : ℕ) (x : ℕ → ℝ) (T T' : ℕ) (h : FirstNegative n x T)
    (h' : FirstNegative n x T') : T = T' := by
  obtain ⟨h1, h2, h3⟩ := h
  obtain ⟨h1', h2', h3'⟩ := h'
  rcases lt_trichotomy T T' with hlt | he | hlt
  · rcases h3 with h3 | h3
    · omega
    · exact absurd (h2' T hlt) (not_le.2 h3)
  · exact he
  · rcases h3' with h3 | h3
    · omega
    · exact absurd (h2 T' hlt) (not_le.2 h3)

/-- The autocorrelation at lag 0. -/
theorem rho_zero (n : ℕ) (x : ℕ → ℝ) (h : NonConstant n x) : rho n x 0 = (n - 2) / (n - 1) := by
  have hv := varN_pos n x h
  have hn2 : (2 : ℝ) ≤ n := by exact_mod_cast nonConstant_two n x h
  have h0 : autoCov n x 0 = varN n x := by simp [autoCov, varN, pow_two]
  have hU : varU n x = varN n x * n / (n - 1) := by
    rw [varN, varU]
    have : (n : ℝ) ≠ 0 := by positivity
    field_simp
  have : (n : ℝ) - 1 ≠ 0 := by intro h; linarith
  rw [rho, h0, hU]
  field_simp
  ring

/-- C63, finding.  The sum contains lag 0, which Stan's estimator does not; so the result is
`n / (1 + 2 (n - 2) / (n - 1) + 2 (ρ 1 + …))`. -/
theorem C63_lag_zero (n : ℕ) (x : ℕ → ℝ) (h : NonConstant n x) :
    ∃ T, FirstNegative n x T ∧ 1 ≤ T ∧
      ess1d n (fun i => .fin (x i)) =
        .fin (n / (1 + 2 * ((n - 2) / (n - 1)) + 2 * ∑ t ∈ Ico 1 T, rho n x t)) := by
  obtain ⟨T, hT, he⟩ := C63_estimator_partial n x h
  have hn2 := nonConstant_two n x h
  have h0 := rho_zero n x h
  have hnR : (2 : ℝ) ≤ n := by exact_mod_cast hn2
  have hT1 : 1 ≤ T := by
    by_contra hc
    have : T = 0 := by omega
    subst this
    rcases hT.2.2 with h1 | h1
    · omega
    · rw [h0] at h1
      have : 0 ≤ ((n : ℝ) - 2) / (n - 1) := div_nonneg (by linarith) (by linarith)
      linarith
  refine ⟨T, hT, hT1, ?_⟩
  rw [he, range_eq_Ico, sum_eq_sum_Ico_succ_bot (by omega : 0 < T), h0]
  congr 2
  ring

/-- C63.  The result is positive and at most the number of samples; in fact at most `n (n-1) / (3n - 5)`, about a
third of it, whatever the samples. -/
theorem C63_bounds (n : ℕ) (x : ℕ → ℝ) (h : NonConstant n x) :
    ∃ e : ℝ, ess1d n (fun i => .fin (x i)) = .fin e ∧ 0 < e ∧ e ≤ n * (n - 1) / (3 * n - 5) ∧ e ≤ n := by
  obtain ⟨T, hT, hT1, he⟩ := C63_lag_zero n x h
  have hn2 : (2 : ℝ) ≤ n := by exact_mod_cast nonConstant_two n x h
  have hs : 0 ≤ ∑ t ∈ Ico 1 T, rho n x t := sum_nonneg fun t ht => hT.2.1 t (mem_Ico.1 ht).2
  have hq : 0 ≤ ((n : ℝ) - 2) / (n - 1) := div_nonneg (by linarith) (by linarith)
  have hb : (n : ℝ) / (1 + 2 * ((n - 2) / (n - 1)) + 2 * ∑ t ∈ Ico 1 T, rho n x t) ≤
      n * (n - 1) / (3 * n - 5) := by
    have e : (n : ℝ) * (n - 1) / (3 * n - 5) = n / (1 + 2 * ((n - 2) / (n - 1))) := by
      have h1 : (n : ℝ) - 1 ≠ 0 := by intro h; linarith
      have h2 : (3 * (n : ℝ) - 5) ≠ 0 := by intro h; linarith
      have h3 : 1 + 2 * (((n : ℝ) - 2) / (n - 1)) = (3 * n - 5) / (n - 1) := by
        field_simp
        ring
      rw [h3, div_div_eq_mul_div]
    rw [e]
    exact div_le_div_of_nonneg_left (by linarith) (by linarith) (by linarith)
  refine ⟨_, he, by positivity, hb, ?_⟩
  refine div_le_self (by linarith) ?_
  linarith

/-- C63.  Shifting and scaling the samples changes nothing. -/
theorem C63_affine (n : ℕ) (x : ℕ → ℝ) (h : NonConstant n x) (a b : ℝ) (ha : a ≠ 0) :
    ess1d n (fun i => .fin (a * x i + b)) = ess1d n (fun i => .fin (x i)) := by
  have hn2 := nonConstant_two n x h
  have hnR : (n : ℝ) ≠ 0 := by
    have : n ≠ 0 := by omega
    exact_mod_cast this
  have h' : NonConstant n fun i => a * x i + b := by
    obtain ⟨i, hi, j, hj, hij⟩ := h
    exact ⟨i, hi, j, hj, fun e => hij (mul_left_cancel₀ ha (add_right_cancel e))⟩
  have hm : mean n (fun i => a * x i + b) = a * mean n x + b := by
    simp only [mean, sum_add_distrib, ← mul_sum, sum_const, card_range, nsmul_eq_mul]
    field_simp
  have hd : ∀ i, a * x i + b - mean n (fun i => a * x i + b) = a * (x i - mean n x) := fun i => by
    rw [hm]; ring
  have hN : varN n (fun i => a * x i + b) = a ^ 2 * varN n x := by
    simp only [varN, hd, mul_pow, ← mul_sum, mul_div_assoc]
  have hU : varU n (fun i => a * x i + b) = a ^ 2 * varU n x := by
    simp only [varU, hd, mul_pow, ← mul_sum, mul_div_assoc]
  have hA : ∀ t, autoCov n (fun i => a * x i + b) t = a ^ 2 * autoCov n x t := by
    intro t
    simp only [autoCov, hd]
    rw [← mul_div_assoc, mul_sum]
    congr 1
    exact sum_congr rfl fun i _ => by ring
  have hr : rho n (fun i => a * x i + b) = rho n x := by
    funext t
    simp only [rho, hN, hU, hA]
    rw [← mul_sub, mul_div_mul_left _ _ (pow_ne_zero 2 ha)]
  obtain ⟨T, hT, he⟩ := C63_estimator_partial n x h
  obtain ⟨T', hT', he'⟩ := C63_estimator_partial n _ h'
  have : T' = T := by
    refine firstNegative_unique n x _ _ ?_ hT
    simpa only [FirstNegative, hr] using hT'
  rw [he, he', this, hr]

/-- The loop over dimensions that are not constant takes the minimum. -/
theorem essLoop_min (n : ℕ) (e : (ℕ → ℝ) → ℝ) (l : List (ℕ → ℝ))
    (he : ∀ x ∈ l, n ≠ 1 ∧ ess1d n (fun i => .fin (x i)) = .fin (e x) ∧ 0 < e x) (c : ℝ) :
    ∃ m, essLoop n (l.map fun x => fun i => .fin (x i)) (.fin c) = .ok (.fin m) ∧ (m = c ∨ ∃ x ∈ l, m = e x) ∧
      m ≤ c ∧ ∀ x ∈ l, m ≤ e x := by
  induction l generalizing c with
  | nil => exact ⟨c, rfl, Or.inl rfl, le_refl _, by simp⟩
  | cons x l ih =>
    obtain ⟨h1, h2, h3⟩ := he x (by simp)
    have hstep : essStep n (fun i => .fin (x i)) (.fin c) = .ok (.fin (min (e x) c)) := by
      have hlt : XF.lt (.fin 0) (.fin (e x)) := h3
      rw [essStep, if_neg h1, h2, takeMin, if_pos (Or.inl hlt), if_pos hlt]
      by_cases hc : e x < c
      · rw [if_pos (show XF.lt (.fin (e x)) (.fin c) from hc), min_eq_left hc.le]
      · rw [if_neg (show ¬XF.lt (.fin (e x)) (.fin c) from hc), min_eq_right (not_lt.1 hc)]
    obtain ⟨m, g1, g2, g3, g4⟩ := ih (fun y hy => he y (by simp [hy])) (min (e x) c)
    refine ⟨m, ?_, ?_, g3.trans (min_le_right _ _), ?_⟩
    · rw [List.map_cons, essLoop, hstep]
      exact g1
    · rcases g2 with g2 | ⟨y, hy, g2⟩
      · rcases min_choice (e x) c with g | g
        · exact Or.inr ⟨x, by simp, g2.trans g⟩
        · exact Or.inl (g2.trans g)
      · exact Or.inr ⟨y, by simp [hy], g2⟩
    · intro y hy
      rcases List.mem_cons.1 hy with rfl | hy
      · exact g3.trans (min_le_left _ _)
      · exact g4 y hy

/-- C63.  The result for vector samples is the smallest result of a dimension, of the samples after `burn_in`. -/
theorem C63_minimum (M burnIn : ℕ) (columns : List (ℕ → ℝ)) (hne : columns ≠ [])
    (h : ∀ x ∈ columns, NonConstant (M - burnIn) fun i => x (burnIn + i)) :
    ∃ m : ℝ, effectiveSampleSize M (columns.map fun x i => .fin (x i)) burnIn = .ok (.fin m) ∧
      (∃ x ∈ columns, ess1d (M - burnIn) (fun i => .fin (x (burnIn + i))) = .fin m) ∧
      ∀ x ∈ columns, ∃ e, m ≤ e ∧ ess1d (M - burnIn) (fun i => .fin (x (burnIn + i))) = .fin e := by
  classical
  let e : (ℕ → ℝ) → ℝ := fun y => match ess1d (M - burnIn) (fun i => .fin (y i)) with
    | .fin r => r
    | _ => 0
  have he : ∀ y, NonConstant (M - burnIn) y → M - burnIn ≠ 1 ∧
      ess1d (M - burnIn) (fun i => .fin (y i)) = .fin (e y) ∧ 0 < e y := by
    intro y hy
    obtain ⟨r, h1, h2, _⟩ := C63_bounds _ y hy
    have e1 : e y = r := by simp [e, h1]
    have := nonConstant_two _ y hy
    exact ⟨by omega, by rw [h1, e1], by rw [e1]; exact h2⟩
  obtain ⟨x0, l, rfl⟩ := List.exists_cons_of_ne_nil hne
  obtain ⟨h1, h2, h3⟩ := he _ (h x0 (by simp))
  obtain ⟨m, g1, g2, g3, g4⟩ := essLoop_min (M - burnIn) e (l.map fun x i => x (burnIn + i))
    (fun y hy => by
      obtain ⟨x, hx, rfl⟩ := List.mem_map.1 hy
      exact he _ (h x (by simp [hx]))) (e fun i => x0 (burnIn + i))
  have hstep : essStep (M - burnIn) (fun i => .fin (x0 (burnIn + i))) .inf = .ok (.fin (e fun i => x0 (burnIn + i))) := by
    have hlt : XF.lt (.fin 0) (.fin (e fun i => x0 (burnIn + i))) := h3
    rw [essStep, if_neg h1, h2, takeMin, if_pos (Or.inl hlt), if_pos hlt, if_pos (show XF.lt (.fin _) .inf from trivial)]
  refine ⟨m, ?_, ?_, ?_⟩
  · simp only [effectiveSampleSize, List.map_cons, List.map_map, Function.comp_def, essLoop, hstep] at g1 ⊢
    exact g1
  · rcases g2 with g2 | ⟨y, hy, g2⟩
    · exact ⟨x0, by simp, by rw [g2]; exact h2⟩
    · obtain ⟨x, hx, rfl⟩ := List.mem_map.1 hy
      exact ⟨x, by simp [hx], by rw [g2]; exact (he _ (h x (by simp [hx]))).2.1⟩
  · intro x hx
    refine ⟨_, ?_, (he _ (h x hx)).2.1⟩
    rcases List.mem_cons.1 hx with rfl | hx
    · exact g3
    · exact g4 _ (List.mem_map.2 ⟨x, hx, rfl⟩)

/-- C63, finding.  If there are no samples after `burn_in` (100 by default) the result is `inf`. -/
theorem C63_too_few (M burnIn : ℕ) (h : M ≤ burnIn) (columns : List (ℕ → XF)) :
    effectiveSampleSize M columns burnIn = .ok .inf := by
  have hn : M - burnIn = 0 := by omega
  have h0 : ∀ x, ess1d 0 x = .fin 0 := by
    intro x
    simp only [ess1d, sumRho, fin_mul, fin_add]
    rw [fin_div _ _ (by norm_num)]
    norm_num
  have hlt : ¬XF.lt (.fin 0) (.fin 0) := by simp [XF.lt]
  have hstep : ∀ x c, essStep 0 x c = .ok c := by
    intro x c
    rw [essStep, if_neg (by omega), h0, takeMin, if_pos (Or.inr rfl), if_neg hlt]
  have hl : ∀ l c, essLoop 0 l c = .ok c := by
    intro l
    induction l with
    | nil => intro c; rfl
    | cons x l ih => intro c; rw [essLoop, hstep]; exact ih c
  rw [effectiveSampleSize, hn, hl]

/-- C63, finding.  A dimension that never moves makes the assertion fail (the value is NaN). -/
theorem C63_constant (n : ℕ) (hn : 2 ≤ n) (c : ℝ) (current : XF) :
    ess1d n (fun _ => .fin c) = .nan ∧ essStep n (fun _ => .fin c) current = .error .assertionError := by
  have hn0 : n ≠ 0 := by omega
  have hnR : (n : ℝ) ≠ 0 := by exact_mod_cast hn0
  have hn1 : (n : ℝ) - 1 ≠ 0 := by
    have : (2 : ℝ) ≤ n := by exact_mod_cast hn
    intro h; linarith
  have hm : mean n (fun _ => c) = c := by simp [mean, hnR]
  have hv : varN n (fun _ => c) = 0 := by simp [varN, hm]
  have hnanadd : ∀ y : XF, .nan + y = XF.nan := fun y => by show XF.add _ _ = _; cases y <;> rfl
  have hsum : ∀ (rho : ℕ → XF), ∀ k t, sumRho rho k t .nan = .nan ∨ sumRho rho k t .nan = .nan := by
    intro rho k
    induction k with
    | zero => intros; exact Or.inl rfl
    | succ k ih =>
      intro t
      rw [sumRho, hnanadd]
      split
      · exact Or.inl rfl
      · exact ih _
  have h00 : XF.fin 0 / XF.fin 0 = .nan := by
    show XF.div _ _ = _
    simp [XF.div, XF.infSign]
  have hess : ess1d n (fun _ => .fin c) = .nan := by
    simp only [ess1d, npMean_fin n hn0 fun _ => c, npVar_fin n hn0 fun _ => c, hm, hv, fin_mul, fin_sub,
      fin_div _ _ hn1, fin_div _ _ hnR, zero_mul, zero_div, sub_self, mul_zero]
    obtain ⟨k, rfl⟩ : ∃ k, n = k + 1 := ⟨n - 1, by omega⟩
    have hac : ∀ lag, lag < k + 1 → npMean (k + 1 - lag) (fun _ => XF.fin 0) = .fin 0 := by
      intro lag hlag
      rw [npMean_fin (k + 1 - lag) (by omega) fun _ => (0 : ℝ)]
      simp [mean]
    rw [sumRho, hac 0 (by omega), fin_sub, sub_self, h00]
    have h1n : XF.fin 1 - .nan = .nan := rfl
    have h0n : XF.fin 0 + .nan = .nan := rfl
    rw [h1n, if_neg (show ¬XF.lt .nan (.fin 0) from fun h => h), h0n]
    rcases hsum (fun t => XF.fin 1 - (XF.fin 0 - npMean (k + 1 - t) fun _ => XF.fin 0) / XF.fin 0) k (0 + 1) with h | h <;>
    · rw [h]
      rfl
  refine ⟨hess, ?_⟩
  rw [essStep, if_neg (by omega), hess, takeMin, if_neg]
  rintro (h | h)
  · exact h
  · exact XF.noConfusion h

/-- C63, finding.  With one sample after `burn_in` an `IndexError` is raised. -/
theorem C63_one_sample (burnIn : ℕ) (x : ℕ → XF) (columns : List (ℕ → XF)) :
    effectiveSampleSize (burnIn + 1) (x :: columns) burnIn = .error .indexError := by
  simp [effectiveSampleSize, essLoop, essStep]

/-- The hypotheses of `C63_minimum` are met by a chain of three samples in one dimension. -/
example : NonConstant (103 - 100) fun i => (fun k : ℕ => (k : ℝ)) (100 + i) :=
  ⟨0, by norm_num, 1, by norm_num, by norm_num⟩

end ZhuSuan.Diagnostics

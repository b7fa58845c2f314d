import Mathlib.Analysis.SpecialFunctions.Pow.Real
import Mathlib.Analysis.SpecificLimits.Basic
import Verif.Spec.Hmc

/-!
# Dual averaging
-/

set_option autoImplicit false

open Filter

namespace ZhuSuan.Hmc

/-- A sum that is not increased where its weighted value is large has bounded weighted values. -/
theorem drift_bound (c d : ℕ → ℝ) (A K β : ℝ) (N : ℕ) (hc : ∀ n, 0 ≤ c n) (hA : ∀ n, c n ≤ A)
    (hmono : ∀ n ≥ N, c (n + 1) ≤ c n) (hK : 0 ≤ K) (hd : ∀ n, d n ≤ K)
    (h : ∀ n ≥ N, β ≤ c n * ∑ i ∈ Finset.range n, d i → d n ≤ 0) :
    ∃ M, ∀ n, c n * ∑ i ∈ Finset.range n, d i ≤ M := by
  set x : ℕ → ℝ := fun n => c n * ∑ i ∈ Finset.range n, d i with hx
  set S := ∑ i ∈ Finset.range (N + 1), |x i| with hS
  have hAK : 0 ≤ A * K := mul_nonneg ((hc 0).trans (hA 0)) hK
  have hb : ∀ n ≤ N, x n ≤ S := fun n hn =>
    (le_abs_self _).trans (Finset.single_le_sum (f := fun i => |x i|) (fun _ _ => abs_nonneg _)
      (Finset.mem_range.2 (by omega)))
  have hS0 : 0 ≤ S := Finset.sum_nonneg fun _ _ => abs_nonneg _
  refine ⟨max S (max β 0 + A * K), fun n => ?_⟩
  rcases le_total n N with hn | hn
  · exact (hb n hn).trans (le_max_left _ _)
  · induction n, hn using Nat.le_induction with
    | base => exact (hb N le_rfl).trans (le_max_left _ _)
    | succ n hn ih =>
      have e : x (n + 1) = c (n + 1) * (∑ i ∈ Finset.range n, d i) + c (n + 1) * d n := by
        simp only [hx, Finset.sum_range_succ]; ring
      show x (n + 1) ≤ _
      -- the weighted old sum
      have h1 : c (n + 1) * (∑ i ∈ Finset.range n, d i) ≤ max (x n) 0 := by
        rcases le_total 0 (∑ i ∈ Finset.range n, d i) with h0 | h0
        · exact (mul_le_mul_of_nonneg_right (hmono n hn) h0).trans (le_max_left _ _)
        · exact (mul_nonpos_of_nonneg_of_nonpos (hc _) h0).trans (le_max_right _ _)
      rcases le_or_gt β (x n) with hβ | hβ
      · have h2 : c (n + 1) * d n ≤ 0 := mul_nonpos_of_nonneg_of_nonpos (hc _) (h n hn hβ)
        have h3 : max (x n) 0 ≤ max S (max β 0 + A * K) := max_le ih (hS0.trans (le_max_left _ _))
        linarith
      · have h2 : c (n + 1) * d n ≤ A * K :=
          (mul_le_mul_of_nonneg_left (hd n) (hc _)).trans (mul_le_mul_of_nonneg_right (hA _) hK)
        have h3 : max (x n) 0 ≤ max β 0 := max_le_max hβ.le le_rfl
        exact le_trans (by linarith) (le_max_right _ _)

variable (mu gamma t0 delta kappa : ℝ) (a : ℕ → ℝ)

/-- The mean of the rates is tied to the step size. -/
theorem dual_gap (hg : 0 < gamma) (ht0 : 0 ≤ t0) (n : ℕ) (hn : 0 < n) :
    (∑ i ∈ Finset.range n, a i) / n - delta =
      gamma * (n + t0) / (n * Real.sqrt n) * (dualLogStep mu gamma t0 delta a n - mu) := by
  have h1 : (0 : ℝ) < n := by exact_mod_cast hn
  have h2 : 0 < Real.sqrt n := Real.sqrt_pos.2 h1
  have h3 : (0 : ℝ) < n + t0 := by linarith
  simp only [dualLogStep, Finset.sum_sub_distrib, Finset.sum_const, Finset.card_range, nsmul_eq_mul]
  field_simp
  ring

theorem dual_weight_mono (hg : 0 < gamma) (ht0 : 0 ≤ t0) (n : ℕ) (hn : t0 ≤ n) (hn0 : 0 < n) :
    Real.sqrt ((n + 1 : ℕ) : ℝ) / gamma / ((n + 1 : ℕ) + t0) ≤ Real.sqrt n / gamma / (n + t0) := by
  have h1 : (0 : ℝ) < n := by exact_mod_cast hn0
  have h3 : (0 : ℝ) < n + t0 := by linarith
  have h4 : (0 : ℝ) < ((n + 1 : ℕ) : ℝ) + t0 := by push_cast; linarith
  rw [div_div, div_div, div_le_div_iff₀ (by positivity) (by positivity)]
  have key : Real.sqrt ((n + 1 : ℕ) : ℝ) * (n + t0) ≤ Real.sqrt n * (((n + 1 : ℕ) : ℝ) + t0) := by
    refine abs_le_of_sq_le_sq' ?_ (by positivity) |>.2
    rw [mul_pow, mul_pow, Real.sq_sqrt (by positivity), Real.sq_sqrt h1.le]
    push_cast
    nlinarith
  nlinarith

/-- If large steps are accepted too rarely and small ones often enough, the step sizes stay within bounds. -/
theorem dual_bounded (hg : 0 < gamma) (ht0 : 0 ≤ t0) (ha0 : ∀ i, 0 ≤ a i) (ha1 : ∀ i, a i ≤ 1) (b B : ℝ)
    (hB : ∀ n, B ≤ dualLogStep mu gamma t0 delta a (n + 1) → a (n + 1) ≤ delta)
    (hb : ∀ n, dualLogStep mu gamma t0 delta a (n + 1) ≤ b → delta ≤ a (n + 1)) :
    ∃ lo hi, ∀ n, lo ≤ dualLogStep mu gamma t0 delta a n ∧ dualLogStep mu gamma t0 delta a n ≤ hi := by
  set c : ℕ → ℝ := fun n => Real.sqrt n / gamma / (n + t0) with hc
  have c0 : ∀ n, 0 ≤ c n := fun n => div_nonneg (div_nonneg (Real.sqrt_nonneg _) hg.le) (by positivity)
  have cA : ∀ n, c n ≤ 1 / gamma := by
    intro n
    rcases Nat.eq_zero_or_pos n with rfl | hn
    · simp [hc, hg.le]
    · have h1 : (1 : ℝ) ≤ n := by exact_mod_cast hn
      have h2 : Real.sqrt n ≤ n := by
        rw [Real.sqrt_le_left (by linarith)]
        nlinarith
      simp only [hc]
      rw [div_div, div_le_div_iff₀ (by positivity) hg, one_mul]
      have := mul_le_mul_of_nonneg_left (show Real.sqrt n ≤ n + t0 by linarith) hg.le
      linarith
  set N : ℕ := ⌈t0⌉₊ + 1 with hN
  have cm : ∀ n ≥ N, c (n + 1) ≤ c n := fun n hn =>
    dual_weight_mono gamma t0 hg ht0 n ((Nat.le_ceil t0).trans (by exact_mod_cast (by omega : ⌈t0⌉₊ ≤ n))) (by omega)
  have ex : ∀ n, dualLogStep mu gamma t0 delta a n = mu + c n * ∑ i ∈ Finset.range n, (a i - delta) := by
    intro n
    have : ∑ i ∈ Finset.range n, (a i - delta) = -∑ i ∈ Finset.range n, (delta - a i) := by
      rw [← Finset.sum_neg_distrib]
      exact Finset.sum_congr rfl fun i _ => by ring
    rw [this, dualLogStep]
    simp only [hc]
    ring
  have hK : ∀ i, |a i - delta| ≤ 1 + |delta| := fun i => by
    refine (abs_sub _ _).trans (add_le_add ?_ le_rfl)
    rw [abs_le]; exact ⟨by linarith [ha0 i], ha1 i⟩
  have hK0 : 0 ≤ 1 + |delta| := by positivity
  obtain ⟨M, hM⟩ := drift_bound c (fun i => a i - delta) (1 / gamma) (1 + |delta|) (B - mu) N c0 cA cm hK0
    (fun i => (le_abs_self _).trans (hK i)) (fun n hn hβ => by
      obtain ⟨m, rfl⟩ : ∃ m, n = m + 1 := ⟨n - 1, by omega⟩
      have := hB m (by rw [ex]; linarith)
      linarith)
  obtain ⟨M', hM'⟩ := drift_bound c (fun i => -(a i - delta)) (1 / gamma) (1 + |delta|) (mu - b) N c0 cA cm hK0
    (fun i => (neg_le_abs _).trans (hK i)) (fun n hn hβ => by
      obtain ⟨m, rfl⟩ : ∃ m, n = m + 1 := ⟨n - 1, by omega⟩
      rw [Finset.sum_neg_distrib] at hβ
      have := hb m (by rw [ex]; linarith)
      linarith)
  refine ⟨mu - M', mu + M, fun n => ?_⟩
  have h1 := hM n
  have h2 := hM' n
  rw [Finset.sum_neg_distrib] at h2
  rw [ex]
  constructor <;> linarith

/-- With step sizes within bounds the mean of the rates tends to `delta`. -/
theorem dual_average (hg : 0 < gamma) (ht0 : 0 ≤ t0) (M : ℝ)
    (h : ∀ n, |dualLogStep mu gamma t0 delta a (n + 1) - mu| ≤ M) :
    Tendsto (fun n : ℕ => (∑ i ∈ Finset.range (n + 1), a i) / ((n + 1 : ℕ) : ℝ)) atTop (nhds delta) := by
  have hM : 0 ≤ M := (abs_nonneg _).trans (h 0)
  rw [← tendsto_sub_nhds_zero_iff]
  have hlim : Tendsto (fun n : ℕ => gamma * (1 + t0) * M / Real.sqrt ((n + 1 : ℕ) : ℝ)) atTop (nhds 0) := by
    refine Tendsto.div_atTop tendsto_const_nhds ?_
    exact (Real.tendsto_sqrt_atTop.comp tendsto_natCast_atTop_atTop).comp (tendsto_add_atTop_nat 1)
  refine squeeze_zero_norm (fun n => ?_) hlim
  have h1 : (1 : ℝ) ≤ ((n + 1 : ℕ) : ℝ) := by push_cast; linarith [Nat.cast_nonneg (α := ℝ) n]
  have h2 : 0 < Real.sqrt ((n + 1 : ℕ) : ℝ) := Real.sqrt_pos.2 (by linarith)
  rw [dual_gap mu gamma t0 delta a hg ht0 (n + 1) (by omega), Real.norm_eq_abs, abs_mul, abs_of_nonneg (by positivity)]
  calc gamma * (((n + 1 : ℕ) : ℝ) + t0) / (((n + 1 : ℕ) : ℝ) * Real.sqrt ((n + 1 : ℕ) : ℝ)) *
        |dualLogStep mu gamma t0 delta a (n + 1) - mu|
      ≤ gamma * (((n + 1 : ℕ) : ℝ) + t0) / (((n + 1 : ℕ) : ℝ) * Real.sqrt ((n + 1 : ℕ) : ℝ)) * M :=
        mul_le_mul_of_nonneg_left (h n) (by positivity)
    _ ≤ gamma * (1 + t0) / Real.sqrt ((n + 1 : ℕ) : ℝ) * M := by
        refine mul_le_mul_of_nonneg_right ?_ hM
        rw [div_le_div_iff₀ (by positivity) h2]
        have : ((n + 1 : ℕ) : ℝ) + t0 ≤ (1 + t0) * ((n + 1 : ℕ) : ℝ) := by nlinarith
        have h3 := mul_le_mul_of_nonneg_left this (mul_nonneg hg.le h2.le)
        nlinarith
    _ = _ := by ring

theorem dual_weight (hk : 0 ≤ kappa) (n : ℕ) :
    0 ≤ ((n + 1 : ℕ) : ℝ) ^ (-kappa) ∧ ((n + 1 : ℕ) : ℝ) ^ (-kappa) ≤ 1 := by
  refine ⟨by positivity, Real.rpow_le_one_of_one_le_of_nonpos ?_ (by linarith)⟩
  push_cast
  linarith [Nat.cast_nonneg (α := ℝ) n]

/-- The averaged log step lies between bounds of the log steps. -/
theorem bar_between (hk : 0 ≤ kappa) (lo hi : ℝ) (n : ℕ)
    (h : ∀ m ≤ n, lo ≤ dualLogStep mu gamma t0 delta a (m + 1) ∧ dualLogStep mu gamma t0 delta a (m + 1) ≤ hi) :
    lo ≤ dualLogStepBar mu gamma t0 delta kappa a (n + 1) ∧ dualLogStepBar mu gamma t0 delta kappa a (n + 1) ≤ hi := by
  induction n with
  | zero => simpa [dualLogStepBar] using h 0 le_rfl
  | succ n ih =>
    obtain ⟨i1, i2⟩ := ih fun m hm => h m (by omega)
    obtain ⟨l1, l2⟩ := h (n + 1) le_rfl
    obtain ⟨w0, w1⟩ := dual_weight kappa hk (n + 1)
    rw [dualLogStepBar]
    constructor <;> nlinarith

/-- If the log steps converge, so does their average. -/
theorem bar_limit (hk : 0 ≤ kappa) (hk1 : kappa ≤ 1) (L : ℝ)
    (h : Tendsto (fun n => dualLogStep mu gamma t0 delta a n) atTop (nhds L)) :
    Tendsto (fun n => dualLogStepBar mu gamma t0 delta kappa a n) atTop (nhds L) := by
  rw [Metric.tendsto_atTop] at h ⊢
  intro ε hε
  obtain ⟨N, hN⟩ := h (ε / 2) (half_pos hε)
  set x := fun n => dualLogStep mu gamma t0 delta a n
  set y := fun n => dualLogStepBar mu gamma t0 delta kappa a n
  -- the excess over half of the tolerance decays like one over n
  have key : ∀ m, ((N + m : ℕ) : ℝ) * max (|y (N + m) - L| - ε / 2) 0 ≤ N * max (|y N - L| - ε / 2) 0 := by
    intro m
    induction m with
    | zero => rfl
    | succ m ih =>
      refine le_trans ?_ ih
      obtain ⟨w0, w1⟩ := dual_weight kappa hk (N + m)
      have e : y (N + (m + 1)) - L = ((N + m + 1 : ℕ) : ℝ) ^ (-kappa) * (x (N + m + 1) - L) +
          (1 - ((N + m + 1 : ℕ) : ℝ) ^ (-kappa)) * (y (N + m) - L) := by
        show dualLogStepBar mu gamma t0 delta kappa a (N + m + 1) - L = _
        rw [dualLogStepBar]
        ring
      have hx : |x (N + m + 1) - L| ≤ ε / 2 := (hN (N + m + 1) (by omega)).le
      have h1 : |y (N + (m + 1)) - L| - ε / 2 ≤
          (1 - ((N + m + 1 : ℕ) : ℝ) ^ (-kappa)) * (|y (N + m) - L| - ε / 2) := by
        rw [e]
        have := abs_add_le (((N + m + 1 : ℕ) : ℝ) ^ (-kappa) * (x (N + m + 1) - L))
          ((1 - ((N + m + 1 : ℕ) : ℝ) ^ (-kappa)) * (y (N + m) - L))
        rw [abs_mul, abs_mul, abs_of_nonneg w0, abs_of_nonneg (sub_nonneg.2 w1)] at this
        nlinarith
      have hpos : (0 : ℝ) < ((N + m + 1 : ℕ) : ℝ) := by positivity
      have hw : 1 / ((N + m + 1 : ℕ) : ℝ) ≤ ((N + m + 1 : ℕ) : ℝ) ^ (-kappa) := by
        rw [one_div, ← Real.rpow_neg_one]
        refine Real.rpow_le_rpow_of_exponent_le ?_ (by linarith)
        push_cast
        linarith [Nat.cast_nonneg (α := ℝ) N, Nat.cast_nonneg (α := ℝ) m]
      have h2 : max (|y (N + (m + 1)) - L| - ε / 2) 0 ≤
          (1 - 1 / ((N + m + 1 : ℕ) : ℝ)) * max (|y (N + m) - L| - ε / 2) 0 := by
        have hn : 0 ≤ 1 - 1 / ((N + m + 1 : ℕ) : ℝ) := by linarith
        have h0 : 0 ≤ max (|y (N + m) - L| - ε / 2) 0 := le_max_right _ _
        refine max_le ?_ (mul_nonneg hn h0)
        refine h1.trans ?_
        calc (1 - ((N + m + 1 : ℕ) : ℝ) ^ (-kappa)) * (|y (N + m) - L| - ε / 2)
            ≤ (1 - ((N + m + 1 : ℕ) : ℝ) ^ (-kappa)) * max (|y (N + m) - L| - ε / 2) 0 :=
              mul_le_mul_of_nonneg_left (le_max_left _ _) (by linarith)
          _ ≤ _ := mul_le_mul_of_nonneg_right (by linarith) h0
      calc ((N + (m + 1) : ℕ) : ℝ) * max (|y (N + (m + 1)) - L| - ε / 2) 0
          ≤ ((N + m + 1 : ℕ) : ℝ) * ((1 - 1 / ((N + m + 1 : ℕ) : ℝ)) * max (|y (N + m) - L| - ε / 2) 0) :=
            mul_le_mul_of_nonneg_left h2 hpos.le
        _ = ((N + m : ℕ) : ℝ) * max (|y (N + m) - L| - ε / 2) 0 := by
            field_simp
            push_cast
            ring
  set D := N * max (|y N - L| - ε / 2) 0 with hD
  have hD0 : 0 ≤ D := mul_nonneg (Nat.cast_nonneg _) (le_max_right _ _)
  obtain ⟨M, hM⟩ := exists_nat_gt (D / (ε / 2))
  refine ⟨N + M + 1, fun n hn => ?_⟩
  obtain ⟨m, rfl⟩ : ∃ m, n = N + m := ⟨n - N, by omega⟩
  have h1 := key m
  have h2 : (M : ℝ) < ((N + m : ℕ) : ℝ) := by exact_mod_cast (by omega : M < N + m)
  have h3 : D < ((N + m : ℕ) : ℝ) * (ε / 2) := by
    rw [div_lt_iff₀ (by positivity)] at hM
    nlinarith
  have hpos : (0 : ℝ) < ((N + m : ℕ) : ℝ) := lt_of_le_of_lt (Nat.cast_nonneg M) h2
  have h4 : max (|y (N + m) - L| - ε / 2) 0 < ε / 2 := by
    by_contra hcon
    have := mul_le_mul_of_nonneg_left (not_lt.1 hcon) hpos.le
    linarith
  have h5 := lt_of_le_of_lt (le_max_left (|y (N + m) - L| - ε / 2) 0) h4
  rw [Real.dist_eq]
  linarith

end ZhuSuan.Hmc

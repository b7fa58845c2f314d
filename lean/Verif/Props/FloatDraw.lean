import Verif.Lemmas.FloatDraw
import Mathlib.Algebra.Order.Floor.Semiring

/-!
# C113: uniform draws at the ends of their range, in floating point

Throughout, `fl` is any rounding to nearest of the dtype (`roundTo_nearest` shows that there is one), and `k` are the random bits behind one
draw: all `k < 2 ^ d.bits` have the same probability.
-/
set_option autoImplicit false

namespace ZhuSuan.FloatDraw

variable {d : Dtype} {fl : ℝ → ℝ}

/-- Two numbers that both round to within `t` of a number of the dtype. -/
private theorem near (h : Nearest d fl) {x y : ℝ} (hy : y ∈ d.numbers) : |fl x - y| ≤ 2 * |x - y| := by
  have h1 := h.nearest x y hy
  have h2 : |fl x - y| ≤ |fl x - x| + |x - y| := abs_sub_le _ _ _
  rw [abs_sub_comm y x] at h1
  linarith

/-- `open_interval_standard_uniform` returns numbers in the open interval: at least the smallest normal number of the dtype and at most the
largest number below one, and differs from the draw on `[0, 1)` by at most six times the smallest normal number. -/
theorem C113_open_interval (h : Nearest d fl) {k : ℕ} (hk : k < 2 ^ d.bits) :
    0 < openUniform d fl k ∧ openUniform d fl k < 1 ∧
    (2 : ℝ) ^ (-(d.tinyExp : ℤ)) ≤ openUniform d fl k ∧
    openUniform d fl k ≤ 1 - (2 : ℝ) ^ (-(d.prec : ℤ)) ∧
    |openUniform d fl k - k / 2 ^ d.bits| ≤ 6 * (2 : ℝ) ^ (-(d.tinyExp : ℤ)) := by
  have hT := two_zpow_pos (-(d.tinyExp : ℤ))
  have hTp : (2 : ℝ) ^ (-(d.tinyExp : ℤ)) ≤ (2 : ℝ) ^ (-(d.prec : ℤ)) :=
    two_zpow_le (by have := prec_le_tiny d; omega)
  have hp := two_zpow_pos (-(d.prec : ℤ))
  have hp1 : (2 : ℝ) ^ (-(d.prec : ℤ)) ≤ 1 := by
    have := two_zpow_le (a := -(d.prec : ℤ)) (b := 0) (by omega)
    simpa using this
  have hTm : (2 : ℝ) ^ (-(d.tinyExp : ℤ)) ∈ d.numbers := zpow_mem (by have := tiny_le_emin d; omega)
  have hr0 := draw_nonneg (d := d) k
  have hr1 := draw_le hk
  rw [two_zpow_bits] at hr1
  have hrm := draw_mem hk
  have hk' : (k : ℝ) / 2 ^ d.bits = draw d k := by
    rw [draw, zpow_neg, zpow_natCast, div_eq_mul_inv]
  set T := (2 : ℝ) ^ (-(d.tinyExp : ℤ)) with hTdef
  set r := draw d k with hr
  have hD1 : fl (1 - T) ≤ 1 := le_of_le h one_mem (by linarith)
  have hD0 : 0 ≤ fl (1 - T) := ge_of_ge h zero_mem (by linarith)
  have hDn := near h (x := 1 - T) one_mem
  have hX1 : fl (r * fl (1 - T)) ≤ r := le_of_le h hrm (by nlinarith)
  have hX0 : 0 ≤ fl (r * fl (1 - T)) := ge_of_ge h zero_mem (by positivity)
  have lo : T ≤ openUniform d fl k := ge_of_ge h hTm (by linarith)
  have hi : openUniform d fl k ≤ 1 - (2 : ℝ) ^ (-(d.prec : ℤ)) := by
    have := one_sub_mem (d := d) (j := 1) Nat.one_le_two_pow
    rw [Nat.cast_one, one_mul] at this
    exact le_of_le h this (by linarith)
  refine ⟨by linarith, by linarith, lo, hi, ?_⟩
  rw [hk']
  have e1 : |1 - T - 1| = T := by rw [show 1 - T - 1 = -T by ring, abs_neg, abs_of_pos hT]
  rw [e1] at hDn
  have hDl := (abs_le.mp hDn).1
  have hXn := near h (x := r * fl (1 - T)) hrm
  have e2 : |r * fl (1 - T) - r| ≤ 2 * T := by
    rw [abs_le]; constructor <;> nlinarith
  have hS := near h (x := fl (r * fl (1 - T)) + T) hrm
  have e3 : |fl (r * fl (1 - T)) + T - r| ≤ 3 * T := by
    have := abs_le.mp (hXn.trans (mul_le_mul_of_nonneg_left e2 (by norm_num : (0 : ℝ) ≤ 2)))
    rw [abs_le]; constructor <;> linarith
  calc |openUniform d fl k - r| ≤ 2 * |fl (r * fl (1 - T)) + T - r| := hS
    _ ≤ 6 * T := by linarith

/-- The logistic noise of `BinConcrete`: neither of the two logarithms is taken of zero, for any draw. -/
theorem C113_logistic (h : Nearest d fl) {k : ℕ} (hk : k < 2 ^ d.bits) :
    0 < (logisticLogArgs d fl k).1 ∧ 0 < (logisticLogArgs d fl k).2 ∧
    (logisticLogArgs d fl k).1 < 1 ∧ (logisticLogArgs d fl k).2 ≤ 1 := by
  obtain ⟨h0, h1, -, h2, -⟩ := C113_open_interval h hk
  refine ⟨h0, ?_, h1, le_of_le h one_mem (by linarith)⟩
  have hm : (2 : ℝ) ^ (-(d.prec : ℤ)) ∈ d.numbers := zpow_mem (by have := prec_le_emin d; omega)
  have := ge_of_ge h hm (y := 1 - openUniform d fl k) (by linarith)
  exact lt_of_lt_of_le (two_zpow_pos _) this

/-- The Gumbel noise of `ExpConcrete` and `Concrete`: neither of the two logarithms is taken of zero or of a negative number, for any draw and
any logarithm of the device whose relative error is below one; the noise has an upper and a lower bound. -/
theorem C113_gumbel (h : Nearest d fl) {k : ℕ} (hk : k < 2 ^ d.bits) (lg : ℝ → ℝ) (ε : ℝ) (hε : ε < 1)
    (hlg : ∀ x, 0 < x → |lg x - Real.log x| ≤ ε * |Real.log x|) :
    0 < (gumbelLogArgs d fl lg k).1 ∧ 0 < (gumbelLogArgs d fl lg k).2 ∧
    (1 - ε) * (2 : ℝ) ^ (-(d.prec : ℤ)) ≤ (gumbelLogArgs d fl lg k).2 ∧
    (gumbelLogArgs d fl lg k).2 ≤ 2 * (d.tinyExp * Real.log 2) := by
  obtain ⟨h0, h1, h3, h2, -⟩ := C113_open_interval h hk
  have hl : Real.log (openUniform d fl k) ≤ -(2 : ℝ) ^ (-(d.prec : ℤ)) := by
    have := Real.log_le_sub_one_of_pos h0
    linarith
  have hp := two_zpow_pos (-(d.prec : ℤ))
  have hb := hlg _ h0
  rw [abs_of_neg (a := Real.log _) (by linarith)] at hb
  have hb' := abs_le.mp hb
  have hlo : -(d.tinyExp * Real.log 2) ≤ Real.log (openUniform d fl k) := by
    have := Real.log_le_log (two_zpow_pos _) h3
    rwa [Real.log_zpow, Int.cast_neg, Int.cast_natCast, neg_mul] at this
  have hlow : (1 - ε) * (2 : ℝ) ^ (-(d.prec : ℤ)) ≤ (gumbelLogArgs d fl lg k).2 := by
    show _ ≤ -lg (openUniform d fl k)
    nlinarith
  refine ⟨h0, lt_of_lt_of_le (mul_pos (by linarith) hp) hlow, hlow, ?_⟩
  show -lg (openUniform d fl k) ≤ _
  nlinarith

/-- The uniform draw of `Laplace`: strictly between `-1` and `1`, so that `tf.log1p` is never taken of `-1`; it differs from the exact
`2 k / 2 ^ bits - 1` by at most six units of the last place. -/
theorem C113_laplace (h : Nearest d fl) {k : ℕ} (hk : k < 2 ^ d.bits) :
    -1 < laplaceUniform d fl k ∧ laplaceUniform d fl k < 1 ∧ -1 < laplaceLog1pArg d fl k ∧
    |laplaceUniform d fl k - (2 * (k / 2 ^ d.bits) - 1)| ≤ 6 * (2 : ℝ) ^ (-(d.prec : ℤ)) := by
  have hp := two_zpow_pos (-(d.prec : ℤ))
  have hp1 : (2 : ℝ) ^ (-(d.prec : ℤ)) ≤ 1 := by
    have := two_zpow_le (a := -(d.prec : ℤ)) (b := 0) (by omega)
    simpa using this
  have hr0 := draw_nonneg (d := d) k
  have hr1 := draw_le hk
  have hb2 := two_zpow_bits d
  rw [hb2] at hr1
  have hk' : (k : ℝ) / 2 ^ d.bits = draw d k := by
    rw [draw, zpow_neg, zpow_natCast, div_eq_mul_inv]
  have hpe := prec_le_emin d
  have hpp := prec_pos d
  have hbits : d.bits < d.prec := by simp only [Dtype.bits]; omega
  have hkz : (k : ℤ) < 2 ^ d.bits := by exact_mod_cast hk
  have hbp : (2 : ℤ) ^ d.bits ≤ 2 ^ d.prec := pow_le_pow_right₀ (by norm_num) hbits.le
  have hm2 : 2 * draw d k ∈ d.numbers := by
    have := mem_numbers (d := d) (n := k) (e := 1 + -(d.bits : ℤ))
      (by rw [abs_of_nonneg (by omega)]; omega) (by omega)
    rw [zpow_add₀ (by norm_num), zpow_one] at this
    have e : 2 * draw d k = ((k : ℤ) : ℝ) * (2 * (2 : ℝ) ^ (-(d.bits : ℤ))) := by
      rw [draw, Int.cast_natCast]; ring
    rwa [e]
  have hm3 : 2 * draw d k - 1 ∈ d.numbers := by
    have := mem_numbers_le (d := d) (n := 2 * k - 2 ^ d.bits) (e := -(d.bits : ℤ))
      (by rw [abs_le]; constructor <;> omega) (by omega)
    have e : ((2 * k - 2 ^ d.bits : ℤ) : ℝ) * (2 : ℝ) ^ (-(d.bits : ℤ)) = 2 * draw d k - 1 := by
      rw [draw]
      push_cast
      rw [sub_mul, zpow_neg, zpow_natCast, mul_inv_cancel₀ (by positivity)]
      ring
    rwa [e] at this
  have hA : afterMinusOne d ∈ d.numbers := by
    have := neg_mem (one_sub_mem (d := d) (j := 1) Nat.one_le_two_pow)
    rw [Nat.cast_one, one_mul] at this
    have e : afterMinusOne d = -(1 - (2 : ℝ) ^ (-(d.prec : ℤ))) := by rw [afterMinusOne]; ring
    rwa [e]
  set ε := (2 : ℝ) ^ (-(d.prec : ℤ)) with hε
  set r := draw d k with hr
  have hw : 1 - afterMinusOne d = 2 - ε := by rw [afterMinusOne]; ring
  have hD2 : fl (2 - ε) ≤ 2 := le_of_le h two_mem (by linarith)
  have hD0 : 0 ≤ fl (2 - ε) := ge_of_ge h zero_mem (by linarith)
  have hX1 : fl (r * fl (2 - ε)) ≤ 2 * r := le_of_le h hm2 (by nlinarith)
  have hX0 : 0 ≤ fl (r * fl (2 - ε)) := ge_of_ge h zero_mem (by positivity)
  have hu : laplaceUniform d fl k = fl (fl (r * fl (2 - ε)) + afterMinusOne d) := by
    rw [laplaceUniform, randomUniform, hw]
  have lo : -1 + ε ≤ laplaceUniform d fl k := by
    rw [hu]; exact ge_of_ge h hA (by linarith)
  have h1m := one_sub_mem (d := d) (j := 1) Nat.one_le_two_pow
  rw [Nat.cast_one, one_mul] at h1m
  have hi : laplaceUniform d fl k ≤ 1 - ε := by
    rw [hu]; refine le_of_le h h1m ?_
    rw [afterMinusOne]; linarith
  refine ⟨by linarith, by linarith, ?_, ?_⟩
  · have : |laplaceUniform d fl k| ≤ 1 - ε := abs_le.mpr ⟨by linarith, hi⟩
    rw [laplaceLog1pArg]; linarith
  · rw [hk', hu]
    have hDn := near h (x := 2 - ε) two_mem
    rw [show 2 - ε - 2 = -ε by ring, abs_neg, abs_of_pos hp] at hDn
    have hDl := (abs_le.mp hDn).1
    have hXn := near h (x := r * fl (2 - ε)) hm2
    have e2 : |r * fl (2 - ε) - 2 * r| ≤ 2 * ε := by
      rw [abs_le]; constructor <;> nlinarith
    have hXn' := abs_le.mp (hXn.trans (mul_le_mul_of_nonneg_left e2 (by norm_num : (0 : ℝ) ≤ 2)))
    have hS := near h (x := fl (r * fl (2 - ε)) + afterMinusOne d) hm3
    have e3 : |fl (r * fl (2 - ε)) + afterMinusOne d - (2 * r - 1)| ≤ 3 * ε := by
      have ea : afterMinusOne d = -1 + ε := rfl
      rw [abs_le]; constructor <;> linarith
    linarith

/-- `Uniform` never returns a value outside of the closed interval, for any bounds of the dtype; with all random bits zero it returns
`minval`. -/
theorem C113_uniform_closed (h : Nearest d fl) {minval maxval : ℝ} (hmin : minval ∈ d.numbers)
    (hmax : maxval ∈ d.numbers) (hlt : minval < maxval) {k : ℕ} (hk : k < 2 ^ d.bits) :
    minval ≤ uniformSample d fl minval maxval k ∧ uniformSample d fl minval maxval k ≤ maxval ∧
    uniformSample d fl minval maxval 0 = minval := by
  have hr0 := draw_nonneg (d := d) k
  have hD0 : 0 ≤ fl (maxval - minval) := ge_of_ge h zero_mem (by linarith)
  have hX0 : 0 ≤ fl (draw d k * fl (maxval - minval)) := ge_of_ge h zero_mem (by positivity)
  have hX1 := width h hmin hmax hlt hk
  refine ⟨?_, ?_, ?_⟩
  · rw [uniformSample, standard h hk]; exact ge_of_ge h hmin (by linarith)
  · rw [uniformSample, standard h hk]; exact le_of_le h hmax (by linarith)
  · have h00 : draw d 0 = 0 := by simp [draw]
    rw [uniformSample, standard h (by positivity), h00, zero_mul, exact h zero_mem, zero_add, exact h hmin]

/-- The documented half-open interval: when `minval` is at most zero, `maxval` is a positive normal number and their difference is a number of
the dtype (as for `Uniform(0, b)` and `Uniform(-b, b)`), no sample is `maxval`, and `log_prob` of every sample is the logarithm of a positive
number unless the density underflows.  What is missing is all other bounds, for which it fails (`C113_uniform_refuted`). -/
theorem C113_uniform_partial (h : Nearest d fl) {minval maxval : ℝ} (hmin : minval ∈ d.numbers)
    (hmax : maxval ∈ d.numbers) (hmin0 : minval ≤ 0) (hnorm : (2 : ℝ) ^ (-(d.tinyExp : ℤ)) ≤ maxval)
    (hsub : maxval - minval ∈ d.numbers) {k : ℕ} (hk : k < 2 ^ d.bits) :
    minval ≤ uniformSample d fl minval maxval k ∧ uniformSample d fl minval maxval k < maxval ∧
    uniformProb fl minval maxval (uniformSample d fl minval maxval k) = fl (1 / (maxval - minval)) := by
  have hmax0 : 0 < maxval := lt_of_lt_of_le (two_zpow_pos _) hnorm
  have hte : (d.prec : ℤ) - 1 - d.emin = -(d.tinyExp : ℤ) := by cases d <;> rfl
  have lo := (C113_uniform_closed h hmin hmax (by linarith) hk).1
  have hi : uniformSample d fl minval maxval k < maxval := by
    rw [uniformSample, standard h hk, exact h hsub]
    obtain ⟨q, h1, h2⟩ := binade (D := maxval - minval) (by linarith)
    obtain ⟨p, g1, g2⟩ := binade hmax0
    have hq : -(d.tinyExp : ℤ) < q + 1 :=
      (zpow_lt_zpow_iff_right₀ (by norm_num : (1 : ℝ) < 2)).mp (by linarith)
    have hp : -(d.tinyExp : ℤ) < p + 1 :=
      (zpow_lt_zpow_iff_right₀ (by norm_num : (1 : ℝ) < 2)).mp (by linarith)
    have hpq : p < q + 1 :=
      (zpow_lt_zpow_iff_right₀ (by norm_num : (1 : ℝ) < 2)).mp (by linarith)
    have hs := scaled h hsub h1 h2 (by omega) hk
    have hm := pred hmax g1 g2 (by omega)
    have hle : (2 : ℝ) ^ (p + 1 - d.prec) ≤ (2 : ℝ) ^ (q + 1 - d.prec) := two_zpow_le (by omega)
    have := le_of_le h hm (x := fl (draw d k * (maxval - minval)) + minval) (by linarith)
    have := two_zpow_pos (p + 1 - d.prec)
    linarith
  refine ⟨lo, hi, ?_⟩
  rw [uniformProb, uniformMask, if_pos ⟨lo, hi⟩, mul_one, exact h hsub, exact h (h.mem _)]

/-- The interval is not half-open in general: `Uniform(1000., 1001.)` in `float32`, under any rule for ties, returns `maxval` for some random
bits, and its density there is zero, so that `log_prob` of an own sample is `-inf`. -/
theorem C113_uniform_refuted (h : Nearest .float32 fl) :
    ∃ k < 2 ^ Dtype.float32.bits, uniformSample .float32 fl 1000 1001 k = 1001 ∧
      uniformProb fl 1000 1001 (uniformSample .float32 fl 1000 1001 k) = 0 := by
  have hk : 2 ^ 23 - 1 < 2 ^ Dtype.float32.bits := by decide
  have h1001 : (1001 : ℝ) ∈ Dtype.float32.numbers :=
    ⟨1001, 0, by decide, by decide, by norm_num⟩
  have hs : uniformSample .float32 fl 1000 1001 (2 ^ 23 - 1) = 1001 := by
    rw [uniformSample, standard h hk, show (1001 - 1000 : ℝ) = 1 by norm_num, exact h one_mem, mul_one,
      exact h (draw_mem hk)]
    have hd : draw .float32 (2 ^ 23 - 1) = 1 - 1 / 8388608 := by
      rw [draw, show (-(Dtype.float32.bits : ℤ)) = -23 from rfl]; norm_num
    rw [hd]
    have hn := h.nearest (1 - 1 / 8388608 + 1000) _ h1001
    have hn' := abs_le.mp hn
    rw [show |(1001 : ℝ) - (1 - 1 / 8388608 + 1000)| = 1 / 8388608 by
      rw [abs_of_pos (by norm_num)]; norm_num] at hn'
    obtain ⟨n, hnn⟩ := spacing (h.mem (1 - 1 / 8388608 + 1000)) (q := 9) (by
      refine le_trans ?_ (le_abs_self _)
      have : (2 : ℝ) ^ (9 : ℤ) = 512 := by norm_num
      linarith [hn'.1])
    have e : (2 : ℝ) ^ ((9 : ℤ) + 1 - (Dtype.float32.prec : ℤ)) = 1 / 16384 := by
      rw [show ((9 : ℤ) + 1 - (Dtype.float32.prec : ℤ)) = -14 from rfl]; norm_num
    rw [e] at hnn
    rw [hnn] at hn' ⊢
    have a1 : (16400383 : ℝ) < n := by linarith [hn'.1]
    have a2 : (n : ℝ) < 16400385 := by linarith [hn'.2]
    have b1 : (16400383 : ℤ) < n := by exact_mod_cast a1
    have b2 : n < (16400385 : ℤ) := by exact_mod_cast a2
    have : n = 16400384 := by omega
    rw [this]; norm_num
  refine ⟨2 ^ 23 - 1, hk, hs, ?_⟩
  rw [hs, uniformProb, uniformMask, if_neg (by norm_num), mul_zero, exact h zero_mem]

/-- A draw below `p`, as in `Bernoulli` and in the Metropolis-Hastings test of HMC: the number of random bits for which the test succeeds is
`p` times their number, rounded up; so the probability exceeds `p` by less than one unit, a test with `p = 0` never succeeds and one with
`p = 1` always does. -/
theorem C113_below (h : Nearest d fl) {p : ℝ} (h0 : 0 ≤ p) (h1 : p ≤ 1) :
    p ≤ (((Finset.range (2 ^ d.bits)).filter fun k => below d fl p k = true).card : ℝ) / 2 ^ d.bits ∧
    (((Finset.range (2 ^ d.bits)).filter fun k => below d fl p k = true).card : ℝ) / 2 ^ d.bits < p + 1 / 2 ^ d.bits ∧
    (p = 0 → ∀ k < 2 ^ d.bits, below d fl p k = false) ∧
    (p = 1 → ∀ k < 2 ^ d.bits, below d fl p k = true) := by
  have hN : (0 : ℝ) < 2 ^ d.bits := by positivity
  have hb : ∀ k < 2 ^ d.bits, (below d fl p k = true ↔ (k : ℝ) < p * 2 ^ d.bits) := by
    intro k hk
    rw [below, decide_eq_true_iff, standard h hk, draw, zpow_neg, zpow_natCast, ← div_eq_mul_inv, div_lt_iff₀ hN]
  have hset : ((Finset.range (2 ^ d.bits)).filter fun k => below d fl p k = true) =
      Finset.range ⌈p * 2 ^ d.bits⌉₊ := by
    ext k
    rw [Finset.mem_filter, Finset.mem_range, Finset.mem_range, Nat.lt_ceil]
    constructor
    · rintro ⟨hk, hl⟩
      exact (hb k hk).mp hl
    · intro hl
      have hk : k < 2 ^ d.bits := by
        have : (k : ℝ) < 2 ^ d.bits := lt_of_lt_of_le hl (by nlinarith)
        exact_mod_cast this
      exact ⟨hk, (hb k hk).mpr hl⟩
  rw [hset, Finset.card_range]
  refine ⟨?_, ?_, ?_, ?_⟩
  · rw [le_div_iff₀ hN]; exact Nat.le_ceil _
  · rw [div_lt_iff₀ hN, add_mul, div_mul_cancel₀ _ hN.ne']
    exact Nat.ceil_lt_add_one (by positivity)
  · rintro rfl k hk
    rw [← Bool.not_eq_true, hb k hk, zero_mul]
    exact not_lt.mpr (Nat.cast_nonneg k)
  · rintro rfl k hk
    rw [hb k hk, one_mul]
    exact_mod_cast hk

/-! ## The hypotheses are met -/

/-- Rounding to nearest exists in every dtype, so the theorems apply to it. -/
example (d : Dtype) (k : ℕ) (hk : k < 2 ^ d.bits) : openUniform d (roundTo d) k < 1 :=
  (C113_open_interval (roundTo_nearest d) hk).2.1

/-- `Uniform(0., 1.)` in `float16` meets the hypotheses of `C113_uniform_partial`. -/
example : uniformSample .float16 (roundTo .float16) 0 1 1023 < 1 :=
  (C113_uniform_partial (roundTo_nearest .float16) zero_mem one_mem le_rfl
    (by have := two_zpow_le (a := -(Dtype.float16.tinyExp : ℤ)) (b := 0) (by decide); simpa using this)
    (by simpa using one_mem) (k := 1023) (by decide)).2.1

/-- The exact logarithm meets the hypothesis of `C113_gumbel`. -/
example : ∀ x : ℝ, 0 < x → |Real.log x - Real.log x| ≤ 0 * |Real.log x| := by simp

end ZhuSuan.FloatDraw

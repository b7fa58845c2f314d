import Verif.Lemmas.FloatLse
import Mathlib.Analysis.SpecialFunctions.Log.Basic

/-!
# C115: `log_sum_exp` and `log_mean_exp` in floating point

English: with every operation rounded, in any order of additions, `log_sum_exp` and `log_mean_exp` differ from the logarithm of the sum (mean) of
exponentials by at most an explicit bound in the unit roundoff, the accuracy of the device's exponential and logarithm, the number of entries
and the distance between the largest and the smallest entry.  The size of the entries enters only through the last rounding, relative to the result.
`log_sum_exp` is never below the largest entry and `log_mean_exp` never above it.
-/
set_option autoImplicit false

namespace ZhuSuan.FloatDraw

variable {d : Dtype} {fl ex lg : ℝ → ℝ} {ε η : ℝ}

/-- A device's exponential and logarithm: results are numbers of the dtype, within a relative error `ε` and an absolute error `η`
(underflow) of the exact ones. -/
structure Accurate (d : Dtype) (ε η : ℝ) (ex lg : ℝ → ℝ) : Prop where
  ex_mem : ∀ x, ex x ∈ d.numbers
  lg_mem : ∀ x, lg x ∈ d.numbers
  ex_nonneg : ∀ x, 0 ≤ ex x
  ex_err : ∀ x ∈ d.numbers, x ≤ 0 → |ex x - Real.exp x| ≤ ε * Real.exp x + η
  lg_err : ∀ x ∈ d.numbers, 0 < x → |lg x - Real.log x| ≤ ε * |Real.log x| + η

/-- How far the logarithm of the computed sum of `n + 1` exponentials is from the exact one: `R` is the distance between the largest and the
smallest entry. -/
noncomputable def sumError (d : Dtype) (ε η : ℝ) (n : ℕ) (R : ℝ) : ℝ :=
  d.unit * (R + 2 * n) + 2 * (ε + (n + 1) * η)

/-- How far the result is from the exact value `L`, when the logarithm has an argument whose logarithm is off by `E`. -/
noncomputable def resultError (d : Dtype) (ε η : ℝ) (n : ℕ) (E L : ℝ) : ℝ :=
  (1 + d.unit) * ((1 + ε) * E + ε * Real.log (n + 1) + η) + d.unit * |L|

theorem neg_log_one_sub_le {a : ℝ} (h0 : 0 ≤ a) (h1 : a ≤ 1 / 2) : -Real.log (1 - a) ≤ 2 * a := by
  rw [← Real.log_inv]
  have hp : 0 < 1 - a := by linarith
  refine (Real.log_le_sub_one_of_pos (inv_pos.mpr hp)).trans ?_
  rw [inv_eq_one_div, div_sub_one hp.ne', div_le_iff₀ hp]
  nlinarith

theorem log_one_add_le {a : ℝ} (h0 : 0 ≤ a) : Real.log (1 + a) ≤ a := by
  have := Real.log_le_sub_one_of_pos (show 0 < 1 + a by linarith)
  linarith

section
variable (h : Nearest d fl) (D : Accurate d ε η ex lg) (hε : 0 ≤ ε) (hη : 0 ≤ η) {n : ℕ} (hs : ε + (n + 1) * η ≤ 1 / 2)
  {x : ℕ → ℝ} (hx : ∀ i, x i ∈ d.numbers) {o : Order} (ho : o.places.Perm (List.range (n + 1)))
  {R : ℝ} (hR : ∀ i ≤ n, ∀ j ≤ n, x i - x j ≤ R)

include h D hε hη hs hx ho hR in
theorem sum_close :
    |Real.log (reduceSum fl (fun i => ex (fl (x i - reduceMax n x))) o) -
      Real.log (∑ i ∈ Finset.range (n + 1), Real.exp (x i - reduceMax n x))| ≤ sumError d ε η n R ∧
    1 / 2 ≤ reduceSum fl (fun i => ex (fl (x i - reduceMax n x))) o ∧
    reduceSum fl (fun i => ex (fl (x i - reduceMax n x))) o ∈ d.numbers ∧
    1 ≤ ∑ i ∈ Finset.range (n + 1), Real.exp (x i - reduceMax n x) ∧
    ∑ i ∈ Finset.range (n + 1), Real.exp (x i - reduceMax n x) ≤ n + 1 := by
  have hu := unit_pos d
  have hu2 := unit_lt_half d
  set M := reduceMax n x with hM
  have hle : ∀ i ≤ n, x i ≤ M := fun i hi => Finset.le_sup' x (Finset.mem_range.mpr (by omega))
  obtain ⟨k, hk, hkM⟩ := Finset.exists_mem_eq_sup' (s := Finset.range (n + 1)) Finset.nonempty_range_add_one x
  have hk' : k ≤ n := by have := Finset.mem_range.mp hk; omega
  replace hkM : M = x k := hkM
  have hMm : M ∈ d.numbers := hkM ▸ hx k
  have hR0 : 0 ≤ R := by simpa using hR k hk' k hk'
  set t : ℕ → ℝ := fun i => fl (x i - M) with ht
  have htm : ∀ i, t i ∈ d.numbers := fun i => h.mem _
  have ht0 : ∀ i ≤ n, t i ≤ 0 := fun i hi => le_of_le h zero_mem (by linarith [hle i hi])
  have htk : t k = 0 := by rw [ht]; simp only [← hkM, sub_self]; exact exact h zero_mem
  have hterr : ∀ i ≤ n, |t i - (x i - M)| ≤ d.unit * R := by
    intro i hi
    have := relative_add h (hx i) (neg_mem hMm)
    rw [← sub_eq_add_neg] at this
    refine this.trans (mul_le_mul_of_nonneg_left ?_ hu.le)
    rw [abs_sub_comm, abs_of_nonneg (by linarith [hle i hi]), hkM]
    exact hR k hk' i hi
  obtain ⟨b1, b2, b3, _, b5, _⟩ := reduceSum_bounds h (f := fun i => ex (t i)) (fun i => D.ex_mem _) (fun i => D.ex_nonneg _) o
  have hlen : o.places.length = n + 1 := by rw [ho.length_eq, List.length_range]
  have hsum : (o.places.map fun i => ex (t i)).sum = ∑ i ∈ Finset.range (n + 1), ex (t i) := by
    rw [(ho.map _).sum_eq]; rfl
  rw [hlen, Nat.add_sub_cancel, hsum] at b1 b2
  set A := reduceSum fl (fun i => ex (t i)) o with hA
  set S := ∑ i ∈ Finset.range (n + 1), Real.exp (x i - M) with hS
  set T := ∑ i ∈ Finset.range (n + 1), Real.exp (t i) with hT
  set Z := ∑ i ∈ Finset.range (n + 1), ex (t i) with hZ
  have hmem : ∀ i ∈ Finset.range (n + 1), i ≤ n := fun i hi => by have := Finset.mem_range.mp hi; omega
  have S1 : 1 ≤ S := by
    have := Finset.single_le_sum (f := fun i => Real.exp (x i - M)) (fun i _ => (Real.exp_pos _).le) hk
    simpa [← hkM] using this
  have Sn : S ≤ n + 1 := by
    have : S ≤ ∑ i ∈ Finset.range (n + 1), (1 : ℝ) :=
      Finset.sum_le_sum fun i hi => Real.exp_le_one_iff.mpr (by linarith [hle i (hmem i hi)])
    simpa using this
  have T1 : 1 ≤ T := by
    have := Finset.single_le_sum (f := fun i => Real.exp (t i)) (fun i _ => (Real.exp_pos _).le) hk
    simpa [htk] using this
  have TS : T ≤ Real.exp (d.unit * R) * S := by
    rw [hT, hS, Finset.mul_sum]
    refine Finset.sum_le_sum fun i hi => ?_
    rw [← Real.exp_add]
    exact Real.exp_le_exp.mpr (by linarith [(abs_le.mp (hterr i (hmem i hi))).2])
  have ST : S ≤ Real.exp (d.unit * R) * T := by
    rw [hT, hS, Finset.mul_sum]
    refine Finset.sum_le_sum fun i hi => ?_
    rw [← Real.exp_add]
    exact Real.exp_le_exp.mpr (by linarith [(abs_le.mp (hterr i (hmem i hi))).1])
  have hcount : ∑ i ∈ Finset.range (n + 1), η = (n + 1) * η := by simp
  have ZT : Z ≤ (1 + (ε + (n + 1) * η)) * T := by
    have : Z ≤ ∑ i ∈ Finset.range (n + 1), ((1 + ε) * Real.exp (t i) + η) :=
      Finset.sum_le_sum fun i hi => by linarith [(abs_le.mp (D.ex_err (t i) (htm i) (ht0 i (hmem i hi)))).2]
    rw [Finset.sum_add_distrib, ← Finset.mul_sum, hcount] at this
    nlinarith [mul_nonneg (show (0 : ℝ) ≤ n + 1 by positivity) hη]
  have TZ : (1 - (ε + (n + 1) * η)) * T ≤ Z := by
    have : ∑ i ∈ Finset.range (n + 1), ((1 - ε) * Real.exp (t i) - η) ≤ Z :=
      Finset.sum_le_sum fun i hi => by linarith [(abs_le.mp (D.ex_err (t i) (htm i) (ht0 i (hmem i hi)))).1]
    rw [Finset.sum_sub_distrib, ← Finset.mul_sum, hcount] at this
    nlinarith [mul_nonneg (show (0 : ℝ) ≤ n + 1 by positivity) hη]
  have hnη : 0 ≤ (n + 1) * η := by positivity
  have hnη1 : η ≤ (n + 1) * η := by nlinarith [mul_nonneg (Nat.cast_nonneg (α := ℝ) n) hη]
  have A2 : 1 / 2 ≤ A := by
    have := b5 k (ho.mem_iff.mpr (List.mem_range.mpr (by omega)))
    have e := (abs_le.mp (D.ex_err (t k) (htm k) (ht0 k hk'))).1
    simp only [htk, Real.exp_zero] at e this
    linarith
  set a := ε + (n + 1) * η with ha
  have ha0 : 0 ≤ a := by positivity
  have hA0 : 0 < A := by linarith
  have hS0 : 0 < S := by linarith
  have hT0 : 0 < T := by linarith
  have hZ0 : 0 < Z := lt_of_lt_of_le (mul_pos (by linarith) hT0) TZ
  have hu1 : 0 < 1 - d.unit := by linarith
  refine ⟨abs_le.mpr ⟨?_, ?_⟩, A2, b3, S1, Sn⟩
  · have l1 := Real.log_le_log (by positivity) b1
    have l2 := Real.log_le_log (mul_pos (by linarith) hT0) TZ
    have l3 := Real.log_le_log hS0 ST
    rw [Real.log_mul (by positivity) hZ0.ne', Real.log_pow] at l1
    rw [Real.log_mul (by linarith) hT0.ne'] at l2
    rw [Real.log_mul (by positivity) hT0.ne', Real.log_exp] at l3
    have m1 := mul_le_mul_of_nonneg_left (neg_log_one_sub_le hu.le hu2) (Nat.cast_nonneg (α := ℝ) n)
    have m2 := neg_log_one_sub_le ha0 hs
    unfold sumError
    rw [← ha]
    nlinarith
  · have l1 := Real.log_le_log hA0 b2
    have l2 := Real.log_le_log hZ0 ZT
    have l3 := Real.log_le_log hT0 TS
    rw [Real.log_mul (by positivity) hZ0.ne', Real.log_pow] at l1
    rw [Real.log_mul (by positivity) hT0.ne'] at l2
    rw [Real.log_mul (by positivity) hS0.ne', Real.log_exp] at l3
    have m1 := mul_le_mul_of_nonneg_left (log_one_add_le hu.le) (Nat.cast_nonneg (α := ℝ) n)
    have m2 := log_one_add_le ha0
    have m3 := mul_nonneg (Nat.cast_nonneg (α := ℝ) n) hu.le
    unfold sumError
    rw [← ha]
    nlinarith

include h D hε hx in
theorem result_close {y s E : ℝ} (hy : y ∈ d.numbers) (hy0 : 0 < y) (hE : |Real.log y - Real.log s| ≤ E)
    (hl : |Real.log s| ≤ Real.log (n + 1)) :
    |fl (lg y + reduceMax n x) - (Real.log s + reduceMax n x)| ≤ resultError d ε η n E (Real.log s + reduceMax n x) := by
  have hu := unit_pos d
  obtain ⟨k, hk, hkM⟩ := Finset.exists_mem_eq_sup' (s := Finset.range (n + 1)) Finset.nonempty_range_add_one x
  have hMm : reduceMax n x ∈ d.numbers := by
    have : reduceMax n x = x k := hkM
    exact this ▸ hx k
  set M := reduceMax n x
  have h1 := D.lg_err y hy hy0
  have h2 : |Real.log y| ≤ Real.log (n + 1) + E := by
    have := abs_add_le (Real.log y - Real.log s) (Real.log s)
    rw [sub_add_cancel] at this
    linarith
  have h3 : |lg y - Real.log s| ≤ (1 + ε) * E + ε * Real.log (n + 1) + η := by
    have := abs_add_le (lg y - Real.log y) (Real.log y - Real.log s)
    rw [sub_add_sub_cancel] at this
    nlinarith [mul_le_mul_of_nonneg_left h2 hε]
  set F := (1 + ε) * E + ε * Real.log (n + 1) + η with hF
  have h4 := relative_add h (D.lg_mem y) hMm
  have h5 : |lg y + M| ≤ |Real.log s + M| + F := by
    have := abs_add_le (lg y - Real.log s) (Real.log s + M)
    rw [show lg y - Real.log s + (Real.log s + M) = lg y + M by ring] at this
    linarith
  have h6 := abs_add_le (fl (lg y + M) - (lg y + M)) (lg y - Real.log s)
  rw [show fl (lg y + M) - (lg y + M) + (lg y - Real.log s) = fl (lg y + M) - (Real.log s + M) by ring] at h6
  unfold resultError
  rw [← hF]
  nlinarith [mul_le_mul_of_nonneg_left h5 hu.le]

include h D hε hη hs hx ho hR in
/-- **C115** `log_sum_exp` is close to the logarithm of the sum of exponentials. -/
theorem C115_log_sum_exp :
    |logSumExp fl ex lg n x o - Real.log (∑ i ∈ Finset.range (n + 1), Real.exp (x i))| ≤
      resultError d ε η n (sumError d ε η n R) (Real.log (∑ i ∈ Finset.range (n + 1), Real.exp (x i))) := by
  obtain ⟨c1, c2, c3, c4, c5⟩ := sum_close h D hε hη hs hx ho hR
  have hL : Real.log (∑ i ∈ Finset.range (n + 1), Real.exp (x i)) =
      Real.log (∑ i ∈ Finset.range (n + 1), Real.exp (x i - reduceMax n x)) + reduceMax n x := by
    have : ∑ i ∈ Finset.range (n + 1), Real.exp (x i) =
        (∑ i ∈ Finset.range (n + 1), Real.exp (x i - reduceMax n x)) * Real.exp (reduceMax n x) := by
      rw [Finset.sum_mul]
      exact Finset.sum_congr rfl fun i _ => by rw [← Real.exp_add, sub_add_cancel]
    rw [this, Real.log_mul (by linarith) (Real.exp_pos _).ne', Real.log_exp]
  rw [hL]
  refine result_close h D hε hx c3 (by linarith) c1 ?_
  rw [abs_of_nonneg (Real.log_nonneg c4)]
  exact Real.log_le_log (by linarith) c5

include h D hε hη hs hx ho hR in
/-- **C115** `log_mean_exp` is close to the logarithm of the mean of exponentials. -/
theorem C115_log_mean_exp (hn : n + 1 ≤ 2 ^ (d.prec)) :
    |logMeanExp fl ex lg n x o - Real.log ((∑ i ∈ Finset.range (n + 1), Real.exp (x i)) / (n + 1))| ≤
      resultError d ε η n (sumError d ε η n R + 2 * d.unit) (Real.log ((∑ i ∈ Finset.range (n + 1), Real.exp (x i)) / (n + 1))) := by
  obtain ⟨c1, c2, c3, c4, c5⟩ := sum_close h D hε hη hs hx ho hR
  have hu := unit_pos d
  have hu2 := unit_lt_half d
  have hn0 : (0 : ℝ) < n + 1 := by positivity
  set S := ∑ i ∈ Finset.range (n + 1), Real.exp (x i - reduceMax n x) with hS
  have hL : Real.log ((∑ i ∈ Finset.range (n + 1), Real.exp (x i)) / (n + 1)) =
      Real.log (S / (n + 1)) + reduceMax n x := by
    have : (∑ i ∈ Finset.range (n + 1), Real.exp (x i)) / (n + 1) = S / (n + 1) * Real.exp (reduceMax n x) := by
      rw [div_mul_eq_mul_div, hS, Finset.sum_mul]
      congr 1
      exact Finset.sum_congr rfl fun i _ => by rw [← Real.exp_add, sub_add_cancel]
    rw [this, Real.log_mul (by positivity) (Real.exp_pos _).ne', Real.log_exp]
  rw [hL]
  unfold logMeanExp reduceMean
  set A := reduceSum fl (fun i => ex (fl (x i - reduceMax n x))) o
  have hA0 : 0 < A := by linarith
  have hq : 0 < A / (n + 1) := by positivity
  have hnorm : (2 : ℝ) ^ ((d.prec : ℤ) - 1 - d.emin) ≤ |A / (n + 1)| := by
    rw [abs_of_pos hq, le_div_iff₀ hn0]
    have h1 : ((n : ℝ) + 1) ≤ (2 : ℝ) ^ (d.prec : ℤ) := by rw [zpow_natCast]; exact_mod_cast hn
    refine le_trans (mul_le_mul_of_nonneg_left h1 (two_zpow_pos _).le) ?_
    rw [← zpow_add₀ (by norm_num)]
    refine le_trans (two_zpow_le (b := -1) ?_) (by rw [zpow_neg_one]; linarith)
    cases d <;> simp [Dtype.prec, Dtype.emin]
  have hr := relative h hnorm
  rw [abs_of_pos hq] at hr
  have hr' := abs_le.mp hr
  set B := fl (A / (n + 1)) with hB
  have hB0 : 0 < B := lt_of_lt_of_le (mul_pos (by linarith : 0 < 1 - d.unit) hq) (by linarith)
  refine result_close h D hε hx (h.mem _) hB0 ?_ ?_
  · have e1 : Real.log A = Real.log (A / (n + 1)) + Real.log (n + 1) := by rw [Real.log_div hA0.ne' hn0.ne']; ring
    have e2 : Real.log S = Real.log (S / (n + 1)) + Real.log (n + 1) := by
      rw [Real.log_div (by linarith) hn0.ne']; ring
    have l1 := Real.log_le_log hB0 (show B ≤ (1 + d.unit) * (A / (n + 1)) by linarith)
    have l2 := Real.log_le_log (mul_pos (by linarith : 0 < 1 - d.unit) hq) (show (1 - d.unit) * (A / (n + 1)) ≤ B by linarith)
    rw [Real.log_mul (by positivity) hq.ne'] at l1
    rw [Real.log_mul (by linarith) hq.ne'] at l2
    have m1 := neg_log_one_sub_le hu.le hu2
    have m2 := log_one_add_le hu.le
    have c := abs_le.mp c1
    rw [abs_le]
    constructor <;> linarith
  · rw [Real.log_div (by linarith) hn0.ne']
    have g1 := Real.log_nonneg c4
    have g2 := Real.log_le_log (by linarith) c5
    rw [abs_le]
    constructor <;> linarith

end

/-- **C115** On a device with `exp 0 = 1`, an exponential that is at most one on negative numbers and a logarithm with the sign of the exact
one, `log_sum_exp` is at least the largest entry and `log_mean_exp` is at most the largest entry, however the additions are ordered. -/
theorem C115_max (h : Nearest d fl) {n : ℕ} (hn : n + 1 ≤ 2 ^ d.prec) {x : ℕ → ℝ} (hx : ∀ i, x i ∈ d.numbers) {o : Order}
    (ho : o.places.Perm (List.range (n + 1))) (ex_mem : ∀ x, ex x ∈ d.numbers) (ex_nonneg : ∀ x, 0 ≤ ex x) (ex_zero : ex 0 = 1)
    (ex_le : ∀ x ≤ 0, ex x ≤ 1) (lg_nonneg : ∀ y, 1 ≤ y → 0 ≤ lg y) (lg_nonpos : ∀ y, 0 < y → y ≤ 1 → lg y ≤ 0) :
    (∀ i ≤ n, x i ≤ logSumExp fl ex lg n x o) ∧ ∃ i ≤ n, logMeanExp fl ex lg n x o ≤ x i := by
  have hu := unit_pos d
  set M := reduceMax n x with hM
  have hle : ∀ i ≤ n, x i ≤ M := fun i hi => Finset.le_sup' x (Finset.mem_range.mpr (by omega))
  obtain ⟨k, hk, hkM⟩ := Finset.exists_mem_eq_sup' (s := Finset.range (n + 1)) Finset.nonempty_range_add_one x
  have hk' : k ≤ n := by have := Finset.mem_range.mp hk; omega
  replace hkM : M = x k := hkM
  have hMm : M ∈ d.numbers := hkM ▸ hx k
  have hlen : o.places.length = n + 1 := by rw [ho.length_eq, List.length_range]
  obtain ⟨_, _, _, _, b5, _⟩ := reduceSum_bounds h (f := fun i => ex (fl (x i - M))) (fun i => ex_mem _) (fun i => ex_nonneg _) o
  have hA1 : 1 ≤ reduceSum fl (fun i => ex (fl (x i - M))) o := by
    have := b5 k (ho.mem_iff.mpr (List.mem_range.mpr (by omega)))
    simpa [← hkM, exact h zero_mem, ex_zero] using this
  have hAn : reduceSum fl (fun i => ex (fl (x i - M))) o ≤ n + 1 := by
    have := reduceSum_le_length h (f := fun i => ex (fl (x i - M))) o (fun i hi => ex_le _ (le_of_le h zero_mem (by
      have := List.mem_range.mp (ho.mem_iff.mp hi)
      linarith [hle i (by omega)]))) (by rw [hlen]; exact hn)
    rw [hlen] at this
    exact_mod_cast this
  have hn0 : (0 : ℝ) < n + 1 := by positivity
  refine ⟨fun i hi => (hle i hi).trans (ge_of_ge h hMm (by linarith [lg_nonneg _ hA1])), k, hk', ?_⟩
  rw [← hkM]
  refine le_of_le h hMm ?_
  have hB : 0 < fl (reduceSum fl (fun i => ex (fl (x i - M))) o / (n + 1)) := by
    have h1 : (2 : ℝ) ^ (-(d.prec : ℤ)) ≤ reduceSum fl (fun i => ex (fl (x i - M))) o / (n + 1) := by
      rw [le_div_iff₀ hn0]
      have : ((n : ℝ) + 1) ≤ (2 : ℝ) ^ (d.prec : ℤ) := by rw [zpow_natCast]; exact_mod_cast hn
      have := mul_le_mul_of_nonneg_left this (two_zpow_pos (-(d.prec : ℤ))).le
      rw [← zpow_add₀ (by norm_num), neg_add_cancel, zpow_zero] at this
      linarith
    refine lt_of_lt_of_le (unit_pos d) (ge_of_ge h ?_ h1)
    exact zpow_mem (by cases d <;> simp [Dtype.prec, Dtype.emin])
  have := lg_nonpos _ hB (le_of_le h one_mem ((div_le_one hn0).mpr hAn))
  unfold reduceMean
  linarith

/-- Rounding the exact exponential and logarithm to nearest is accurate to the unit roundoff and the smallest positive number. -/
theorem accurate_round (h : Nearest d fl) :
    Accurate d d.unit ((2 : ℝ) ^ (-(d.emin : ℤ))) (fun x => fl (Real.exp x)) (fun x => fl (Real.log x)) where
  ex_mem _ := h.mem _
  lg_mem _ := h.mem _
  ex_nonneg _ := ge_of_ge h zero_mem (Real.exp_pos _).le
  ex_err x _ _ := by simpa [abs_of_pos (Real.exp_pos x)] using absolute h (Real.exp x)
  lg_err x _ _ := absolute h (Real.log x)

/-- A concrete case: the three float32 numbers 1000, -3/2 and 1001, added from the right.  Their exponentials overflow float32. -/
example : ∃ fl : ℝ → ℝ, Nearest .float32 fl ∧
    Accurate .float32 (Dtype.unit .float32) ((2 : ℝ) ^ (-(149 : ℤ))) (fun x => fl (Real.exp x)) (fun x => fl (Real.log x)) ∧
    Dtype.unit .float32 + ((2 : ℕ) + 1) * (2 : ℝ) ^ (-(149 : ℤ)) ≤ 1 / 2 ∧
    (∀ i, (fun i : ℕ => if i = 0 then (1000 : ℝ) else if i = 1 then -3 / 2 else 1001) i ∈ Dtype.numbers .float32) ∧
    (Order.node (.leaf 2) (.node (.leaf 1) (.leaf 0))).places.Perm (List.range (2 + 1)) ∧
    2 + 1 ≤ 2 ^ Dtype.prec .float32 := by
  obtain ⟨fl, hfl⟩ : ∃ fl, Nearest .float32 fl := ⟨_, roundTo_nearest _⟩
  refine ⟨fl, hfl, accurate_round hfl, ?_, ?_, by decide, by decide⟩
  · norm_num [Dtype.unit, Dtype.prec]
  · intro i
    dsimp only
    split_ifs
    · exact ⟨1000, 0, by norm_num [Dtype.prec], by simp, by norm_num⟩
    · exact ⟨-3, -1, by norm_num [Dtype.prec], by simp [Dtype.emin], by norm_num⟩
    · exact ⟨1001, 0, by norm_num [Dtype.prec], by simp, by norm_num⟩

end ZhuSuan.FloatDraw

import Verif.Model.FloatDraw
import Mathlib.Tactic.Linarith
import Mathlib.Tactic.Positivity
import Mathlib.Tactic.Ring
import Mathlib.Tactic.FieldSimp
import Mathlib.Tactic.NormNum
import Mathlib.Tactic.Push

/-! # Rounding to nearest -/
set_option autoImplicit false

namespace ZhuSuan.FloatDraw

variable {d : Dtype} {fl : ℝ → ℝ}

theorem two_zpow_pos (e : ℤ) : (0 : ℝ) < (2 : ℝ) ^ e := by positivity

theorem two_zpow_le {a b : ℤ} (h : a ≤ b) : (2 : ℝ) ^ a ≤ (2 : ℝ) ^ b :=
  zpow_le_zpow_right₀ (by norm_num) h

theorem prec_pos (d : Dtype) : 1 ≤ d.prec := by cases d <;> decide
theorem prec_le_emin (d : Dtype) : d.prec + 1 ≤ d.emin := by cases d <;> decide
theorem prec_le_tiny (d : Dtype) : d.prec ≤ d.tinyExp := by cases d <;> decide
theorem tiny_le_emin (d : Dtype) : d.tinyExp ≤ d.emin := by cases d <;> decide

theorem bits_cast (d : Dtype) : (d.bits : ℤ) = d.prec - 1 := by
  have := prec_pos d
  simp only [Dtype.bits]
  omega

theorem two_zpow_bits (d : Dtype) : (2 : ℝ) ^ (-(d.bits : ℤ)) = 2 * (2 : ℝ) ^ (-(d.prec : ℤ)) := by
  rw [bits_cast, show -((d.prec : ℤ) - 1) = 1 + -(d.prec : ℤ) by ring, zpow_add₀ (by norm_num)]
  simp

theorem monotone (h : Nearest d fl) {x y : ℝ} (hxy : x ≤ y) : fl x ≤ fl y := by
  rcases hxy.eq_or_lt with rfl | hlt
  · exact le_rfl
  by_contra hc
  push Not at hc
  have h1 := h.nearest x (fl y) (h.mem y)
  have h2 := h.nearest y (fl x) (h.mem x)
  rw [abs_le_abs_iff_sq] at h1 h2
  nlinarith
where
  abs_le_abs_iff_sq {a b : ℝ} : (|a| ≤ |b|) = (a ^ 2 ≤ b ^ 2) := propext sq_le_sq.symm

theorem exact (h : Nearest d fl) {x : ℝ} (hx : x ∈ d.numbers) : fl x = x := by
  have := h.nearest x x hx
  simp only [sub_self, abs_zero] at this
  have := abs_nonpos_iff.mp this
  linarith

theorem le_of_le (h : Nearest d fl) {x y : ℝ} (hy : y ∈ d.numbers) (hxy : x ≤ y) : fl x ≤ y := by
  have := monotone h hxy
  rwa [exact h hy] at this

theorem ge_of_ge (h : Nearest d fl) {x y : ℝ} (hx : x ∈ d.numbers) (hxy : x ≤ y) : x ≤ fl y := by
  have := monotone h hxy
  rwa [exact h hx] at this

theorem mem_numbers {n e : ℤ} (hn : |n| < 2 ^ d.prec) (he : -(d.emin : ℤ) ≤ e) :
    (n * (2 : ℝ) ^ e) ∈ d.numbers := ⟨n, e, hn, he, rfl⟩

theorem mem_numbers_le {n e : ℤ} (hn : |n| ≤ 2 ^ d.prec) (he : -(d.emin : ℤ) ≤ e) :
    (n * (2 : ℝ) ^ e) ∈ d.numbers := by
  rcases hn.lt_or_eq with h | h
  · exact mem_numbers h he
  obtain ⟨q, hq⟩ : ∃ q, d.prec = q + 1 := ⟨d.prec - 1, by have := prec_pos d; omega⟩
  have h2 : (2 : ℝ) ^ (e + 1) = 2 * 2 ^ e := by rw [zpow_add₀ (by norm_num)]; ring
  rcases (abs_eq (by positivity)).mp h with h' | h'
  · refine ⟨2 ^ q, e + 1, ?_, by omega, ?_⟩
    · rw [abs_of_pos (by positivity), hq, pow_succ]
      have : (0 : ℤ) < 2 ^ q := by positivity
      omega
    · rw [h', hq, h2]; push_cast; ring
  · refine ⟨-2 ^ q, e + 1, ?_, by omega, ?_⟩
    · rw [abs_neg, abs_of_pos (by positivity), hq, pow_succ]
      have : (0 : ℤ) < 2 ^ q := by positivity
      omega
    · rw [h', hq, h2]; push_cast; ring

theorem neg_mem {x : ℝ} (hx : x ∈ d.numbers) : -x ∈ d.numbers := by
  obtain ⟨m, e, hm, he, rfl⟩ := hx
  exact ⟨-m, e, by rwa [abs_neg], he, by push_cast; ring⟩

theorem zero_mem : (0 : ℝ) ∈ d.numbers :=
  ⟨0, 0, by simp, by simp, by simp⟩

theorem zpow_mem {e : ℤ} (he : -(d.emin : ℤ) ≤ e) : (2 : ℝ) ^ e ∈ d.numbers := by
  have := mem_numbers (d := d) (n := 1) (e := e)
    (by rw [abs_one]; exact one_lt_pow₀ (by norm_num) (by have := prec_pos d; omega)) he
  simpa using this

theorem one_mem : (1 : ℝ) ∈ d.numbers := by
  have := zpow_mem (d := d) (e := 0) (by omega)
  simpa using this

theorem two_mem : (2 : ℝ) ∈ d.numbers := by
  have := zpow_mem (d := d) (e := 1) (by omega)
  simpa using this

/-- `1 - j * 2 ^ (-prec)` is a number. -/
theorem one_sub_mem {j : ℕ} (hj : j ≤ 2 ^ d.prec) :
    (1 - j * (2 : ℝ) ^ (-(d.prec : ℤ))) ∈ d.numbers := by
  have h := mem_numbers_le (d := d) (n := 2 ^ d.prec - j) (e := -(d.prec : ℤ))
    (by
      have : (j : ℤ) ≤ 2 ^ d.prec := by exact_mod_cast hj
      rw [abs_of_nonneg (by omega)]; omega)
    (by have := prec_le_emin d; omega)
  have e : ((2 ^ d.prec - j : ℤ) : ℝ) * (2 : ℝ) ^ (-(d.prec : ℤ)) = 1 - j * (2 : ℝ) ^ (-(d.prec : ℤ)) := by
    push_cast
    rw [sub_mul, zpow_neg, zpow_natCast, mul_inv_cancel₀ (by positivity)]
  rwa [e] at h

/-- Numbers that are at least `2 ^ q` are multiples of `2 ^ (q + 1 - prec)`. -/
theorem spacing {y : ℝ} (hy : y ∈ d.numbers) {q : ℤ} (hq : (2 : ℝ) ^ q ≤ |y|) :
    ∃ n : ℤ, y = n * (2 : ℝ) ^ (q + 1 - d.prec) := by
  obtain ⟨m, e, hm, -, rfl⟩ := hy
  have hm' : |(m : ℝ)| < 2 ^ d.prec := by exact_mod_cast hm
  rw [abs_mul, abs_of_pos (two_zpow_pos e)] at hq
  have h1 : (2 : ℝ) ^ q < (2 : ℝ) ^ ((d.prec : ℤ) + e) := by
    rw [zpow_add₀ (by norm_num), zpow_natCast]
    exact lt_of_le_of_lt hq (mul_lt_mul_of_pos_right hm' (two_zpow_pos e))
  have h2 : q < d.prec + e := (zpow_lt_zpow_iff_right₀ (by norm_num)).mp h1
  obtain ⟨j, hj⟩ : ∃ j : ℕ, e = q + 1 - d.prec + j := ⟨(e - (q + 1 - d.prec)).toNat, by omega⟩
  refine ⟨m * 2 ^ j, ?_⟩
  rw [hj, zpow_add₀ (by norm_num : (2 : ℝ) ≠ 0), zpow_natCast]
  push_cast
  ring

/-- Every number is a multiple of the smallest one. -/
theorem multiple {y : ℝ} (hy : y ∈ d.numbers) : ∃ n : ℤ, y = n * (2 : ℝ) ^ (-(d.emin : ℤ)) := by
  obtain ⟨m, e, -, he, rfl⟩ := hy
  obtain ⟨j, hj⟩ : ∃ j : ℕ, e = -(d.emin : ℤ) + j := ⟨(e + d.emin).toNat, by omega⟩
  refine ⟨m * 2 ^ j, ?_⟩
  rw [hj, zpow_add₀ (by norm_num : (2 : ℝ) ≠ 0), zpow_natCast]
  push_cast
  ring

/-- The draw is a number in `[0, 1 - 2 ^ (-bits)]`. -/
theorem draw_mem {k : ℕ} (hk : k < 2 ^ d.bits) : draw d k ∈ d.numbers := by
  have := prec_le_emin d
  have h2 : d.bits ≤ d.prec := by simp [Dtype.bits]
  refine mem_numbers (n := k) ?_ (by omega)
  rw [abs_of_nonneg (by omega)]
  have : (k : ℤ) < 2 ^ d.bits := by exact_mod_cast hk
  exact lt_of_lt_of_le this (pow_le_pow_right₀ (by norm_num) h2)

theorem draw_nonneg (k : ℕ) : 0 ≤ draw d k := by
  unfold draw; positivity

theorem draw_le {k : ℕ} (hk : k < 2 ^ d.bits) : draw d k ≤ 1 - (2 : ℝ) ^ (-(d.bits : ℤ)) := by
  have h1 : (k : ℝ) + 1 ≤ 2 ^ d.bits := by exact_mod_cast hk
  have h2 : (2 : ℝ) ^ d.bits * (2 : ℝ) ^ (-(d.bits : ℤ)) = 1 := by
    rw [zpow_neg, zpow_natCast, mul_inv_cancel₀ (by positivity)]
  have := mul_le_mul_of_nonneg_right h1 (two_zpow_pos (-(d.bits : ℤ))).le
  unfold draw
  nlinarith

/-- The standard draw of `tf.random_uniform` is not changed by the rounding. -/
theorem standard (h : Nearest d fl) {k : ℕ} (hk : k < 2 ^ d.bits) : randomUniform d fl 0 1 k = draw d k := by
  unfold randomUniform
  rw [sub_zero, exact h one_mem, mul_one, exact h (draw_mem hk), add_zero, exact h (draw_mem hk)]

/-- The predecessor of a positive normal number: one unit `2 ^ (q + 1 - prec)` less. -/
theorem pred {D : ℝ} (hD : D ∈ d.numbers) {q : ℤ} (h1 : (2 : ℝ) ^ q ≤ D) (h2 : D < (2 : ℝ) ^ (q + 1))
    (hq : (d.prec : ℤ) - 1 - d.emin ≤ q) : D - (2 : ℝ) ^ (q + 1 - d.prec) ∈ d.numbers := by
  have hD0 : 0 < D := lt_of_lt_of_le (two_zpow_pos q) h1
  obtain ⟨n, hn⟩ := spacing hD (q := q) (by rwa [abs_of_pos hD0])
  have hs := two_zpow_pos (q + 1 - d.prec)
  have hn0 : (0 : ℝ) < n := by
    by_contra hc
    push Not at hc
    have := mul_nonpos_of_nonpos_of_nonneg hc hs.le
    linarith
  have hn0' : 0 < n := by exact_mod_cast hn0
  have hup : (n : ℝ) < 2 ^ d.prec := by
    have : (2 : ℝ) ^ (q + 1) = 2 ^ d.prec * (2 : ℝ) ^ (q + 1 - d.prec) := by
      rw [← zpow_natCast, ← zpow_add₀ (by norm_num)]; congr 1; ring
    rw [this, hn] at h2
    exact lt_of_mul_lt_mul_right h2 hs.le
  have hup' : n < 2 ^ d.prec := by exact_mod_cast hup
  have := mem_numbers (d := d) (n := n - 1) (e := q + 1 - d.prec)
    (by rw [abs_of_nonneg (by omega)]; omega) (by omega)
  rw [hn]
  push_cast at this
  rwa [sub_mul, one_mul] at this

/-- A normal number times a draw: at most the predecessor of the number. -/
theorem scaled (h : Nearest d fl) {D : ℝ} (hD : D ∈ d.numbers) {q : ℤ} (h1 : (2 : ℝ) ^ q ≤ D)
    (h2 : D < (2 : ℝ) ^ (q + 1)) (hq : (d.prec : ℤ) - 1 - d.emin ≤ q) {k : ℕ} (hk : k < 2 ^ d.bits) :
    fl (draw d k * D) ≤ D - (2 : ℝ) ^ (q + 1 - d.prec) := by
  refine le_of_le h (pred hD h1 h2 hq) ?_
  have hD0 : 0 < D := lt_of_lt_of_le (two_zpow_pos q) h1
  have a := mul_le_mul_of_nonneg_right (draw_le hk) hD0.le
  have b : (2 : ℝ) ^ (q + 1 - d.prec) = (2 : ℝ) ^ (-(d.bits : ℤ)) * 2 ^ q := by
    rw [← zpow_add₀ (by norm_num), bits_cast]; congr 1; ring
  have c := mul_le_mul_of_nonneg_left h1 (two_zpow_pos (-(d.bits : ℤ))).le
  rw [b]
  nlinarith

/-- The binade of a positive number. -/
theorem binade {D : ℝ} (hD : 0 < D) : ∃ q : ℤ, (2 : ℝ) ^ q ≤ D ∧ D < (2 : ℝ) ^ (q + 1) := by
  refine ⟨Int.log 2 D, ?_, ?_⟩
  · exact_mod_cast Int.zpow_log_le_self (b := 2) (by norm_num) hD
  · exact_mod_cast Int.lt_zpow_succ_log_self (b := 2) (by norm_num) D

/-- What a draw adds to `minval` is at most the exact width of the interval. -/
theorem width (h : Nearest d fl) {a b : ℝ} (ha : a ∈ d.numbers) (hb : b ∈ d.numbers) (hab : a < b) {k : ℕ}
    (hk : k < 2 ^ d.bits) : fl (draw d k * fl (b - a)) ≤ b - a := by
  have hr0 := draw_nonneg (d := d) k
  have hr1 : draw d k ≤ 1 := by
    have := draw_le hk
    have := two_zpow_pos (-(d.bits : ℤ))
    linarith
  by_cases hw : b - a ∈ d.numbers
  · rw [exact h hw]
    refine le_of_le h hw ?_
    nlinarith
  · have hbig : (2 : ℝ) ^ ((d.prec : ℤ) - d.emin) ≤ b - a := by
      by_contra hc
      push Not at hc
      apply hw
      obtain ⟨n, hn⟩ := multiple ha
      obtain ⟨m, hm⟩ := multiple hb
      have hs := two_zpow_pos (-(d.emin : ℤ))
      have e : b - a = ((m - n : ℤ) : ℝ) * (2 : ℝ) ^ (-(d.emin : ℤ)) := by
        rw [hn, hm]; push_cast; ring
      rw [e, sub_eq_add_neg (d.prec : ℤ), zpow_add₀ (by norm_num), zpow_natCast] at hc
      have hlt : ((m - n : ℤ) : ℝ) < 2 ^ d.prec := lt_of_mul_lt_mul_right hc hs.le
      have hpos : (0 : ℝ) < ((m - n : ℤ) : ℝ) := by
        have : 0 < b - a := by linarith
        rw [e] at this
        exact pos_of_mul_pos_left this hs.le
      have hlt' : m - n < 2 ^ d.prec := by exact_mod_cast hlt
      have hpos' : 0 < m - n := by exact_mod_cast hpos
      rw [e]
      exact mem_numbers (by rwa [abs_of_pos hpos']) le_rfl
    have hp := prec_pos d
    have hDbig : (2 : ℝ) ^ ((d.prec : ℤ) - d.emin) ≤ fl (b - a) :=
      ge_of_ge h (zpow_mem (by omega)) hbig
    obtain ⟨q, h1, h2⟩ := binade (lt_of_lt_of_le (two_zpow_pos _) hDbig)
    have hq : (d.prec : ℤ) - d.emin < q + 1 :=
      (zpow_lt_zpow_iff_right₀ (by norm_num : (1 : ℝ) < 2)).mp (lt_of_le_of_lt hDbig h2)
    have hq' : (d.prec : ℤ) - 1 - d.emin ≤ q := by omega
    refine (scaled h (h.mem _) h1 h2 hq' hk).trans ?_
    by_contra hc
    push Not at hc
    have hn := h.nearest (b - a) _ (pred (h.mem _) h1 h2 hq')
    have hs := two_zpow_pos (q + 1 - d.prec)
    rw [abs_of_pos (by linarith), abs_of_pos (by linarith)] at hn
    linarith

/-- Rounding to nearest, with ties upwards. -/
noncomputable def roundTo (d : Dtype) (x : ℝ) : ℝ :=
  if x = 0 then 0
  else
    let e := max (-(d.emin : ℤ)) (Int.log 2 |x| + 1 - d.prec)
    round (x / (2 : ℝ) ^ e) * (2 : ℝ) ^ e

/-- There is such a rounding. -/
theorem roundTo_nearest (d : Dtype) : Nearest d (roundTo d) := by
  have key : ∀ x : ℝ, x ≠ 0 → ∃ e q : ℤ, -(d.emin : ℤ) ≤ e ∧ q + 1 - d.prec ≤ e ∧
      (e = -(d.emin : ℤ) ∨ e = q + 1 - d.prec) ∧ (2 : ℝ) ^ q ≤ |x| ∧ |x| < (2 : ℝ) ^ (q + 1) ∧
      roundTo d x = round (x / (2 : ℝ) ^ e) * (2 : ℝ) ^ e := by
    intro x hx
    refine ⟨max (-(d.emin : ℤ)) (Int.log 2 |x| + 1 - d.prec), Int.log 2 |x|, le_max_left _ _, le_max_right _ _, ?_,
      ?_, ?_, by rw [roundTo, if_neg hx]⟩
    · rcases max_choice (-(d.emin : ℤ)) (Int.log 2 |x| + 1 - d.prec) with h | h
      · exact Or.inl h
      · exact Or.inr h
    · exact_mod_cast Int.zpow_log_le_self (b := 2) (by norm_num) (abs_pos.mpr hx)
    · exact_mod_cast Int.lt_zpow_succ_log_self (b := 2) (by norm_num) |x|
  constructor
  · intro x
    by_cases hx : x = 0
    · rw [roundTo, if_pos hx]; exact zero_mem
    obtain ⟨e, q, he1, he2, -, -, hq2, hr⟩ := key x hx
    rw [hr]
    refine mem_numbers_le ?_ he1
    have hs := two_zpow_pos e
    have hb : |x / (2 : ℝ) ^ e| ≤ ((2 ^ d.prec : ℤ) : ℝ) := by
      rw [abs_div, abs_of_pos hs, div_le_iff₀ hs]
      push_cast
      rw [← zpow_natCast, ← zpow_add₀ (by norm_num)]
      exact hq2.le.trans (two_zpow_le (by omega))
    have hb' := abs_le.mp hb
    have ha := abs_le.mp (abs_sub_round (x / (2 : ℝ) ^ e))
    rw [abs_le]
    constructor
    · have : ((-(2 ^ d.prec) - 1 : ℤ) : ℝ) < round (x / (2 : ℝ) ^ e) := by
        rw [Int.cast_sub, Int.cast_neg]; push_cast at hb' ⊢; linarith
      have : -(2 ^ d.prec) - 1 < round (x / (2 : ℝ) ^ e) := by exact_mod_cast this
      omega
    · have : (round (x / (2 : ℝ) ^ e) : ℝ) < ((2 ^ d.prec + 1 : ℤ) : ℝ) := by
        rw [Int.cast_add]; push_cast at hb' ⊢; linarith
      have : round (x / (2 : ℝ) ^ e) < 2 ^ d.prec + 1 := by exact_mod_cast this
      omega
  · intro x y hy
    by_cases hx : x = 0
    · rw [roundTo, if_pos hx, hx]; simp
    obtain ⟨e, q, -, he2, he3, hq1, -, hr⟩ := key x hx
    have hs := two_zpow_pos e
    have multi : ∀ n : ℤ, |roundTo d x - x| ≤ |n * (2 : ℝ) ^ e - x| := by
      intro n
      have h := round_le (x / (2 : ℝ) ^ e) n
      have e1 : ∀ a : ℝ, a * (2 : ℝ) ^ e - x = -((x / (2 : ℝ) ^ e - a) * (2 : ℝ) ^ e) := by
        intro a; field_simp; ring
      rw [hr, e1, e1, abs_neg, abs_neg, abs_mul, abs_mul]
      exact mul_le_mul_of_nonneg_right h (abs_nonneg _)
    by_cases hc : ∃ n : ℤ, y = n * (2 : ℝ) ^ e
    · obtain ⟨n, rfl⟩ := hc
      exact multi n
    have hee : e = q + 1 - d.prec := by
      rcases he3 with h | h
      · obtain ⟨n, hn⟩ := multiple hy
        exact absurd ⟨n, by rw [h]; exact hn⟩ hc
      · exact h
    have hlt : |y| < (2 : ℝ) ^ q := by
      by_contra h
      push Not at h
      obtain ⟨n, hn⟩ := spacing hy h
      exact hc ⟨n, by rw [hee]; exact hn⟩
    have hp := prec_pos d
    have hc2 : (2 : ℝ) ^ q = ((2 ^ (d.prec - 1) : ℤ) : ℝ) * (2 : ℝ) ^ e := by
      push_cast
      rw [hee, ← zpow_natCast, ← zpow_add₀ (by norm_num)]
      congr 1
      omega
    have hy' := abs_lt.mp hlt
    rcases lt_or_gt_of_ne hx with h | h
    · have := multi (-(2 ^ (d.prec - 1)))
      rw [Int.cast_neg, neg_mul, ← hc2] at this
      rw [abs_of_neg h] at hq1
      refine this.trans ?_
      rw [abs_of_nonneg (by linarith), abs_of_nonneg (by linarith)]
      linarith
    · have := multi (2 ^ (d.prec - 1))
      rw [← hc2] at this
      rw [abs_of_pos h] at hq1
      refine this.trans ?_
      rw [abs_of_nonpos (by linarith), abs_of_nonpos (by linarith)]
      linarith

end ZhuSuan.FloatDraw

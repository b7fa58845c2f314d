import Verif.Model.FloatLse
import Verif.Lemmas.FloatDraw
import Mathlib.Analysis.SpecialFunctions.Exp
import Mathlib.Algebra.BigOperators.Group.List.Basic

/-!
# Relative errors of roundings and of sums
-/
set_option autoImplicit false

namespace ZhuSuan.FloatDraw

variable {d : Dtype} {fl : ℝ → ℝ}

/-- The unit roundoff of a dtype. -/
noncomputable abbrev Dtype.unit (d : Dtype) : ℝ := (2 : ℝ) ^ (-(d.prec : ℤ))

theorem unit_pos (d : Dtype) : 0 < d.unit := two_zpow_pos _

theorem unit_lt_half (d : Dtype) : d.unit ≤ 1 / 2 := by
  have := two_zpow_le (a := -(d.prec : ℤ)) (b := -1) (by have := prec_pos d; omega)
  rw [zpow_neg_one] at this
  simpa [Dtype.unit] using this

/-- Rounding a number of the normal range has a relative error of at most the unit roundoff. -/
theorem relative (h : Nearest d fl) {x : ℝ} (hx : (2 : ℝ) ^ ((d.prec : ℤ) - 1 - d.emin) ≤ |x|) :
    |fl x - x| ≤ d.unit * |x| := by
  obtain ⟨q, h1, h2⟩ := binade (lt_of_lt_of_le (two_zpow_pos _) hx)
  have hq : (d.prec : ℤ) - 1 - d.emin < q + 1 :=
    (zpow_lt_zpow_iff_right₀ (by norm_num : (1 : ℝ) < 2)).mp (lt_of_le_of_lt hx h2)
  set e : ℤ := q + 1 - d.prec with he
  have hs := two_zpow_pos e
  have hz : |x / (2 : ℝ) ^ e| ≤ ((2 ^ d.prec : ℤ) : ℝ) := by
    rw [abs_div, abs_of_pos hs, div_le_iff₀ hs]
    push_cast
    rw [← zpow_natCast, ← zpow_add₀ (by norm_num)]
    exact h2.le.trans (two_zpow_le (by omega))
  have hb' := abs_le.mp hz
  have hr := abs_sub_round (x / (2 : ℝ) ^ e)
  have ha := abs_le.mp hr
  have hmem : (round (x / (2 : ℝ) ^ e) * (2 : ℝ) ^ e) ∈ d.numbers := by
    refine mem_numbers_le ?_ (by omega)
    rw [abs_le]
    constructor
    · have : ((-(2 ^ d.prec) - 1 : ℤ) : ℝ) < round (x / (2 : ℝ) ^ e) := by
        rw [Int.cast_sub, Int.cast_neg]; push_cast at hb' ⊢; linarith
      have : -(2 ^ d.prec) - 1 < round (x / (2 : ℝ) ^ e) := by exact_mod_cast this
      omega
    · have : (round (x / (2 : ℝ) ^ e) : ℝ) < ((2 ^ d.prec + 1 : ℤ) : ℝ) := by
        rw [Int.cast_add]; push_cast at hb' ⊢; linarith
      have : round (x / (2 : ℝ) ^ e) < 2 ^ d.prec + 1 := by exact_mod_cast this
      omega
  refine (h.nearest x _ hmem).trans ?_
  have e1 : round (x / (2 : ℝ) ^ e) * (2 : ℝ) ^ e - x = -((x / (2 : ℝ) ^ e - round (x / (2 : ℝ) ^ e)) * (2 : ℝ) ^ e) := by
    field_simp; ring
  rw [e1, abs_neg, abs_mul, abs_of_pos hs]
  have e2 : 1 / 2 * (2 : ℝ) ^ e = d.unit * 2 ^ q := by
    rw [he, Dtype.unit, ← zpow_add₀ (by norm_num), show q + 1 - (d.prec : ℤ) = 1 + (-(d.prec : ℤ) + q) by ring, zpow_add₀ (by norm_num),
      zpow_one]
    ring
  calc |x / (2 : ℝ) ^ e - round (x / (2 : ℝ) ^ e)| * (2 : ℝ) ^ e ≤ 1 / 2 * (2 : ℝ) ^ e := mul_le_mul_of_nonneg_right hr hs.le
    _ = d.unit * 2 ^ q := e2
    _ ≤ d.unit * |x| := mul_le_mul_of_nonneg_left h1 (unit_pos d).le

/-- The same holds for all sums of two numbers, as small sums are exact. -/
theorem relative_add (h : Nearest d fl) {a b : ℝ} (ha : a ∈ d.numbers) (hb : b ∈ d.numbers) :
    |fl (a + b) - (a + b)| ≤ d.unit * |a + b| := by
  by_cases hw : a + b ∈ d.numbers
  · rw [exact h hw, sub_self, abs_zero]
    exact mul_nonneg (unit_pos d).le (abs_nonneg _)
  · refine relative h ?_
    by_contra hc
    push Not at hc
    apply hw
    obtain ⟨n, hn⟩ := multiple ha
    obtain ⟨m, hm⟩ := multiple hb
    have hs := two_zpow_pos (-(d.emin : ℤ))
    have e : a + b = ((n + m : ℤ) : ℝ) * (2 : ℝ) ^ (-(d.emin : ℤ)) := by
      rw [hn, hm]; push_cast; ring
    rw [e, abs_mul, abs_of_pos hs] at hc
    have hc' : |((n + m : ℤ) : ℝ)| < 2 ^ d.prec := by
      have h1 : (2 : ℝ) ^ ((d.prec : ℤ) - 1 - d.emin) ≤ 2 ^ d.prec * (2 : ℝ) ^ (-(d.emin : ℤ)) := by
        rw [← zpow_natCast, ← zpow_add₀ (by norm_num)]
        exact two_zpow_le (by omega)
      exact lt_of_mul_lt_mul_right (hc.trans_le h1) hs.le
    rw [e]
    exact mem_numbers (by exact_mod_cast hc') le_rfl

/-- Sums of numbers that are not negative: the relative error of any order of additions, and no summand is lost. -/
theorem reduceSum_bounds (h : Nearest d fl) {f : ℕ → ℝ} (hf : ∀ i, f i ∈ d.numbers) (h0 : ∀ i, 0 ≤ f i) (o : Order) :
    (1 - d.unit) ^ (o.places.length - 1) * (o.places.map f).sum ≤ reduceSum fl f o ∧
    reduceSum fl f o ≤ (1 + d.unit) ^ (o.places.length - 1) * (o.places.map f).sum ∧
    reduceSum fl f o ∈ d.numbers ∧ 0 ≤ reduceSum fl f o ∧ (∀ i ∈ o.places, f i ≤ reduceSum fl f o) ∧
    1 ≤ o.places.length := by
  have hu := unit_pos d
  have hu2 := unit_lt_half d
  induction o with
  | leaf i => simpa [Order.places, reduceSum] using ⟨hf i, h0 i⟩
  | node a b iha ihb =>
    obtain ⟨a1, a2, a3, a4, a5, a6⟩ := iha
    obtain ⟨b1, b2, b3, b4, b5, b6⟩ := ihb
    have hr := abs_le.mp (relative_add h a3 b3)
    rw [abs_of_nonneg (by positivity)] at hr
    have sa : 0 ≤ (a.places.map f).sum := List.sum_nonneg (by simpa using fun i _ => h0 i)
    have sb : 0 ≤ (b.places.map f).sum := List.sum_nonneg (by simpa using fun i _ => h0 i)
    have hlen : (a.places ++ b.places).length - 1 = (a.places.length - 1) + (b.places.length - 1) + 1 := by
      rw [List.length_append]; omega
    simp only [Order.places, reduceSum, hlen, List.map_append, List.sum_append]
    have p1 : (1 - d.unit) ^ (a.places.length - 1 + (b.places.length - 1)) ≤ (1 - d.unit) ^ (a.places.length - 1) :=
      pow_le_pow_of_le_one (by linarith) (by linarith) (by omega)
    have p2 : (1 - d.unit) ^ (a.places.length - 1 + (b.places.length - 1)) ≤ (1 - d.unit) ^ (b.places.length - 1) :=
      pow_le_pow_of_le_one (by linarith) (by linarith) (by omega)
    have q1 : (1 + d.unit) ^ (a.places.length - 1) ≤ (1 + d.unit) ^ (a.places.length - 1 + (b.places.length - 1)) :=
      pow_le_pow_right₀ (by linarith) (by omega)
    have q2 : (1 + d.unit) ^ (b.places.length - 1) ≤ (1 + d.unit) ^ (a.places.length - 1 + (b.places.length - 1)) :=
      pow_le_pow_right₀ (by linarith) (by omega)
    set A := reduceSum fl f a
    set B := reduceSum fl f b
    refine ⟨?_, ?_, h.mem _, ge_of_ge h zero_mem (by positivity), ?_, by omega⟩
    · have l1 := (mul_le_mul_of_nonneg_right p1 sa).trans a1
      have l2 := (mul_le_mul_of_nonneg_right p2 sb).trans b1
      have : (1 - d.unit) * (A + B) ≤ fl (A + B) := by linarith [hr.1]
      refine le_trans ?_ this
      rw [pow_succ]
      have : (1 - d.unit) * ((1 - d.unit) ^ (a.places.length - 1 + (b.places.length - 1)) * (a.places.map f).sum +
          (1 - d.unit) ^ (a.places.length - 1 + (b.places.length - 1)) * (b.places.map f).sum) ≤ (1 - d.unit) * (A + B) :=
        mul_le_mul_of_nonneg_left (by linarith) (by linarith)
      linarith
    · have l1 := a2.trans (mul_le_mul_of_nonneg_right q1 sa)
      have l2 := b2.trans (mul_le_mul_of_nonneg_right q2 sb)
      have : fl (A + B) ≤ (1 + d.unit) * (A + B) := by linarith [hr.2]
      refine this.trans ?_
      rw [pow_succ]
      have : (1 + d.unit) * (A + B) ≤ (1 + d.unit) * ((1 + d.unit) ^ (a.places.length - 1 + (b.places.length - 1)) * (a.places.map f).sum +
          (1 + d.unit) ^ (a.places.length - 1 + (b.places.length - 1)) * (b.places.map f).sum) :=
        mul_le_mul_of_nonneg_left (by linarith) (by linarith)
      linarith
    · intro i hi
      rcases List.mem_append.mp hi with hi | hi
      · exact ge_of_ge h (hf i) (by linarith [a5 i hi])
      · exact ge_of_ge h (hf i) (by linarith [b5 i hi])

/-- Rounding anything: the unit roundoff times the number, and the smallest positive number of the dtype. -/
theorem absolute (h : Nearest d fl) (x : ℝ) : |fl x - x| ≤ d.unit * |x| + (2 : ℝ) ^ (-(d.emin : ℤ)) := by
  have hs := two_zpow_pos (-(d.emin : ℤ))
  have hu := mul_nonneg (unit_pos d).le (abs_nonneg x)
  by_cases hx : (2 : ℝ) ^ ((d.prec : ℤ) - 1 - d.emin) ≤ |x|
  · linarith [relative h hx]
  · push Not at hx
    have hz : |x / (2 : ℝ) ^ (-(d.emin : ℤ))| < ((2 ^ (d.prec - 1) : ℤ) : ℝ) := by
      rw [abs_div, abs_of_pos hs, div_lt_iff₀ hs]
      push_cast
      rw [← zpow_natCast, ← zpow_add₀ (by norm_num)]
      refine hx.trans_le (two_zpow_le ?_)
      have := prec_pos d
      omega
    have hb' := abs_lt.mp hz
    have hr := abs_sub_round (x / (2 : ℝ) ^ (-(d.emin : ℤ)))
    have ha := abs_le.mp hr
    have h2 : (2 : ℤ) ^ (d.prec - 1) + 1 ≤ 2 ^ d.prec := by
      have := prec_pos d
      obtain ⟨k, hk⟩ : ∃ k, d.prec = k + 1 := ⟨d.prec - 1, by omega⟩
      rw [hk, Nat.add_sub_cancel, pow_succ]
      have : (1 : ℤ) ≤ 2 ^ k := one_le_pow₀ (by norm_num)
      omega
    have hmem : (round (x / (2 : ℝ) ^ (-(d.emin : ℤ))) * (2 : ℝ) ^ (-(d.emin : ℤ))) ∈ d.numbers := by
      refine mem_numbers_le ?_ le_rfl
      rw [abs_le]
      constructor
      · have : ((-(2 ^ (d.prec - 1)) - 1 : ℤ) : ℝ) < round (x / (2 : ℝ) ^ (-(d.emin : ℤ))) := by
          rw [Int.cast_sub, Int.cast_neg]; push_cast at hb' ⊢; linarith
        have : -(2 ^ (d.prec - 1)) - 1 < round (x / (2 : ℝ) ^ (-(d.emin : ℤ))) := by exact_mod_cast this
        omega
      · have : (round (x / (2 : ℝ) ^ (-(d.emin : ℤ))) : ℝ) < ((2 ^ (d.prec - 1) + 1 : ℤ) : ℝ) := by
          rw [Int.cast_add]; push_cast at hb' ⊢; linarith
        have : round (x / (2 : ℝ) ^ (-(d.emin : ℤ))) < 2 ^ (d.prec - 1) + 1 := by exact_mod_cast this
        omega
    refine (h.nearest x _ hmem).trans ?_
    have e1 : round (x / (2 : ℝ) ^ (-(d.emin : ℤ))) * (2 : ℝ) ^ (-(d.emin : ℤ)) - x =
        -((x / (2 : ℝ) ^ (-(d.emin : ℤ)) - round (x / (2 : ℝ) ^ (-(d.emin : ℤ)))) * (2 : ℝ) ^ (-(d.emin : ℤ))) := by
      rw [sub_mul, div_mul_cancel₀ _ hs.ne']; ring
    rw [e1, abs_neg, abs_mul, abs_of_pos hs]
    have := mul_le_mul_of_nonneg_right hr hs.le
    linarith

/-- Sums of numbers that are at most one never exceed the number of summands, in any order. -/
theorem reduceSum_le_length (h : Nearest d fl) {f : ℕ → ℝ} (o : Order) (hf : ∀ i ∈ o.places, f i ≤ 1)
    (ho : o.places.length ≤ 2 ^ d.prec) :
    reduceSum fl f o ≤ o.places.length := by
  induction o with
  | leaf i => simpa [Order.places, reduceSum] using hf
  | node a b iha ihb =>
    simp only [Order.places, List.length_append, List.mem_append] at hf ho ⊢
    have ha := iha (fun i hi => hf i (.inl hi)) (by omega)
    have hb := ihb (fun i hi => hf i (.inr hi)) (by omega)
    refine le_of_le h ?_ (by push_cast; linarith)
    have hm : ((((a.places.length + b.places.length : ℕ) : ℤ) : ℝ) * (2 : ℝ) ^ (0 : ℤ)) ∈ d.numbers := by
      refine mem_numbers_le ?_ (by omega)
      rw [abs_of_nonneg (by positivity)]
      exact_mod_cast ho
    simpa using hm

end ZhuSuan.FloatDraw

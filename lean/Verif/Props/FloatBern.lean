import Verif.Model.FloatBern
import Verif.Lemmas.FloatLse
import Mathlib.Analysis.SpecialFunctions.Log.Basic
import Mathlib.Analysis.Convex.SpecificFunctions.Basic

/-!
# C117: `Bernoulli.log_prob` in floating point

English: for every logit and both outcomes, `Bernoulli.log_prob` is within a few units of roundoff of the exact log probability, relative to it.  This holds for
probabilities close to one too, whose logarithm is close to zero, and for the sum over a group of entries in any order.  The computed log probability is never positive.
-/
set_option autoImplicit false

namespace ZhuSuan.FloatDraw

variable {d : Dtype} {fl ex lp : ℝ → ℝ} {ε η : ℝ}

/-- The probability of an outcome of a Bernoulli variable with the given log odds. -/
noncomputable def bernoulliProb (given : Bool) (logit : ℝ) : ℝ :=
  if given then 1 / (1 + Real.exp (-logit)) else 1 - 1 / (1 + Real.exp (-logit))

/-- A device's `exp` and `log1p`: results are numbers of the dtype that are not negative where the exact ones are not, within a relative error `ε` and an absolute
error `η` (underflow) of the exact ones. -/
structure Accurate1p (d : Dtype) (ε η : ℝ) (ex lp : ℝ → ℝ) : Prop where
  ex_mem : ∀ x, ex x ∈ d.numbers
  lp_mem : ∀ x, lp x ∈ d.numbers
  ex_nonneg : ∀ x, 0 ≤ ex x
  lp_nonneg : ∀ x, 0 ≤ x → 0 ≤ lp x
  ex_err : ∀ x ∈ d.numbers, x ≤ 0 → |ex x - Real.exp x| ≤ ε * Real.exp x + η
  lp_err : ∀ x ∈ d.numbers, 0 ≤ x → |lp x - Real.log (1 + x)| ≤ ε * Real.log (1 + x) + η

/-- The relative error of one entry. -/
noncomputable def relError (d : Dtype) (ε : ℝ) : ℝ := (1 + d.unit) * (2 * ε + ε ^ 2) + d.unit

/-- The absolute error of one entry, from underflow. -/
noncomputable def absError (d : Dtype) (ε η : ℝ) : ℝ := (1 + d.unit) * ((2 + ε) * η)

theorem log1p_lip {a b : ℝ} (ha : 0 ≤ a) (hb : 0 ≤ b) : Real.log (1 + a + b) ≤ Real.log (1 + a) + b := by
  have h1 : 0 < 1 + a := by linarith
  have : 1 + a + b = (1 + a) * (1 + b / (1 + a)) := by field_simp
  rw [this, Real.log_mul h1.ne' (by positivity)]
  have h2 := Real.log_le_sub_one_of_pos (show 0 < 1 + b / (1 + a) by positivity)
  have h3 : b / (1 + a) ≤ b := div_le_self hb (by linarith)
  linarith

theorem log1p_up {y : ℝ} (hy : 0 ≤ y) (hε : 0 ≤ ε) : Real.log (1 + (1 + ε) * y) ≤ (1 + ε) * Real.log (1 + y) := by
  rw [← Real.log_rpow (by linarith)]
  exact Real.log_le_log (by positivity) (one_add_mul_self_le_rpow_one_add (by linarith) (by linarith))

theorem log1p_down {y : ℝ} (hy : 0 ≤ y) (hε : 0 ≤ ε) (hε1 : ε ≤ 1) : (1 - ε) * Real.log (1 + y) ≤ Real.log (1 + (1 - ε) * y) := by
  rw [← Real.log_rpow (by linarith)]
  exact Real.log_le_log (by positivity) (rpow_one_add_le_one_add_mul_self (by linarith) (by linarith) (by linarith))

theorem log1p_close {y y' : ℝ} (hy : 0 ≤ y) (hy' : 0 ≤ y') (hε : 0 ≤ ε) (hε1 : ε ≤ 1) (hη : 0 ≤ η) (h : |y' - y| ≤ ε * y + η) :
    |Real.log (1 + y') - Real.log (1 + y)| ≤ ε * Real.log (1 + y) + η := by
  obtain ⟨h1, h2⟩ := abs_le.mp h
  have hm : 0 ≤ (1 + ε) * y := by positivity
  have hm' : 0 ≤ (1 - ε) * y := mul_nonneg (by linarith) hy
  rw [abs_le]
  constructor
  · have a1 := log1p_down hy hε hε1
    have a2 : Real.log (1 + (1 - ε) * y) ≤ Real.log (1 + y') + η := by
      refine le_trans (Real.log_le_log (by linarith) ?_) (log1p_lip hy' hη)
      linarith
    linarith
  · have a1 := log1p_up hy hε
    have a2 : Real.log (1 + y') ≤ Real.log (1 + (1 + ε) * y + η) := Real.log_le_log (by linarith) (by linarith)
    have a3 := log1p_lip hm hη
    linarith

theorem abs_mem {x : ℝ} (hx : x ∈ d.numbers) : -|x| ∈ d.numbers := by
  rcases abs_cases x with ⟨h, _⟩ | ⟨h, _⟩ <;> rw [h]
  · exact neg_mem hx
  · rwa [neg_neg]

/-- The part of the cross entropy that is computed exactly. -/
theorem relu_exact (h : Nearest d fl) {x : ℝ} (hx : x ∈ d.numbers) (given : Bool) :
    fl (max x 0 - fl (x * if given then 1 else 0)) = if given then max (-x) 0 else max x 0 := by
  cases given
  · simp only [Bool.false_eq_true, if_false, mul_zero, exact h zero_mem, sub_zero]
    rcases max_choice x 0 with e | e <;> rw [e]
    · exact exact h hx
    · exact exact h zero_mem
  · simp only [if_true, mul_one, exact h hx]
    rcases le_total 0 x with hx0 | hx0
    · rw [max_eq_left hx0, sub_self, exact h zero_mem, max_eq_right (by linarith)]
    · rw [max_eq_right hx0, zero_sub, exact h (neg_mem hx), max_eq_left (by linarith)]

theorem neg_log_prob (given : Bool) (x : ℝ) :
    -Real.log (bernoulliProb given x) = (if given then max (-x) 0 else max x 0) + Real.log (1 + Real.exp (-|x|)) := by
  have key : ∀ x : ℝ, Real.log (1 + Real.exp (-x)) = max (-x) 0 + Real.log (1 + Real.exp (-|x|)) := by
    intro x
    rcases le_total 0 x with h | h
    · rw [abs_of_nonneg h, max_eq_right (by linarith), zero_add]
    · rw [abs_of_nonpos h, max_eq_left (by linarith), neg_neg]
      have : 1 + Real.exp (-x) = Real.exp (-x) * (1 + Real.exp x) := by
        rw [mul_add, ← Real.exp_add, neg_add_cancel, Real.exp_zero, mul_one, add_comm]
      rw [this, Real.log_mul (Real.exp_pos _).ne' (by positivity), Real.log_exp]
  cases given
  · simp only [bernoulliProb, Bool.false_eq_true, if_false]
    have e : 1 - 1 / (1 + Real.exp (-x)) = 1 / (1 + Real.exp (-(-x))) := by
      rw [neg_neg, Real.exp_neg]
      have := Real.exp_pos x
      field_simp
      ring
    rw [e, one_div, Real.log_inv, neg_neg, key (-x), neg_neg, abs_neg]
  · simp only [bernoulliProb, if_true]
    rw [one_div, Real.log_inv, neg_neg, key x]

/-- The rounding seen from the other sign. -/
theorem nearest_neg (h : Nearest d fl) : Nearest d fun x => -fl (-x) where
  mem x := neg_mem (h.mem _)
  nearest x y hy := by
    have := h.nearest (-x) (-y) (neg_mem hy)
    rw [show -fl (-x) - x = -(fl (-x) - -x) by ring, abs_neg, ← abs_neg (y - x), neg_sub, show x - y = -y - -x by ring]
    exact this

theorem reduceSum_neg (f : ℕ → ℝ) (o : Order) : reduceSum fl (fun i => -f i) o = -reduceSum (fun x => -fl (-x)) f o := by
  induction o with
  | leaf i => rfl
  | node a b iha ihb => simp only [reduceSum, iha, ihb, neg_neg, neg_add]

section
variable (h : Nearest d fl) (D : Accurate1p d ε η ex lp) (hε : 0 ≤ ε) (hε1 : ε ≤ 1) (hη : 0 ≤ η)
include h D

theorem crossEntropy_nonneg (given : Bool) {x : ℝ} (hx : x ∈ d.numbers) : 0 ≤ crossEntropy fl ex lp (if given then 1 else 0) x := by
  unfold crossEntropy
  rw [relu_exact h hx]
  refine ge_of_ge h zero_mem (add_nonneg ?_ (D.lp_nonneg _ (D.ex_nonneg _)))
  cases given <;> simp

/-- **C117** A computed log probability is never positive. -/
theorem C117_nonpos (given : Bool) {x : ℝ} (hx : x ∈ d.numbers) : bernoulliLogProb fl ex lp given x ≤ 0 :=
  neg_nonpos.mpr (crossEntropy_nonneg h D given hx)

include hε hε1 hη

/-- **C117** The computed log probability of either outcome is close to the exact one, relative to it, for every logit. -/
theorem C117_log_prob (given : Bool) {x : ℝ} (hx : x ∈ d.numbers) :
    |bernoulliLogProb fl ex lp given x - Real.log (bernoulliProb given x)| ≤
      relError d ε * |Real.log (bernoulliProb given x)| + absError d ε η := by
  have hu := unit_pos d
  have hn := neg_log_prob given x
  have hmem : (if given then max (-x) 0 else max x 0) ∈ d.numbers := by rw [← relu_exact h hx given]; exact h.mem _
  have hm0 : 0 ≤ (if given then max (-x) 0 else max x 0) := by cases given <;> simp
  unfold bernoulliLogProb crossEntropy
  rw [relu_exact h hx]
  set m : ℝ := if given then max (-x) 0 else max x 0
  set y := Real.exp (-|x|)
  have hy0 : 0 ≤ y := (Real.exp_pos _).le
  set l := Real.log (1 + y) with hl
  have hl0 : 0 ≤ l := Real.log_nonneg (by linarith)
  have c1 := log1p_close hy0 (D.ex_nonneg (-|x|)) hε hε1 hη (D.ex_err _ (abs_mem hx) (by simp))
  have c2 := D.lp_err _ (D.ex_mem (-|x|)) (D.ex_nonneg _)
  have c3 := relative_add h hmem (D.lp_mem (ex (-|x|)))
  have hlp0 := D.lp_nonneg _ (D.ex_nonneg (-|x|))
  set l1 := Real.log (1 + ex (-|x|))
  set l2 := lp (ex (-|x|))
  rw [abs_of_nonneg (add_nonneg hm0 hlp0)] at c3
  have hL : Real.log (bernoulliProb given x) = -(m + l) := by linarith
  rw [hL, abs_neg, abs_of_nonneg (add_nonneg hm0 hl0)]
  rw [← hl] at c1
  obtain ⟨a1, a2⟩ := abs_le.mp c1
  obtain ⟨b1, b2⟩ := abs_le.mp c2
  obtain ⟨e1, e2⟩ := abs_le.mp c3
  have hl1 : ε * l1 ≤ ε * ((1 + ε) * l + η) := mul_le_mul_of_nonneg_left (by linarith) hε
  have k1 : l2 - l ≤ (2 * ε + ε ^ 2) * l + (2 + ε) * η := by nlinarith
  have k2 : -((2 * ε + ε ^ 2) * l + (2 + ε) * η) ≤ l2 - l := by nlinarith
  have hg : 0 ≤ 2 * ε + ε ^ 2 := by positivity
  have k3 : (2 * ε + ε ^ 2) * l ≤ (2 * ε + ε ^ 2) * (m + l) := mul_le_mul_of_nonneg_left (by linarith) hg
  unfold relError absError
  have k4 : d.unit * (l2 - l) ≤ d.unit * ((2 * ε + ε ^ 2) * (m + l) + (2 + ε) * η) := mul_le_mul_of_nonneg_left (by linarith) hu.le
  rw [abs_le]
  constructor <;> nlinarith

/-- **C117** The computed log probability of a group of `n + 1` entries, added in any order, is close to the exact one, relative to it. -/
theorem C117_group {n : ℕ} (given : ℕ → Bool) {x : ℕ → ℝ} (hx : ∀ i, x i ∈ d.numbers) {o : Order} (ho : o.places.Perm (List.range (n + 1))) :
    |bernoulliGroup fl ex lp given x o - ∑ i ∈ Finset.range (n + 1), Real.log (bernoulliProb (given i) (x i))| ≤
      ((1 + d.unit) ^ n * (1 + relError d ε) - 1) * |∑ i ∈ Finset.range (n + 1), Real.log (bernoulliProb (given i) (x i))| +
      (1 + d.unit) ^ n * ((n + 1) * absError d ε η) := by
  have hu := unit_pos d
  have hu2 := unit_lt_half d
  set f : ℕ → ℝ := fun i => crossEntropy fl ex lp (if given i then 1 else 0) (x i) with hf
  have hf0 : ∀ i, 0 ≤ f i := fun i => crossEntropy_nonneg h D (given i) (hx i)
  have hfm : ∀ i, f i ∈ d.numbers := fun i => h.mem _
  obtain ⟨b1, b2, _⟩ := reduceSum_bounds (nearest_neg h) hfm hf0 o
  have hlen : o.places.length = n + 1 := by rw [ho.length_eq, List.length_range]
  have hsum : (o.places.map f).sum = ∑ i ∈ Finset.range (n + 1), f i := by rw [(ho.map f).sum_eq]; rfl
  rw [hlen, Nat.add_sub_cancel, hsum] at b1 b2
  have hT : bernoulliGroup fl ex lp given x o = -reduceSum (fun x => -fl (-x)) f o := reduceSum_neg f o
  set T := reduceSum (fun x => -fl (-x)) f o
  set F := ∑ i ∈ Finset.range (n + 1), f i with hF
  set Q := ∑ i ∈ Finset.range (n + 1), Real.log (bernoulliProb (given i) (x i)) with hQ
  have hQ0 : Q ≤ 0 := Finset.sum_nonpos fun i _ => by
    have := neg_log_prob (given i) (x i)
    have h1 : 0 ≤ (if given i then max (-x i) 0 else max (x i) 0) := by cases given i <;> simp
    have h2 : 0 ≤ Real.log (1 + Real.exp (-|x i|)) := Real.log_nonneg (by linarith [Real.exp_pos (-|x i|)])
    linarith
  have hF0 : 0 ≤ F := Finset.sum_nonneg fun i _ => hf0 i
  set ρ := relError d ε
  set κ := absError d ε η
  have hFQ : |F + Q| ≤ ρ * |Q| + (n + 1) * κ := by
    have e : F + Q = ∑ i ∈ Finset.range (n + 1), (f i + Real.log (bernoulliProb (given i) (x i))) := by rw [Finset.sum_add_distrib]
    have e2 : |Q| = ∑ i ∈ Finset.range (n + 1), |Real.log (bernoulliProb (given i) (x i))| := by
      rw [abs_of_nonpos hQ0, hQ, ← Finset.sum_neg_distrib]
      refine Finset.sum_congr rfl fun i _ => ?_
      rw [abs_of_nonpos]
      have := neg_log_prob (given i) (x i)
      have h1 : 0 ≤ (if given i then max (-x i) 0 else max (x i) 0) := by cases given i <;> simp
      have h2 : 0 ≤ Real.log (1 + Real.exp (-|x i|)) := Real.log_nonneg (by linarith [Real.exp_pos (-|x i|)])
      linarith
    rw [e, e2, Finset.mul_sum]
    refine (Finset.abs_sum_le_sum_abs _ _).trans ?_
    have : ∑ i ∈ Finset.range (n + 1), |f i + Real.log (bernoulliProb (given i) (x i))| ≤
        ∑ i ∈ Finset.range (n + 1), (ρ * |Real.log (bernoulliProb (given i) (x i))| + κ) :=
      Finset.sum_le_sum fun i _ => by
        have := C117_log_prob h D hε hε1 hη (given i) (hx i)
        rwa [bernoulliLogProb, show ∀ a b : ℝ, -a - b = -(a + b) by intros; ring, abs_neg] at this
    rw [Finset.sum_add_distrib] at this
    simpa using this
  have p1 : 1 + n * d.unit ≤ (1 + d.unit) ^ n := one_add_mul_le_pow (by linarith) n
  have p2 : 1 + n * (-d.unit) ≤ (1 - d.unit) ^ n := by
    have := one_add_mul_le_pow (show -2 ≤ -d.unit by linarith) n
    rwa [← sub_eq_add_neg] at this
  set P := (1 + d.unit) ^ n
  have hP1 : 1 ≤ P := one_le_pow₀ (by linarith)
  obtain ⟨q1, q2⟩ := abs_le.mp hFQ
  rw [abs_of_nonpos hQ0] at q1 q2 ⊢
  have r1 : (P - 1) * F ≤ (P - 1) * ((1 + ρ) * (-Q) + (n + 1) * κ) := mul_le_mul_of_nonneg_left (by linarith) (by linarith)
  have r2 : (1 - P) * F ≤ ((1 - d.unit) ^ n - 1) * F := mul_le_mul_of_nonneg_right (by linarith) hF0
  rw [hT, abs_le]
  constructor <;> nlinarith

end

/-- Rounding the exact functions to nearest is accurate to the unit roundoff and the smallest positive number. -/
theorem accurate1p_round (h : Nearest d fl) :
    Accurate1p d d.unit ((2 : ℝ) ^ (-(d.emin : ℤ))) (fun x => fl (Real.exp x)) (fun x => fl (Real.log (1 + x))) where
  ex_mem _ := h.mem _
  lp_mem _ := h.mem _
  ex_nonneg _ := ge_of_ge h zero_mem (Real.exp_pos _).le
  lp_nonneg x hx := ge_of_ge h zero_mem (Real.log_nonneg (by linarith))
  ex_err x _ _ := by simpa [abs_of_pos (Real.exp_pos x)] using absolute h (Real.exp x)
  lp_err x _ hx := by simpa [abs_of_nonneg (Real.log_nonneg (show 1 ≤ 1 + x by linarith))] using absolute h (Real.log (1 + x))

/-- A concrete case: in float32, with correctly rounded functions, the relative error of `log_prob` of one entry is below `2 ^ -21`. -/
example : ∃ fl : ℝ → ℝ, Nearest .float32 fl ∧
    Accurate1p .float32 (Dtype.unit .float32) ((2 : ℝ) ^ (-(149 : ℤ))) (fun x => fl (Real.exp x)) (fun x => fl (Real.log (1 + x))) ∧
    0 ≤ Dtype.unit .float32 ∧ Dtype.unit .float32 ≤ 1 ∧ relError .float32 (Dtype.unit .float32) ≤ 2 ^ (-21 : ℤ) ∧
    (30 : ℝ) ∈ Dtype.numbers .float32 := by
  refine ⟨_, roundTo_nearest _, accurate1p_round (roundTo_nearest _), (unit_pos _).le, by norm_num [Dtype.unit, Dtype.prec],
    by norm_num [relError, Dtype.unit, Dtype.prec], ⟨30, 0, by norm_num [Dtype.prec], by simp, by norm_num⟩⟩

end ZhuSuan.FloatDraw

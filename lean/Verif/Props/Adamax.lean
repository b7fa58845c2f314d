import Mathlib.Algebra.Field.GeomSum
import Mathlib.Analysis.SpecificLimits.Basic
import Mathlib.Tactic.FieldSimp
import Mathlib.Tactic.Linarith
import Mathlib.Tactic.Positivity
import Verif.Model.Adamax

/-!
# The AdaMax optimizer (C100)
-/

set_option autoImplicit false

namespace ZhuSuan.Adamax

/-! ## Specification -/

/-- The exponentially weighted infinity norm of the gradients `g 0, …, g (t - 1)`: the largest of `β ^ (t - 1 - s) * |g s|`. -/
noncomputable def infNorm (β : ℝ) (g : ℕ → ℝ) : ℕ → ℝ
  | 0 => 0
  | t + 1 => Finset.sup' (Finset.range (t + 1)) ⟨0, Finset.mem_range.2 t.succ_pos⟩ fun s => β ^ (t - s) * |g s|

/-- The exponentially weighted mean of the gradients without the correction of its bias. -/
noncomputable def ewma (β : ℝ) (g : ℕ → ℝ) (t : ℕ) : ℝ := ∑ s ∈ Finset.range t, (1 - β) * β ^ (t - 1 - s) * g s

section
variable (c : Cfg) (f16 : Bool) (grad : ℕ → ℝ → ℝ) (x : ℝ)

/-- The gradients that a run has seen. -/
noncomputable def seen (t : ℕ) : ℝ := grad t (run c f16 grad x t).var

theorem eps_pos : 0 < eps f16 := by unfold eps; split <;> norm_num

theorem run_succ (t : ℕ) : run c f16 grad x (t + 1) = applyDense c f16 (run c f16 grad x t) (seen c f16 grad x t) := rfl

theorem run_m_succ (t : ℕ) : (run c f16 grad x (t + 1)).m = max (c.beta2 * (run c f16 grad x t).m + eps f16) |seen c f16 grad x t| := rfl

theorem run_v_succ (t : ℕ) : (run c f16 grad x (t + 1)).v = c.beta1 * (run c f16 grad x t).v + (1 - c.beta1) * seen c f16 grad x t := rfl

theorem m_nonneg (t : ℕ) : 0 ≤ (run c f16 grad x t).m := by
  induction t with
  | zero => exact le_refl 0
  | succ t _ => rw [run_m_succ]; exact le_max_of_le_right (abs_nonneg _)

/-- **C100.** Whatever the gradients, the divisor is at least `eps` in every step, so the update never divides by zero. -/
theorem C100_divisor (h2 : 0 ≤ c.beta2) (t : ℕ) : 0 < eps f16 ∧ eps f16 ≤ (run c f16 grad x (t + 1)).m := by
  refine ⟨eps_pos f16, ?_⟩
  rw [run_m_succ]
  exact le_max_of_le_left (le_add_of_nonneg_left (mul_nonneg h2 (m_nonneg c f16 grad x t)))

/-- **C100.** The first slot is the exponentially weighted mean of the gradients seen. -/
theorem C100_mean (t : ℕ) : (run c f16 grad x t).v = ewma c.beta1 (seen c f16 grad x) t := by
  induction t with
  | zero => simp [ewma, run, init]
  | succ t ih =>
    rw [run_v_succ, ih, ewma, ewma, Finset.sum_range_succ, Finset.mul_sum]
    congr 1
    · refine Finset.sum_congr rfl fun s hs => ?_
      have : t + 1 - 1 - s = (t - 1 - s) + 1 := by have := Finset.mem_range.1 hs; omega
      rw [this, pow_succ]
      ring
    · simp

/-- **C100.** The second slot is the exponentially weighted infinity norm of the gradients seen, up to the accumulated `eps`. -/
theorem C100_norm (h2 : 0 ≤ c.beta2) (h2' : c.beta2 < 1) (t : ℕ) :
    infNorm c.beta2 (seen c f16 grad x) t ≤ (run c f16 grad x t).m ∧
    (run c f16 grad x t).m ≤ infNorm c.beta2 (seen c f16 grad x) t + eps f16 / (1 - c.beta2) := by
  have he := eps_pos f16
  have h1 : 0 < 1 - c.beta2 := by linarith
  have hk : c.beta2 * (eps f16 / (1 - c.beta2)) + eps f16 = eps f16 / (1 - c.beta2) := by field_simp; ring
  have hd : 0 ≤ eps f16 / (1 - c.beta2) := by positivity
  induction t with
  | zero =>
    refine ⟨le_refl _, ?_⟩
    show (0 : ℝ) ≤ 0 + _
    simpa using hd
  | succ t ih =>
    have hrec : infNorm c.beta2 (seen c f16 grad x) (t + 1) = max (c.beta2 * infNorm c.beta2 (seen c f16 grad x) t) |seen c f16 grad x t| := by
      apply le_antisymm
      · rw [infNorm]
        refine Finset.sup'_le _ _ fun s hs => ?_
        rcases (Nat.lt_succ_iff.1 (Finset.mem_range.1 hs)).lt_or_eq with h | h
        · refine le_max_of_le_left ?_
          obtain ⟨k, rfl⟩ : ∃ k, t = k + 1 := ⟨t - 1, by omega⟩
          rw [show k + 1 - s = (k - s) + 1 by omega, pow_succ, mul_comm (c.beta2 ^ (k - s)), mul_assoc]
          exact mul_le_mul_of_nonneg_left (Finset.le_sup' (fun s => c.beta2 ^ (k - s) * |seen c f16 grad x s|) (Finset.mem_range.2 h)) h2
        · subst h
          simp
      · refine max_le ?_ ?_
        · cases t with
          | zero =>
            show c.beta2 * 0 ≤ _
            rw [mul_zero]
            refine le_trans ?_ (Finset.le_sup' (fun s => c.beta2 ^ (0 - s) * |seen c f16 grad x s|) (Finset.mem_range.2 one_pos))
            positivity
          | succ k =>
            obtain ⟨s, hs, e⟩ := Finset.exists_mem_eq_sup' (s := Finset.range (k + 1)) ⟨0, Finset.mem_range.2 k.succ_pos⟩
              fun s => c.beta2 ^ (k - s) * |seen c f16 grad x s|
            have hs' := Finset.mem_range.1 hs
            rw [infNorm, e]
            refine le_trans (le_of_eq ?_) (Finset.le_sup' (fun s => c.beta2 ^ (k + 1 - s) * |seen c f16 grad x s|) (Finset.mem_range.2 (show s < k + 1 + 1 by omega)))
            rw [show k + 1 - s = (k - s) + 1 by omega, pow_succ]
            ring
        · refine le_trans (le_of_eq ?_) (Finset.le_sup' (fun s => c.beta2 ^ (t - s) * |seen c f16 grad x s|) (Finset.mem_range.2 t.lt_succ_self))
          simp
    rw [hrec, run_m_succ]
    obtain ⟨a, b⟩ := ih
    constructor
    · exact max_le_max (by nlinarith) le_rfl
    · refine max_le ?_ ?_
      · have : c.beta2 * (run c f16 grad x t).m ≤ c.beta2 * (infNorm c.beta2 (seen c f16 grad x) t + eps f16 / (1 - c.beta2)) :=
          mul_le_mul_of_nonneg_left b h2
        have h3 := le_max_left (c.beta2 * infNorm c.beta2 (seen c f16 grad x) t) |seen c f16 grad x t|
        rw [mul_add] at this
        linarith
      · have h3 := le_max_right (c.beta2 * infNorm c.beta2 (seen c f16 grad x) t) |seen c f16 grad x t|
        linarith

/-- **C100.** Each step is the learning rate times the weighted mean of the gradients, divided by their norm: without the division by
`1 - beta1 ^ t` of the published algorithm, so it is `1 - beta1 ^ t` times the published step with the same divisor. -/
theorem C100_step (h1 : 0 ≤ c.beta1) (h1' : c.beta1 < 1) (t : ℕ) :
    (run c f16 grad x (t + 1)).var = (run c f16 grad x t).var -
      c.lr * (ewma c.beta1 (seen c f16 grad x) (t + 1) / (run c f16 grad x (t + 1)).m) ∧
    (run c f16 grad x (t + 1)).var = (run c f16 grad x t).var - (1 - c.beta1 ^ (t + 1)) *
      (c.lr / (1 - c.beta1 ^ (t + 1)) * (ewma c.beta1 (seen c f16 grad x) (t + 1) / (run c f16 grad x (t + 1)).m)) := by
  have h : (run c f16 grad x (t + 1)).var = (run c f16 grad x t).var -
      c.lr * (ewma c.beta1 (seen c f16 grad x) (t + 1) / (run c f16 grad x (t + 1)).m) := by
    rw [← C100_mean]
    rfl
  refine ⟨h, ?_⟩
  have hne : 1 - c.beta1 ^ (t + 1) ≠ 0 := (sub_pos.2 (pow_lt_one₀ h1 h1' (Nat.succ_ne_zero t))).ne'
  rw [h]
  field_simp

/-- **C100.** No step is larger than `lr * (1 - beta1) / (1 - beta1 / beta2)`, whatever the gradients. -/
theorem C100_step_bound (h0 : 0 ≤ c.lr) (h1 : 0 ≤ c.beta1) (h12 : c.beta1 < c.beta2) (h2 : c.beta2 ≤ 1) (t : ℕ) :
    |(run c f16 grad x (t + 1)).var - (run c f16 grad x t).var| ≤ c.lr * ((1 - c.beta1) / (1 - c.beta1 / c.beta2)) := by
  have hb2 : 0 < c.beta2 := lt_of_le_of_lt h1 h12
  set r := c.beta1 / c.beta2 with hr
  have hr0 : 0 ≤ r := div_nonneg h1 hb2.le
  have hr1 : r < 1 := (div_lt_one hb2).2 h12
  have hb1 : 0 ≤ 1 - c.beta1 := by linarith
  -- the weighted mean is at most a geometric sum times the divisor
  have key : ∀ t, |(run c f16 grad x t).v| ≤ (1 - c.beta1) * (∑ i ∈ Finset.range t, r ^ i) * (run c f16 grad x t).m := fun t => by
    induction t with
    | zero => simp [run, init]
    | succ t ih =>
      have hm := m_nonneg c f16 grad x t
      have m1 : c.beta2 * (run c f16 grad x t).m ≤ (run c f16 grad x (t + 1)).m := by
        rw [run_m_succ]
        exact le_max_of_le_left (le_add_of_nonneg_right (eps_pos f16).le)
      have m2 : |seen c f16 grad x t| ≤ (run c f16 grad x (t + 1)).m := by rw [run_m_succ]; exact le_max_right _ _
      have hS : 0 ≤ ∑ i ∈ Finset.range t, r ^ i := Finset.sum_nonneg fun i _ => pow_nonneg hr0 i
      have e : c.beta1 = r * c.beta2 := by rw [hr, div_mul_cancel₀ _ hb2.ne']
      rw [run_v_succ, geom_sum_succ]
      calc |c.beta1 * (run c f16 grad x t).v + (1 - c.beta1) * seen c f16 grad x t|
          ≤ c.beta1 * |(run c f16 grad x t).v| + (1 - c.beta1) * |seen c f16 grad x t| := by
            refine (abs_add_le _ _).trans (le_of_eq ?_)
            rw [abs_mul, abs_mul, abs_of_nonneg h1, abs_of_nonneg hb1]
        _ ≤ c.beta1 * ((1 - c.beta1) * (∑ i ∈ Finset.range t, r ^ i) * (run c f16 grad x t).m) + (1 - c.beta1) * (run c f16 grad x (t + 1)).m :=
            add_le_add (mul_le_mul_of_nonneg_left ih h1) (mul_le_mul_of_nonneg_left m2 hb1)
        _ = (1 - c.beta1) * (r * ∑ i ∈ Finset.range t, r ^ i) * (c.beta2 * (run c f16 grad x t).m) + (1 - c.beta1) * (run c f16 grad x (t + 1)).m := by
            conv_lhs => rw [show c.beta1 * ((1 - c.beta1) * (∑ i ∈ Finset.range t, r ^ i) * (run c f16 grad x t).m) =
              c.beta1 * ((1 - c.beta1) * ((∑ i ∈ Finset.range t, r ^ i) * (run c f16 grad x t).m)) by ring]
            have : c.beta1 * ((1 - c.beta1) * ((∑ i ∈ Finset.range t, r ^ i) * (run c f16 grad x t).m)) =
              (r * c.beta2) * ((1 - c.beta1) * ((∑ i ∈ Finset.range t, r ^ i) * (run c f16 grad x t).m)) := by rw [← e]
            rw [this]
            ring
        _ ≤ (1 - c.beta1) * (r * ∑ i ∈ Finset.range t, r ^ i) * (run c f16 grad x (t + 1)).m + (1 - c.beta1) * (run c f16 grad x (t + 1)).m := by
            have := mul_le_mul_of_nonneg_left m1 (mul_nonneg hb1 (mul_nonneg hr0 hS))
            linarith
        _ = _ := by ring
  have hm := lt_of_lt_of_le (eps_pos f16) (C100_divisor c f16 grad x hb2.le t).2
  have e : (run c f16 grad x (t + 1)).var - (run c f16 grad x t).var =
      -(c.lr * ((run c f16 grad x (t + 1)).v / (run c f16 grad x (t + 1)).m)) := by
    show (run c f16 grad x t).var - c.lr * ((run c f16 grad x (t + 1)).v / (run c f16 grad x (t + 1)).m) - _ = _
    ring
  rw [e, abs_neg, abs_mul, abs_of_nonneg h0, abs_div, abs_of_pos hm]
  refine mul_le_mul_of_nonneg_left ?_ h0
  rw [div_le_iff₀ hm]
  refine (key (t + 1)).trans (mul_le_mul_of_nonneg_right ?_ hm.le)
  rw [div_eq_mul_inv]
  refine mul_le_mul_of_nonneg_left ?_ hb1
  have hs : HasSum (fun i => r ^ i) (1 - r)⁻¹ := hasSum_geometric_of_lt_one hr0 hr1
  exact sum_le_hasSum _ (fun i _ => pow_nonneg hr0 i) hs

/-- **C100.** So with the default parameters no step is larger than `0.00101`, the learning rate being `0.001`. -/
theorem C100_default_bound (t : ℕ) :
    |(run defaults f16 grad x (t + 1)).var - (run defaults f16 grad x t).var| ≤ 0.00101 := by
  refine (C100_step_bound defaults f16 grad x ?_ ?_ ?_ ?_ t).trans ?_ <;> norm_num [defaults]

/-- **C100.** A step is against the gradient if all gradients seen have the same sign. -/
theorem C100_descent (h0 : 0 < c.lr) (h1 : 0 ≤ c.beta1) (h1' : c.beta1 < 1) (h2 : 0 ≤ c.beta2) (t : ℕ)
    (hg : ∀ s ≤ t, 0 < seen c f16 grad x s) : (run c f16 grad x (t + 1)).var < (run c f16 grad x t).var := by
  have hm := lt_of_lt_of_le (eps_pos f16) (C100_divisor c f16 grad x h2 t).2
  have hv : 0 < ewma c.beta1 (seen c f16 grad x) (t + 1) := by
    rw [ewma, Finset.sum_range_succ]
    refine add_pos_of_nonneg_of_pos (Finset.sum_nonneg fun s hs => ?_) ?_
    · have := hg s (Finset.mem_range.1 hs).le
      have h3 : 0 ≤ 1 - c.beta1 := by linarith
      positivity
    · have := hg t le_rfl
      have h3 : 0 < 1 - c.beta1 := by linarith
      simp only [Nat.add_sub_cancel, Nat.sub_self, pow_zero, mul_one]
      positivity
  rw [(C100_step c f16 grad x h1 h1' t).1]
  have := mul_pos h0 (div_pos hv hm)
  linarith

/-- **C100.** With a constant gradient of at least `eps / (1 - beta2)` the steps tend to the learning rate, against the gradient. -/
theorem C100_constant (h1 : 0 ≤ c.beta1) (h1' : c.beta1 < 1) (h2 : 0 ≤ c.beta2) (h2' : c.beta2 < 1) (g : ℝ)
    (hg : eps f16 / (1 - c.beta2) ≤ |g|) :
    (∀ t, (run c f16 (fun _ _ => g) x (t + 1)).var - (run c f16 (fun _ _ => g) x t).var = -(c.lr * (1 - c.beta1 ^ (t + 1)) * (g / |g|))) ∧
    Filter.Tendsto (fun t => (run c f16 (fun _ _ => g) x (t + 1)).var - (run c f16 (fun _ _ => g) x t).var) Filter.atTop
      (nhds (-(c.lr * (g / |g|)))) := by
  have hb : 0 < 1 - c.beta2 := by linarith
  have hg' : eps f16 ≤ |g| * (1 - c.beta2) := (div_le_iff₀ hb).1 hg
  have hpos : 0 < |g| := lt_of_lt_of_le (div_pos (eps_pos f16) hb) hg
  have hm : ∀ t, (run c f16 (fun _ _ => g) x (t + 1)).m = |g| := fun t => by
    induction t with
    | zero =>
      rw [run_m_succ]
      show max (c.beta2 * 0 + eps f16) |g| = |g|
      refine max_eq_right ?_
      nlinarith
    | succ t ih =>
      rw [run_m_succ, ih]
      show max (c.beta2 * |g| + eps f16) |g| = |g|
      exact max_eq_right (by nlinarith)
  have hv : ∀ t, (run c f16 (fun _ _ => g) x t).v = (1 - c.beta1 ^ t) * g := fun t => by
    induction t with
    | zero => simp [run, init]
    | succ t ih =>
      rw [run_v_succ, ih]
      show c.beta1 * ((1 - c.beta1 ^ t) * g) + (1 - c.beta1) * g = _
      rw [pow_succ]
      ring
  have e : ∀ t, (run c f16 (fun _ _ => g) x (t + 1)).var - (run c f16 (fun _ _ => g) x t).var =
      -(c.lr * (1 - c.beta1 ^ (t + 1)) * (g / |g|)) := fun t => by
    have : (run c f16 (fun _ _ => g) x (t + 1)).var = (run c f16 (fun _ _ => g) x t).var -
      c.lr * ((run c f16 (fun _ _ => g) x (t + 1)).v / (run c f16 (fun _ _ => g) x (t + 1)).m) := rfl
    rw [this, hm, hv]
    ring
  refine ⟨e, ?_⟩
  simp only [e]
  have h3 : Filter.Tendsto (fun t : ℕ => c.beta1 ^ (t + 1)) Filter.atTop (nhds 0) :=
    (tendsto_pow_atTop_nhds_zero_of_lt_one h1 h1').comp (Filter.tendsto_add_atTop_nat 1)
  have := (((h3.const_sub 1).const_mul c.lr).mul_const (g / |g|)).neg
  simpa using this

/-- **C100.** Sparse gradients are refused. -/
theorem C100_sparse (sparse : Bool) (s : St) (g : ℝ) : (apply c f16 sparse s g).isSome ↔ sparse = false := by
  cases sparse <;> simp [apply]

/-- The default parameters and a gradient that depends on the variable meet the hypotheses. -/
example (t : ℕ) : |(run defaults false (fun _ v => 3 * (v - 2)) 5 (t + 1)).var - (run defaults false (fun _ v => 3 * (v - 2)) 5 t).var| ≤ 0.00101 :=
  C100_default_bound false _ 5 t

example : 0 ≤ defaults.beta1 ∧ defaults.beta1 < defaults.beta2 ∧ defaults.beta2 < 1 ∧ 0 < defaults.lr := by norm_num [defaults]

end

end ZhuSuan.Adamax

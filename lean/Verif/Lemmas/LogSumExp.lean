import Verif.Lemmas.Num

/-! `logSumExp` over the reals is the logarithm of the sum of exponentials. -/

set_option autoImplicit false

namespace ZhuSuan.Num

theorem sum_exp_pos {n : ℕ} (x : Fin (n + 1) → ℝ) : 0 < ∑ i, Real.exp (x i) :=
  Finset.sum_pos (fun i _ => Real.exp_pos _) Finset.univ_nonempty

theorem logSumExp_real {n : ℕ} (x : Fin (n + 1) → ℝ) :
    logSumExp x = Real.log (∑ i, Real.exp (x i)) := by
  simp only [logSumExp, Fn.stop, Fn.log, Fn.sum, Fn.exp]
  set m : ℝ := Fn.max x
  have e : ∑ i, Real.exp (x i - m) = (∑ i, Real.exp (x i)) * Real.exp (-m) := by
    rw [Finset.sum_mul]
    refine Finset.sum_congr rfl fun i _ => ?_
    rw [← Real.exp_add]; ring_nf
  rw [e, Real.log_mul (sum_exp_pos x).ne' (Real.exp_pos _).ne', Real.log_exp]
  ring

theorem exp_logSumExp {n : ℕ} (x : Fin (n + 1) → ℝ) :
    Real.exp (logSumExp x) = ∑ i, Real.exp (x i) := by
  rw [logSumExp_real, Real.exp_log (sum_exp_pos x)]

theorem logSumExp_shift {n : ℕ} (x : Fin (n + 1) → ℝ) (c : ℝ) :
    logSumExp (fun i => x i + c) = logSumExp x + c := by
  rw [logSumExp_real, logSumExp_real]
  have e : ∑ i, Real.exp (x i + c) = (∑ i, Real.exp (x i)) * Real.exp c := by
    rw [Finset.sum_mul]
    exact Finset.sum_congr rfl fun i _ => Real.exp_add _ _
  rw [e, Real.log_mul (sum_exp_pos x).ne' (Real.exp_pos _).ne', Real.log_exp]

end ZhuSuan.Num

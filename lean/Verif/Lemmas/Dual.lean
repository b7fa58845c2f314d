import Mathlib.Analysis.SpecialFunctions.Log.Deriv
import Mathlib.Analysis.SpecialFunctions.ExpDeriv
import Mathlib.Analysis.Calculus.Deriv.Add
import Mathlib.Algebra.BigOperators.Field
import Verif.Model.Estimators

set_option autoImplicit false

namespace ZhuSuan.Grad
open Dual

@[simp] theorem Dual.val_add (a b : Dual) : (a + b).val = a.val + b.val := rfl
@[simp] theorem Dual.der_add (a b : Dual) : (a + b).der = a.der + b.der := rfl
@[simp] theorem Dual.val_sub (a b : Dual) : (a - b).val = a.val - b.val := rfl
@[simp] theorem Dual.der_sub (a b : Dual) : (a - b).der = a.der - b.der := rfl
@[simp] theorem Dual.val_neg (a : Dual) : (-a).val = -a.val := rfl
@[simp] theorem Dual.der_neg (a : Dual) : (-a).der = -a.der := rfl
@[simp] theorem Dual.val_mul (a b : Dual) : (a * b).val = a.val * b.val := rfl
@[simp] theorem Dual.der_mul (a b : Dual) : (a * b).der = a.der * b.val + a.val * b.der := rfl
@[simp] theorem Dual.val_div (a b : Dual) : (a / b).val = a.val / b.val := rfl
@[simp] theorem Dual.der_div (a b : Dual) :
    (a / b).der = (a.der * b.val - a.val * b.der) / b.val ^ 2 := rfl
@[simp] theorem Dual.val_exp (a : Dual) : (Dual.exp a).val = Real.exp a.val := rfl
@[simp] theorem Dual.der_exp (a : Dual) : (Dual.exp a).der = Real.exp a.val * a.der := rfl
@[simp] theorem Dual.val_log (a : Dual) : (Dual.log a).val = Real.log a.val := rfl
@[simp] theorem Dual.der_log (a : Dual) : (Dual.log a).der = a.der / a.val := rfl
@[simp] theorem Dual.val_stop (a : Dual) : (stopGradient a).val = a.val := rfl
@[simp] theorem Dual.der_stop (a : Dual) : (stopGradient a).der = 0 := rfl
@[simp] theorem Dual.val_const (c : ℝ) : (const c).val = c := rfl
@[simp] theorem Dual.der_const (c : ℝ) : (const c).der = 0 := rfl

variable {K : ℕ}

@[simp] theorem reduceSum_val (x : Fin K → Dual) : (reduceSum x).val = ∑ i, (x i).val := rfl
@[simp] theorem reduceSum_der (x : Fin K → Dual) : (reduceSum x).der = ∑ i, (x i).der := rfl
@[simp] theorem reduceMean_val (x : Fin K → Dual) : (reduceMean x).val = (∑ i, (x i).val) / K := rfl
@[simp] theorem reduceMean_der (x : Fin K → Dual) : (reduceMean x).der = (∑ i, (x i).der) / K := rfl

theorem sum_exp_pos' (x : Fin (K + 1) → ℝ) : 0 < ∑ i, Real.exp (x i) :=
  Finset.sum_pos (fun i _ => Real.exp_pos _) Finset.univ_nonempty

theorem sum_exp_shift (x : Fin (K + 1) → ℝ) (m : ℝ) :
    ∑ i, Real.exp (x i - m) = (∑ i, Real.exp (x i)) / Real.exp m := by
  rw [Finset.sum_div]; exact Finset.sum_congr rfl fun i _ => Real.exp_sub _ _

/-- The value of `log_mean_exp`. -/
theorem logMeanExp_val (x : Fin (K + 1) → Dual) :
    (logMeanExp x).val = Real.log ((∑ i, Real.exp (x i).val) / (K + 1 : ℕ)) := by
  unfold logMeanExp
  simp only [val_add, val_log, reduceMean_val, val_exp, val_sub]
  rw [sum_exp_shift (fun i => (x i).val), div_right_comm, Real.log_div _ (Real.exp_pos _).ne',
    Real.log_exp]
  · ring
  · have := sum_exp_pos' (fun i => (x i).val)
    positivity

/-- The gradient of `log_mean_exp` is the softmax-weighted gradient, whatever the gradient of the
maximum is. -/
theorem logMeanExp_der (x : Fin (K + 1) → Dual) :
    (logMeanExp x).der =
      ∑ i, Real.exp (x i).val / (∑ j, Real.exp (x j).val) * (x i).der := by
  unfold logMeanExp
  simp only [der_add, der_log, reduceMean_val, reduceMean_der, val_exp, val_sub, der_exp, der_sub]
  set m := (reduceMax x).val
  set dm := (reduceMax x).der
  have hs := sum_exp_pos' (fun i => (x i).val)
  have hm := Real.exp_pos m
  rw [sum_exp_shift (fun i => (x i).val)]
  have h1 : ∑ i, Real.exp ((x i).val - m) * ((x i).der - dm) =
      (∑ i, Real.exp (x i).val * (x i).der) / Real.exp m -
        (∑ i, Real.exp (x i).val) / Real.exp m * dm := by
    simp only [mul_sub, Finset.sum_sub_distrib, Real.exp_sub, Finset.sum_div, ← Finset.sum_mul]
    congr 1
    exact Finset.sum_congr rfl fun i _ => by ring
  rw [h1]
  have h2 : ∑ i, Real.exp (x i).val / (∑ j, Real.exp (x j).val) * (x i).der =
      (∑ i, Real.exp (x i).val * (x i).der) / ∑ j, Real.exp (x j).val := by
    rw [Finset.sum_div]; exact Finset.sum_congr rfl fun i _ => by ring
  rw [h2]
  have hk : ((K + 1 : ℕ) : ℝ) ≠ 0 := by positivity
  field_simp
  ring

/-- Log-mean-exp of a family of numbers. -/
noncomputable def LME (x : Fin (K + 1) → ℝ) : ℝ := Real.log ((∑ i, Real.exp (x i)) / (K + 1 : ℕ))

theorem hasDerivAt_LME (x : ℝ → Fin (K + 1) → ℝ) (x' : Fin (K + 1) → ℝ) (θ : ℝ)
    (h : ∀ i, HasDerivAt (fun t => x t i) (x' i) θ) :
    HasDerivAt (fun t => LME (x t))
      (∑ i, Real.exp (x θ i) / (∑ j, Real.exp (x θ j)) * x' i) θ := by
  have hs := sum_exp_pos' (x θ)
  have hk : ((K + 1 : ℕ) : ℝ) ≠ 0 := by positivity
  have h1 : HasDerivAt (fun t => ∑ i, Real.exp (x t i)) (∑ i, Real.exp (x θ i) * x' i) θ := by
    exact HasDerivAt.fun_sum (u := Finset.univ) (fun i _ => (h i).exp)
  have h2 := (h1.div_const ((K + 1 : ℕ) : ℝ)).log (by positivity)
  refine h2.congr_deriv ?_
  rw [div_div_div_cancel_right₀ hk, Finset.sum_div]
  exact Finset.sum_congr rfl fun i _ => by ring

end ZhuSuan.Grad

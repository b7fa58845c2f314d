import Verif.Model.Num
import Verif.Lemmas.Dual

/-! Taking values, and embedding constants, commute with every operation of `Model/Num.lean`. -/

set_option autoImplicit false

namespace ZhuSuan.Num
open Grad Dual

section val
@[simp] theorem val_ofReal (x : ℝ) : (Fn.ofReal x : Dual).val = x := rfl
@[simp] theorem val_fexp (x : Dual) : (Fn.exp x).val = Fn.exp x.val := rfl
@[simp] theorem val_flog (x : Dual) : (Fn.log x).val = Fn.log x.val := rfl
@[simp] theorem val_fabs (x : Dual) : (Fn.abs x).val = Fn.abs x.val := rfl
@[simp] theorem val_fsoftplus (x : Dual) : (Fn.softplus x).val = Fn.softplus x.val := rfl
@[simp] theorem val_fsigmoid (x : Dual) : (Fn.sigmoid x).val = Fn.sigmoid x.val := rfl
@[simp] theorem val_flgamma (x : Dual) : (Fn.lgamma x).val = Fn.lgamma x.val := rfl
@[simp] theorem val_fstop (x : Dual) : (Fn.stop x).val = x.val := rfl
@[simp] theorem val_fsum {n : ℕ} (x : Fin n → Dual) : (Fn.sum x).val = Fn.sum fun i => (x i).val := rfl
@[simp] theorem val_fmax {n : ℕ} (x : Fin (n + 1) → Dual) :
    (Fn.max x).val = Fn.max fun i => (x i).val := rfl
@[simp] theorem val_sampleParam (f : Flags) (x : Dual) : (f.sampleParam x).val = x.val := by
  unfold Flags.sampleParam; split_ifs <;> rfl
@[simp] theorem val_pathParam (f : Flags) (x : Dual) : (f.pathParam x).val = x.val := by
  unfold Flags.pathParam; split_ifs <;> rfl
@[simp] theorem real_sampleParam (f : Flags) (x : ℝ) : f.sampleParam x = x := by
  unfold Flags.sampleParam; split_ifs <;> rfl
@[simp] theorem real_pathParam (f : Flags) (x : ℝ) : f.pathParam x = x := by
  unfold Flags.pathParam; split_ifs <;> rfl
@[simp] theorem val_logSumExp {n : ℕ} (x : Fin (n + 1) → Dual) :
    (logSumExp x).val = logSumExp fun i => (x i).val := rfl
@[simp] theorem val_sq (x : Dual) : (sq x).val = sq x.val := rfl

theorem val_triSolveAux {n : ℕ} (L : Fin n → Fin n → Dual) (b : Fin n → Dual) (k : ℕ) (h : k < n) :
    (triSolveAux L b k h).val = triSolveAux (fun i j => (L i j).val) (fun i => (b i).val) k h := by
  induction k using Nat.strong_induction_on with
  | _ k ih =>
    rw [triSolveAux, triSolveAux]
    simp only [Dual.val_div, Dual.val_sub, val_fsum, Dual.val_mul]
    congr 3
    funext j
    rw [ih j.val j.isLt]

@[simp] theorem val_triSolve {n : ℕ} (L : Fin n → Fin n → Dual) (b : Fin n → Dual) (i : Fin n) :
    (triSolve L b i).val = triSolve (fun i j => (L i j).val) (fun i => (b i).val) i :=
  val_triSolveAux L b i.val i.isLt
end val

/-! `C x` below is a number without gradient. -/
section const
theorem der_zero_iff (d : Dual) : d.der = 0 ↔ d = const d.val :=
  ⟨fun h => Dual.ext rfl h, fun h => by rw [h]; rfl⟩

theorem ofReal_const (x : ℝ) : (Fn.ofReal x : Dual) = const x := rfl
theorem stop_const (x : Dual) : (Fn.stop x : Dual) = const x.val := rfl
theorem add_const (a b : ℝ) : const a + const b = const (a + b) := by
  ext <;> simp
theorem sub_const (a b : ℝ) : const a - const b = const (a - b) := by
  ext <;> simp
theorem mul_const (a b : ℝ) : const a * const b = const (a * b) := by
  ext <;> simp
theorem div_const (a b : ℝ) : const a / const b = const (a / b) := by
  ext <;> simp
theorem neg_const (a : ℝ) : -const a = const (-a) := by
  ext <;> simp
theorem exp_const (a : ℝ) : (Fn.exp (const a) : Dual) = const (Fn.exp a) := by
  ext
  · rfl
  · show Real.exp a * 0 = 0; simp
theorem log_const (a : ℝ) : (Fn.log (const a) : Dual) = const (Fn.log a) := by
  ext
  · rfl
  · show 0 / a = 0; simp
theorem abs_const (a : ℝ) : (Fn.abs (const a) : Dual) = const (Fn.abs a) := by
  ext
  · rfl
  · show _ * (0 : ℝ) = 0; simp
theorem softplus_const (a : ℝ) : (Fn.softplus (const a) : Dual) = const (Fn.softplus a) := by
  ext
  · rfl
  · show _ * (0 : ℝ) = 0; simp
theorem sigmoid_const (a : ℝ) : (Fn.sigmoid (const a) : Dual) = const (Fn.sigmoid a) := by
  ext
  · rfl
  · show _ * (0 : ℝ) = 0; simp
theorem lgamma_const (a : ℝ) : (Fn.lgamma (const a) : Dual) = const (Fn.lgamma a) := by
  ext
  · rfl
  · show _ * (0 : ℝ) = 0; simp
theorem sum_const' {n : ℕ} (a : Fin n → ℝ) :
    (Fn.sum (fun i => const (a i)) : Dual) = const (Fn.sum a) := by
  ext
  · rfl
  · show ∑ _i : Fin n, (0 : ℝ) = 0; simp
theorem sq_const (a : ℝ) : (sq (const a) : Dual) = const (sq a) := mul_const a a
theorem logSumExp_const {n : ℕ} (a : Fin (n + 1) → ℝ) :
    (logSumExp (fun i => const (a i)) : Dual) = const (logSumExp a) := by
  unfold logSumExp
  simp only [stop_const, sub_const, exp_const, sum_const', log_const, add_const]
  rfl
theorem triSolveAux_const {n : ℕ} (L : Fin n → Fin n → ℝ) (b : Fin n → ℝ) (k : ℕ) (h : k < n) :
    (triSolveAux (fun i j => const (L i j)) (fun i => const (b i)) k h : Dual) =
      const (triSolveAux L b k h) := by
  induction k using Nat.strong_induction_on with
  | _ k ih =>
    rw [triSolveAux, triSolveAux]
    have : (fun j : Fin k => const (L ⟨k, h⟩ ⟨j.val, j.isLt.trans h⟩) *
        triSolveAux (fun i j => const (L i j)) (fun i => const (b i)) j.val (j.isLt.trans h)) =
        fun j : Fin k => const (L ⟨k, h⟩ ⟨j.val, j.isLt.trans h⟩ *
          triSolveAux L b j.val (j.isLt.trans h)) := by
      funext j
      rw [ih j.val j.isLt, mul_const]
    rw [this, sum_const', sub_const, div_const]
theorem triSolve_const {n : ℕ} (L : Fin n → Fin n → ℝ) (b : Fin n → ℝ) (i : Fin n) :
    (triSolve (fun i j => const (L i j)) (fun i => const (b i)) i : Dual) = const (triSolve L b i) :=
  triSolveAux_const L b i.val i.isLt
theorem sampleParam_off (f : Flags) (h : f.isReparam = false) (x : Dual) :
    f.sampleParam x = const x.val := by
  unfold Flags.sampleParam; rw [h]; rfl
theorem pathParam_on (f : Flags) (h : f.usePath = true) (x : Dual) :
    f.pathParam x = const x.val := by
  unfold Flags.pathParam; rw [h]; rfl
end const

end ZhuSuan.Num

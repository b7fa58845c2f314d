import Verif.Spec.Tensor
import Verif.Model.Tensor
import Mathlib.Data.Real.Basic

/-! # The vector, or the matrix, a batched tensor holds at one batch index -/

set_option autoImplicit false

namespace ZhuSuan.Batch
open Shape

/-- `x` is the vector along the last axis of `t`, broadcast, at batch index `idx`. -/
def RowAt {n : ℕ} (t : Tensor ℝ) (idx : List ℕ) (x : Fin n → ℝ) : Prop :=
  ∀ i : Fin n, ∃ j, ComesFrom t.shape (idx ++ [i.val]) j ∧ x i = t.val j

/-- `x` is the matrix along the last two axes of `t`, broadcast, at batch index `idx`. -/
def MatAt {r c : ℕ} (t : Tensor ℝ) (idx : List ℕ) (x : Fin r → Fin c → ℝ) : Prop :=
  ∀ (i : Fin r) (k : Fin c), ∃ j, ComesFrom t.shape (idx ++ [i.val, k.val]) j ∧ x i k = t.val j

/-- `x` is the entry of `t`, broadcast, at batch index `idx`. -/
def EntryAt {α : Type} (t : Tensor α) (idx : List ℕ) (x : α) : Prop :=
  ∃ j, ComesFrom t.shape idx j ∧ x = t.val j

end ZhuSuan.Batch

import Verif.Model.Tensor
import Verif.Spec.Shape

/-! # What it means to read a broadcast tensor -/

set_option autoImplicit false

namespace ZhuSuan.Shape

/-- `idx` is an index of shape `s`. -/
def InBounds (idx s : List ℕ) : Prop := List.Forall₂ (· < ·) idx s

/-- Broadcasting rule for values: the entry of a broadcast tensor at index `idx` comes from entry `j`
of the original (of shape `a`): counting axes from the right, `j` agrees with `idx`, except that size-1
axes are read at position 0. -/
def ComesFrom (a idx j : List ℕ) : Prop :=
  j.length = a.length ∧
  ∀ k, k < a.length →
    j.reverse[k]? = if a.reverse[k]? = some 1 then some 0 else idx.reverse[k]?

/-- `t'` is `t` broadcast to shape `c`. -/
def IsBroadcastOf {α : Type} (t' t : Tensor α) (c : List ℕ) : Prop :=
  t'.shape = c ∧
  ∀ idx, InBounds idx c →
    ∃ j, InBounds j t.shape ∧ ComesFrom t.shape idx j ∧ t'.val idx = t.val j

/-- Same shape and same entries. -/
def SameTensor {α : Type} (x y : Tensor α) : Prop :=
  x.shape = y.shape ∧ ∀ idx, InBounds idx x.shape → x.val idx = y.val idx

end ZhuSuan.Shape

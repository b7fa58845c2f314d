import Verif.Model.Tensor

/-!
# Elementwise tensor expressions

The `_log_prob` methods of the univariate distributions are single TensorFlow expressions built from
elementwise operations with broadcasting.  `Expr` is their syntax; `Expr.eval` runs them on tensors,
every binary operation broadcasting its own two operands; `Expr.scalar` is the same expression on
numbers.
-/

set_option autoImplicit false

namespace ZhuSuan.Shape

/-- Elementwise expressions over variables `ι` holding `ρ`-valued tensors; the index is the type of
the entries of the value (numbers, truth values, extended numbers).  (the bodies of `_log_prob`,
distributions/univariate.py 174–1399) -/
inductive Expr (ι ρ : Type) : Type → Type 1 where
  | var (i : ι) : Expr ι ρ ρ
  | const {α : Type} (c : α) : Expr ι ρ α
  | un {α β : Type} (f : α → β) (e : Expr ι ρ α) : Expr ι ρ β
  | bin {α β γ : Type} (f : α → β → γ) (e₁ : Expr ι ρ α) (e₂ : Expr ι ρ β) : Expr ι ρ γ

namespace Expr
variable {ι ρ : Type}

/-- The expression on numbers.  (the bodies of `_log_prob`, distributions/univariate.py 174–1399) -/
def scalar (env : ι → ρ) : {α : Type} → Expr ι ρ α → α
  | _, var i => env i
  | _, const c => c
  | _, un f e => f (scalar env e)
  | _, bin f e₁ e₂ => f (scalar env e₁) (scalar env e₂)

/-- The expression on tensors; `none` is a run-time shape error.  (the bodies of `_log_prob`,
distributions/univariate.py 174–1399) -/
def eval (env : ι → Tensor ρ) : {α : Type} → Expr ι ρ α → Option (Tensor α)
  | _, var i => some (env i)
  | _, const c => some ⟨[], fun _ => c⟩
  | _, un f e => (eval env e).map (fun t => ⟨t.shape, fun idx => f (t.val idx)⟩)
  | _, bin f e₁ e₂ => (eval env e₁).bind (fun t₁ => (eval env e₂).bind (fun t₂ => map2 f t₁ t₂))

/-- The variables that occur.  (the tensors named in `_log_prob`, distributions/univariate.py 174–1399) -/
def vars : {α : Type} → Expr ι ρ α → List ι
  | _, var i => [i]
  | _, const _ => []
  | _, un _ e => vars e
  | _, bin _ e₁ e₂ => vars e₁ ++ vars e₂

end Expr

/-- `tf.reduce_sum(log_p, tf.range(-group_ndims, 0))` (distributions/base.py 304). -/
def groupSum {α : Type} [Add α] [Zero α] (t : Tensor α) (g : ℕ) : Option (Tensor α) :=
  reduceWith List.sum t (rangeNeg g)

/-- `tf.reduce_prod(p, tf.range(-group_ndims, 0))` (distributions/base.py 320). -/
def groupProd {α : Type} [Mul α] [One α] (t : Tensor α) (g : ℕ) : Option (Tensor α) :=
  reduceWith List.prod t (rangeNeg g)

/-- A reduction over the last axis without `keepdims` (`tf.reduce_sum(x, -1)`, `reduce_logsumexp`,
`lbeta`, ...): `agg` is applied to each row.  An error on rank 0.  (TensorFlow primitive; used at
distributions/multivariate.py 172, 332, 442, 668, 810.) -/
def reduceLast {α β : Type} (agg : List α → β) (t : Tensor α) : Option (Tensor β) :=
  reduceWith agg t [-1]

/-- The same with `keepdims=True`.  (TensorFlow primitive; used at distributions/multivariate.py 325, 440, 663.) -/
def reduceLastKeep {α β : Type} (agg : List α → β) (t : Tensor α) : Option (Tensor β) :=
  (reduceLast agg t).map (fun r => ⟨r.shape ++ [1], fun idx => r.val idx.dropLast⟩)

end ZhuSuan.Shape

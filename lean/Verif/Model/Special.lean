import Verif.Model.Flt
import Verif.Model.TensorExpr

/-!
# Empirical and Implicit distributions

`zhusuan/legacy/distributions/special.py` with `sample`, `prob` and `log_prob` of `zhusuan/distributions/base.py`.
Values of samples are in a type `α` with equality; probabilities in `XF`.
-/

set_option autoImplicit false

namespace ZhuSuan.Special

open ZhuSuan.Shape

/-- The exceptions of the two classes (legacy/distributions/special.py 73, 79, 85, 88–93, 157). -/
inductive Err where
  | valueError
  | notImplemented
  | runError
deriving DecidableEq

/-- The argument `n_samples`: absent, a Python int, or something converted to a tensor.  (distributions/base.py
251–257) -/
inductive NSamples where
  | none
  | int (n : ℤ)
  | tensor (rank : ℕ) (n : ℤ)

noncomputable instance : One XF := ⟨.fin 1⟩

open Classical in
/-- `tf.log`.  (TensorFlow primitive; used at legacy/distributions/special.py 162.) -/
noncomputable def xlog : XF → XF
  | .fin r => if r < 0 then .nan else if r = 0 then .ninf else .fin (Real.log r)
  | .inf => .inf
  | _ => .nan

/-- `Distribution.sample` (base.py 237–263) in terms of the `_sample` of the class; the rank assertion of a tensor
argument happens when the graph is run. -/
def baseSample {β : Type} (squeeze0 : β → Except Err β) (sample1 : NSamples → Except Err β) : NSamples → Except Err β
  | .none => match sample1 (.int 1) with
    | .error e => .error e
    | .ok s => squeeze0 s
  | .int n => sample1 (.int n)
  | .tensor r n => match sample1 (.tensor r n) with
    | .error e => .error e
    | .ok s => if r = 0 then .ok s else .error .runError

/-- `tf.squeeze(x, axis=0)`.  (TensorFlow primitive; used at distributions/base.py 253.) -/
def squeeze0 {α : Type} (x : Tensor α) : Except Err (Tensor α) :=
  match x.shape with
  | 1 :: r => .ok ⟨r, fun idx => x.val (0 :: idx)⟩
  | _ => .error .runError

/-! ## Empirical -/

/-- `Empirical._sample` (84–85). -/
def empiricalSample {α : Type} (_ : NSamples) : Except Err (Tensor α) := .error .valueError

/-- `Distribution.prob` and `log_prob` of Empirical (base.py 273–320, special.py 87–93): the shape check, which may
raise `ValueError`, then `_prob` or `_log_prob`. -/
def empiricalProb {α β : Type} (batch value : Static) (given : STensor α) : Except Err (Tensor β) :=
  if checkInputShape batch value given.static then .error .valueError else .error .valueError

/-- `batch_shape` (base.py 202–212) of Empirical: the static shape if it is fully known, else `_batch_shape` (78–79),
which is not implemented.  The same code for `value_shape`. -/
def empiricalShape (s : Static) : Except Err (List ℕ) :=
  if s.fullyDefined then
    match s with
    | some l => .ok (l.map fun d => d.getD 0)
    | none => .error .notImplemented
  else .error .notImplemented

/-! ## Implicit -/

/-- `Implicit._sample` (155–159).  A tensor `n_samples` is not equal to 1 for Python. -/
def implicitSample {α : Type} (samples : Tensor α) : NSamples → Except Err (Tensor α)
  | .none => .ok ⟨1 :: samples.shape, fun idx => samples.val idx.tail⟩
  | .int n => if n ≠ 1 then .error .valueError else .ok ⟨1 :: samples.shape, fun idx => samples.val idx.tail⟩
  | .tensor _ _ => .error .valueError

/-- One entry of `Implicit._prob` (164–171). -/
noncomputable def implicitEntry {α : Type} [DecidableEq α] (continuous : Bool) (given sample : α) : XF :=
  let prob : XF := if given = sample then .fin 1 else .fin 0
  if continuous then (.fin 2 * prob - .fin 1) * .inf else prob

/-- `Distribution.prob` (base.py 307–320) of Implicit, at run time (after the static check). -/
noncomputable def implicitProb {α : Type} [DecidableEq α] (continuous : Bool) (samples : Tensor α) (g : ℕ)
    (given : Tensor α) : Option (Tensor XF) :=
  (map2 (implicitEntry continuous) given samples).bind fun p => groupProd p g

/-- `Distribution.log_prob` (base.py 291–304) of Implicit (161–162): `_log_prob` calls `prob`, which groups, and the
result is grouped again. -/
noncomputable def implicitLogProb {α : Type} [DecidableEq α] (continuous : Bool) (samples : Tensor α) (g : ℕ)
    (given : Tensor α) : Option (Tensor XF) :=
  (implicitProb continuous samples g given).bind fun p => groupSum ⟨p.shape, fun i => xlog (p.val i)⟩ g

end ZhuSuan.Special

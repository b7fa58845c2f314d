import Mathlib.Data.Real.Basic

/-!
# The moving mean of `reinforce`

`zhusuan/variational/exclusive_kl.py` 207–219: a scalar variable `moving_mean`, updated with
`assign_moving_average(moving_mean, bc, decay)` where `bc` is the mean of the learning signal, and read in
`l_signal - moving_mean`.  The read is not ordered with respect to the update: the control dependency at
218 orders only the later `identity`.  A session step therefore picks one of the two orders.

`assign_moving_average` is TensorFlow's, with its default `zero_debias=True`: it keeps a biased mean and a
step counter and assigns `biased / (1 - decay ^ step)`.
-/

set_option autoImplicit false

namespace ZhuSuan.Grad

/-- The variable and the two that `assign_moving_average` creates.  (exclusive_kl.py 210–216) -/
structure MMState where
  mm : ℝ
  biased : ℝ
  step : ℕ

/-- Values after initialisation (exclusive_kl.py 210–213). -/
def MMState.init : MMState := ⟨0, 0, 0⟩

/-- `assign_moving_average` (exclusive_kl.py 215–216). -/
noncomputable def MMState.update (decay bc : ℝ) (s : MMState) : MMState :=
  let biased := s.biased - (s.biased - bc) * (1 - decay)
  let step := s.step + 1
  ⟨biased / (1 - decay ^ step), biased, step⟩

/-- Which of the read and the update runs first.  (exclusive_kl.py 215–219) -/
inductive ReadOrder where
  | readFirst
  | updateFirst
  deriving DecidableEq

/-- One session step (exclusive_kl.py 207–219): the value read and the state afterwards. -/
noncomputable def sessionStep (decay : ℝ) (o : ReadOrder) (bc : ℝ) (s : MMState) : ℝ × MMState :=
  match o with
  | .readFirst => (s.mm, s.update decay bc)
  | .updateFirst => ((s.update decay bc).mm, s.update decay bc)

/-- The state after a history of steps, oldest first.  (runs of exclusive_kl.py 207–219) -/
noncomputable def mmAfter (decay : ℝ) (hist : List (ReadOrder × ℝ)) : MMState :=
  hist.foldl (fun s x => (sessionStep decay x.1 x.2 s).2) MMState.init

/-- The value read at a step, after a history.  (exclusive_kl.py 217) -/
noncomputable def mmRead (decay : ℝ) (hist : List (ReadOrder × ℝ)) (now : ReadOrder × ℝ) : ℝ :=
  (sessionStep decay now.1 now.2 (mmAfter decay hist)).1

end ZhuSuan.Grad

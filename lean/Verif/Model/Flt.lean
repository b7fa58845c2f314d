import Mathlib.Analysis.SpecialFunctions.Pow.Real
import Mathlib.Analysis.SpecialFunctions.Exp
import Mathlib.Data.Real.Sqrt

/-!
# Numbers with and without special values

The samplers (`zhusuan/hmc.py`) are written once, over any number type with the operations of `Flt`.  Two
types are used:

* `ℝ`, for the algebra and the probability;
* `XF`, the reals with NaN and the two infinities, for the properties about special values.

In both, arithmetic on finite values is exact: rounding, overflow, underflow and signed zeros are not
modelled.
-/

set_option autoImplicit false

namespace ZhuSuan

/-- Operations besides `+ - * /` and negation.  (TensorFlow primitive; used at hmc.py 21–112, 129–152.) -/
class Flt (α : Type) where
  /-- Python and TensorFlow constants, and counters. -/
  ofReal : ℝ → α
  exp : α → α
  sqrt : α → α
  pow : α → α → α
  /-- `tf.minimum`; NaN if an argument is NaN. -/
  minimum : α → α → α
  /-- `tf.is_finite`. -/
  isFinite : α → Prop
  /-- `tf.less`; false if an argument is NaN. -/
  lt : α → α → Prop
  /-- `tf.reduce_sum` over all listed axes. -/
  sum : {ι : Type} → [Fintype ι] → (ι → α) → α

noncomputable instance : Flt ℝ where
  ofReal x := x
  exp := Real.exp
  sqrt := Real.sqrt
  pow := Real.rpow
  minimum := min
  isFinite _ := True
  lt a b := a < b
  sum f := ∑ i, f i

/-- A real number, an infinity, or NaN.  (the float32 values of hmc.py and diagnostics.py, rounding left out; used
at hmc.py 51–59, diagnostics.py 24–40) -/
inductive XF where
  | fin (r : ℝ)
  | inf
  | ninf
  | nan

namespace XF

/-- `-x`.  (TensorFlow primitive; used at hmc.py 31.) -/
def neg : XF → XF
  | fin r => fin (-r)
  | inf => ninf
  | ninf => inf
  | nan => nan

/-- IEEE addition: infinities of opposite sign give NaN.  (TensorFlow primitive; used at hmc.py 35.) -/
def add : XF → XF → XF
  | fin a, fin b => fin (a + b)
  | nan, _ => nan
  | _, nan => nan
  | inf, ninf => nan
  | ninf, inf => nan
  | inf, _ => inf
  | _, inf => inf
  | ninf, _ => ninf
  | _, ninf => ninf

open Classical in
/-- An infinity of the sign of `r`; NaN for zero.  (the sign rule of IEEE arithmetic, e.g. hmc.py 27) -/
noncomputable def infSign (r : ℝ) : XF := if 0 < r then inf else if r < 0 then ninf else nan

/-- IEEE multiplication: zero times infinity is NaN.  (TensorFlow primitive; used at hmc.py 33.) -/
noncomputable def mul : XF → XF → XF
  | fin a, fin b => fin (a * b)
  | nan, _ => nan
  | _, nan => nan
  | fin a, inf => infSign a
  | fin a, ninf => infSign (-a)
  | inf, fin b => infSign b
  | ninf, fin b => infSign (-b)
  | inf, inf => inf
  | ninf, ninf => inf
  | inf, ninf => ninf
  | ninf, inf => ninf

open Classical in
/-- IEEE division, with all zeros positive.  (TensorFlow primitive; used at hmc.py 27, diagnostics.py 26–39.) -/
noncomputable def div : XF → XF → XF
  | fin a, fin b => if b = 0 then infSign a else fin (a / b)
  | nan, _ => nan
  | _, nan => nan
  | fin _, inf => fin 0
  | fin _, ninf => fin 0
  | inf, fin b => if b < 0 then ninf else inf
  | ninf, fin b => if b < 0 then inf else ninf
  | _, _ => nan

noncomputable instance : Add XF := ⟨add⟩
noncomputable instance : Neg XF := ⟨neg⟩
noncomputable instance : Sub XF := ⟨fun a b => add a (neg b)⟩
noncomputable instance : Mul XF := ⟨mul⟩
noncomputable instance : Div XF := ⟨div⟩

/-- `tf.exp`.  (TensorFlow primitive; used at hmc.py 54, 106.) -/
noncomputable def exp : XF → XF
  | fin r => fin (Real.exp r)
  | inf => inf
  | ninf => fin 0
  | nan => nan

open Classical in
/-- `tf.sqrt`.  (TensorFlow primitive; used at hmc.py 22, 97.) -/
noncomputable def sqrt : XF → XF
  | fin r => if r < 0 then nan else fin (Real.sqrt r)
  | inf => inf
  | _ => nan

/-- `tf.pow` of finite values; NaN otherwise (a simplification: it is applied to finite values only).  (TensorFlow
primitive; used at hmc.py 98, 133.) -/
noncomputable def pow : XF → XF → XF
  | fin a, fin b => fin (Real.rpow a b)
  | _, _ => nan

/-- `tf.minimum`.  (TensorFlow primitive; used at hmc.py 55.) -/
noncomputable def minimum : XF → XF → XF
  | fin a, fin b => fin (min a b)
  | nan, _ => nan
  | _, nan => nan
  | ninf, _ => ninf
  | _, ninf => ninf
  | inf, b => b
  | a, inf => a

/-- `tf.is_finite`.  (TensorFlow primitive; used at hmc.py 57–58.) -/
def isFinite : XF → Prop
  | fin _ => True
  | _ => False

/-- `tf.less`.  (TensorFlow primitive; used at hmc.py 486, diagnostics.py 35.) -/
def lt : XF → XF → Prop
  | fin a, fin b => a < b
  | nan, _ => False
  | _, nan => False
  | ninf, ninf => False
  | ninf, _ => True
  | inf, _ => False
  | fin _, inf => True
  | fin _, ninf => False

instance : Zero XF := ⟨fin 0⟩

noncomputable instance : AddCommMonoid XF where
  add_assoc a b c := by
    show add (add a b) c = add a (add b c)
    cases a <;> cases b <;> cases c <;> simp [add, add_assoc]
  zero_add a := by
    show add (fin 0) a = a
    cases a <;> simp [add]
  add_zero a := by
    show add a (fin 0) = a
    cases a <;> simp [add]
  add_comm a b := by
    show add a b = add b a
    cases a <;> cases b <;> simp [add, add_comm]
  nsmul := nsmulRec

noncomputable instance : Flt XF where
  ofReal := fin
  exp := exp
  sqrt := sqrt
  pow := pow
  minimum := minimum
  isFinite := isFinite
  lt := lt
  sum f := ∑ i, f i

end XF

end ZhuSuan

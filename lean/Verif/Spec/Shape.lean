import Verif.Model.Shape

/-! # Specification of broadcasting (NumPy rules) and of what a static shape says about a run -/

set_option autoImplicit false

namespace ZhuSuan.Shape

/-- A tensor of shape `a` can be expanded to shape `c`: `c` has at least as many axes, and counting
axes from the right every axis of `a` has size 1 or the size of `c`'s axis. -/
def Expands (a c : List ℕ) : Prop :=
  a.length ≤ c.length ∧
  ∀ i, i < a.length → a.reverse[i]? = some 1 ∨ a.reverse[i]? = c.reverse[i]?

/-- `c` is *the* broadcast shape of `a` and `b`: the least shape both expand to. -/
def IsBroadcast (a b c : List ℕ) : Prop :=
  Expands a c ∧ Expands b c ∧ ∀ d, Expands a d → Expands b d → Expands c d

/-- `a` and `b` can be broadcast together at all. -/
def Compatible (a b : List ℕ) : Prop := ∃ d, Expands a d ∧ Expands b d

/-- The static shape `s` admits the run-time shape `d`. -/
def Admits (s : Static) (d : List ℕ) : Prop :=
  match s with
  | none => True
  | some l => List.Forall₂ (fun o n => o = none ∨ o = some n) l d

end ZhuSuan.Shape

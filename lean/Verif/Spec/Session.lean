import Verif.Spec.Program
import Verif.Model.Session

/-! # Ancestral sampling with some nodes held fixed -/
set_option autoImplicit false

namespace ZhuSuan.BN

variable {X R : Type}

/-- `x` is the sample that the program `prog` makes from the noise when the nodes in `given` are held fixed: every other node is sampled from
its distribution given the values of its parents. -/
def Ancestral (prog : List (Decl X)) (smp : ℕ → List X → R → X) (given : ℕ → Option X) (noise : ℕ → R) (x : ℕ → X) : Prop :=
  ∀ (i : ℕ) (d : Decl X), prog[i]? = some d →
    x i = match given i with
      | some v => v
      | none => smp i (d.parents.map x) (noise i)

/-- What stands behind a key of a feed dictionary, a node (`inl`) or an external tensor such as a placeholder (`inr`): an observed node stands for
the tensor it is observed with, any other node for itself. -/
def target {V : Type} (lo : Option (Dict Name (Option V))) (prog : List (Decl X)) : ℕ ⊕ V → ℕ ⊕ V
  | .inl i =>
    match (prog[i]?).bind fun d => obsOf lo d.name with
    | some v => .inr v
    | none => .inl i
  | .inr v => .inr v

/-- The value fed to a node or to an external tensor; the last entry counts. -/
def fedTo {V : Type} [DecidableEq V] (lo : Option (Dict Name (Option V))) (prog : List (Decl X)) (fed : List ((ℕ ⊕ V) × X)) (t : ℕ ⊕ V) :
    Option X :=
  (fed.reverse.find? fun p => target lo prog p.1 = t).map Prod.snd

/-- The nodes held fixed by the observations and by a feed dictionary: an observed node has the value of its observation, which may be fed,
and any other node is fixed if it is fed; `own` are the values of external tensors that are not fed. -/
def fixed {V : Type} [DecidableEq V] (own : V → X) (lo : Option (Dict Name (Option V))) (prog : List (Decl X)) (fed : List ((ℕ ⊕ V) × X))
    (i : ℕ) : Option X :=
  match (prog[i]?).bind fun d => obsOf lo d.name with
  | some v => some ((fedTo lo prog fed (.inr v)).getD (own v))
  | none => fedTo lo prog fed (.inl i)

/-- A node or an external tensor as a key of a feed dictionary. -/
def keyOf {V : Type} : ℕ ⊕ V → Key V
  | .inl i => .stoch i
  | .inr v => .tensor (.ext v)

/-- A key that exists in a program of `n` statements. -/
def IsKey {V : Type} (n : ℕ) : ℕ ⊕ V → Prop
  | .inl i => i < n
  | .inr _ => True

end ZhuSuan.BN

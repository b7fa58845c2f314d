import Verif.Model.Calls

/-!
# What a wrapper should do with its arguments (C72)

`args` are the arguments by name (`byName`).
-/

set_option autoImplicit false

namespace ZhuSuan.Calls

variable {U : Type}

/-- The value a parameter with this default should have. -/
def given (args : Dict String (Val U)) (p : String) (default : Option Lit) : Option (Val U) :=
  match args.get? p with
  | some v => some v
  | none => default.map Val.lit

/-- The node a user expects: it has the name and the number of samples that were given (`None` if none was), and
each parameter of the distribution has the value given under its name, or the default in the signature of the
distribution.  A node of a net gets the net's observation of its name; a legacy class takes an argument
`observation`. -/
structure Expected (w : Wrapper) (args : Dict String (Val U)) (r : Node U) : Prop where
  name : args.get? "name" = some r.name
  nSamples : some r.nSamples = given args "n_samples" (some .none)
  params : ∀ p d, w.ctor.params.get? p = some d → r.dist.params.get? p = given args p d
  observation : match w.kind with
    | .bn => r.observation = .obs
    | .legacy => some r.observation = given args "observation" (some .none)
  only : r.dist.params.keys = w.ctor.params.keys

/-- The calls that should be accepted: no more positional arguments than parameters, no argument given twice, none
missing, no keyword that the code uses itself. -/
structure Acceptable (w : Wrapper) (pos : List (Val U)) (kw : Dict String (Val U)) : Prop where
  count : pos.length ≤ w.params.length
  once : ∀ k ∈ kw.keys, k ∉ w.params.keys.take pos.length
  present : ∀ p, (p, none) ∈ w.params → p ∈ (byName w.params pos kw).keys
  reserved : ∀ k ∈ kw.keys, k ≠ "self" ∧ k ≠ "bn" ∧ k ≠ "dist" ∧ (w.kind = .bn → k ≠ "observation")
  base : ∀ k ∈ kw.keys, k ∉ w.params.keys → k ∉ w.ctor.params.keys →
    k ∉ w.ctor.base ∧ k ≠ "group_event_ndims"

end ZhuSuan.Calls

import Verif.Model.Observe

/-!
# Specification of `observe`: lexically scoped observations

No stack and no mutable cells.  `scope` is the innermost running `observe` (its model and its
observations), an argument of the evaluator; a net is nothing but the scope it was made in.
-/

set_option autoImplicit false

namespace ZhuSuan.Observe

variable {M V : Type}

/-- Scopes: the model and the observations of the innermost running `observe`, if any. -/
abbrev Scope (M V : Type) := Option (M × Dict Name V)

/-- Lexically scoped evaluation. -/
def lexical (argsOk : M → Bool) (scope : Scope M V) :
    Prog M V → List (Scope M V) → Result M V × List (Scope M V)
  | .skip, nets => (⟨.ok, []⟩, nets)
  | .newNet, nets => (⟨.ok, [.created (scope.map Prod.fst)]⟩, nets ++ [scope])
  | .lookup net n, nets =>
    match nets[net]? with
    | none => (⟨.raised, []⟩, nets)
    | some sc => (⟨.ok, [.observation (sc.bind (fun x => x.2.get? n))]⟩, nets)
  | .raise, nets => (⟨.raised, []⟩, nets)
  | .seq p q, nets =>
    match lexical argsOk scope p nets with
    | (⟨.raised, t⟩, nets) => (⟨.raised, t⟩, nets)
    | (⟨.ok, t⟩, nets) =>
      let (r, nets) := lexical argsOk scope q nets
      (⟨r.outcome, t ++ r.trace⟩, nets)
  | .tryExcept p h, nets =>
    match lexical argsOk scope p nets with
    | (⟨.ok, t⟩, nets) => (⟨.ok, t⟩, nets)
    | (⟨.raised, t⟩, nets) =>
      let (r, nets) := lexical argsOk scope h nets
      (⟨r.outcome, t ++ r.trace⟩, nets)
  | .observe m obs body, nets =>
    if argsOk m then lexical argsOk (some (m, obs)) body nets else (⟨.raised, []⟩, nets)

end ZhuSuan.Observe

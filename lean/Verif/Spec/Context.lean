import Verif.Model.Context

/-!
# Specification of contexts: lexical scoping

An environment gives, for every class, the contexts that are open, innermost first.  There is no
mutable state: a `with` block runs its body in an extended environment.
-/

namespace ZhuSuan.Context

variable {Cls Ctx : Type} [DecidableEq Cls]

/-- Lexically scoped meaning of programs. -/
def lexical (env : Cls → List Ctx) : Prog Cls Ctx → Result Ctx
  | .skip => ⟨.ok, []⟩
  | .get c =>
      match env c with
      | x :: _ => ⟨.ok, [some x]⟩
      | [] => ⟨.raised, [none]⟩
  | .raise => ⟨.raised, []⟩
  | .seq p q =>
      match (lexical env p).outcome with
      | .raised => lexical env p
      | .ok => ⟨(lexical env q).outcome, (lexical env p).trace ++ (lexical env q).trace⟩
  | .tryExcept p h =>
      match (lexical env p).outcome with
      | .ok => lexical env p
      | .raised => ⟨(lexical env h).outcome, (lexical env p).trace ++ (lexical env h).trace⟩
  | .withBlock c x body => lexical (Function.update env c (x :: env c)) body

/-- The classes whose contexts a program uses. -/
def Prog.classes : Prog Cls Ctx → List Cls
  | .skip => []
  | .get c => [c]
  | .raise => []
  | .seq p q => p.classes ++ q.classes
  | .tryExcept p h => p.classes ++ h.classes
  | .withBlock c _ body => c :: body.classes

/-- The contexts open for class `c`, innermost first, as a caller can see them. -/
def openContexts (H : Hierarchy Cls) (s : State Cls Ctx) (c : Cls) : List Ctx :=
  match owner? H s c with
  | some d => (s.own d).getD []
  | none => []

/-- The classes in `used` do not share a stack: no proper ancestor of a used class is used or has
a stack of its own already. -/
def Separate (H : Hierarchy Cls) (s : State Cls Ctx) (used : List Cls) : Prop :=
  ∀ c ∈ used, ∀ a ∈ H.mro c, a ≠ c → a ∉ used ∧ s.own a = none

end ZhuSuan.Context

import Verif.Lemmas.Context

/-! # Property C04: contexts nest and unwind -/

namespace ZhuSuan.Context

variable {Cls Ctx : Type} [DecidableEq Cls]

/-- **C04 (unwinding).** Whatever the class hierarchy (single inheritance among context classes),
program, exceptions and starting state: when the program ends, every class sees the same open
contexts as before. -/
theorem C04_stack_restored (H : Hierarchy Cls) (p : Prog Cls Ctx) (s : State Cls Ctx) (c : Cls) :
    openContexts H (exec H p s).2 c = openContexts H s c :=
  (exec_restores H p s).2 c

/-- **C04 (innermost context).** For a program that uses context classes which do not inherit a
stack from one another (as `Local` and `BayesianNet`), mutable class-level stacks behave like
lexical scoping: each `get_context` answers with the innermost enclosing `with` block of its
class, raises when there is none, and exceptions propagate as in the lexical semantics. -/
theorem C04_lexical (H : Hierarchy Cls) (p : Prog Cls Ctx) (s : State Cls Ctx)
    (hsep : Separate H s p.classes) :
    (exec H p s).1 = lexical (openContexts H s) p :=
  exec_eq_lexical H p.classes p s (fun _ h => h) hsep

/-! ### The library's classes -/

/-- `Local(Context)` (meta_bn.py 21), `BayesianNet(_BayesianNet, Context)` (bn.py 493) and the base
class itself. -/
inductive LibCls | base | localCxt | bayesianNet
  deriving DecidableEq

/-- Their method resolution orders (without `object` and `_BayesianNet`, which never carry
`_contexts`). -/
def lib : Hierarchy LibCls where
  mro
    | .base => [.base]
    | .localCxt => [.localCxt, .base]
    | .bayesianNet => [.bayesianNet, .base]
  self_mem c := by cases c <;> simp
  linear c pre d post h := by
    cases c <;> rcases pre with _ | ⟨a, _ | ⟨b, _ | pre⟩⟩ <;> simp_all <;> aesop
  nodup c := by cases c <;> simp

/-- In a fresh process, programs using `Local` and `BayesianNet` contexts meet the hypothesis of
`C04_lexical`. -/
theorem lib_separate (p : Prog LibCls Ctx)
    (hp : ∀ c ∈ p.classes, c = .localCxt ∨ c = .bayesianNet) :
    Separate lib (⟨fun _ => none⟩ : State LibCls Ctx) p.classes := by
  intro c hc a ha hac
  have : a = .base := by
    rcases hp c hc with rfl | rfl <;> simp [lib] at ha <;> tauto
  subst this
  refine ⟨fun hb => ?_, rfl⟩
  rcases hp _ hb with h | h <;> simp at h

/-- A non-trivial program that meets it: nested blocks, an exception inside the inner one, a
handler, then a query. -/
example : Separate lib (⟨fun _ => none⟩ : State LibCls ℕ)
    (Prog.withBlock .localCxt 1 (.seq
      (.tryExcept (.withBlock .localCxt 2 (.seq (.get .localCxt) .raise)) .skip)
      (.get .localCxt))).classes :=
  lib_separate _ (by simp [Prog.classes])

/-- The hypothesis is needed: after the base class `Context` itself has been used once, all its
subclasses share one stack, and `Local.get_context()` answers with a `BayesianNet` context. -/
theorem C04_needs_separate :
    (exec lib (.seq (.withBlock .base 0 .skip) (.withBlock .bayesianNet 7 (.get .localCxt)))
      (⟨fun _ => none⟩ : State LibCls ℕ)).1.trace = [some 7] ∧
    (lexical (fun _ => []) (.seq (.withBlock .base 0 .skip)
      (.withBlock .bayesianNet 7 (.get LibCls.localCxt)) : Prog LibCls ℕ)).trace = [none] := by
  decide

end ZhuSuan.Context

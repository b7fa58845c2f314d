import Verif.Lemmas.Observe

/-! # Property C05: `observe` scopes observations to the model function -/

set_option autoImplicit false

namespace ZhuSuan.Observe

variable {M V : Type}

/-- **C05.** Every program behaves as if observations were lexically scoped: how it ends, which model
each new net belongs to and which observation every node lookup finds (also lookups made on a net
long after its `observe` has returned) are those of the lexical semantics. -/
theorem C05_lexical (argsOk : M → Bool) (p : Prog M V) :
    (exec argsOk p State.empty).1 = (lexical argsOk none p []).1 :=
  (exec_sim argsOk p State.empty none [] ⟨rfl, .nil⟩).1

/-- **C05.** Whatever happens inside, `observe` leaves the stack of observations as it found it: at
the end of any program (returned or raised) nothing is left. -/
theorem C05_restored (argsOk : M → Bool) (p : Prog M V) :
    (exec argsOk p State.empty).2.stack = [] :=
  (exec_sim argsOk p State.empty none [] ⟨rfl, .nil⟩).2.2.1

/-- **C05.** After any first program `p` that ran to an end (normally or with a handled exception), a net
created at top level belongs to no model and sees no observations. -/
theorem C05_no_leak (argsOk : M → Bool) (p : Prog M V) (n : Name) :
    let s := (exec argsOk p State.empty).2
    (exec argsOk .newNet s).1.trace = [.created none] ∧
    (exec argsOk (.seq .newNet (.lookup s.nets.length n)) s).1.trace =
      [.created none, .observation none] := by
  have h := C05_restored argsOk p
  intro s
  have hs : s.stack = [] := h
  simp [exec, newNet, hs, getObservation]

/-- **C05.** A net created by a model function under `observe(obs)` finds exactly `obs`, in whatever
context the `observe` is called. -/
theorem C05_sees_own (argsOk : M → Bool) (p : Prog M V) (m : M) (obs : Dict Name V) (n : Name)
    (hm : argsOk m = true) :
    let s := (exec argsOk p State.empty).2
    (exec argsOk (.seq (.observe m obs .newNet) (.lookup s.nets.length n)) s).1.trace =
      [.created (some m), .observation (obs.get? n)] := by
  intro s
  simp [exec, hm, enterLocal_eq, exitLocal, newNet, getObservation]

/-- Finding: a `MetaBayesianNet` made directly without `args` cannot be observed at all. -/
theorem C05_direct_construction_fails (argsOk : M → Bool) (m : M) (obs : Dict Name V)
    (body : Prog M V) (hm : argsOk m = false) :
    (exec argsOk (.observe m obs body) State.empty).1.outcome = .raised := by
  simp [exec, hm, enterLocal_eq, exitLocal]

/-- A nested `observe` whose model function raises, handled by the outer one; the outer net made
afterwards sees the outer observations and the net made at the end sees none. -/
example : (exec (fun _ : ℕ => true)
    (.seq (.observe 0 [("x", 10)] (.seq .newNet (.seq
        (.tryExcept (.observe 1 [("x", 20)] (.seq .newNet (.seq (.lookup 1 "x") .raise))) .skip)
        (.seq .newNet (.seq (.lookup 2 "x") (.lookup 1 "x"))))))
      (.seq .newNet (.lookup 3 "x"))) (State.empty : State ℕ ℕ)).1 =
    ⟨.ok, [.created (some 0), .created (some 1), .observation (some 20), .created (some 0),
      .observation (some 10), .observation (some 20), .created none, .observation none]⟩ := rfl

end ZhuSuan.Observe

import Verif.Model.BayesNet

/-!
# Specification vocabulary for Bayesian nets (no caches)
-/

namespace ZhuSuan.BN

variable {V D L : Type}

/-- The current value of a stochastic node: its observation, else the sample it has drawn. -/
def Obj.value (o : Obj V D L) : Option (Tensor V) :=
  if o.ready then (o.observation.map Tensor.ext).or o.samples else none

/-- Object `id` exists and its current value is `t`. -/
def HasValue (s : State V D L) (id : ℕ) (t : Tensor V) : Prop :=
  ∃ o, s.heap[id]? = some o ∧ o.value = some t

/-- `l` is the log probability of the *current* value of stochastic object `id` under its
distribution. -/
def CondIs (env : Env V D L) (s : State V D L) (id : ℕ) (l : L) : Prop :=
  ∃ o t, s.heap[id]? = some o ∧ o.value = some t ∧ env.logProb o.dist t = some l

/-- The stochastic node called `n` has conditional log probability `l`. -/
def NamedCondIs (env : Env V D L) (s : State V D L) (n : Name) (l : L) : Prop :=
  ∃ id, s.nodes.get? n = some (.stoch id) ∧ CondIs env s id l

/-- What `log_joint()` should be *now*: the user's function applied to the current conditionals if
one is set, otherwise the sum of the conditionals of all the stochastic nodes. -/
def JointIs [AddCommMonoid L] (env : Env V D L) (s : State V D L) (l : L) : Prop :=
  match s.metaLJ with
  | some (.callable names combine) =>
    ∃ ls, List.Forall₂ (NamedCondIs env s) names ls ∧ l = combine ls
  | some .nonCallable => False
  | _ => ∃ ls, List.Forall₂ (CondIs env s) (stochIds s.nodes) ls ∧ l = ls.sum

/-- The observation a node called `n` should get: the one passed to the enclosing `observe` if it
is not `None`, else the one in the deprecated `observed` dictionary, else none. -/
def expectedObs (observeArgs : Option (Dict Name (Option V))) (observed : Dict Name (Option V))
    (n : Name) : Option (Option V) :=
  match observeArgs.bind (fun d => d.get? n) with
  | some (some v) => some (some v)
  | _ => observed.get? n

end ZhuSuan.BN

namespace ZhuSuan.BN

variable {V D L : Type}

/-- A user handles `p` wrongly: `p` is not a string (`TypeError`), or names no node, or (for queries
restricted to stochastic nodes) names a deterministic node (`ValueError`). -/
inductive BadName (nodes : Dict Name (Ref V)) (onlyStochastic : Bool) : PyName → Err → Prop
  | notString : BadName nodes onlyStochastic .other .typeError
  | unknown (n : Name) : nodes.get? n = none → BadName nodes onlyStochastic (.str n) .valueError
  | det (n : Name) (t : Tensor V) : onlyStochastic = true → nodes.get? n = some (.det t) →
      BadName nodes onlyStochastic (.str n) .valueError

/-- `p` is a string naming the node `r` (a stochastic one for restricted queries). -/
def GoodName (nodes : Dict Name (Ref V)) (onlyStochastic : Bool) (p : PyName) (r : Ref V) : Prop :=
  ∃ n, p = .str n ∧ nodes.get? n = some r ∧ (onlyStochastic = true → ∃ id, r = .stoch id)

/-- The first bad name in the list decides the exception. -/
def FirstBad (nodes : Dict Name (Ref V)) (onlyStochastic : Bool) (ps : List PyName) (e : Err) :
    Prop :=
  ∃ pre p post, ps = pre ++ p :: post ∧ (∀ q ∈ pre, ∃ r, GoodName nodes onlyStochastic q r) ∧
    BadName nodes onlyStochastic p e

/-- The answer a `query` for name `n` should contain: the node's current value if it was asked for, and the log
probability of that value if it was asked for. -/
def RowIs (env : Env V D L) (s : State V D L) (askValue askLogProb : Bool) (n : Name)
    (row : Option (Tensor V) × Option L) : Prop :=
  ∃ id, s.nodes.get? n = some (.stoch id) ∧
    (match row.1 with
      | some t => askValue = true ∧ HasValue s id t
      | none => askValue = false) ∧
    (match row.2 with
      | some l => askLogProb = true ∧ CondIs env s id l
      | none => askLogProb = false)

/-- A history in which nothing is done behind the back of a cached log joint:
`deterministic` is not called with the name of a stochastic node, and neither the deprecated
constructors nor the `meta_bn.log_joint` setter is used between a successful `log_joint()` and the
next `stochastic(...)`.  (`cached` is the only internal notion: a successful `log_joint()` not
followed by a `stochastic` call.) -/
def Tame [AddCommMonoid L] (env : Env V D L) : State V D L → List (Op V D L) → Prop
  | _, [] => True
  | s, op :: ops =>
    (match op with
      | .deterministic n _ => ∀ id, s.nodes.get? n ≠ some (.stoch id)
      | .legacy _ _ _ => s.cache = none
      | .setLogJoint _ => s.cache = none
      | _ => True) ∧ Tame env (step env s op).2 ops

end ZhuSuan.BN

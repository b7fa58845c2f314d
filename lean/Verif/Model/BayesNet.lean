import Mathlib.Algebra.BigOperators.Group.List.Basic
import Verif.Model.Dict

/-!
# Model of `zhusuan/framework/bn.py`: `StochasticTensor` and `BayesianNet` as a state machine

Objects of class `StochasticTensor` live on a heap (list, indexed by creation order) so that object
identity and the caches kept in object attributes are explicit.

Simplifications:
* A distribution object is an abstract `D`; `n_samples` is part of it.
* Tensors are symbolic: an external tensor, or the `k`-th call of `Distribution.sample` in the
  process, made by object `obj`.  Two different draws are different tensors.
* `logProb` gives values in any additive commutative monoid `L` (e.g. functions from the values of
  all draws to `ℝ`).
* A user-supplied `log_joint` function is one that asks for the conditional log probabilities of a
  list of names and combines them.
-/

namespace ZhuSuan.BN

/-- Node names: Python strings (bn.py 348, 373). -/
abbrev Name := String

/-- A tensor: one the caller made (`ext`), or the `k`-th draw of the distribution of object `obj` (bn.py 163–175, 383–384). -/
inductive Tensor (V : Type) where
  | ext (v : V)
  | draw (obj k : ℕ)
  deriving DecidableEq

/-- The exceptions raised (bn.py 69–115, 163–175, 348–420); `samplingError` is whatever `Distribution.sample` raises. -/
inductive Err where
  | valueError | typeError | attributeError | samplingError
  deriving DecidableEq

/-- What the net asks of the distributions: `checkObs` is `_check_observation` (bn.py 96–115,
`none` = `ValueError`; the shape part is modelled precisely in `Model/Shape.lean`), `canSample` is
false for distributions whose `sample` raises, `logProb` is `Distribution.log_prob` (`none` when it
raises). -/
structure Env (V D L : Type) where
  checkObs : D → V → Option V
  canSample : D → Bool
  logProb : D → Tensor V → Option L

/-- The value of `MetaBayesianNet.log_joint` (meta_bn.py 69–85). -/
inductive LogJoint (L : Type) where
  | unset
  | callable (names : List Name) (combine : List L → L)
  | nonCallable

/-- The attributes of a `StochasticTensor` (bn.py 82–93, 173–174, 202–203).  `ready` says that
`_observation` has been assigned, i.e. the constructor has finished. -/
structure Obj (V D L : Type) where
  name : Name
  dist : D
  ready : Bool
  observation : Option V
  samples : Option (Tensor V)
  condLogP : Option L

/-- A value in `bn._nodes`: a tensor (deterministic node) or a `StochasticTensor` object.  (bn.py 321, 370, 384) -/
inductive Ref (V : Type) where
  | det (t : Tensor V)
  | stoch (id : ℕ)
  deriving DecidableEq

/-- The process state seen from one `BayesianNet`: `_nodes`, `_log_joint_cache`, the observations of
the captured `Local` context (`_local_cxt.observations`), the deprecated `_observed` dictionary,
the log joint of the captured `meta_bn`, the heap, and the objects that drew samples, in order.  (bn.py 320–330) -/
structure State (V D L : Type) where
  heap : List (Obj V D L)
  nodes : Dict Name (Ref V)
  cache : Option L
  localObs : Option (Dict Name (Option V))
  observed : Dict Name (Option V)
  metaLJ : Option (LogJoint L)
  draws : List ℕ

variable {V D L : Type}

/-- `_BayesianNet.__init__` (bn.py 320–330) and `BayesianNet.__init__` (551–554); `localObs`/`metaLJ`
come from the innermost `Local` context, if any. -/
def State.init (localObs : Option (Dict Name (Option V))) (metaLJ : Option (LogJoint L))
    (observed : Dict Name (Option V)) : State V D L :=
  { heap := [], nodes := [], cache := none, localObs := localObs, observed := observed,
    metaLJ := metaLJ, draws := [] }

/-- `StochasticTensor.tensor` (bn.py 163–175). -/
def objTensor (env : Env V D L) (s : State V D L) (id : ℕ) :
    Except Err (Tensor V) × State V D L :=
  match s.heap[id]? with
  | none => (.error .attributeError, s)
  | some o =>
    if o.ready = false then (.error .attributeError, s)
    else match o.observation with
      | some v => (.ok (.ext v), s)
      | none =>
        match o.samples with
        | some t => (.ok t, s)
        | none =>
          if env.canSample o.dist then
            let t := Tensor.draw id s.draws.length
            (.ok t, { s with heap := s.heap.set id { o with samples := some t }
                             draws := s.draws ++ [id] })
          else (.error .samplingError, s)

/-- `StochasticTensor.cond_log_p` (bn.py 194–204). -/
def objCondLogP (env : Env V D L) (s : State V D L) (id : ℕ) : Except Err L × State V D L :=
  match s.heap[id]? with
  | none => (.error .attributeError, s)
  | some o =>
    match o.condLogP with
    | some l => (.ok l, s)
    | none =>
      match objTensor env s id with
      | (.error e, s) => (.error e, s)
      | (.ok t, s) =>
        match env.logProb o.dist t with
        | none => (.error .valueError, s)
        | some l => (.ok l, { s with heap := s.heap.modify id (fun o => { o with condLogP := some l }) })

/-- `[f(i) for i in is]` / `sum(f(i) for i in is)`: evaluate from left to right, stopping at the first
exception.  (bn.py 433, 450, 456–457, 1212) -/
def comprehension {ι α : Type} (f : State V D L → ι → Except Err α × State V D L) :
    State V D L → List ι → Except Err (List α) × State V D L
  | s, [] => (.ok [], s)
  | s, i :: is =>
    match f s i with
    | (.error e, s) => (.error e, s)
    | (.ok a, s) =>
      match comprehension f s is with
      | (.error e, s) => (.error e, s)
      | (.ok as, s) => (.ok (a :: as), s)

/-- The stochastic nodes among `six.itervalues(self._nodes)` (bn.py 456–457). -/
def stochIds (nodes : Dict Name (Ref V)) : List ℕ :=
  nodes.filterMap (fun nr => match nr.2 with
    | .stoch id => some id
    | .det _ => none)

/-- Python values passed as a name: a string or something else.  (bn.py 387–399) -/
inductive PyName where
  | str (n : Name)
  | other
  deriving DecidableEq

/-- `name_or_names`: a string, a list/tuple, or something `tuple()` refuses.  (bn.py 401–420) -/
inductive NameArg where
  | one (n : Name)
  | many (l : List PyName)
  | notIterable

/-- `_check_name_exist` (bn.py 387–399). -/
def checkName (nodes : Dict Name (Ref V)) (onlyStochastic : Bool) : PyName → Except Err Name
  | .other => .error .typeError
  | .str n =>
    match nodes.get? n with
    | none => .error .valueError
    | some (.det _) => if onlyStochastic then .error .valueError else .ok n
    | some (.stoch _) => .ok n

/-- The loop of `_check_names_exist` (bn.py 418–419). -/
def checkAll (nodes : Dict Name (Ref V)) (onlyStochastic : Bool) :
    List PyName → Except Err (List Name)
  | [] => .ok []
  | p :: ps =>
    match checkName nodes onlyStochastic p with
    | .error e => .error e
    | .ok n =>
      match checkAll nodes onlyStochastic ps with
      | .error e => .error e
      | .ok ns => .ok (n :: ns)

/-- `_check_names_exist` (bn.py 401–420): a single name or a list of names. -/
def checkNames (nodes : Dict Name (Ref V)) (onlyStochastic : Bool) :
    NameArg → Except Err (Name ⊕ List Name)
  | .one n =>
    match checkName nodes onlyStochastic (.str n) with
    | .error e => .error e
    | .ok n => .ok (.inl n)
  | .many l =>
    match checkAll nodes onlyStochastic l with
    | .error e => .error e
    | .ok ns => .ok (.inr ns)
  | .notIterable => .error .typeError

/-- Results of API calls.  (bn.py 348–478, 1200–1249) -/
inductive Out (V L : Type) where
  | unit
  | node (r : Ref V)
  | nodes (rs : List (Ref V))
  | val (l : L)
  | vals (ls : List L)
  | tensor (t : Tensor V)
  | tensors (ts : List (Tensor V))
  | queryOne (t : Option (Tensor V)) (l : Option L)
  | queryMany (rows : List (Option (Tensor V) × Option L))

/-- The API of a `BayesianNet`.  (bn.py 348–478, 1200–1249) -/
inductive Op (V D L : Type) where
  /-- `bn.stochastic(name, dist)`, and all the distribution methods (bn.py 556–1189). -/
  | stochastic (n : Name) (d : D)
  /-- `bn.deterministic(name, t)`. -/
  | deterministic (n : Name) (t : Tensor V)
  /-- Deprecated `StochasticTensor(None, name, dist, observation)` inside `with bn:`. -/
  | legacy (n : Name) (d : D) (obs : Option V)
  /-- `bn.get(names)`. -/
  | get (a : NameArg)
  /-- `bn[name]`. -/
  | getItem (p : PyName)
  /-- `bn[name] = node`. -/
  | setItem (n : Name)
  /-- `bn.cond_log_prob(names)` (and deprecated `local_log_prob`). -/
  | condLogProb (a : NameArg)
  /-- `bn.log_joint()`. -/
  | logJoint
  /-- `meta_bn.log_joint = f`. -/
  | setLogJoint (f : LogJoint L)
  /-- `node.tensor` for a `StochasticTensor` object, or any use of it as a tensor. -/
  | tensor (id : ℕ)
  /-- `node.cond_log_p` for a `StochasticTensor` object. -/
  | objCondLogP (id : ℕ)
  /-- Deprecated `bn.outputs(names)`. -/
  | outputs (a : NameArg)
  /-- Deprecated `bn.query(names, outputs, local_log_prob)`. -/
  | query (a : NameArg) (outputs localLogProb : Bool)

/-- The observation part of `StochasticTensor.__init__` (bn.py 87–93).  A key of `_observed` whose
value is `None` makes `convert_to_tensor` raise `ValueError`. -/
def resolveObs (env : Env V D L) (observed : Dict Name (Option V)) (n : Name) (d : D)
    (observation : Option V) : Except Err (Option V) :=
  match observation with
  | some v =>
    match env.checkObs d v with
    | some v => .ok (some v)
    | none => .error .valueError
  | none =>
    match observed.get? n with
    | some (some v) =>
      match env.checkObs d v with
      | some v => .ok (some v)
      | none => .error .valueError
    | some none => .error .valueError
    | none => .ok none

/-- `_get_observation` (bn.py 342–346). -/
def getObservation (s : State V D L) (n : Name) : Option V :=
  match s.localObs with
  | some obs => (obs.get? n).getD none
  | none => none

/-- `self._nodes[name]` for a checked name.  (bn.py 433–435, 450–452) -/
def lookup (nodes : Dict Name (Ref V)) (n : Name) : Except Err (Ref V) :=
  match nodes.get? n with
  | some r => .ok r
  | none => .error .valueError

/-- `self._nodes[name].tensor` (used by `outputs`, bn.py 1212–1214); a `tf.Tensor` has no attribute
`tensor`. -/
def nodeTensor (env : Env V D L) (s : State V D L) (n : Name) :
    Except Err (Tensor V) × State V D L :=
  match s.nodes.get? n with
  | some (.stoch id) => objTensor env s id
  | some (.det _) => (.error .attributeError, s)
  | none => (.error .valueError, s)

/-- `self._nodes[name].cond_log_p` (bn.py 450–452). -/
def nodeCondLogP (env : Env V D L) (s : State V D L) (n : Name) :
    Except Err L × State V D L :=
  match s.nodes.get? n with
  | some (.stoch id) => objCondLogP env s id
  | some (.det _) => (.error .attributeError, s)
  | none => (.error .valueError, s)

/-- `stochastic` (bn.py 348–371). -/
def stochastic (env : Env V D L) (s : State V D L) (n : Name) (d : D) :
    Except Err (Out V L) × State V D L :=
  match s.nodes.get? n with
  | some _ => (.error .valueError, s)
  | none =>
    let s := { s with cache := none }
    match resolveObs env s.observed n d (getObservation s n) with
    | .error e => (.error e, s)
    | .ok o =>
      let id := s.heap.length
      (.ok (.node (.stoch id)),
       { s with heap := s.heap ++ [{ name := n, dist := d, ready := true, observation := o,
                                     samples := none, condLogP := none }]
                nodes := s.nodes.set n (.stoch id) })

/-- `deterministic` (bn.py 373–385). -/
def deterministic (s : State V D L) (n : Name) (t : Tensor V) :
    Except Err (Out V L) × State V D L :=
  (.ok (.tensor t), { s with nodes := s.nodes.set n (.det t) })

/-- The deprecated constructor with `bn=None` while this net is the current context
(bn.py 69–93): the object is entered in `bn.nodes` before its observation is checked. -/
def legacy (env : Env V D L) (s : State V D L) (n : Name) (d : D) (obs : Option V) :
    Except Err (Out V L) × State V D L :=
  let id := s.heap.length
  let nodes := s.nodes.set n (.stoch id)
  match resolveObs env s.observed n d obs with
  | .error e =>
    (.error e, { s with heap := s.heap ++ [{ name := n, dist := d, ready := false,
                                             observation := none, samples := none,
                                             condLogP := none }]
                        nodes := nodes })
  | .ok o =>
    (.ok (.node (.stoch id)),
     { s with heap := s.heap ++ [{ name := n, dist := d, ready := true, observation := o,
                                   samples := none, condLogP := none }]
              nodes := nodes })

/-- `get` (bn.py 422–435). -/
def get (s : State V D L) (a : NameArg) : Except Err (Out V L) :=
  match checkNames s.nodes false a with
  | .error e => .error e
  | .ok (.inr ns) =>
    match ns.mapM (lookup s.nodes) with
    | .error e => .error e
    | .ok rs => .ok (.nodes rs)
  | .ok (.inl n) =>
    match lookup s.nodes n with
    | .error e => .error e
    | .ok r => .ok (.node r)

/-- `cond_log_prob` (bn.py 437–452). -/
def condLogProb (env : Env V D L) (s : State V D L) (a : NameArg) :
    Except Err (Out V L) × State V D L :=
  match checkNames s.nodes true a with
  | .error e => (.error e, s)
  | .ok (.inr ns) =>
    match comprehension (nodeCondLogP env) s ns with
    | (.error e, s) => (.error e, s)
    | (.ok ls, s) => (.ok (.vals ls), s)
  | .ok (.inl n) =>
    match nodeCondLogP env s n with
    | (.error e, s) => (.error e, s)
    | (.ok l, s) => (.ok (.val l), s)

/-- `_log_joint` (bn.py 454–465). -/
def logJointFresh [AddCommMonoid L] (env : Env V D L) (s : State V D L) :
    Except Err L × State V D L :=
  match s.metaLJ with
  | some (.callable names combine) =>
    match condLogProb env s (.many (names.map .str)) with
    | (.ok (.vals ls), s) => (.ok (combine ls), s)
    | (.ok _, s) => (.error .typeError, s)
    | (.error e, s) => (.error e, s)
  | some .nonCallable => (.error .typeError, s)
  | _ =>
    match comprehension (objCondLogP env) s (stochIds s.nodes) with
    | (.error e, s) => (.error e, s)
    | (.ok ls, s) => (.ok ls.sum, s)

/-- `log_joint` (bn.py 467–478). -/
def logJoint [AddCommMonoid L] (env : Env V D L) (s : State V D L) :
    Except Err L × State V D L :=
  match s.cache with
  | some l => (.ok l, s)
  | none =>
    match logJointFresh env s with
    | (.error e, s) => (.error e, s)
    | (.ok l, s) => (.ok l, { s with cache := some l })

/-- `outputs` (bn.py 1200–1214). -/
def outputs (env : Env V D L) (s : State V D L) (a : NameArg) :
    Except Err (Out V L) × State V D L :=
  match checkNames s.nodes false a with
  | .error e => (.error e, s)
  | .ok (.inr ns) =>
    match comprehension (nodeTensor env) s ns with
    | (.error e, s) => (.error e, s)
    | (.ok ts, s) => (.ok (.tensors ts), s)
  | .ok (.inl n) =>
    match nodeTensor env s n with
    | (.error e, s) => (.error e, s)
    | (.ok t, s) => (.ok (.tensor t), s)

/-- `if flag: ret.append(call())` (bn.py 1240–1243). -/
def whenFlag (flag : Bool) (s : State V D L)
    (call : State V D L → Except Err (Out V L) × State V D L) :
    Except Err (Option (Out V L)) × State V D L :=
  if flag then
    match call s with
    | (.ok r, s) => (.ok (some r), s)
    | (.error e, s) => (.error e, s)
  else (.ok none, s)

/-- `list(zip(*ret))` of the collected lists (bn.py 1247): tuples of one or two entries; a missing entry is
`none`. -/
def zipRows : Option (List (Tensor V)) → Option (List L) → List (Option (Tensor V) × Option L)
  | some ts, some ls => (ts.zip ls).map (fun r => (some r.1, some r.2))
  | some ts, none => ts.map (fun t => (some t, none))
  | none, some ls => ls.map (fun l => (none, some l))
  | none, none => []

/-- `query` (bn.py 1228–1249). -/
def query (env : Env V D L) (s : State V D L) (a : NameArg) (o l : Bool) :
    Except Err (Out V L) × State V D L :=
  match checkNames s.nodes false a with
  | .error e => (.error e, s)
  | .ok _ =>
    match whenFlag o s (fun s => outputs env s a) with
    | (.error e, s) => (.error e, s)
    | (.ok ro, s) =>
      match whenFlag l s (fun s => condLogProb env s a) with
      | (.error e, s) => (.error e, s)
      | (.ok rl, s) =>
        match ro, rl with
        | none, none => (.error .valueError, s)
        | _, _ =>
          match a with
          | .many _ =>
            (.ok (.queryMany (zipRows (match ro with | some (.tensors ts) => some ts | _ => none)
              (match rl with | some (.vals ls) => some ls | _ => none))), s)
          | _ =>
            (.ok (.queryOne (match ro with | some (.tensor t) => some t | _ => none)
              (match rl with | some (.val l) => some l | _ => none)), s)

/-- One API call.  (bn.py 348–478, 1200–1249) -/
def step [AddCommMonoid L] (env : Env V D L) (s : State V D L) :
    Op V D L → Except Err (Out V L) × State V D L
  | .stochastic n d => stochastic env s n d
  | .deterministic n t => deterministic s n t
  | .legacy n d obs => legacy env s n d obs
  | .get a => (get s a, s)
  | .getItem p =>
    (match checkName s.nodes false p with
     | .error e => .error e
     | .ok n =>
       match lookup s.nodes n with
       | .error e => .error e
       | .ok r => .ok (.node r), s)
  | .setItem _ => (.error .typeError, s)
  | .condLogProb a => condLogProb env s a
  | .logJoint =>
    match logJoint env s with
    | (.error e, s) => (.error e, s)
    | (.ok l, s) => (.ok (.val l), s)
  | .setLogJoint f =>
    (.ok .unit, match s.metaLJ with
      | some _ => { s with metaLJ := some f }
      | none => s)
  | .tensor id =>
    match objTensor env s id with
    | (.error e, s) => (.error e, s)
    | (.ok t, s) => (.ok (.tensor t), s)
  | .objCondLogP id =>
    match objCondLogP env s id with
    | (.error e, s) => (.error e, s)
    | (.ok l, s) => (.ok (.val l), s)
  | .outputs a => outputs env s a
  | .query a o l => query env s a o l

/-- A history of calls; exceptions are caught by the caller.  (client code calling bn.py 348–478, 1200–1249) -/
def run [AddCommMonoid L] (env : Env V D L) (s : State V D L) (ops : List (Op V D L)) :
    State V D L :=
  ops.foldl (fun s op => (step env s op).2) s

end ZhuSuan.BN

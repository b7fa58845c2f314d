import Verif.Model.VObjective

/-!
# A variational objective as a state machine (`zhusuan/variational/base.py` 49–183 and its subclasses)

The attributes that the object fills while it is used (`_bn`, `_tensor`, `_log_joint_cache`, `_entropy_cache`), the
variational net and the caller's dictionaries, which the caller may change between two uses, and the user's
model function, which may do something different each time it is called.  Dictionaries are on a heap, since the
constructor copies the one it is given.

Simplifications: a tensor is a value of type `L`; what an estimator computes from the terms of the objective is a
function argument.  Warnings are left out.
-/

set_option autoImplicit false

namespace ZhuSuan.VObj
open ZhuSuan.BN

variable {V D L W D' : Type}

/-- `meta_bn`: a log joint function, or a `MetaBayesianNet`.  The number says how often the function has been called
before.  (variational/base.py 49–55, 133–134, 171–175) -/
inductive Model (V L W D' : Type) where
  | func (logJoint : ℕ → Dict Name (Option (Tensor V)) → Except Err L)
  | net (observe : ℕ → Dict Name (Option (Tensor V)) → Except Err (State W D' L))

/-- The subclass.  (exclusive_kl.py 20, monte_carlo.py 21, inclusive_kl.py 20) -/
inductive Kind where
  | elbo | iw | klpq
  deriving DecidableEq

/-- What the constructor stores once and for all.  `observedRef` is the dictionary `self._observed`; `reduce` is
`tf.reduce_mean` or `log_mean_exp` over `axis`, or the identity.  (variational/base.py 49–89, exclusive_kl.py 122–129, 135–136,
monte_carlo.py 124–135, 139–140) -/
structure Objective (V L W D' : Type) where
  kind : Kind
  reduce : L → L
  model : Model V L W D'
  vInputs : Dict Name (VIn V)
  vLogProbs : Dict Name L
  observedRef : ℕ

/-- What changes: the dictionaries, the variational net, the attributes `_bn`, `_tensor`, `_log_joint_cache` and
`_entropy_cache`, how often the model function was called, and whether the variable `moving_mean` exists.
(variational/base.py 132–138, 153–155, 171–183, exclusive_kl.py 210–213) -/
structure World (V D L W D' : Type) where
  dicts : List (Dict Name (Tensor V))
  q : Option (State V D L)
  bn : Option (State W D' L)
  tensor : Option L
  logJointCache : Option L
  entropyCache : Option (Option L)
  calls : ℕ
  movingMean : Bool

/-- Exceptions.  (variational/base.py 146, inclusive_kl.py 101–104, and those of the net) -/
inductive ObjErr where
  | py (e : Err)
  | notImplemented

/-- The constructors `elbo`, `importance_weighted_objective` and `klpq` (exclusive_kl.py 234–267, monte_carlo.py
230–264, inclusive_kl.py 154–187), called with the dictionary number `ref` as `observed`.  `self._observed` is a copy
of it (variational/base.py 89).  The check of `axis` (monte_carlo.py 126–129) is in `Model/NetIw.lean`. -/
def new (env : Env V D L) (kind : Kind) (reduce : L → L) (model : Model V L W D') (variational : Option (VArg V D L))
    (latent : Option (Dict Name (Tensor V × L))) (dicts : List (Dict Name (Tensor V))) (ref : ℕ) (calls : ℕ)
    (movingMean : Bool) : Except Err (Objective V L W D' × World V D L W D') :=
  let observed := (dicts[ref]?).getD []
  match construct env variational latent observed with
  | .error e => .error e
  | .ok (v, q) =>
    let dicts := dicts ++ [v.observed]
    .ok (⟨kind, reduce, model, v.vInputs, v.vLogProbs, dicts.length - 1⟩,
      ⟨dicts, q, none, none, none, none, calls, movingMean⟩)

/-- The attributes `_v_inputs`, `_v_log_probs`, `_observed` at present.  (variational/base.py 87–89) -/
def Objective.attrs (o : Objective V L W D') (w : World V D L W D') : VObj V L :=
  ⟨o.vInputs, o.vLogProbs, (w.dicts[o.observedRef]?).getD []⟩

/-- The `bn` property (variational/base.py 117–138). -/
def accessBn (o : Objective V L W D') (w : World V D L W D') :
    Except Err (Option (State W D' L)) × World V D L W D' :=
  match o.model with
  | .func _ => (.ok none, w)
  | .net observe =>
    match getBn (observe w.calls) (o.attrs w) w.q w.bn with
    | (.error e, bn) => (.error e, { w with bn := bn, calls := if w.bn.isNone then w.calls + 1 else w.calls })
    | (.ok b, bn) => (.ok (some b), { w with bn := bn, calls := if w.bn.isNone then w.calls + 1 else w.calls })

variable [AddCommGroup L]

/-- `_log_joint_term` (variational/base.py 169–175). -/
def logJointTerm (menv : Env W D' L) (o : Objective V L W D') (w : World V D L W D') :
    Except Err L × World V D L W D' :=
  match o.model with
  | .net _ =>
    match accessBn o w with
    | (.error e, w) => (.error e, w)
    | (.ok none, w) => (.error .attributeError, w)
    | (.ok (some b), w) =>
      match logJoint menv b with
      | (.error e, b) => (.error e, { w with bn := some b })
      | (.ok l, b) => (.ok l, { w with bn := some b })
  | .func f =>
    match w.logJointCache with
    | some l => (.ok l, w)
    | none =>
      match f w.calls ((o.attrs w).given w.q) with
      | .error e => (.error e, { w with calls := w.calls + 1 })
      | .ok l => (.ok l, { w with calls := w.calls + 1, logJointCache := some l })

/-- `_entropy_term` (variational/base.py 177–183). -/
def entropyCached (o : Objective V L W D') (w : World V D L W D') : Option L × World V D L W D' :=
  match w.entropyCache with
  | some h => (h, w)
  | none => (entropyTerm (o.attrs w), { w with entropyCache := some (entropyTerm (o.attrs w)) })

/-- `_objective` of the three classes (exclusive_kl.py 131–137, monte_carlo.py 137–141, inclusive_kl.py 101–104). -/
def objective (menv : Env W D' L) (o : Objective V L W D') (w : World V D L W D') :
    Except ObjErr L × World V D L W D' :=
  match o.kind with
  | .klpq => (.error .notImplemented, w)
  | .elbo =>
    match logJointTerm menv o w with
    | (.error e, w) => (.error (.py e), w)
    | (.ok l, w) =>
      match entropyCached o w with
      | (some h, w) => (.ok (o.reduce (l + h)), w)
      | (none, w) => (.ok (o.reduce l), w)
  | .iw =>
    match logJointTerm menv o w with
    | (.error e, w) => (.error (.py e), w)
    | (.ok l, w) =>
      match entropyCached o w with
      | (some h, w) => (.ok (o.reduce (l + h)), w)
      | (none, w) => (.error (.py .valueError), w)

/-- The `tensor` property (variational/base.py 148–155), which every conversion to a tensor and `sess.run` go through
(157–166, 186–196). -/
def accessTensor (menv : Env W D' L) (o : Objective V L W D') (w : World V D L W D') :
    Except ObjErr L × World V D L W D' :=
  match w.tensor with
  | some t => (.ok t, w)
  | none =>
    match objective menv o w with
    | (.error e, w) => (.error e, w)
    | (.ok t, w) => (.ok t, { w with tensor := some t })

/-- `sgvb()` (exclusive_kl.py 159, monte_carlo.py 164); `klpq` has no such method. -/
def sgvb (menv : Env W D' L) (o : Objective V L W D') (w : World V D L W D') :
    Except ObjErr L × World V D L W D' :=
  match o.kind with
  | .klpq => (.error (.py .attributeError), w)
  | _ =>
    match accessTensor menv o w with
    | (.error e, w) => (.error e, w)
    | (.ok t, w) => (.ok (-t), w)

/-- `vimco()` and `importance()`: both start with `log_w = self._log_joint_term() + self._entropy_term()` and compute
the cost from `log_w` and the entropy term, which they ask for again; `elbo` has neither method.  (monte_carlo.py
183–227, inclusive_kl.py 137–151) -/
def estimator (menv : Env W D' L) (o : Objective V L W D') (w : World V D L W D') (cost : L → L → L) :
    Except ObjErr L × World V D L W D' :=
  match o.kind with
  | .elbo => (.error (.py .attributeError), w)
  | _ =>
    match logJointTerm menv o w with
    | (.error e, w) => (.error (.py e), w)
    | (.ok l, w) =>
      match entropyCached o w with
      | (none, w) => (.error (.py .valueError), w)
      | (some h, w) =>
        match entropyCached o w with
        | (none, w) => (.error (.py .valueError), w)
        | (some h', w) => (.ok (cost (l + h) h'), w)

/-- `reinforce(variance_reduction)` of `elbo`: the learning signal from one access to the terms, the cost from a second
one.  `tf.get_variable('moving_mean')` refuses to make the variable again.  (exclusive_kl.py 196–231) -/
def reinforce (menv : Env W D' L) (o : Objective V L W D') (w : World V D L W D') (varianceReduction : Bool)
    (cost : L → L → L → L) : Except ObjErr L × World V D L W D' :=
  match o.kind with
  | .elbo =>
    match logJointTerm menv o w with
    | (.error e, w) => (.error (.py e), w)
    | (.ok l, w) =>
      match entropyCached o w with
      | (none, w) => (.error (.py .valueError), w)
      | (some h, w) =>
        if varianceReduction && w.movingMean then (.error (.py .valueError), w)
        else
          let w := { w with movingMean := w.movingMean || varianceReduction }
          match logJointTerm menv o w with
          | (.error e, w) => (.error (.py e), w)
          | (.ok l', w) =>
            match entropyCached o w with
            | (none, w) => (.error (.py .valueError), w)
            | (some h', w) => (.ok (cost (l + h) l' h'), w)
  | _ => (.error (.py .attributeError), w)

/-- What a program may do after it has made the objective.  (variational/base.py 117–183, exclusive_kl.py 139–231, monte_carlo.py
143–227, inclusive_kl.py 106–151; client code) -/
inductive OOp (V D L W D' : Type) where
  /-- `objective.bn` -/
  | bn
  /-- `objective.tensor`, or any use as a tensor -/
  | tensor
  | sgvb
  | reinforce (varianceReduction : Bool) (cost : L → L → L → L)
  | estimator (cost : L → L → L)
  /-- `d[name] = value` for a dictionary of the caller -/
  | setDict (ref : ℕ) (name : Name) (value : Tensor V)
  /-- any call on the variational net -/
  | netOp (op : Op V D L)
  /-- any call on the net `objective.bn` -/
  | bnOp (op : Op W D' L)

/-- What the caller sees.  (variational/base.py 117–183; client code) -/
inductive OOut (L W D' : Type) where
  | bn (b : Option (State W D' L))
  | val (l : L)
  | raised (e : ObjErr)
  | done

/-- The result of a call as seen by the caller.  (variational/base.py 117–183) -/
def OOut.of : Except ObjErr L → OOut L W D'
  | .ok l => .val l
  | .error e => .raised e

/-- One action.  (variational/base.py 117–183, exclusive_kl.py 139–231, monte_carlo.py 143–227, inclusive_kl.py 106–151; client
code) -/
def OOp.step (env : Env V D L) (menv : Env W D' L) (o : Objective V L W D') (w : World V D L W D') :
    OOp V D L W D' → OOut L W D' × World V D L W D'
  | .bn =>
    match accessBn o w with
    | (.ok b, w) => (.bn b, w)
    | (.error e, w) => (.raised (.py e), w)
  | .tensor => (.of (accessTensor menv o w).1, (accessTensor menv o w).2)
  | .sgvb => (.of (VObj.sgvb menv o w).1, (VObj.sgvb menv o w).2)
  | .reinforce vr cost => (.of (VObj.reinforce menv o w vr cost).1, (VObj.reinforce menv o w vr cost).2)
  | .estimator cost => (.of (VObj.estimator menv o w cost).1, (VObj.estimator menv o w cost).2)
  | .setDict ref n t => (.done, { w with dicts := w.dicts.modify ref (fun d => Dict.set d n t) })
  | .netOp op => (.done, { w with q := w.q.map (fun q => (BN.step env q op).2) })
  | .bnOp op => (.done, { w with bn := w.bn.map (fun b => (BN.step menv b op).2) })

/-- A history: what the caller saw after each action, and the last state.  (client code) -/
def history (env : Env V D L) (menv : Env W D' L) (o : Objective V L W D') (w : World V D L W D') :
    List (OOp V D L W D') → List (OOut L W D') × World V D L W D'
  | [] => ([], w)
  | op :: ops =>
    ((OOp.step env menv o w op).1 :: (history env menv o (OOp.step env menv o w op).2 ops).1,
      (history env menv o (OOp.step env menv o w op).2 ops).2)

end ZhuSuan.VObj

import Verif.Model.ObjState

/-!
# What a variational objective is to its user (C84)

A vocabulary for the histories of `Model/ObjState.lean`: which actions are the caller's own, what an objective made from
one log joint value `l` and the recorded log probabilities says, and where `l` comes from.
-/

set_option autoImplicit false

namespace ZhuSuan.VObj
open ZhuSuan.BN

variable {V D L W D' : Type}

/-- A use of the objective, and not something the caller does to their own dictionaries or variational net. -/
def OOp.uses : OOp V D L W D' → Bool
  | .setDict _ _ _ => false
  | .netOp _ => false
  | _ => true

/-- The caller does something to the model net of the objective. -/
def OOp.onModel : OOp V D L W D' → Bool
  | .bnOp _ => true
  | _ => false

/-- `ops` changes no dictionary but the `n` first ones. -/
def OwnDicts (n : ℕ) (ops : List (OOp V D L W D')) : Prop :=
  ∀ ref k t, OOp.setDict ref k t ∈ ops → ref < n

/-- The variational net, if there is one, is one that a program can make. -/
def Made [AddCommMonoid L] (env : Env V D L) (variational : Option (VArg V D L)) : Prop :=
  ∀ q, variational = some (.net q) → ∃ lo m ob ops, q = run env (State.init lo m ob) ops

variable [AddCommGroup L]

/-- `out` is what the action `op` must show if the log joint is `l` and the sum of the log probabilities of the latent
variables is `lq`. -/
def Says (o : Objective V L W D') (l lq : L) (op : OOp V D L W D') (out : OOut L W D') : Prop :=
  ∀ t, out = .val t →
    match op with
    | .tensor => t = o.reduce (l - lq)
    | .sgvb => t = -o.reduce (l - lq)
    | .estimator cost => t = cost (l - lq) (-lq)
    | .reinforce _ cost => t = cost (l - lq) l (-lq)
    | _ => True

/-- `l` is the log joint of the user's model at the values `g`: one of the calls numbered `from` to `to` gave it; in the
case of a net, that call gave the net, and `log_joint()` of the net is `l` (at the first try that does not raise). -/
def ModelValue (menv : Env W D' L) (model : Model V L W D') (g : Dict Name (Option (Tensor V))) (c c' : ℕ) (l : L) :
    Prop :=
  match model with
  | .func f => ∃ k, c ≤ k ∧ k < c' ∧ f k g = .ok l
  | .net observe => ∃ k b n, c ≤ k ∧ k < c' ∧ observe k g = .ok b ∧
      (logJoint menv (run menv b (List.replicate n .logJoint))).1 = .ok l

/-- The first call of the user's model at the values `g` gives the log joint `l`. -/
def FirstValue (menv : Env W D' L) (model : Model V L W D') (g : Dict Name (Option (Tensor V))) (c : ℕ) (l : L) : Prop :=
  match model with
  | .func f => f c g = .ok l
  | .net observe => ∃ b, observe c g = .ok b ∧ (logJoint menv b).1 = .ok l

end ZhuSuan.VObj

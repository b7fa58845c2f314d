import Mathlib.Logic.Relation
import Verif.Model.BackwardOps

/-!
# Specification of the backward dependency relation (independent of the search algorithm)
-/

namespace ZhuSuan.Backward

variable {Op T : Type}

/-- `p` must run before `op`: it is a control input of `op`, or produces an input tensor of `op`
at which the search is not cut. -/
def DependsOn (G : Graph Op T) (cut : List T) (op p : Op) : Prop :=
  p ∈ G.controlInputs op ∨ ∃ t ∈ G.inputs op, t ∉ cut ∧ G.opOf t = p

/-- `op` is needed by the seeds: it is the op of a non-cut seed, or some needed op depends on it. -/
inductive Needed (G : Graph Op T) (cut seeds : List T) : Op → Prop
  | seed (t : T) : t ∈ seeds → t ∉ cut → Needed G cut seeds (G.opOf t)
  | dep (op p : Op) : Needed G cut seeds op → DependsOn G cut op p → Needed G cut seeds p

/-- No op is (transitively) needed by itself. -/
def Acyclic (G : Graph Op T) (cut : List T) : Prop :=
  ∀ op, ¬ Relation.TransGen (DependsOn G cut) op op

end ZhuSuan.Backward

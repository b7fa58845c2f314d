import Mathlib.Data.Fintype.Card
import Mathlib.Data.Finset.Card

/-!
# Model of `zhusuan/framework/utils.py`: `get_backward_ops` (lines 49–85)

Ops are elements of an arbitrary finite type (a TF graph has finitely many ops); tensors are an
arbitrary type with decidable equality (Python `set` membership).
-/

namespace ZhuSuan.Backward

/-- The part of a TensorFlow graph that `get_backward_ops` reads: `op.inputs`,
`op.control_inputs` (lines 75 and 78) and `tensor.op` (lines 66 and 77). -/
structure Graph (Op T : Type) where
  inputs : Op → List T
  controlInputs : Op → List Op
  opOf : T → Op

variable {Op T : Type} [DecidableEq Op] [DecidableEq T]

/-- `OrderedDict.fromkeys(xs)` (line 66): the keys in first-occurrence order. -/
def orderedKeys (xs : List Op) : List Op :=
  xs.foldl (fun acc x => if x ∈ acc then acc else acc ++ [x]) []

/-- The local variables of the `while` loop (lines 67–70).  `q` is the deque, left end first. -/
structure State (Op : Type) where
  q : List Op
  seen : Finset Op
  done : Finset Op
  ret : List Op

/-- Lines 75–77: `for tensor in reversed(op.inputs): if tensor not in treat_as_inputs:
q.appendleft(tensor.op)`. -/
def pushInputs (G : Graph Op T) (cut : List T) (op : Op) (q : List Op) : List Op :=
  (G.inputs op).reverse.foldl (fun q t => if t ∈ cut then q else G.opOf t :: q) q

/-- Line 78: `q.extendleft(reversed(op.control_inputs))`; `extendleft` pushes one by one on the
left.  (framework/utils.py 78) -/
def pushControl (G : Graph Op T) (op : Op) (q : List Op) : List Op :=
  (G.controlInputs op).reverse.foldl (fun q p => p :: q) q

/-- One iteration of the loop body (lines 72–84) in a state with `q = op :: rest`. -/
def body (G : Graph Op T) (cut : List T) (s : State Op) (op : Op) (rest : List Op) : State Op :=
  if op ∉ s.seen then
    { s with seen := insert op s.seen
             q := pushControl G op (pushInputs G cut op (op :: rest)) }
  else if op ∉ s.done then
    { s with q := rest, done := insert op s.done, ret := s.ret ++ [op] }
  else
    { s with q := rest }

/-- One loop iteration; `none` when the loop condition `while q` (line 71) fails. -/
def step (G : Graph Op T) (cut : List T) (s : State Op) : Option (State Op) :=
  match s.q with
  | [] => none
  | op :: rest => some (body G cut s op rest)

/-- The loop, lines 71–85.  Lean accepts this definition only together with the termination proof
below: either an op becomes `seen` or the deque gets shorter. -/
def loop [Fintype Op] (G : Graph Op T) (cut : List T) (s : State Op) : List Op :=
  match hq : s.q with
  | [] => s.ret
  | op :: rest => loop G cut (body G cut s op rest)
termination_by ((Finset.univ \ s.seen).card, s.q.length)
decreasing_by
  unfold body
  split
  · rename_i h
    apply Prod.Lex.left
    apply Finset.card_lt_card
    refine Finset.ssubset_iff_subset_ne.2 ⟨?_, ?_⟩
    · intro x hx
      simp only [Finset.mem_sdiff, Finset.mem_univ, Finset.mem_insert, not_or, true_and] at hx ⊢
      exact hx.2
    · intro h'
      have : op ∈ Finset.univ \ s.seen := by simpa using h
      rw [← h'] at this
      simp at this
  · split
    · apply Prod.Lex.right; simp [hq]
    · apply Prod.Lex.right; simp [hq]

/-- Lines 60–70: the initial state.  `treat_as_inputs=None` is the empty list (lines 60–61); a
single seed tensor is the one-element list (lines 63–64). -/
def init (G : Graph Op T) (seeds : List T) (treatAsInputs : Option (List T)) : State Op :=
  let cut := treatAsInputs.getD []
  let seeds' := seeds.filter (fun t => t ∉ cut)
  { q := orderedKeys (seeds'.map G.opOf), seen := ∅, done := ∅, ret := [] }

/-- `get_backward_ops(seed_tensors, treat_as_inputs)`, lines 49–85. -/
def getBackwardOps [Fintype Op] (G : Graph Op T) (seeds : List T)
    (treatAsInputs : Option (List T)) : List Op :=
  loop G (treatAsInputs.getD []) (init G seeds treatAsInputs)

end ZhuSuan.Backward

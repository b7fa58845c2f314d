import Mathlib.Logic.Function.Basic
import Mathlib.Logic.Relation
import Mathlib.Data.Set.Basic

/-!
# Running a TensorFlow graph with variables in any order

TensorFlow runs the operations of a graph in any order that respects their inputs and control inputs.  An operation that has a
variable as an input reads it when it runs; an assignment writes it when it runs.  (TensorFlow; the graph is built by
zhusuan/hmc.py 382–522)
-/

set_option autoImplicit false

namespace ZhuSuan.Dataflow

/-- The operations `N` of a graph with variables `X`: inputs and control inputs, the variables an operation reads, and the variable it
assigns.  (TensorFlow, as above) -/
structure Graph (N X : Type) where
  deps : N → Set N
  reads : N → Set X
  writes : N → Option X

variable {N X U : Type}

/-- What the operations compute, from the outputs of the operations and the variables: an operation uses only its inputs and what it
reads.  (TensorFlow, as above) -/
structure Interp (G : Graph N X) (U : Type) where
  eval : N → (N → U) → (X → U) → U
  local_ : ∀ n v v' s s', (∀ m ∈ G.deps n, v m = v' m) → (∀ x ∈ G.reads n, s x = s' x) → eval n v s = eval n v' s'

/-- The outputs of the operations that have run and the variables.  (TensorFlow, as above) -/
structure Store (N X U : Type) where
  out : N → U
  var : X → U

open scoped Classical in
/-- Running one operation; an assignment outputs the value it assigns.  (TensorFlow, as above) -/
noncomputable def Interp.run1 {G : Graph N X} (I : Interp G U) (st : Store N X U) (n : N) : Store N X U :=
  let u := I.eval n st.out st.var
  ⟨Function.update st.out n u, match G.writes n with
    | none => st.var
    | some x => Function.update st.var x u⟩

/-- Running operations one after the other.  (TensorFlow, as above) -/
noncomputable def Interp.run {G : Graph N X} (I : Interp G U) (st : Store N X U) (l : List N) : Store N X U := l.foldl I.run1 st

/-- An order in which TensorFlow may run the whole graph: every operation once, after its inputs.  (TensorFlow, as above) -/
structure Graph.Order (G : Graph N X) (l : List N) : Prop where
  nodup : l.Nodup
  all : ∀ n, n ∈ l
  deps : ∀ p n q, l = p ++ n :: q → ∀ m ∈ G.deps n, m ∈ p

/-- `a` runs before `b` in every order because `b` needs its output, directly or through other operations.  (TensorFlow, as above) -/
def Graph.Before (G : Graph N X) : N → N → Prop := Relation.TransGen fun a b => a ∈ G.deps b

end ZhuSuan.Dataflow

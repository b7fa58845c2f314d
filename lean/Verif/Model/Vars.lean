import Mathlib.Data.List.Basic
import Mathlib.Data.Nat.Find
import Mathlib.Data.Set.Finite.Range
import Mathlib.Data.Set.Finite.List
import Std.Data.String.ToNat

/-!
# Variables of a model function: `MetaBayesianNet` with `scope` and `reuse_variables`, and `reuse_variables(scope)`

The TensorFlow 1 variable store is part of the model: `tf.get_variable`, `tf.variable_scope` and `tf.make_template`.
A variable is identified by its full name, a path of scope names (there is at most one variable of a name in the
store).  Scope names are single path components (no `/`).  All variables are trainable.
-/

set_option autoImplicit false

namespace ZhuSuan.Vars

/-- A full scope or variable name, outermost scope first.  (names passed at framework/meta_bn.py 57, 103,
framework/utils.py 107) -/
abbrev Path := List String

/-- The configuration of a `MetaBayesianNet`: `scope` and `reuse_variables`.  (framework/meta_bn.py 54–55) -/
structure Cfg where
  scope : Option String
  reuse : Bool

/-- `MetaBayesianNet.__init__`: `false` is the `ValueError` of `reuse_variables` without `scope`.
(framework/meta_bn.py 54–67) -/
def Cfg.constructs (c : Cfg) : Bool :=
  if c.scope.isSome && c.reuse then true
  else if c.reuse then false
  else true

/-- The state of the object returned by `tf.make_template`: the captured scope with its reuse flag, once called;
and `_variables_created`.  (TensorFlow; made at framework/meta_bn.py 57, framework/utils.py 107) -/
structure Template where
  scope : Option (Path × Bool)
  created : Bool

/-- The variable store: variables by full name; the scope names with a nonzero count in `variable_scopes_count`
(TensorFlow only asks whether the count is 0); and the templates of the nets.  (TensorFlow; used at
framework/meta_bn.py 57, 103) -/
structure Store (M : Type) where
  vars : List Path
  opened : List Path
  tmpl : M → Template

/-- How a piece of Python code ends.  (framework/meta_bn.py 87–91) -/
inductive Outcome where
  | ok
  | raised
  deriving DecidableEq

/-- What model functions and their callers do with variables: `tf.get_variable(name)`,
`with tf.variable_scope(name, reuse=r or None)`, `with tf.variable_scope(None, default_name=name)` (as in
`tf.layers`), an exception, and `observe` of a net, whose model function does `body` in this call.  (callers and
model functions `f` of framework/meta_bn.py 54–105) -/
inductive Prog (M : Type) where
  | skip
  | get (name : String)
  | raise
  | seq (p q : Prog M)
  | scope (name : String) (reuse : Bool) (body : Prog M)
  | dscope (name : String) (body : Prog M)
  | observe (m : M) (body : Prog M)

/-- `prefix + ("_%d" % idx)`.  (TensorFlow `_get_unique_variable_scope`; reached from framework/meta_bn.py 57) -/
def numbered (n : String) (i : ℕ) : String := n ++ ("_" ++ Nat.repr i)

theorem numbered_injective (n : String) : Function.Injective (numbered n) := by
  intro i j h
  unfold numbered at h
  have h1 : Nat.repr i = Nat.repr j := by
    have := congrArg String.toList h
    simp only [String.toList_append] at this
    exact String.toList_injective (List.append_cancel_left (List.append_cancel_left this))
  have h2 := Nat.toNat?_repr i
  rw [h1, Nat.toNat?_repr j] at h2
  exact (Option.some.inj h2).symm

theorem exists_free (opened : List Path) (cur : Path) (n : String) :
    ∃ i, 1 ≤ i ∧ cur ++ [numbered n i] ∉ opened := by
  by_contra hcon
  push Not at hcon
  have hinj : Function.Injective (fun i : ℕ => cur ++ [numbered n (i + 1)]) := by
    intro i j h
    have h1 := List.append_cancel_left h
    have h2 : numbered n (i + 1) = numbered n (j + 1) := by simpa using h1
    have := numbered_injective n h2
    omega
  have hfin : (Set.range (fun i : ℕ => cur ++ [numbered n (i + 1)])).Finite :=
    Set.Finite.subset (List.finite_toSet opened) (by
      rintro _ ⟨i, rfl⟩
      exact hcon (i + 1) (by omega))
  exact (Set.infinite_range_of_injective hinj) hfin

/-- `_get_unique_variable_scope(prefix)`: the prefix itself if no such scope is counted, else the first free
`prefix_1`, `prefix_2`, ...  (TensorFlow; reached from framework/meta_bn.py 57) -/
def unique (opened : List Path) (cur : Path) (n : String) : String :=
  if cur ++ [n] ∉ opened then n else numbered n (Nat.find (exists_free opened cur n))

/-- `p` lies strictly below `q`.  (TensorFlow `k.startswith(scope_name + "/")`; reached from framework/meta_bn.py
103) -/
def Below (q p : Path) : Prop := ∃ x, x ≠ [] ∧ p = q ++ x

instance (q p : Path) : Decidable (Below q p) :=
  decidable_of_iff (q <+: p ∧ q ≠ p) (by
    constructor
    · rintro ⟨⟨x, rfl⟩, h⟩
      exact ⟨x, by rintro rfl; simp at h, rfl⟩
    · rintro ⟨x, hx, rfl⟩
      exact ⟨⟨x, rfl⟩, by intro h; exact hx (by simpa using h.symm)⟩)

section
variable {M : Type}

/-- `open_variable_scope`.  (TensorFlow; reached from framework/meta_bn.py 57, 103) -/
def Store.open (s : Store M) (p : Path) : Store M := { s with opened := p :: s.opened }

/-- `close_variable_subscopes`: the counts below `p` become 0.  (TensorFlow; reached from framework/meta_bn.py
103) -/
def Store.close (s : Store M) (p : Path) : Store M :=
  { s with opened := s.opened.filter (fun q => decide (¬ Below p q)) }

/-- `tf.get_variable(name)` in scope `cur` with the scope's reuse flag: an error when reusing a variable that does
not exist, or creating one that does.  (TensorFlow; called by model functions `f` of framework/meta_bn.py 87–91) -/
def getVariable (name : String) (cur : Path) (reuse : Bool) (s : Store M) : Outcome × List Path × Store M :=
  let v := cur ++ [name]
  if reuse then
    if v ∈ s.vars then (.ok, [v], s) else (.raised, [], s)
  else
    if v ∈ s.vars then (.raised, [], s) else (.ok, [v], { s with vars := s.vars ++ [v] })

/-- The end of `Template._call_func`: after the first call, creating variables is a `ValueError`; otherwise
`_variables_created` is set.  (TensorFlow; reached from framework/meta_bn.py 57) -/
def finish [DecidableEq M] (m : M) (before : ℕ) (r : Outcome × List Path × Store M) :
    Outcome × List Path × Store M :=
  match r with
  | (.raised, t, s) => (.raised, t, s)
  | (.ok, t, s) =>
    if (s.tmpl m).created && decide (s.vars.length ≠ before) then (.raised, t, s)
    else (.ok, t, { s with tmpl := Function.update s.tmpl m { s.tmpl m with created := true } })

/-- Running code in a scope: the outcome, the variables returned by `get_variable` in order, and the store.
`observe` follows `MetaBayesianNet.observe` (a net with `reuse_variables` is called through its template: the
first call makes a scope of a fresh name and keeps it, later calls enter that scope again, reusing variables once
a call has succeeded).  A `with` block leaves its scope also when an exception passes.  (framework/meta_bn.py
54–67, 87–105; framework/utils.py 87–107) -/
def exec [DecidableEq M] (cfg : M → Cfg) : Prog M → Path → Bool → Store M → Outcome × List Path × Store M
  | .skip, _, _, s => (.ok, [], s)
  | .raise, _, _, s => (.raised, [], s)
  | .get n, cur, reuse, s => getVariable n cur reuse s
  | .seq p q, cur, reuse, s =>
    match exec cfg p cur reuse s with
    | (.raised, t, s) => (.raised, t, s)
    | (.ok, t, s) =>
      let r := exec cfg q cur reuse s
      (r.1, t ++ r.2.1, r.2.2)
  | .scope n r body, cur, reuse, s =>
    let p := cur ++ [n]
    let x := exec cfg body p (r || reuse) (s.open p)
    (x.1, x.2.1, x.2.2.close p)
  | .dscope n body, cur, reuse, s =>
    let p := cur ++ [unique s.opened cur n]
    let x := exec cfg body p reuse (s.open p)
    (x.1, x.2.1, x.2.2.close p)
  | .observe m body, cur, reuse, s =>
    match (cfg m).scope, (cfg m).reuse with
    | some n, true =>
      match (s.tmpl m).scope with
      | none =>
        let p := cur ++ [unique s.opened cur n]
        let s' := { s.open p with tmpl := Function.update s.tmpl m { s.tmpl m with scope := some (p, reuse) } }
        let x := finish m s.vars.length (exec cfg body p reuse s')
        (x.1, x.2.1, x.2.2.close p)
      | some (p, r) =>
        let s' := s.open p
        let x := finish m s.vars.length (exec cfg body p ((s.tmpl m).created || r) s')
        (x.1, x.2.1, { x.2.2 with opened := s'.opened })
    | some n, false =>
      let p := cur ++ [n]
      let x := exec cfg body p reuse (s.open p)
      (x.1, x.2.1, x.2.2.close p)
    | none, true => (.raised, [], s)
    | none, false => exec cfg body cur reuse s

/-- A fresh graph: no variables, no scopes, no net observed yet.  (TensorFlow; framework/meta_bn.py 57) -/
def Store.empty : Store M := ⟨[], [], fun _ => ⟨none, false⟩⟩

/-- A script: nets observed one after the other at the root scope, each call with what its model function does;
a script may catch exceptions and go on.  One entry of the result per call: its net, how it ended, and the
variables its model function got.  (callers of framework/meta_bn.py 92–105) -/
def run [DecidableEq M] (cfg : M → Cfg) : List (M × Prog M) → Store M → List (M × Outcome × List Path)
  | [], _ => []
  | (m, body) :: l, s =>
    let x := exec cfg (.observe m body) [] false s
    (m, x.1, x.2.1) :: run cfg l x.2.2

end
end ZhuSuan.Vars

import Verif.Model.HmcGraph
import Verif.Lemmas.Dataflow
import Mathlib.Tactic.DeriveFintype
import Mathlib.Data.Fintype.Sum
import Mathlib.Data.Fintype.Sigma

/-!
# C121  The order in which TensorFlow runs an HMC iteration

The property: whatever order TensorFlow chooses for the operations of an iteration, the variables and the statistics are the same.
This holds if the step size is adapted in this run or was never to be adapted.  It fails when `adapt_step_size` was given and is False
in this run: the step size of the tuner is then assigned without waiting for the trajectory that uses the old one.  Only the first run
after adaptation was switched off is affected.  The theorems are for every interpretation of the operations.
-/

set_option autoImplicit false

namespace ZhuSuan.HmcGraph
open Dataflow

variable {V : Type}

theorem writes_unique (f : Flags) (a b : Op V) (x : Var V) (ha : writes f a = some x) (hb : writes f b = some x) : a = b := by
  cases a <;> cases b <;> simp only [writes, Option.ite_none_right_eq_some, Option.some.injEq, reduceCtorEq] at ha hb ⊢ <;>
    (try (obtain ⟨_, rfl⟩ := ha; simp at hb))
  all_goals simp_all

section Chains

variable (f : Flags) (v : V)

theorem edge {a b : Op V} (h : a ∈ deps f b) : (graph f).Before a b := Relation.TransGen.single h

theorem leapfrog_q : (graph f).Before .leapfrog (.updateQ v) :=
  (edge f (b := .newQ v) (by simp [deps])).trans (edge f (by simp [deps]))

theorem rate_q : (graph f).Before .rate (.updateQ v) :=
  (edge f (b := .ifAccept) (by simp [deps])).trans
    ((edge f (b := .newQ v) (by simp [deps])).trans (edge f (by simp [deps])))

theorem oldLogProb_q : (graph f).Before .oldLogProb (.updateQ v) :=
  (edge f (b := .oldHamiltonian) (by simp [deps])).trans ((edge f (b := .rate) (by simp [deps])).trans (rate_q f v))

theorem newStepSize_q : (graph f).Before .newStepSize (.updateQ v) :=
  (edge f (b := .leapfrog) (by simp [deps])).trans (leapfrog_q f v)

theorem newVar_q (h1 : f.adaptsMass = true) (h2 : f.adaptMass = true) (w : V) : (graph f).Before (.newVar w) (.updateQ v) :=
  (edge f (b := .updateVar w) (by simp [deps])).trans
    ((edge f (b := .newMass w) (by simp [deps, h2])).trans
      ((edge f (b := .mass) (by simp [deps, h1])).trans
        ((edge f (b := .leapfrog) (by simp [deps])).trans (leapfrog_q f v))))

theorem newStepSize_updateStepSize (h : f.adaptStep = true) : (graph f).Before (.newStepSize : Op V) .updateStepSize :=
  (edge f (b := .leapfrog) (by simp [deps])).trans
    ((edge f (b := .newLogProb) (by simp [deps])).trans
      ((edge f (b := .rate) (by simp [deps])).trans
        ((edge f (b := .hBar) (by simp [deps])).trans
          ((edge f (b := .logEps) (by simp [deps])).trans
            ((edge f (b := .tuned) (by simp [deps, h])).trans (edge f (by simp [deps])))))))

end Chains

/-- Every operation that reads a variable runs before the variable is assigned, or assigns it, except the one that takes the step size when the
step size is assigned without being adapted. -/
theorem ordered (f : Flags) (r w : Op V) (x : Var V) (hr : x ∈ reads f r) (hw : writes f w = some x)
    (h : f.adaptsStep = true → f.adaptStep = true ∨ x ≠ .stepSize) :
    r = w ∨ (graph f).Before r w := by
  cases w <;>
    simp only [writes, Option.ite_none_right_eq_some, Option.some.injEq, reduceCtorEq, Bool.and_eq_true] at hw
  case newT => obtain ⟨_, rfl⟩ := hw; cases r <;> simp_all [reads]
  case ewmvT => obtain ⟨_, rfl⟩ := hw; cases r <;> simp_all [reads]
  case updateMean v =>
    obtain ⟨_, rfl⟩ := hw
    cases r <;> simp [reads] at hr
    case incr w => obtain ⟨rfl, -⟩ := hr; exact .inr (edge f (by simp [deps]))
    case updateMean w => obtain ⟨rfl, -⟩ := hr; exact .inl rfl
  case updateVar v =>
    obtain ⟨hm, rfl⟩ := hw
    cases r <;> simp [reads] at hr
    case newVar w => obtain ⟨rfl, -⟩ := hr; exact .inr (edge f (by simp [deps]))
    case newMass w => rw [hm.2] at hr; exact absurd hr.2.2 (by simp)
  case updateQ v =>
    subst hw
    cases r <;> simp [reads] at hr
    case incr w =>
      obtain ⟨rfl, h1, h2⟩ := hr
      exact .inr ((edge f (b := .newVar v) (by simp [deps])).trans (newVar_q f v h1 h2 v))
    case newVar w =>
      obtain ⟨rfl, h1, h2⟩ := hr
      exact .inr (newVar_q f v h1 h2 v)
    case newStepSize => exact .inr (newStepSize_q f v)
    case leapfrog => exact .inr (leapfrog_q f v)
    case oldLogProb => exact .inr (oldLogProb_q f v)
    case newQ w => subst hr; exact .inr (edge f (by simp [deps]))
  case step => obtain ⟨_, rfl⟩ := hw; cases r <;> simp_all [reads]
  case hBar => obtain ⟨_, rfl⟩ := hw; cases r <;> simp_all [reads]
  case logEpsBar => obtain ⟨_, rfl⟩ := hw; cases r <;> simp_all [reads]
  case updateStepSize =>
    obtain ⟨h1, rfl⟩ := hw
    cases r <;> simp [reads] at hr
    case newStepSize => exact .inr (newStepSize_updateStepSize f ((h h1).resolve_right (by simp)))

/-- C121.  If the step size is adapted in this run, or `adapt_step_size` was not given, then the outputs of all operations and the
variables after the run do not depend on the order. -/
theorem C121_order_partial {U : Type} (f : Flags) (h : f.adaptsStep = true → f.adaptStep = true) (I : Interp (graph (V := V) f) U)
    (st : Store (Op V) (Var V) U) (l l' : List (Op V)) (hl : (graph f).Order l) (hl' : (graph f).Order l') :
    I.run st l = I.run st l' :=
  deterministic (writes_unique f)
    (fun r w x hr hw => (ordered f r w x hr hw fun h1 => .inl (h h1)).imp_right .inl) I st l l' hl hl'

/-- The hypotheses are met: everything is adapted, or nothing is. -/
example : ((⟨true, true, true, true⟩ : Flags).adaptsStep = true → (⟨true, true, true, true⟩ : Flags).adaptStep = true) ∧
    ((⟨false, false, false, false⟩ : Flags).adaptsStep = true → (⟨false, false, false, false⟩ : Flags).adaptStep = true) := by simp

/-- C121.  An operation that reads a variable finds the value from the beginning of the run, whenever it runs, and so does TensorFlow
if it takes the value earlier.  The step size is excepted if it is assigned without being adapted. -/
theorem C121_reads_partial {U : Type} (f : Flags) (I : Interp (graph (V := V) f) U) (st : Store (Op V) (Var V) U) (l p q : List (Op V))
    (n : Op V) (hl : (graph f).Order l) (e : l = p ++ n :: q) (x : Var V) (hx : x ∈ (graph f).reads n)
    (h : f.adaptsStep = true → f.adaptStep = true ∨ x ≠ .stepSize) : (I.run st p).var x = st.var x := by
  refine var_unwritten I st p x fun w hw hwx => ?_
  have hn : n ∉ p := fun hn => by
    have := hl.nodup
    rw [e] at this
    exact (List.nodup_append.1 this).2.2 n hn n (by simp) rfl
  rcases ordered f n w x hx hwx h with rfl | hb
  · exact hn hw
  · exact hn (hl.closed p (n :: q) e n w hb hw)

/-! ## Adaptation switched off -/

/-- What a run with adaptation switched off assigns to the step size: `exp(log_epsilon_bar)`. -/
def tunedStepSize {U : Type} {f : Flags} (I : Interp (graph (V := V) f) U) (st : Store (Op V) (Var V) U) : U :=
  I.eval .updateStepSize (fun _ => I.eval .tuned st.out st.var) st.var

section Off
variable {U : Type} {f : Flags} (h1 : f.adaptsStep = true) (h2 : f.adaptStep = false) (G : Graph (Op V) (Var V))
  (hd : G.deps = deps f) (hr : G.reads = reads f) (hw : ∀ n, G.writes n ≠ some .logEpsBar)
include h2 hd hr hw

theorem tuned_out (I : Interp G U) (st : Store (Op V) (Var V) U) (l : List (Op V)) (hl : G.Order l) :
    (I.run st l).out .updateStepSize = I.eval .updateStepSize (fun _ => I.eval .tuned st.out st.var) st.var := by
  obtain ⟨p, q, e⟩ := List.append_of_mem (hl.all .updateStepSize)
  have ht : Op.tuned ∈ p := hl.deps p .updateStepSize q e .tuned (by rw [hd]; simp [deps])
  obtain ⟨a, b, e2⟩ := List.append_of_mem ht
  have hnd := hl.nodup
  rw [e] at hnd ⊢
  rw [out_at I st p _ q hnd]
  apply I.local_
  · intro m hm
    rw [hd] at hm
    obtain rfl : m = .tuned := by simpa [deps] using hm
    have hp := (List.nodup_append.1 hnd).1
    rw [e2] at hp ⊢
    rw [out_at I st a _ b hp]
    apply I.local_
    · intro m hm; rw [hd] at hm; simp [deps, h2] at hm
    · intro x hx
      rw [hr] at hx
      obtain ⟨rfl, -⟩ : x = .logEpsBar ∧ _ := by simpa [reads] using hx
      exact var_unwritten I st a _ fun w _ => hw w
  · intro x hx; rw [hr] at hx; simp [reads] at hx

end Off

theorem logEpsBar_unwritten {f : Flags} (h2 : f.adaptStep = false) (n : Op V) : writes f n ≠ some .logEpsBar := by
  cases n <;> simp [writes, h2]

/-- C121.  With adaptation switched off, the step size after the run is `exp(log_epsilon_bar)` in every order. -/
theorem C121_off_step_size {U : Type} (f : Flags) (h1 : f.adaptsStep = true) (h2 : f.adaptStep = false)
    (I : Interp (graph (V := V) f) U) (st : Store (Op V) (Var V) U) (l : List (Op V)) (hl : (graph f).Order l) :
    (I.run st l).var .stepSize = tunedStepSize I st := by
  rw [var_written I st (writes_unique f) l hl.nodup .stepSize .updateStepSize (hl.all _) (by simp [graph, writes, h1])]
  exact tuned_out h2 (graph f) rfl rfl (logEpsBar_unwritten h2) I st l hl

/-- C121.  If the step size already is `exp(log_epsilon_bar)`, then a run with adaptation switched off does not depend on the order. -/
theorem C121_off_order_partial {U : Type} (f : Flags) (h2 : f.adaptStep = false) (I : Interp (graph (V := V) f) U)
    (st : Store (Op V) (Var V) U) (hs : st.var .stepSize = tunedStepSize I st) (l l' : List (Op V)) (hl : (graph f).Order l)
    (hl' : (graph f).Order l') : I.run st l = I.run st l' := by
  classical
  let G : Graph (Op V) (Var V) := ⟨deps f, reads f, fun n => if n = .updateStepSize then none else writes f n⟩
  have hO : ∀ l, (graph f).Order l → G.Order l := fun l h => ⟨h.nodup, h.all, h.deps⟩
  let J : Interp G U := ⟨I.eval, I.local_⟩
  have hG : ∀ n x, G.writes n = some x → writes f n = some x := by
    intro n x hx
    change (if n = _ then none else writes f n) = some x at hx
    split at hx
    · simp at hx
    · exact hx
  have hGs : ∀ n, G.writes n ≠ some .stepSize := by
    intro n hx
    change (if n = _ then none else writes f n) = some _ at hx
    split at hx
    · simp at hx
    · rename_i hn
      cases n <;> simp [writes] at hx hn
  have hJ : J.run st l = J.run st l' := by
    refine deterministic (fun a b x ha hb => writes_unique f a b x (hG a x ha) (hG b x hb)) (fun r w x hr hw => ?_) J st l l' (hO l hl)
      (hO l' hl')
    have hx : x ≠ .stepSize := by rintro rfl; exact hGs w hw
    exact (ordered f r w x hr (hG w x hw) fun _ => .inr hx).imp_right .inl
  have same : ∀ l, (graph f).Order l → ∀ p q, l = p ++ q → I.run st p = J.run st p := by
    intro l hl p
    induction p using List.reverseRecOn with
    | nil => intro q _; rfl
    | append_singleton p n ih =>
      intro q e
      have e' : l = p ++ n :: q := by rw [e]; simp
      rw [run_append, run_append, ih (n :: q) e']
      change I.run1 (J.run st p) n = J.run1 (J.run st p) n
      by_cases hn : n = .updateStepSize
      · subst hn
        have hv : I.eval .updateStepSize (J.run st p).out (J.run st p).var = (J.run st p).var .stepSize := by
          rw [var_unwritten J st p .stepSize fun w _ => hGs w, hs]
          have := tuned_out h2 G rfl rfl (fun n hx => logEpsBar_unwritten h2 n (hG n _ hx)) J st l (hO l hl)
          have hnd := hl.nodup
          rw [e'] at this hnd
          rw [out_at J st p _ q hnd] at this
          exact this
        simp only [Interp.run1]
        congr 1
        have hJn : G.writes .updateStepSize = none := by simp [G]
        simp only [hJn]
        by_cases hf : f.adaptsStep = true
        · have : (graph f).writes (.updateStepSize : Op V) = some .stepSize := by simp [graph, writes, hf]
          simp only [this, hv, Function.update_eq_self]
        · have : (graph f).writes (.updateStepSize : Op V) = none := by simp [graph, writes, hf]
          simp only [this]
      · have : (graph f).writes n = G.writes n := by simp [graph, G, hn]
        simp only [Interp.run1, this]
        rfl
  rw [same l hl l [] (by simp), same l' hl' l' [] (by simp), hJ]

/-- C121.  So only the first run after adaptation was switched off depends on the order: after a run with adaptation switched off, in
any order, the next such run does not. -/
theorem C121_settles {U : Type} (f : Flags) (h1 : f.adaptsStep = true) (h2 : f.adaptStep = false)
    (I : Interp (graph (V := V) f) U) (st : Store (Op V) (Var V) U) (l0 : List (Op V)) (h0 : (graph f).Order l0)
    (J : Interp (graph (V := V) f) U) (hJ : ∀ out var, J.eval .tuned out var = I.eval .tuned out var)
    (hJ' : ∀ out var, J.eval .updateStepSize out var = I.eval .updateStepSize out var)
    (l l' : List (Op V)) (hl : (graph f).Order l) (hl' : (graph f).Order l') :
    J.run (I.run st l0) l = J.run (I.run st l0) l' := by
  refine C121_off_order_partial f h2 J _ ?_ l l' hl hl'
  rw [C121_off_step_size f h1 h2 I st l0 h0]
  unfold tunedStepSize
  rw [hJ', hJ]
  apply I.local_
  · intro m _
    apply I.local_
    · intro m hm; simp [graph, deps, h2] at hm
    · intro x hx
      obtain ⟨rfl, -⟩ : x = .logEpsBar ∧ _ := by simpa [graph, reads] using hx
      exact (var_unwritten I st l0 _ fun w _ => logEpsBar_unwritten h2 w).symm
  · intro x hx; simp [graph, reads] at hx

/-! ## The race -/

deriving instance Fintype for Op

/-- A rank of the operations that grows along their inputs; `late` puts the assignment of the step size last. -/
def rank (late : Bool) (f : Flags) : Op V → ℕ
  | .newT => 0 | .ewmvT => 0 | .weight => 1 | .incr _ => 2 | .updateMean _ => 3 | .newVar _ => 4 | .updateVar _ => 5
  | .newMass _ => 6 | .mass => 7 | .momentum => 8 | .newStepSize => 9 | .leapfrog => 10
  | .oldLogProb => 0 | .oldHamiltonian => 11 | .newLogProb => 11 | .newHamiltonian => 12 | .rate => 13 | .ifAccept => 14
  | .newQ _ => 15 | .updateQ _ => 16 | .logProb => 15
  | .step => 1 | .hBar => 14 | .logEps => 15 | .logEpsBar => 16
  | .tuned => if late || f.adaptStep then 17 else 0
  | .updateStepSize => if late || f.adaptStep then 18 else 1
  | .sampleOp => 19

theorem rank_lt (late : Bool) (f : Flags) (m n : Op V) (h : m ∈ (graph f).deps n) : rank late f m < rank late f n := by
  change m ∈ deps f n at h
  cases n <;> simp only [deps, Set.mem_insert_iff, Set.mem_singleton_iff, Set.mem_empty_iff_false, Set.mem_ofPred_eq] at h
  case newMass v => obtain ⟨rfl, -⟩ := h; simp [rank]
  case mass => rcases h with ⟨-, rfl | ⟨v, rfl⟩⟩ <;> simp [rank]
  case newStepSize => rcases h with ⟨-, rfl | rfl | rfl⟩ <;> simp [rank]
  case tuned => rcases h with ⟨h, rfl | rfl⟩ <;> simp [rank, h]
  case updateStepSize => subst h; simp only [rank]; split <;> omega
  case sampleOp =>
    rcases h with ⟨v, rfl⟩ | ⟨-, rfl⟩
    · simp [rank]
    · simp only [rank]; split <;> omega
  all_goals (rcases h with rfl | rfl | rfl <;> simp [rank])

/-- There are orders. -/
example [Fintype V] (f : Flags) : ∃ l, (graph (V := V) f).Order l :=
  let ⟨l, h, _⟩ := exists_order (rank true f) (rank_lt (V := V) true f)
  ⟨l, h⟩

/-- C121, finding.  If `adapt_step_size` was given and is False in this run, there is an order in which the trajectory uses the step
size that the variable held, and one in which it uses the step size assigned in the same run. -/
theorem C121_order_refuted {U : Type} [Fintype V] (f : Flags) (h1 : f.adaptsStep = true) (h2 : f.adaptStep = false)
    (I : Interp (graph (V := V) f) U) (st : Store (Op V) (Var V) U) :
    (∃ l p q, (graph f).Order l ∧ l = p ++ .newStepSize :: q ∧ (I.run st p).var .stepSize = st.var .stepSize) ∧
    (∃ l p q, (graph f).Order l ∧ l = p ++ .newStepSize :: q ∧
      (I.run st p).var .stepSize = (I.run st l).out .updateStepSize) := by
  constructor
  · obtain ⟨l, hl, hr⟩ := exists_order (rank true f) (rank_lt (V := V) true f)
    obtain ⟨p, q, e⟩ := List.append_of_mem (hl.all .newStepSize)
    refine ⟨l, p, q, hl, e, var_unwritten I st p _ fun w hw hx => ?_⟩
    obtain rfl : w = .updateStepSize := writes_unique f w .updateStepSize .stepSize hx (by simp [writes, h1])
    obtain ⟨a, b, e2⟩ := List.append_of_mem hw
    have := hr a .updateStepSize (b ++ .newStepSize :: q) (by rw [e, e2]; simp) .newStepSize (by simp [rank])
    have hnd := hl.nodup
    rw [e] at hnd
    exact (List.nodup_append.1 hnd).2.2 .newStepSize (by rw [e2]; simp [this]) .newStepSize (by simp) rfl
  · obtain ⟨l, hl, hr⟩ := exists_order (rank false f) (rank_lt (V := V) false f)
    obtain ⟨p, q, e⟩ := List.append_of_mem (hl.all .newStepSize)
    have hu := hr p .newStepSize q e .updateStepSize (by simp [rank, h2])
    have hnd := hl.nodup
    refine ⟨l, p, q, hl, e, ?_⟩
    rw [e] at hnd ⊢
    rw [var_written I st (writes_unique f) p (List.nodup_append.1 hnd).1 .stepSize .updateStepSize hu (by simp [graph, writes, h1]),
      out_prefix I st p _ hnd .updateStepSize hu]

/-- Operations that pass on the step size: the trajectory ends at the step size it used, the proposal is accepted, and
`exp(log_epsilon_bar)` is 1. -/
def witness (f : Flags) : Interp (graph (V := V) f) ℕ where
  eval n out var := match n with
    | .newStepSize => var .stepSize
    | .leapfrog => out .newStepSize
    | .newQ _ => out .leapfrog
    | .updateQ v => out (.newQ v)
    | .tuned => 1
    | .updateStepSize => out .tuned
    | _ => 0
  local_ := by
    intro n v v' s s' h h'
    cases n <;> try rfl
    case newStepSize => exact h' _ (by simp [graph, reads])
    case leapfrog => exact h _ (by simp [graph, deps])
    case newQ => exact h _ (by simp [graph, deps])
    case updateQ => exact h _ (by simp [graph, deps])
    case updateStepSize => exact h _ (by simp [graph, deps])

/-- C121, finding.  With adaptation given but switched off, the sample after the run can depend on the order. -/
theorem C121_sample_refuted [Fintype V] (f : Flags) (h1 : f.adaptsStep = true) (h2 : f.adaptStep = false) (v : V) :
    ∃ (I : Interp (graph (V := V) f) ℕ) (st : Store (Op V) (Var V) ℕ) (l l' : List (Op V)), (graph f).Order l ∧ (graph f).Order l' ∧
      (I.run st l).var (.q v) ≠ (I.run st l').var (.q v) := by
  have key : ∀ (st : Store (Op V) (Var V) ℕ) (p q : List (Op V)), (graph f).Order (p ++ .newStepSize :: q) →
      ((witness f).run st (p ++ .newStepSize :: q)).var (.q v) = ((witness f).run st p).var .stepSize := by
    intro st p q hl
    have step : ∀ n, ∃ s, ((witness f).run st (p ++ .newStepSize :: q)).out n =
        (witness f).eval n ((witness f).run st (p ++ .newStepSize :: q)).out s := by
      intro n
      obtain ⟨a, b, e⟩ := List.append_of_mem (hl.all n)
      rw [e] at hl ⊢
      exact ⟨_, out_final _ st a n b hl⟩
    rw [var_written _ st (writes_unique f) _ hl.nodup (.q v) (.updateQ v) (hl.all _) (by simp [graph, writes])]
    obtain ⟨_, e1⟩ := step (.updateQ v)
    obtain ⟨_, e2⟩ := step (.newQ v)
    obtain ⟨_, e3⟩ := step .leapfrog
    rw [e1]
    refine e2.trans (e3.trans ?_)
    exact out_final (witness f) st p .newStepSize q hl
  obtain ⟨⟨l, p, q, hl, e, ha⟩, l', p', q', hl', e', hb⟩ := C121_order_refuted f h1 h2 (witness f)
    (⟨fun _ => 0, fun _ => 0⟩ : Store (Op V) (Var V) ℕ)
  refine ⟨witness f, ⟨fun _ => 0, fun _ => 0⟩, l, l', hl, hl', ?_⟩
  have hb' : ((witness f).run ⟨fun _ => 0, fun _ => 0⟩ l').out .updateStepSize = 1 :=
    tuned_out h2 (graph f) rfl rfl (logEpsBar_unwritten h2) (witness f) _ l' hl'
  subst e e'
  rw [key _ p q hl, key _ p' q' hl', ha, hb, hb']
  simp

end ZhuSuan.HmcGraph

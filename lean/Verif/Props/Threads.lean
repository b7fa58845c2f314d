import Verif.Model.Threads
import Mathlib.Algebra.BigOperators.Group.Finset.Basic
import Mathlib.Algebra.Order.BigOperators.Group.Finset
import Mathlib.Data.Fintype.Basic
import Mathlib.Data.Int.Order.Basic
import Mathlib.Algebra.BigOperators.Ring.Finset

/-!
# C118: building models in several threads

English: when several threads build models, each `BayesianNet()` should belong to the innermost `observe` of its own thread.  This holds if the `observe` calls of the threads do not
overlap, for example under a lock.  It is false in general: a net takes the observations of another thread's `observe`, even of one that has ended.  In all interleavings the stack is
restored in the end, and leaving a block never fails.
-/
set_option autoImplicit false

namespace ZhuSuan.Threads

variable {T X : Type}

/-- The steps of a thread that uses `with` blocks only: every block that is entered is left, in the order of nesting. -/
inductive Bracketed : List (Act X) → Prop
  | nil : Bracketed []
  | get {p : List (Act X)} : Bracketed p → Bracketed (.get :: p)
  | block {p q : List (Act X)} (x : X) : Bracketed p → Bracketed q → Bracketed (.enter x :: p ++ .exit :: q)

/-- The steps of one thread. -/
def steps [DecidableEq T] (t : T) (h : List (T × Act X)) : List (Act X) := (h.filter fun p => p.1 = t).map Prod.snd

/-- What the calls of `get_context()` should answer: the innermost block that the calling thread has open.  `own t` are the blocks that thread `t` has open, innermost first. -/
def expected [DecidableEq T] : List (T × Act X) → (T → List X) → List (T × Option X)
  | [], _ => []
  | (t, .enter x) :: h, own => expected h (Function.update own t (x :: own t))
  | (t, .get) :: h, own => (t, (own t).head?) :: expected h own
  | (t, .exit) :: h, own => expected h (Function.update own t (own t).tail)

/-- The number of blocks that are open after some steps. -/
def depth : List (Act X) → ℤ
  | [] => 0
  | .enter _ :: p => depth p + 1
  | .get :: p => depth p
  | .exit :: p => depth p - 1

theorem depth_append (p q : List (Act X)) : depth (p ++ q) = depth p + depth q := by
  induction p with
  | nil => simp [depth]
  | cons a p ih => cases a <;> simp [depth, ih] <;> omega

theorem bracketed_depth {p : List (Act X)} (h : Bracketed p) : depth p = 0 ∧ ∀ a b, p = a ++ b → 0 ≤ depth a := by
  induction h with
  | nil =>
    refine ⟨rfl, fun a b e => ?_⟩
    obtain ⟨rfl, _⟩ := List.append_eq_nil_iff.mp e.symm
    simp [depth]
  | get _ ih =>
    refine ⟨by simpa [depth] using ih.1, fun a b e => ?_⟩
    cases a with
    | nil => simp [depth]
    | cons c a =>
      obtain ⟨rfl, e'⟩ := List.cons.inj e
      clear e
      simpa [depth] using ih.2 a b e'
  | @block p q x _ _ ihp ihq =>
    refine ⟨by simp [depth, depth_append, ihp.1, ihq.1], fun a b e => ?_⟩
    cases a with
    | nil => simp [depth]
    | cons c a =>
      obtain ⟨rfl, e'⟩ := List.cons.inj e
      rcases List.append_eq_append_iff.mp (show p ++ .exit :: q = a ++ b from e') with ⟨c, hc, hd⟩ | ⟨c, hc, hd⟩
      · subst hc
        cases c with
        | nil => simp [depth, ihp.1]
        | cons y c =>
          obtain ⟨rfl, e2⟩ := List.cons.inj hd
          have := ihq.2 c b e2
          simp [depth, depth_append, ihp.1, this]
      · have := ihp.2 a c hc
        simp only [depth]
        omega

theorem depth_threads [DecidableEq T] [Fintype T] (h : List (T × Act X)) : depth (h.map Prod.snd) = ∑ t, depth (steps t h) := by
  induction h with
  | nil => simp [steps, depth]
  | cons a h ih =>
    obtain ⟨u, a⟩ := a
    have e : ∀ t, depth (steps t ((u, a) :: h)) = (if u = t then depth [a] else 0) + depth (steps t h) := by
      intro t
      by_cases hu : u = t
      · simp only [steps, List.filter_cons, hu, decide_true, if_true, List.map_cons]
        rw [← List.singleton_append, depth_append]
      · simp [steps, hu]
    simp only [e, Finset.sum_add_distrib, Finset.sum_ite_eq, Finset.mem_univ, if_true, List.map_cons]
    rw [← List.singleton_append, depth_append, ih]

theorem run_above (h : List (T × Act X)) (a s : List X) (hp : ∀ pre suf, h = pre ++ suf → 0 ≤ a.length + depth (pre.map Prod.snd)) :
    ∃ a' tr, run h (a ++ s) = some (a' ++ s, tr) ∧ (a'.length : ℤ) = a.length + depth (h.map Prod.snd) := by
  induction h generalizing a with
  | nil => exact ⟨a, [], rfl, by simp [depth]⟩
  | cons c h ih =>
    obtain ⟨t, c⟩ := c
    cases c with
    | enter x =>
      obtain ⟨a', tr, h1, h2⟩ := ih (x :: a) fun pre suf e => by
        have := hp ((t, .enter x) :: pre) suf (by rw [e]; rfl)
        simp only [List.map_cons, depth] at this
        push_cast [List.length_cons]
        omega
      refine ⟨a', tr, h1, ?_⟩
      simp only [List.map_cons, depth]
      push_cast [List.length_cons] at h2
      omega
    | get =>
      obtain ⟨a', tr, h1, h2⟩ := ih a fun pre suf e => by
        have := hp ((t, .get) :: pre) suf (by rw [e]; rfl)
        simpa only [List.map_cons, depth] using this
      exact ⟨a', (t, (a ++ s).head?) :: tr, by simp [run, h1], by simpa only [List.map_cons, depth] using h2⟩
    | exit =>
      cases a with
      | nil =>
        have := hp [(t, .exit)] h rfl
        simp [depth] at this
      | cons y a =>
        obtain ⟨a', tr, h1, h2⟩ := ih a fun pre suf e => by
          have := hp ((t, .exit) :: pre) suf (by rw [e]; rfl)
          simp only [List.map_cons, depth] at this
          push_cast [List.length_cons] at this
          omega
        refine ⟨a', tr, h1, ?_⟩
        simp only [List.map_cons, depth]
        push_cast [List.length_cons]
        omega

/-- **C118** However the threads are interleaved, no `with` block fails when it is left, and when all threads have ended the stack is what it was at the start. -/
theorem C118_restored [DecidableEq T] [Fintype T] (h : List (T × Act X)) (hb : ∀ t, Bracketed (steps t h)) (s : List X) :
    ∃ answers, run h s = some (s, answers) := by
  obtain ⟨a', tr, h1, h2⟩ := run_above h [] s fun pre suf e => by
    rw [depth_threads]
    have : 0 ≤ ∑ t, depth (steps t pre) := Finset.sum_nonneg fun t _ =>
      (bracketed_depth (hb t)).2 _ (steps t suf) (by rw [e]; simp [steps])
    simpa using this
  rw [depth_threads, Finset.sum_eq_zero fun t _ => (bracketed_depth (hb t)).1] at h2
  have : a' = [] := by simpa using h2
  subst this
  exact ⟨tr, h1⟩

/-- The answers of a thread that runs alone, from a stack. -/
def answers (t : T) : List (Act X) → List X → List (T × Option X)
  | [], _ => []
  | .enter x :: p, s => answers t p (x :: s)
  | .get :: p, s => (t, s.head?) :: answers t p s
  | .exit :: p, s => answers t p s.tail

theorem answers_append (t : T) {p : List (Act X)} (hp : Bracketed p) (r : List (Act X)) (s : List X) :
    answers t (p ++ r) s = answers t p s ++ answers t r s := by
  induction hp generalizing r s with
  | nil => rfl
  | get _ ih => simp [answers, ih]
  | block x _ _ ihp ihq => simp [answers, ihp, ihq]

theorem run_alone (t : T) {p : List (Act X)} (hp : Bracketed p) (h : List (T × Act X)) (s : List X) :
    run (p.map (Prod.mk t) ++ h) s = (run h s).map fun r => (r.1, answers t p s ++ r.2) := by
  induction hp generalizing h s with
  | nil => simp [answers]
  | get _ ih =>
    simp only [List.map_cons, List.cons_append, run, ih, answers, Option.map_map]
    rfl
  | @block p q x hp hq ihp ihq =>
    have e : (Act.enter x :: p ++ Act.exit :: q).map (Prod.mk t) ++ h =
        (t, .enter x) :: (p.map (Prod.mk t) ++ ((t, .exit) :: (q.map (Prod.mk t) ++ h))) := by simp
    rw [e]
    simp only [run, ihp, ihq, Option.map_map, answers, answers_append t hp, List.cons_append, List.tail_cons]
    congr 1
    funext r
    simp

theorem expected_alone [DecidableEq T] (t : T) {p : List (Act X)} (hp : Bracketed p) (h : List (T × Act X)) (own : T → List X) :
    expected (p.map (Prod.mk t) ++ h) own = answers t p (own t) ++ expected h own := by
  induction hp generalizing h own with
  | nil => simp [answers]
  | get _ ih => simp only [List.map_cons, List.cons_append, expected, ih, answers]
  | @block p q x hp hq ihp ihq =>
    have e : (Act.enter x :: p ++ Act.exit :: q).map (Prod.mk t) ++ h =
        (t, .enter x) :: (p.map (Prod.mk t) ++ ((t, .exit) :: (q.map (Prod.mk t) ++ h))) := by simp
    have e2 : Function.update (Function.update own t (x :: own t)) t (Function.update own t (x :: own t) t).tail = own := by
      simp
    rw [e]
    simp only [expected, ihp]
    rw [e2, ihq]
    simp [answers, answers_append t hp]

/-- **C118** If the threads take turns and each turn is a complete program of `with` blocks, every `get_context()` answers with the innermost block that its own thread has
open, and fails if there is none. -/
theorem C118_turns_partial [DecidableEq T] (turns : List (T × List (Act X))) (hb : ∀ p ∈ turns, Bracketed p.2) :
    run (turns.flatMap fun p => p.2.map (Prod.mk p.1)) [] =
      some ([], expected (turns.flatMap fun p => p.2.map (Prod.mk p.1)) fun _ => []) := by
  induction turns with
  | nil => rfl
  | cons a l ih =>
    have ha := hb a (List.mem_cons_self ..)
    rw [List.flatMap_cons, run_alone a.1 ha, expected_alone a.1 ha, ih fun p hp => hb p (List.mem_cons_of_mem _ hp)]
    rfl

/-- **C118** The full claim is false for any two threads and contexts.  When the blocks of two threads overlap, the first thread gets the context of the second, and then the second
gets the context of the first, which has been left already. -/
theorem C118_overlap_refuted [DecidableEq T] {t u : T} (htu : t ≠ u) (x y : X) :
    let h : List (T × Act X) := [(t, .enter x), (u, .enter y), (t, .get), (t, .exit), (u, .get), (u, .exit)]
    Bracketed (steps t h) ∧ Bracketed (steps u h) ∧
    run h [] = some ([], [(t, some y), (u, some x)]) ∧ expected h (fun _ => []) = [(t, some x), (u, some y)] := by
  have hp : ∀ z : X, Bracketed [Act.enter z, .get, .exit] := fun z => .block (p := [.get]) (q := []) z (.get .nil) .nil
  refine ⟨?_, ?_, rfl, ?_⟩
  · simpa [steps, htu.symm] using hp x
  · simpa [steps, htu] using hp y
  · simp [expected, htu, htu.symm]

/-- **C118** Nor outside of blocks: a net that a thread makes outside of any `observe` takes the observations of another thread's `observe`. -/
theorem C118_outside_refuted [DecidableEq T] {t u : T} (htu : t ≠ u) (x : X) :
    let h : List (T × Act X) := [(t, .enter x), (u, .get), (t, .exit)]
    Bracketed (steps t h) ∧ Bracketed (steps u h) ∧
    run h [] = some ([], [(u, some x)]) ∧ expected h (fun _ => []) = [(u, none)] := by
  refine ⟨?_, ?_, rfl, ?_⟩
  · simpa [steps, htu.symm] using Bracketed.block (p := []) (q := []) x .nil .nil
  · simpa [steps, htu] using Bracketed.get .nil
  · simp [expected, htu.symm]

/-- A concrete case of the turns: thread 0 builds a net inside of two nested blocks, then thread 1 builds one in its own. -/
example : (∀ p ∈ [((0 : Fin 2), [Act.enter 'a', .enter 'b', .get, .exit, .exit]), (1, [.enter 'c', .get, .exit])], Bracketed p.2) ∧
    run ([((0 : Fin 2), [Act.enter 'a', .enter 'b', .get, .exit, .exit]), (1, [.enter 'c', .get, .exit])].flatMap fun p => p.2.map (Prod.mk p.1)) [] =
      some ([], [(0, some 'b'), (1, some 'c')]) := by
  refine ⟨?_, rfl⟩
  simp only [List.mem_cons, List.not_mem_nil, or_false, forall_eq_or_imp, forall_eq]
  exact ⟨.block (p := [.enter 'b', .get, .exit]) (q := []) 'a' (.block (p := [.get]) (q := []) 'b' (.get .nil) .nil) .nil,
    .block (p := [.get]) (q := []) 'c' (.get .nil) .nil⟩

end ZhuSuan.Threads

import Verif.Model.SgGraph
import Verif.Lemmas.Dataflow
import Mathlib.Tactic.DeriveFintype
import Mathlib.Data.Fintype.Sum
import Mathlib.Data.Fintype.Sigma

/-!
# C61, C62  The order in which TensorFlow runs an SGMCMC iteration

What the graphs imply, without taking the computation of a new value as one event: for SGHMC and SGNHT, and for SGLD and PSGLD with one
latent variable, everything but the counter is read before it is assigned.  The theorems are for every interpretation of the operations.
-/

set_option autoImplicit false

namespace ZhuSuan.SgGraph
open Dataflow

variable {V : Type}

theorem writes_unique (k : Kind) (a b : Op V) (x : Var V) (ha : writes k a = some x) (hb : writes k b = some x) : a = b := by
  cases a <;> cases b <;> simp only [writes, Option.ite_none_right_eq_some, Option.some.injEq, reduceCtorEq] at ha hb ⊢ <;>
    (try (obtain ⟨_, rfl⟩ := ha; simp at hb))
  all_goals simp_all

theorem edge (k : Kind) {a b : Op V} (h : a ∈ deps k b) : (graph k).Before a b := Relation.TransGen.single h

/-- SGHMC and SGNHT: whatever reads a variable other than the counter is needed for the new values. -/
theorem reader_barrier (k : Kind) (h : k.mom = true) (r : Op V) (x : Var V) (hr : x ∈ reads k r) (hx : x ≠ .t) :
    ∃ b ∈ barrier (V := V) k, r = b ∨ (graph k).Before r b := by
  cases r <;> simp [reads] at hr
  case oldV v => exact ⟨.newV v, by simp [barrier, h], .inr (edge k (by simp [deps, h]))⟩
  case q1 v =>
    exact ⟨.newV v, by simp [barrier, h], .inr ((edge k (b := .grad v) (by simp [deps, hr])).trans (edge k (by simp [deps, h])))⟩
  case alpha1 v => exact ⟨.newV v, by simp [barrier, h], .inr (edge k (by simp [deps, h, hr.1, hr.2.1]))⟩
  case grad v => exact ⟨.newV v, by simp [barrier, h], .inr (edge k (by simp [deps, h]))⟩
  case newAux v => rw [hr.1] at h; simp [Kind.mom] at h
  case newV v => exact ⟨.newV v, by simp [barrier, h], .inl rfl⟩
  case newQ v => exact ⟨.newQ v, by simp [barrier, h], .inl rfl⟩
  case newAlpha v => exact ⟨.newAlpha v, by simp [barrier, h, hr.1], .inl rfl⟩
  case incT => exact absurd hr hx

theorem ordered (k : Kind) (hk : k.mom = true ∨ Subsingleton V) (r w : Op V) (x : Var V) (hr : x ∈ reads k r)
    (hw : writes k w = some x) (hx : x ≠ .t) : r = w ∨ (graph k).Before r w := by
  by_cases hm : k.mom = true
  · obtain ⟨b, hb, hrb⟩ := reader_barrier k hm r x hr hx
    have hbw : b ∈ deps k w := by
      cases w <;> simp only [writes, Option.ite_none_right_eq_some, Option.some.injEq, reduceCtorEq] at hw
      case newAux => rw [hw.1] at hm; simp [Kind.mom] at hm
      case updateQ v => exact .inr hb
      case updateV v => exact ⟨hm, .inr hb⟩
      case updateAlpha v => exact ⟨hw.1, .inr hb⟩
      case incT => exact absurd hw.symm hx
    rcases hrb with rfl | hrb
    · exact .inr (edge k hbw)
    · exact .inr (hrb.trans (edge k hbw))
  · have hs := hk.resolve_left hm
    have hf : k.friction = false := by cases k <;> simp_all [Kind.mom, Kind.friction]
    cases w <;> simp only [writes, Option.ite_none_right_eq_some, Option.some.injEq, reduceCtorEq] at hw
    case newAux v =>
      obtain ⟨rfl, rfl⟩ := hw
      cases r <;> simp [reads, Kind.mom, Kind.friction] at hr
      case newAux w => subst hr; exact .inl rfl
    case updateQ v =>
      subst hw
      cases r <;> simp [reads] at hr
      case q1 w => cases k <;> simp_all [Kind.second, Kind.mom]
      case grad w =>
        obtain rfl := hs.elim w v
        refine .inr ((edge k (b := .newQ w) ?_).trans (edge k (by simp [deps])))
        cases k <;> simp_all [deps, Kind.mom]
      case newQ w =>
        obtain ⟨-, rfl⟩ := hr
        exact .inr (edge k (by simp [deps]))
    case updateV v => exact absurd hw.1 hm
    case updateAlpha v => rw [hf] at hw; simp at hw
    case incT => exact absurd hw.symm hx

/-- C62, partial: SGHMC and SGNHT, and SGLD and PSGLD with one latent variable.  Whenever an operation runs, the latent variables,
momenta, frictions and averages that it reads have the values from before the iteration.  Missing: SGLD and PSGLD with several latent
variables, where it is false (`C62_graph_refuted`). -/
theorem C62_graph_reads_partial {U : Type} (k : Kind) (hk : k.mom = true ∨ Subsingleton V) (I : Interp (graph (V := V) k) U)
    (st : Store (Op V) (Var V) U) (l p q : List (Op V)) (n : Op V) (hl : (graph k).Order l) (e : l = p ++ n :: q) (x : Var V)
    (hr : x ∈ (graph k).reads n) (hx : x ≠ .t) : (I.run st p).var x = st.var x := by
  refine var_unwritten I st p x fun w hw hwx => ?_
  have hn : n ∉ p := fun hn => by
    have := hl.nodup
    rw [e] at this
    exact (List.nodup_append.1 this).2.2 n hn n (by simp) rfl
  rcases ordered k hk n w x hr hwx hx with rfl | hb
  · exact hn hw
  · exact hn (hl.closed p (n :: q) e n w hb hw)

/-- C62, partial: if moreover momenta are not resampled, the iteration does not depend on the order at all.  Missing: resampling, where
the counter is read and incremented without an order (`C61_graph_refuted`). -/
theorem C62_graph_order_partial {U : Type} (k : Kind) (hk : k.mom = true ∨ Subsingleton V) (hn : k.resample = false)
    (I : Interp (graph (V := V) k) U) (st : Store (Op V) (Var V) U) (l l' : List (Op V)) (hl : (graph k).Order l)
    (hl' : (graph k).Order l') : I.run st l = I.run st l' := by
  refine deterministic (writes_unique k) (fun r w x hr hw => ?_) I st l l' hl hl'
  by_cases hx : x = .t
  · subst hx
    refine .inl ?_
    change _ ∈ reads k r at hr
    change writes k w = _ at hw
    have h1 : r = .incT := by cases r <;> simp [reads, hn] at hr ⊢
    have h2 : w = .incT := by cases w <;> simp [writes] at hw ⊢
    rw [h1, h2]
  · exact (ordered k hk r w x hr hw hx).imp_right .inl

/-- The hypotheses are met: SGHMC without resampling, and SGLD with one latent variable. -/
example : ((Kind.sghmc true false).mom = true ∧ (Kind.sghmc true false).resample = false) ∧
    (Subsingleton Unit ∧ Kind.sgld.resample = false) := ⟨⟨rfl, rfl⟩, inferInstance, rfl⟩

/-! ## Races -/

deriving instance Fintype for Op

/-- A rank that grows along the inputs; `late` puts the increment of the counter last, otherwise it is first. -/
def rank (late : Bool) : Op V → ℕ
  | .incT => if late then 7 else 0
  | .oldV _ => 1 | .q1 _ => 2 | .alpha1 _ => 2 | .grad _ => 3 | .newAux _ => 4 | .newV _ => 5 | .newQ _ => 6 | .newAlpha _ => 6
  | .updateQ _ => 7 | .updateV _ => 7 | .updateAlpha _ => 7 | .sampleOp => 8

theorem rank_lt (late : Bool) (k : Kind) (m n : Op V) (h : m ∈ (graph k).deps n) : rank late m < rank late n := by
  change m ∈ deps k n at h
  have hb : m ∈ barrier k → rank late m < 7 := by
    rintro ⟨-, ⟨v, rfl | rfl⟩ | ⟨-, v, rfl⟩⟩ <;> simp [rank]
  cases n <;> simp only [deps, Set.mem_singleton_iff, Set.mem_empty_iff_false, Set.mem_ofPred_eq] at h
  case q1 => obtain ⟨-, rfl⟩ := h; simp [rank]
  case alpha1 => obtain ⟨-, -, rfl⟩ := h; simp [rank]
  case grad => obtain ⟨-, v, rfl⟩ := h; simp [rank]
  case newAux => subst h; simp [rank]
  case newV => rcases h with ⟨-, rfl | rfl | ⟨-, -, rfl⟩⟩ <;> simp [rank]
  case newQ =>
    cases k <;> simp only at h
    · subst h; simp [rank]
    · rcases h with rfl | rfl <;> simp [rank]
    · rcases h with rfl | ⟨-, rfl⟩ <;> simp [rank]
    · rcases h with rfl | ⟨-, rfl⟩ <;> simp [rank]
  case newAlpha => rcases h with ⟨-, rfl | ⟨-, rfl⟩⟩ <;> simp [rank]
  case updateQ => rcases h with rfl | h; · simp [rank]
                  · exact hb h
  case updateV => rcases h with ⟨-, rfl | h⟩; · simp [rank]
                  · exact hb h
  case updateAlpha => rcases h with ⟨-, rfl | h⟩; · simp [rank]
                      · exact hb h
  case sampleOp =>
    rcases h with rfl | ⟨v, rfl | ⟨-, rfl⟩ | ⟨-, rfl⟩⟩
    · simp only [rank]; split <;> omega
    all_goals simp [rank]

/-- If `w`, which assigns `x`, has run, then `x` has its output; if it has not, `x` has its first value. -/
theorem var_by_order {U : Type} (k : Kind) (I : Interp (graph (V := V) k) U) (st : Store (Op V) (Var V) U) (p q : List (Op V)) (n w : Op V)
    (hl : (graph k).Order (p ++ n :: q)) (x : Var V) (hw : writes k w = some x) :
    (w ∈ p → (I.run st p).var x = (I.run st (p ++ n :: q)).out w) ∧ (w ∉ p → (I.run st p).var x = st.var x) := by
  refine ⟨fun h => ?_, fun h => var_unwritten I st p x fun u hu hux => h (writes_unique k u w x hux hw ▸ hu)⟩
  rw [var_written I st (writes_unique k) p (List.nodup_append.1 hl.nodup).1 x w h hw, out_prefix I st p _ hl.nodup w h]

/-- C61, finding.  With resampling there is an order in which the momenta of a variable are taken with the counter from before the
iteration, and one with the incremented counter. -/
theorem C61_graph_refuted {U : Type} [Fintype V] (k : Kind) (hk : k.resample = true) (v : V) (I : Interp (graph (V := V) k) U)
    (st : Store (Op V) (Var V) U) :
    (.t ∈ (graph k).reads (.oldV v)) ∧
    (∃ l p q, (graph k).Order l ∧ l = p ++ .oldV v :: q ∧ (I.run st p).var .t = st.var .t) ∧
    (∃ l p q, (graph k).Order l ∧ l = p ++ .oldV v :: q ∧ (I.run st p).var .t = (I.run st l).out .incT) := by
  refine ⟨by cases k <;> simp_all [graph, reads, Kind.resample, Kind.mom], ?_, ?_⟩
  · obtain ⟨l, hl, hr⟩ := exists_order (rank true) (rank_lt (V := V) true k)
    obtain ⟨p, q, e⟩ := List.append_of_mem (hl.all (.oldV v))
    refine ⟨l, p, q, hl, e, (var_by_order k I st p q (.oldV v) .incT (e ▸ hl) .t rfl).2 fun hp => ?_⟩
    obtain ⟨a, b, e2⟩ := List.append_of_mem hp
    have := hr a .incT (b ++ .oldV v :: q) (by rw [e, e2]; simp) (.oldV v) (by simp [rank])
    have hnd := hl.nodup
    rw [e] at hnd
    exact (List.nodup_append.1 hnd).2.2 (.oldV v) (by rw [e2]; simp [this]) (.oldV v) (by simp) rfl
  · obtain ⟨l, hl, hr⟩ := exists_order (rank false) (rank_lt (V := V) false k)
    obtain ⟨p, q, e⟩ := List.append_of_mem (hl.all (.oldV v))
    refine ⟨l, p, q, hl, e, ?_⟩
    have := (var_by_order k I st p q (.oldV v) .incT (e ▸ hl) .t rfl).1 (hr p _ q e .incT (by simp [rank]))
    rwa [← e] at this

open scoped Classical in
/-- A rank for samplers without momenta that puts everything for `w` after everything for the others. -/
noncomputable def rankLast (w : V) : Op V → ℕ
  | .incT => 0
  | .oldV _ => 0 | .q1 _ => 0 | .alpha1 _ => 0 | .newV _ => 0 | .newAlpha _ => 0 | .updateV _ => 0 | .updateAlpha _ => 0
  | .grad v => (if v = w then 10 else 0) + 1
  | .newAux v => (if v = w then 10 else 0) + 2
  | .newQ v => (if v = w then 10 else 0) + 3
  | .updateQ v => (if v = w then 10 else 0) + 4
  | .sampleOp => 20

theorem rankLast_lt (w : V) (k : Kind) (hm : k.mom = false) (m n : Op V) (h : m ∈ (graph k).deps n) : rankLast w m < rankLast w n := by
  have hk : k = .sgld ∨ k = .psgld := by cases k <;> simp_all [Kind.mom]
  change m ∈ deps k n at h
  have hb : m ∉ barrier k := by simp [barrier, hm]
  cases n <;> rcases hk with rfl | rfl <;>
    simp [deps, Kind.second, Kind.mom, Kind.friction, hb] at h
  case sampleOp.inl => rcases h with rfl | ⟨v, rfl⟩ <;> simp only [rankLast] <;> first | omega | (split <;> omega)
  case sampleOp.inr => rcases h with rfl | ⟨v, rfl⟩ <;> simp only [rankLast] <;> first | omega | (split <;> omega)
  case newQ.inr v => rcases h with rfl | rfl <;> simp [rankLast]
  all_goals (subst h; simp [rankLast])

/-- C62, finding.  SGLD and PSGLD with several latent variables: there is an order in which the gradient for `w` sees the values of the
other latent variables from before the iteration, and one in which it sees their new values. -/
theorem C62_graph_refuted {U : Type} [Fintype V] (k : Kind) (hm : k.mom = false) (v w : V) (hvw : v ≠ w) (I : Interp (graph (V := V) k) U)
    (st : Store (Op V) (Var V) U) :
    (.q v ∈ (graph k).reads (.grad w)) ∧
    (∃ l p q, (graph k).Order l ∧ l = p ++ .grad w :: q ∧ (I.run st p).var (.q v) = st.var (.q v)) ∧
    (∃ l p q, (graph k).Order l ∧ l = p ++ .grad w :: q ∧ (I.run st p).var (.q v) = (I.run st l).out (.updateQ v)) := by
  refine ⟨by cases k <;> simp_all [graph, reads, Kind.second, Kind.mom], ?_, ?_⟩
  · obtain ⟨l, hl, hr⟩ := exists_order (rank true) (rank_lt (V := V) true k)
    obtain ⟨p, q, e⟩ := List.append_of_mem (hl.all (.grad w))
    refine ⟨l, p, q, hl, e, (var_by_order k I st p q (.grad w) (.updateQ v) (e ▸ hl) (.q v) rfl).2 fun hp => ?_⟩
    obtain ⟨a, b, e2⟩ := List.append_of_mem hp
    have := hr a (.updateQ v) (b ++ .grad w :: q) (by rw [e, e2]; simp) (.grad w) (by simp [rank])
    have hnd := hl.nodup
    rw [e] at hnd
    exact (List.nodup_append.1 hnd).2.2 (.grad w) (by rw [e2]; simp [this]) (.grad w) (by simp) rfl
  · obtain ⟨l, hl, hr⟩ := exists_order (rankLast w) (rankLast_lt w k hm)
    obtain ⟨p, q, e⟩ := List.append_of_mem (hl.all (.grad w))
    refine ⟨l, p, q, hl, e, ?_⟩
    have := (var_by_order k I st p q (.grad w) (.updateQ v) (e ▸ hl) (.q v) rfl).1
      (hr p _ q e (.updateQ v) (by simp [rankLast, hvw]))
    rwa [← e] at this

end ZhuSuan.SgGraph

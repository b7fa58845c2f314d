import Mathlib.Data.Fin.VecNotation
import Mathlib.Tactic.FinCases
import Verif.Lemmas.BackwardOps

/-! # Properties C01–C03: `get_backward_ops` -/

namespace ZhuSuan.Backward

variable {Op T : Type} [DecidableEq Op] [DecidableEq T] [Fintype Op]

/-- **C01.** The result has no repetition and contains exactly the needed ops, on every finite
graph (cycles allowed). -/
theorem C01_backward_ops_exact (G : Graph Op T) (seeds : List T) (ti : Option (List T)) :
    (getBackwardOps G seeds ti).Nodup ∧
    ∀ op, op ∈ getBackwardOps G seeds ti ↔ Needed G (ti.getD []) seeds op := by
  obtain ⟨s', hinv, hq, hret⟩ := loop_induct G (ti.getD []) (Inv G (ti.getD []) seeds)
    (fun s op rest hq h => h.body hq) _ (Inv.init G seeds ti)
  unfold getBackwardOps
  rw [hret]
  exact ⟨hinv.nodup, hinv.final hq⟩

/-- **C02.** On a graph without dependency cycles every op in the result is preceded by all the
ops it depends on. -/
theorem C02_backward_ops_topological (G : Graph Op T) (seeds : List T) (ti : Option (List T))
    (hac : Acyclic G (ti.getD [])) (before after : List Op) (op : Op)
    (h : getBackwardOps G seeds ti = before ++ op :: after) :
    ∀ p, DependsOn G (ti.getD []) op p → p ∈ before := by
  obtain ⟨s', hinv, _, hret⟩ := loop_induct G (ti.getD []) (OrdInv G (ti.getD []))
    (fun s op rest hq h => h.body hac hq) _ (OrdInv.init G seeds ti)
  unfold getBackwardOps at h
  rw [hret] at h
  exact hinv.order before op after h

/-- **C03.** From any starting state of the loop, on any finite graph, after finitely many
iterations the loop condition fails, and the value returned then is the modelled result. -/
theorem C03_backward_ops_terminates (G : Graph Op T) (cut : List T) (s : State Op) :
    ∃ (n : ℕ) (s' : State Op),
      (fun o : Option (State Op) => o.bind (step G cut))^[n] (some s) = some s' ∧
      step G cut s' = none ∧ s'.ret = loop G cut s := by
  fun_induction loop G cut s with
  | case1 s hq => exact ⟨0, s, rfl, by simp [step, hq], rfl⟩
  | case2 s op rest hq ih =>
    obtain ⟨n, s', h1, h2, h3⟩ := ih
    refine ⟨n + 1, s', ?_, h2, h3⟩
    rw [Function.iterate_succ_apply]
    simpa [step, hq] using h1

/-! ### Non-vacuity: a diamond with a control edge, a cut, and a cyclic graph -/

/-- Ops 0..4: op `i` produces tensor `i`. 3 reads 1 and 2, both read 0; 4 is a control input of 1. -/
def diamond : Graph (Fin 5) (Fin 5) where
  inputs := ![[], [0], [0], [1, 2], []]
  controlInputs := ![[], [4], [], [], []]
  opOf := id

example : Acyclic diamond [] := by
  -- the rank 4 ↦ 0, 0 ↦ 0, 1,2 ↦ 1, 3 ↦ 2 decreases along dependencies
  have hr : ∀ a b, DependsOn diamond [] a b → (![0, 1, 1, 2, 0] : Fin 5 → ℕ) b <
      (![0, 1, 1, 2, 0] : Fin 5 → ℕ) a := by
    intro a b h
    fin_cases a <;> rcases h with h | ⟨t, ht, _, rfl⟩ <;> simp [diamond] at *
    · subst h; decide
    · subst ht; decide
    · subst ht; decide
    · rcases ht with rfl | rfl <;> decide
  have : ∀ a b, Relation.TransGen (DependsOn diamond []) a b →
      (![0, 1, 1, 2, 0] : Fin 5 → ℕ) b < (![0, 1, 1, 2, 0] : Fin 5 → ℕ) a := by
    intro a b h
    induction h with
    | single h => exact hr _ _ h
    | tail _ h ih => exact (hr _ _ h).trans ih
  intro op h
  exact lt_irrefl _ (this op op h)

/-- A two-op cycle (a while loop); C01 and C03 apply to it. -/
def cyc : Graph (Fin 2) (Fin 2) where
  inputs := ![[1], [0]]
  controlInputs := fun _ => []
  opOf := id

/-- On a cyclic graph the dependency order of C02 is impossible, so its hypothesis is needed. -/
theorem C02_needs_acyclic : ¬ ∀ (before after : List (Fin 2)) (op : Fin 2),
    getBackwardOps cyc [0] none = before ++ op :: after →
      ∀ p, DependsOn cyc [] op p → p ∈ before := by
  intro h
  have hmem := (C01_backward_ops_exact cyc [0] none).2
  have h0 : (0 : Fin 2) ∈ getBackwardOps cyc [0] none :=
    (hmem 0).2 (Needed.seed (G := cyc) 0 (by simp) (by simp))
  generalize getBackwardOps cyc [0] none = l at *
  cases l with
  | nil => simp at h0
  | cons a l =>
    have := h [] l a rfl (if a = 0 then 1 else 0) (by
      right
      fin_cases a <;> simp [cyc])
    simp at this

end ZhuSuan.Backward

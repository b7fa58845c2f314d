import Verif.Lemmas.TensorExpr
import Verif.Spec.Univariate
import Verif.Props.DistShape

/-!
# C15: `log_prob` and `prob` of batches

Univariate distributions entry by entry, and the grouping of the last `group_ndims` axes for any
distribution.
-/

set_option autoImplicit false

namespace ZhuSuan.Uni

open Shape

namespace UDist

/-- The values read by the expression of `d`. -/
def scalarEnv (x a b : ℝ) : V → ℝ
  | .given => x
  | .a => a
  | .b => b

theorem scalar_entry (d : UDist) (x a b : ℝ) : d.logProbE.scalar (scalarEnv x a b) = d.entry x a b := by
  cases d <;> rfl

/-- Every tensor that matters is read, so the result is the least common broadcast. -/
theorem shape_iff (d : UDist) (given : Tensor ℝ) (batch c : List ℕ) (hb : d.HasBatch batch) :
    (∀ i ∈ d.logProbE.vars, Expands (d.env given i).shape c) ↔
      Expands given.shape c ∧ Expands batch c := by
  have two : ∀ {a b : List ℕ}, IsBroadcast a b batch →
      ((Expands a c ∧ Expands b c) ↔ Expands batch c) := by
    intro a b h
    exact ⟨fun h1 => h.2.2 c h1.1 h1.2, fun h1 => ⟨expands_trans h.1 h1, expands_trans h.2.1 h1⟩⟩
  have nilE : Expands [] c := expands_nil c
  cases d <;> simp only [HasBatch] at hb
  all_goals
    first
    | rw [← two hb]
      constructor
      · intro h
        exact ⟨h .given (List.elem_iff.1 rfl),
          h .a (List.elem_iff.1 rfl),
          h .b (List.elem_iff.1 rfl)⟩
      · rintro ⟨h1, h2, h3⟩ i _
        cases i
        · exact h1
        · exact h2
        · exact h3
    | subst hb
      constructor
      · intro h
        exact ⟨h .given (List.elem_iff.1 rfl),
          h .a (List.elem_iff.1 rfl)⟩
      · rintro ⟨h1, h2⟩ i _
        cases i
        · exact h1
        · exact h2
        · exact h2
    | obtain ⟨ht, rfl⟩ := hb
      constructor
      · intro h
        exact ⟨h .given (List.elem_iff.1 rfl),
          h .b (List.elem_iff.1 rfl)⟩
      · rintro ⟨h1, h2⟩ i _
        cases i
        · exact h1
        · show Expands (Tensor.shape _) c
          simp only [env, params, ht]; exact nilE
        · exact h2

theorem eval_logProbE (d : UDist) (given : Tensor ℝ) (batch S : List ℕ) (hb : d.HasBatch batch)
    (hS : IsBroadcast given.shape batch S) :
    ∃ t, d.logProbE.eval (d.env given) = some t ∧ t.shape = S ∧
      ∀ idx, InBounds idx S → t.val idx =
        d.entry (given.val (projIdx given.shape idx))
          (d.params.1.val (projIdx d.params.1.shape idx))
          (d.params.2.val (projIdx d.params.2.shape idx)) := by
  cases he : d.logProbE.eval (d.env given) with
  | none =>
    exact absurd ⟨S, (shape_iff d given batch S hb).2 ⟨hS.1, hS.2.1⟩⟩ (Expr.eval_none _ _ he)
  | some t =>
    obtain ⟨h1, h2, h3⟩ := Expr.eval_spec _ _ _ he
    have hs : t.shape = S := by
      apply expands_antisymm
      · exact h2 S ((shape_iff d given batch S hb).2 ⟨hS.1, hS.2.1⟩)
      · exact hS.2.2 _ ((shape_iff d given batch _ hb).1 h1).1 ((shape_iff d given batch _ hb).1 h1).2
    refine ⟨t, rfl, hs, fun idx hi => ?_⟩
    rw [h3 idx (by rw [hs]; exact hi), ← scalar_entry]
    congr 1
    funext i
    cases i <;> rfl

/-- `log_prob` with `group_ndims = 0`: the result has the broadcast shape of `given` and the batch, and
each entry is the log probability of the value and parameters that broadcasting assigns to it. -/
theorem C15_univariate (d : UDist) (given : Tensor ℝ) (batch S : List ℕ) (hb : d.HasBatch batch)
    (hS : IsBroadcast given.shape batch S) :
    ∃ r, d.logProb given 0 = some r ∧ r.shape = S ∧
      ∀ idx, InBounds idx S → ∀ jx ja jb,
        ComesFrom given.shape idx jx → ComesFrom d.params.1.shape idx ja →
        ComesFrom d.params.2.shape idx jb →
        r.val idx = d.entry (given.val jx) (d.params.1.val ja) (d.params.2.val jb) := by
  obtain ⟨t, h1, h2, h3⟩ := eval_logProbE d given batch S hb hS
  obtain ⟨r, g1, g2, g3⟩ := groupReduce_spec List.sum t 0 (Nat.zero_le _)
  refine ⟨r, ?_, ?_, ?_⟩
  · unfold logProb; rw [h1]; exact g1
  · rw [g2]; simp [h2]
  · intro idx hi jx ja jb hx ha hb'
    have hE : Expands d.params.1.shape S ∧ Expands d.params.2.shape S := by
      have hbS := hS.2.1
      cases d with
      | normal | foldNormal | uniform | gamma | beta | inverseGamma | laplace =>
        exact ⟨expands_trans hb.1 hbS, expands_trans hb.2.1 hbS⟩
      | bernoulli | poisson | binomial =>
        have hb2 : batch = _ := hb
        subst hb2
        exact ⟨hbS, hbS⟩
      | binConcrete t l =>
        obtain ⟨ht, rfl⟩ := hb
        refine ⟨?_, hbS⟩
        show Expands t.shape S
        rw [ht]; exact expands_nil S
    have e1 : jx = projIdx given.shape idx :=
      comesFrom_unique hx (comesFrom_projIdx hS.1 hi)
    have e2 : ja = projIdx d.params.1.shape idx :=
      comesFrom_unique ha (comesFrom_projIdx hE.1 hi)
    have e3 : jb = projIdx d.params.2.shape idx :=
      comesFrom_unique hb' (comesFrom_projIdx hE.2 hi)
    rw [g3 idx (by rw [g2]; simpa [h2] using hi), e1, e2, e3, ← h3 idx hi]
    simp [h2, allIndices]

/-- When no common broadcast shape exists `log_prob` fails (and returns nothing wrong). -/
theorem C15_univariate_incompatible (d : UDist) (given : Tensor ℝ) (batch : List ℕ)
    (hb : d.HasBatch batch) (h : ¬ Compatible given.shape batch) (g : ℕ) :
    d.logProb given g = none := by
  unfold logProb
  cases he : d.logProbE.eval (d.env given) with
  | none => rfl
  | some t =>
    obtain ⟨h1, _, _⟩ := Expr.eval_spec _ _ _ he
    exact absurd ⟨t.shape, (shape_iff d given batch _ hb).1 h1⟩ h

/-- `group_ndims = g`: the last `g` axes disappear, and each entry is the sum over them of the entries
obtained with `group_ndims = 0`; with more groups than axes it fails. -/
theorem C15_group (d : UDist) (given : Tensor ℝ) (g : ℕ) (r0 : Tensor EReal)
    (h0 : d.logProb given 0 = some r0) :
    (g ≤ r0.shape.length → ∃ r, d.logProb given g = some r ∧
      r.shape = r0.shape.take (r0.shape.length - g) ∧
      ∀ idx, InBounds idx r.shape → r.val idx =
        ((allIndices (r0.shape.drop (r0.shape.length - g))).map (fun j => r0.val (idx ++ j))).sum) ∧
    (r0.shape.length < g → d.logProb given g = none) := by
  unfold logProb at h0 ⊢
  cases he : d.logProbE.eval (d.env given) with
  | none => rw [he] at h0; simp at h0
  | some t =>
    rw [he] at h0
    simp only [Option.bind_some] at h0 ⊢
    obtain ⟨r, g1, g2, g3⟩ := groupReduce_spec List.sum t 0 (Nat.zero_le _)
    have hr : r = r0 := by
      have : some r = some r0 := g1.symm.trans h0
      exact Option.some.inj this
    subst hr
    have hs : r.shape = t.shape := by rw [g2]; simp
    refine ⟨fun hg => ?_, fun hg => groupReduce_fail _ t g (by rw [← hs]; exact hg)⟩
    obtain ⟨r', f1, f2, f3⟩ := groupReduce_spec List.sum t g (by rw [← hs]; exact hg)
    refine ⟨r', f1, by rw [f2, hs], fun idx hi => ?_⟩
    rw [f3 idx hi, hs]
    congr 1
    apply List.map_congr_left
    intro j hj
    have hin : InBounds (idx ++ j) r.shape := by
      rw [f2] at hi
      rw [mem_allIndices] at hj
      rw [hs]
      have := List.rel_append hi hj
      beta_reduce at this
      rwa [List.take_append_drop] at this
    rw [g3 _ hin]
    simp [allIndices]

/-- `prob` is `exp` of `log_prob`, entry by entry, for every `group_ndims`. -/
theorem C15_prob_exp_log_prob (d : UDist) (given : Tensor ℝ) (g : ℕ) :
    (d.logProb given g = none ↔ d.prob given g = none) ∧
    ∀ r, d.logProb given g = some r → ∃ p, d.prob given g = some p ∧ p.shape = r.shape ∧
      ∀ idx, InBounds idx r.shape → p.val idx = EReal.exp (r.val idx) := by
  have key : ∀ t, d.logProbE.eval (d.env given) = some t →
      ∃ q, d.probE.eval (d.env given) = some q ∧ q.shape = t.shape ∧
        ∀ idx, q.val idx = EReal.exp (t.val idx) := by
    intro t ht
    cases d with
    | uniform a b =>
      simp only [logProbE, Uniform.logProbE, Expr.eval, Option.map_eq_some_iff] at ht
      obtain ⟨u, hu, rfl⟩ := ht
      refine ⟨_, by simp only [probE, Expr.eval, hu, Option.map_some]; rfl, rfl, fun idx => ?_⟩
      show _ = EReal.exp (ENNReal.log _)
      rw [ENNReal.exp_log]
    | _ =>
      refine ⟨_, by simp only [probE, Expr.eval, ht, Option.map_some]; rfl, rfl, fun idx => rfl⟩
  have keyN : d.logProbE.eval (d.env given) = none → d.probE.eval (d.env given) = none := by
    intro ht
    cases d with
    | uniform a b =>
      simp only [logProbE, Uniform.logProbE, Expr.eval, Option.map_eq_none_iff] at ht
      simp only [probE, Expr.eval, ht, Option.map_none]
    | _ => simp only [probE, Expr.eval, ht, Option.map_none]
  have main : ∀ r, d.logProb given g = some r → ∃ p, d.prob given g = some p ∧ p.shape = r.shape ∧
      ∀ idx, InBounds idx r.shape → p.val idx = EReal.exp (r.val idx) := by
    intro r hr
    unfold logProb at hr
    cases he : d.logProbE.eval (d.env given) with
    | none => rw [he] at hr; simp at hr
    | some t =>
      obtain ⟨q, q1, q2, q3⟩ := key t he
      rw [he] at hr
      simp only [Option.bind_some] at hr
      by_cases hg : g ≤ t.shape.length
      · obtain ⟨r', f1, f2, f3⟩ := groupReduce_spec List.sum t g hg
        have hrr : r' = r := Option.some.inj (f1.symm.trans hr)
        subst hrr
        obtain ⟨p, p1, p2, p3⟩ := groupReduce_spec List.prod q g (by rw [q2]; exact hg)
        refine ⟨p, by unfold prob; rw [q1]; exact p1, by rw [p2, f2, q2], fun idx hi => ?_⟩
        rw [p3 idx (by rw [p2, q2, ← f2]; exact hi), f3 idx hi, q2]
        have expsum : ∀ l : List EReal, EReal.exp l.sum = (l.map EReal.exp).prod := by
          intro l
          induction l with
          | nil => simp
          | cons x l ih => simp [EReal.exp_add, ih]
        rw [expsum, List.map_map]
        congr 1
        apply List.map_congr_left
        intro j _
        exact q3 _
      · have := groupReduce_fail List.sum t g (by omega)
        rw [show groupSum t g = none from this] at hr
        cases hr
  refine ⟨⟨fun h => ?_, fun h => ?_⟩, main⟩
  · unfold logProb at h
    unfold prob
    cases he : d.logProbE.eval (d.env given) with
    | none => rw [keyN he]; rfl
    | some t =>
      obtain ⟨q, q1, q2, _⟩ := key t he
      rw [he] at h
      rw [q1]
      simp only [Option.bind_some] at h ⊢
      by_cases hg : g ≤ t.shape.length
      · obtain ⟨r, hr, _⟩ := groupReduce_spec List.sum t g hg
        have : groupSum t g = some r := hr
        rw [this] at h; cases h
      · exact groupReduce_fail List.prod q g (by rw [q2]; omega)
  · cases hl : d.logProb given g with
    | none => rfl
    | some r =>
      obtain ⟨p, hp, _⟩ := main r hl
      rw [hp] at h; cases h

/-- Non-trivial instance: Normal with mean `[2,1]`, logstd `[3]`, given `[5,1,3]`. -/
example (m l x : List ℕ → ℝ) :
    (UDist.normal ⟨[2, 1], m⟩ ⟨[3], l⟩).HasBatch [2, 3] ∧ IsBroadcast [5, 1, 3] [2, 3] [5, 2, 3] :=
  ⟨Dist.isBroadcast_iff.2 rfl, Dist.isBroadcast_iff.2 rfl⟩

end UDist
end ZhuSuan.Uni

import Mathlib.Algebra.Group.Nat.Even
import Mathlib.Tactic.NormNum
import Verif.Model.Special
import Verif.Lemmas.Tensor
import Verif.Lemmas.TensorExpr

/-!
# C66  Empirical and Implicit distributions
-/

set_option autoImplicit false

namespace ZhuSuan.Special

open ZhuSuan.Shape

/-- C66.  An Empirical distribution can neither be sampled nor scored, whatever the arguments: `ValueError`. -/
theorem C66_empirical {α β : Type} (n : NSamples) (batch value : Static) (given : STensor α) :
    baseSample squeeze0 (empiricalSample (α := α)) n = .error .valueError ∧
    (empiricalProb batch value given : Except Err (Tensor β)) = .error .valueError := by
  constructor
  · cases n <;> rfl
  · simp [empiricalProb]

/-- C66.  The shape of an Empirical distribution is the one it was given; if that is only partly known, asking for the
run-time shape is an error. -/
theorem C66_empirical_shape (s : Static) (l : List ℕ) :
    empiricalShape s = .ok l ↔ s = some (l.map some) := by
  unfold empiricalShape
  cases s with
  | none => simp [Static.fullyDefined]
  | some a =>
    constructor
    · intro h
      by_cases hall : Static.fullyDefined (some a) = true
      swap
      · rw [if_neg hall] at h; exact absurd h (by simp)
      rw [if_pos hall] at h
      obtain rfl := Except.ok.inj h
      rw [List.map_map]
      congr 1
      refine (List.map_id a).symm.trans (List.map_congr_left fun x hx => ?_)
      have := List.all_eq_true.1 hall x hx
      cases x <;> simp_all
    · intro h
      obtain rfl := Option.some.inj h
      simp [Static.fullyDefined]

/-- C66.  Sampling from Implicit without `n_samples` returns the given tensor; with `n_samples = 1` the same with a
leading axis of size 1; anything else is refused. -/
theorem C66_implicit_sample {α : Type} (samples : Tensor α) :
    baseSample squeeze0 (implicitSample samples) .none = .ok samples ∧
    (∃ t, baseSample squeeze0 (implicitSample samples) (.int 1) = .ok t ∧ t.shape = 1 :: samples.shape ∧
      ∀ idx, t.val (0 :: idx) = samples.val idx) ∧
    (∀ n : ℤ, n ≠ 1 → baseSample squeeze0 (implicitSample samples) (.int n) = .error .valueError) ∧
    ∀ r n, baseSample squeeze0 (implicitSample samples) (.tensor r n) = .error .valueError := by
  refine ⟨by simp [baseSample, implicitSample, squeeze0], ⟨_, by simp [baseSample, implicitSample]; rfl, rfl,
    fun idx => rfl⟩, fun n hn => ?_, fun r n => rfl⟩
  simp [baseSample, implicitSample, hn]

/-- The entries. -/
theorem implicitEntry_continuous {α : Type} [DecidableEq α] (x y : α) :
    implicitEntry true x y = if x = y then .inf else .ninf := by
  have h : ∀ p : ℝ, (XF.fin 2 * XF.fin p - XF.fin 1) * XF.inf = XF.infSign (2 * p + -1) := fun p => rfl
  simp only [implicitEntry, if_true]
  split_ifs with hxy
  · rw [h]; norm_num [XF.infSign]
  · rw [h]; norm_num [XF.infSign]

theorem implicitEntry_discrete {α : Type} [DecidableEq α] (x y : α) :
    implicitEntry false x y = if x = y then .fin 1 else .fin 0 := by
  simp [implicitEntry]

/-- No grouping. -/
theorem group_zero {β : Type} (agg : List β → β) (h : ∀ x, agg [x] = x) (t : Tensor β) :
    ∃ r, reduceWith agg t (rangeNeg 0) = some r ∧ r.shape = t.shape ∧
      ∀ idx, InBounds idx t.shape → r.val idx = t.val idx := by
  obtain ⟨r, h1, h2, h3⟩ := groupReduce_spec agg t 0 (Nat.zero_le _)
  have hs : r.shape = t.shape := by simpa using h2
  refine ⟨r, h1, hs, fun idx hi => ?_⟩
  rw [h3 idx (hs ▸ hi)]
  simp [allIndices, h]

theorem mul_one_xf (x : XF) : x * 1 = x := by
  show XF.mul x (.fin 1) = x
  cases x <;> simp [XF.mul, XF.infSign]

/-- C66, partial.  Without grouping, an Implicit distribution of real values has at every entry `prob` equal to `+inf`
where the given value is the sample and `-inf` elsewhere; `log_prob` is `+inf` where it is the sample.  Missing:
elsewhere `log_prob` should be `-inf`; it is NaN. -/
theorem C66_implicit_continuous_partial {α : Type} [DecidableEq α] (samples given : Tensor α)
    (hs : given.shape = samples.shape) :
    ∃ p lp, implicitProb true samples 0 given = some p ∧ implicitLogProb true samples 0 given = some lp ∧
      p.shape = samples.shape ∧ lp.shape = samples.shape ∧
      ∀ idx, InBounds idx samples.shape →
        (given.val idx = samples.val idx → p.val idx = .inf ∧ lp.val idx = .inf) ∧
        (given.val idx ≠ samples.val idx → p.val idx = .ninf ∧ lp.val idx = .nan) := by
  have hm : map2 (implicitEntry true) given samples =
      some ⟨samples.shape, fun idx => implicitEntry true (given.val (projIdx given.shape idx))
        (samples.val (projIdx samples.shape idx))⟩ := by
    rw [map2, hs, bcast_self]; rfl
  obtain ⟨p, h1, h2, h3⟩ := group_zero (List.prod (α := XF)) (fun x => by simp [mul_one_xf])
    ⟨samples.shape, fun idx => implicitEntry true (given.val (projIdx given.shape idx))
        (samples.val (projIdx samples.shape idx))⟩
  obtain ⟨lp, g1, g2, g3⟩ := group_zero (List.sum (α := XF)) (fun x => by simp)
    ⟨p.shape, fun i => xlog (p.val i)⟩
  have hp : implicitProb true samples 0 given = some p := by
    rw [implicitProb, hm]; exact h1
  refine ⟨p, lp, hp, by rw [implicitLogProb, hp]; exact g1, h2, g2.trans h2, fun idx hi => ?_⟩
  have e1 : p.val idx = if given.val idx = samples.val idx then .inf else .ninf := by
    rw [h3 idx hi]
    simp only
    rw [hs, projIdx_self hi, implicitEntry_continuous]
  have e2 : lp.val idx = xlog (p.val idx) := g3 idx (by simp only; rw [h2]; exact hi)
  constructor
  · intro h
    rw [e2, e1, if_pos h]
    exact ⟨rfl, rfl⟩
  · intro h
    rw [e2, e1, if_neg h]
    exact ⟨rfl, rfl⟩

/-- C66.  For discrete values `prob` is 1 at the sample and 0 elsewhere, and `log_prob` its logarithm. -/
theorem C66_implicit_discrete {α : Type} [DecidableEq α] (samples given : Tensor α)
    (hs : given.shape = samples.shape) :
    ∃ p lp, implicitProb false samples 0 given = some p ∧ implicitLogProb false samples 0 given = some lp ∧
      p.shape = samples.shape ∧ lp.shape = samples.shape ∧
      ∀ idx, InBounds idx samples.shape →
        (given.val idx = samples.val idx → p.val idx = .fin 1 ∧ lp.val idx = .fin 0) ∧
        (given.val idx ≠ samples.val idx → p.val idx = .fin 0 ∧ lp.val idx = .ninf) := by
  have hm : map2 (implicitEntry false) given samples =
      some ⟨samples.shape, fun idx => implicitEntry false (given.val (projIdx given.shape idx))
        (samples.val (projIdx samples.shape idx))⟩ := by
    rw [map2, hs, bcast_self]; rfl
  obtain ⟨p, h1, h2, h3⟩ := group_zero (List.prod (α := XF)) (fun x => by simp [mul_one_xf])
    ⟨samples.shape, fun idx => implicitEntry false (given.val (projIdx given.shape idx))
        (samples.val (projIdx samples.shape idx))⟩
  obtain ⟨lp, g1, g2, g3⟩ := group_zero (List.sum (α := XF)) (fun x => by simp)
    ⟨p.shape, fun i => xlog (p.val i)⟩
  have hp : implicitProb false samples 0 given = some p := by
    rw [implicitProb, hm]; exact h1
  refine ⟨p, lp, hp, by rw [implicitLogProb, hp]; exact g1, h2, g2.trans h2, fun idx hi => ?_⟩
  have e1 : p.val idx = if given.val idx = samples.val idx then .fin 1 else .fin 0 := by
    rw [h3 idx hi]
    simp only
    rw [hs, projIdx_self hi, implicitEntry_discrete]
  have e2 : lp.val idx = xlog (p.val idx) := g3 idx (by simp only; rw [h2]; exact hi)
  constructor
  · intro h
    rw [e2, e1, if_pos h]
    refine ⟨rfl, ?_⟩
    norm_num [xlog]
  · intro h
    rw [e2, e1, if_neg h]
    refine ⟨rfl, ?_⟩
    simp [xlog]

theorem prod_inf (l : List XF) (h : ∀ x ∈ l, x = .inf ∨ x = .ninf) (hne : l ≠ []) [DecidableEq XF] :
    l.prod = if Even (l.count .ninf) then .inf else .ninf := by
  have hcases : ∀ (a b : XF), (a = .inf ∨ a = .ninf) → (b = .inf ∨ b = .ninf) →
      a * b = if a = b then .inf else .ninf := by
    rintro a b (rfl | rfl) (rfl | rfl) <;> simp <;> rfl
  have hone : ∀ a : XF, a * 1 = a := mul_one_xf
  induction l with
  | nil => exact absurd rfl hne
  | cons a l ih =>
    rw [List.prod_cons]
    by_cases hl : l = []
    · subst hl
      rw [List.prod_nil, hone]
      rcases h a (by simp) with rfl | rfl <;> simp
    · rw [ih (fun x hx => h x (by simp [hx])) hl]
      rcases h a (by simp) with rfl | rfl
      · rw [List.count_cons_of_ne (by simp), hcases _ _ (Or.inl rfl) (by split_ifs <;> simp)]
        split_ifs <;> simp_all
      · rw [List.count_cons_self, hcases _ _ (Or.inr rfl) (by split_ifs <;> simp)]
        by_cases he : Even (l.count XF.ninf) <;> simp [he, Nat.even_add_one]

/-- C66, finding.  With grouping the product of the entries is taken, so values that differ from the sample at an even
number of entries of a group have `prob` equal to `+inf` like the sample itself. -/
theorem C66_grouped_prob {α : Type} [DecidableEq α] (samples given : Tensor α) (hs : given.shape = samples.shape)
    (g : ℕ) (hg : g ≤ samples.shape.length) (hne : 0 ∉ samples.shape) :
    ∃ p, implicitProb true samples g given = some p ∧
      p.shape = samples.shape.take (samples.shape.length - g) ∧
      ∀ idx, InBounds idx p.shape → p.val idx =
        if Even ((allIndices (samples.shape.drop (samples.shape.length - g))).countP
          fun j => given.val (idx ++ j) ≠ samples.val (idx ++ j)) then .inf else .ninf := by
  classical
  have hm : map2 (implicitEntry true) given samples =
      some ⟨samples.shape, fun idx => implicitEntry true (given.val (projIdx given.shape idx))
        (samples.val (projIdx samples.shape idx))⟩ := by
    rw [map2, hs, bcast_self]; rfl
  obtain ⟨p, h1, h2, h3⟩ := groupReduce_spec (List.prod (α := XF))
    (⟨samples.shape, fun idx => implicitEntry true (given.val (projIdx given.shape idx))
        (samples.val (projIdx samples.shape idx))⟩ : Tensor XF) g hg
  refine ⟨p, by rw [implicitProb, hm]; exact h1, h2, fun idx hi => ?_⟩
  rw [h3 idx hi]
  simp only
  have hmem : ∀ (s j : List ℕ), j ∈ allIndices s → InBounds j s := by
    intro s
    induction s with
    | nil => intro j hj; simp [allIndices] at hj; subst hj; exact List.Forall₂.nil
    | cons d s ih =>
      intro j hj
      simp only [allIndices, List.mem_flatMap, List.mem_range, List.mem_map] at hj
      obtain ⟨i, hi, k, hk, rfl⟩ := hj
      exact List.Forall₂.cons hi (ih k hk)
  have hin : ∀ j ∈ allIndices (samples.shape.drop (samples.shape.length - g)), InBounds (idx ++ j) samples.shape := by
    intro j hj
    have := List.rel_append (R := (· < · : ℕ → ℕ → Prop)) (show List.Forall₂ _ idx _ from h2 ▸ hi) (hmem _ _ hj)
    have e : samples.shape.take (samples.shape.length - g) ++ samples.shape.drop (samples.shape.length - g) =
        samples.shape := List.take_append_drop _ _
    exact (e ▸ this : List.Forall₂ (· < ·) (idx ++ j) samples.shape)
  have hl : (allIndices (samples.shape.drop (samples.shape.length - g))).map
      (fun j => implicitEntry true (given.val (projIdx given.shape (idx ++ j))) (samples.val (projIdx samples.shape (idx ++ j)))) =
      (allIndices (samples.shape.drop (samples.shape.length - g))).map
      fun j => if given.val (idx ++ j) = samples.val (idx ++ j) then XF.inf else XF.ninf := by
    refine List.map_congr_left fun j hj => ?_
    rw [hs, projIdx_self (hin j hj), implicitEntry_continuous]
  have hnil : ∀ s : List ℕ, 0 ∉ s → allIndices s ≠ [] := by
    intro s
    induction s with
    | nil => intro _; simp [allIndices]
    | cons d s ih =>
      intro h hc
      simp only [List.mem_cons, not_or] at h
      obtain ⟨k, hk⟩ := List.exists_mem_of_ne_nil _ (ih h.2)
      have : (0 :: k) ∈ allIndices (d :: s) := by
        simp only [allIndices, List.mem_flatMap, List.mem_range, List.mem_map]
        exact ⟨0, by omega, k, hk, rfl⟩
      rw [hc] at this
      exact absurd this (by simp)
  rw [hl, prod_inf]
  · congr 2
    rw [List.count, List.countP_map]
    refine List.countP_congr fun j _ => ?_
    by_cases h : given.val (idx ++ j) = samples.val (idx ++ j) <;> simp [h]
  · intro x hx
    obtain ⟨j, _, rfl⟩ := List.mem_map.1 hx
    split_ifs <;> simp
  · intro hc
    exact hnil _ (fun h => hne (List.mem_of_mem_drop h)) (List.map_eq_nil_iff.1 hc)

/-- Two differences give `+inf`. -/
example : ∃ p, implicitProb true (⟨[2], fun _ => 0⟩ : Tensor ℕ) 1 ⟨[2], fun _ => 1⟩ = some p ∧ p.val [] = .inf := by
  obtain ⟨p, h1, h2, h3⟩ := C66_grouped_prob (⟨[2], fun _ => 0⟩ : Tensor ℕ) ⟨[2], fun _ => 1⟩ rfl 1 (by simp) (by simp)
  refine ⟨p, h1, ?_⟩
  rw [h3 [] (by rw [h2]; exact List.Forall₂.nil)]
  simp [allIndices]

/-- C66, finding.  `log_prob` groups twice: with `group_ndims = g` it is an error if there are fewer than `2 g` axes,
and otherwise its shape lacks the last `2 g` axes, not `g` like `prob`. -/
theorem C66_grouped_twice {α : Type} [DecidableEq α] (c : Bool) (samples given : Tensor α)
    (hs : given.shape = samples.shape) (g : ℕ) :
    (samples.shape.length < 2 * g → implicitLogProb c samples g given = none) ∧
    (2 * g ≤ samples.shape.length → ∃ lp, implicitLogProb c samples g given = some lp ∧
      lp.shape = samples.shape.take (samples.shape.length - 2 * g)) := by
  have hm : map2 (implicitEntry c) given samples =
      some ⟨samples.shape, fun idx => implicitEntry c (given.val (projIdx given.shape idx))
        (samples.val (projIdx samples.shape idx))⟩ := by
    rw [map2, hs, bcast_self]; rfl
  by_cases hg : g ≤ samples.shape.length
  · obtain ⟨p, h1, h2, _⟩ := groupReduce_spec (List.prod (α := XF))
      (⟨samples.shape, fun idx => implicitEntry c (given.val (projIdx given.shape idx))
        (samples.val (projIdx samples.shape idx))⟩ : Tensor XF) g hg
    have hp : implicitProb c samples g given = some p := by rw [implicitProb, hm]; exact h1
    have hlen : p.shape.length = samples.shape.length - g := by
      rw [h2]; simp
    constructor
    · intro h
      rw [implicitLogProb, hp]
      exact groupReduce_fail _ _ _ (by simp only; omega)
    · intro h
      obtain ⟨lp, g1, g2, _⟩ := groupReduce_spec (List.sum (α := XF))
        (⟨p.shape, fun i => xlog (p.val i)⟩ : Tensor XF) g (by simp only; omega)
      refine ⟨lp, by rw [implicitLogProb, hp]; exact g1, ?_⟩
      rw [g2]
      simp only
      rw [hlen, h2]
      show (samples.shape.take (samples.shape.length - g)).take _ = _
      rw [List.take_take]
      congr 1
      omega
  · constructor
    · intro _
      have : implicitProb c samples g given = none := by
        rw [implicitProb, hm]
        exact groupReduce_fail _ _ _ (by simp only; omega)
      rw [implicitLogProb, this]
      rfl
    · intro h
      omega

end ZhuSuan.Special

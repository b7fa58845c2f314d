import Verif.Spec.BatchLogProb
import Verif.Lemmas.BatchTensor
import Verif.Lemmas.Num

/-!
# C76: log_prob of a batch of vectors or matrices is the log_prob of each of them
-/

set_option autoImplicit false

namespace ZhuSuan.Batch
open Shape LogExp Num

theorem rowAt_eq {n : ℕ} {t : Tensor ℝ} {idx S : List ℕ} {x : Fin n → ℝ} (h : RowAt t idx x)
    (he : Expands t.shape (S ++ [n])) (hi : InBounds idx S) (i : Fin n) :
    x i = t.val (projIdx t.shape (idx ++ [i.val])) := by
  obtain ⟨j, h1, h2⟩ := h i
  rw [h2, comesFrom_unique h1 (comesFrom_projIdx he (inBounds_snoc hi i.isLt))]

theorem matAt_eq {r c : ℕ} {t : Tensor ℝ} {idx S : List ℕ} {x : Fin r → Fin c → ℝ} (h : MatAt t idx x)
    (he : Expands t.shape (S ++ [r, c])) (hi : InBounds idx S) (i : Fin r) (k : Fin c) :
    x i k = t.val (projIdx t.shape (idx ++ [i.val, k.val])) := by
  obtain ⟨j, h1, h2⟩ := h i k
  rw [h2, comesFrom_unique h1 (comesFrom_projIdx he (inBounds_snoc2 hi i.isLt k.isLt))]

theorem entryAt_eq {α : Type} {t : Tensor α} {idx S : List ℕ} {x : α} (h : EntryAt t idx x)
    (he : Expands t.shape S) (hi : InBounds idx S) : x = t.val (projIdx t.shape idx) := by
  obtain ⟨j, h1, h2⟩ := h
  rw [h2, comesFrom_unique h1 (comesFrom_projIdx he hi)]

/-- Dirichlet. -/
theorem C76_dirichlet (f : Flags) (alpha given : STensor ℝ) (ha : Admits alpha.static alpha.rt.shape)
    (hg : Admits given.static given.rt.shape) (S : List ℕ) (n : ℕ)
    (hS : IsBroadcast given.rt.shape alpha.rt.shape (S ++ [n])) :
    ∃ r, dirichletLogProbT alpha given = some r ∧ r.shape = S ∧
      ∀ idx, InBounds idx S → ∀ a x : Fin n → ℝ, RowAt alpha.rt idx a → RowAt given.rt idx x →
        r.val idx = dirichletLogProb f a x := by
  obtain ⟨g, a, e1, ig, ia, -, -⟩ := is_meb given alpha hg ha (bcast_of_isBroadcast hS)
  obtain ⟨lb, e2, ilb⟩ := is_reduceRow lbetaRow ia
  obtain ⟨p, e3, ip⟩ := is_map2_same (· * ·) (is_mapT (fun x : ℝ => x - 1) ia) (is_mapT Fn.log ig)
  obtain ⟨s, e4, is⟩ := is_reduceRow sumRow ip
  obtain ⟨r, e5, ir⟩ := is_map2_same (· + ·) (is_mapT (fun x : ℝ => -x) ilb) is
  refine ⟨r, ?_, ir.1, fun idx hi α x hα hx => ?_⟩
  · simp only [dirichletLogProbT, e1, e2, e3, e4, e5, Option.bind_eq_bind, Option.bind_some]
  · rw [ir.2 idx hi]
    have h1 := fun i => rowAt_eq hα hS.2.1 hi i
    have h2 := fun i => rowAt_eq hx hS.1 hi i
    obtain rfl := funext h1
    obtain rfl := funext h2
    rfl

theorem projIdx_nil (idx : List ℕ) : projIdx [] idx = [] := rfl

/-- Concrete. -/
theorem C76_concrete (f : Flags) (temperature logits given : Tensor ℝ) (hT : temperature.shape = []) (b S : List ℕ)
    (n : ℕ) (hl : logits.shape = b ++ [n + 1]) (hS : IsBroadcast given.shape logits.shape (S ++ [n + 1])) :
    ∃ r, concreteLogProbT temperature logits given = some r ∧ r.shape = S ∧
      ∀ idx, InBounds idx S → ∀ l x : Fin (n + 1) → ℝ, RowAt logits idx l → RowAt given idx x →
        r.val idx = concreteLogProb f l (temperature.val []) x := by
  have ik : logits.shape.getLast? = some (n + 1) := by rw [hl]; simp
  have it : Is temperature [] temperature.val := ⟨hT, fun _ _ => rfl⟩
  have ilg := is_mapT Fn.log (is_self given)
  obtain ⟨tg, e1, itg⟩ := is_map2_left (· * ·) it ilg (expands_nil _)
  obtain ⟨temp, e2, itemp⟩ := is_map2 (· - ·) (is_self logits) itg
    (by rw [bcast_comm]; exact bcast_of_isBroadcast hS)
  have ia := is_mapT (fun x : ℝ => Fn.lgamma ((n + 1 : ℕ) : ℝ) + (((n + 1 : ℕ) : ℝ) - 1) * x) (is_mapT Fn.log it)
  obtain ⟨d, e3, id'⟩ := is_map2_right (· - ·) itemp ilg hS.1
  obtain ⟨s, e4, is⟩ := is_reduceRow sumRow id'
  obtain ⟨a, e5, ib⟩ := is_map2_left (· + ·) ia is (expands_nil _)
  obtain ⟨z, e6, iz⟩ := is_reduceRow lseRow itemp
  obtain ⟨r, e7, ir⟩ := is_map2_same (· - ·) ib (is_mapT (fun x : ℝ => ((n + 1 : ℕ) : ℝ) * x) iz)
  refine ⟨r, ?_, ir.1, fun idx hi l x hl' hx => ?_⟩
  · simp only [concreteLogProbT, ik, e1, e2, e3, e4, e5, e6, e7, Option.bind_eq_bind, Option.bind_some]
  · rw [ir.2 idx hi]
    obtain rfl := funext fun i => rowAt_eq hl' hS.2.1 hi i
    obtain rfl := funext fun i => rowAt_eq hx hS.1 hi i
    simp only [concreteLogProb, real_pathParam]
    rfl

/-- ExpConcrete. -/
theorem C76_exp_concrete (f : Flags) (temperature logits given : Tensor ℝ) (hT : temperature.shape = [])
    (b S : List ℕ) (n : ℕ) (hl : logits.shape = b ++ [n + 1])
    (hS : IsBroadcast given.shape logits.shape (S ++ [n + 1])) :
    ∃ r, expConcreteLogProbT temperature logits given = some r ∧ r.shape = S ∧
      ∀ idx, InBounds idx S → ∀ l x : Fin (n + 1) → ℝ, RowAt logits idx l → RowAt given idx x →
        r.val idx = expConcreteLogProb f l (temperature.val []) x := by
  have ik : logits.shape.getLast? = some (n + 1) := by rw [hl]; simp
  have it : Is temperature [] temperature.val := ⟨hT, fun _ _ => rfl⟩
  obtain ⟨tg, e1, itg⟩ := is_map2_left (· * ·) it (is_self given) (expands_nil _)
  obtain ⟨temp, e2, itemp⟩ := is_map2 (· - ·) (is_self logits) itg
    (by rw [bcast_comm]; exact bcast_of_isBroadcast hS)
  have ia := is_mapT (fun x : ℝ => Fn.lgamma ((n + 1 : ℕ) : ℝ) + (((n + 1 : ℕ) : ℝ) - 1) * x) (is_mapT Fn.log it)
  obtain ⟨s, e4, is⟩ := is_reduceRow sumRow itemp
  obtain ⟨a, e5, ib⟩ := is_map2_left (· + ·) ia is (expands_nil _)
  obtain ⟨z, e6, iz⟩ := is_reduceRow lseRow itemp
  obtain ⟨r, e7, ir⟩ := is_map2_same (· - ·) ib (is_mapT (fun x : ℝ => ((n + 1 : ℕ) : ℝ) * x) iz)
  refine ⟨r, ?_, ir.1, fun idx hi l x hl' hx => ?_⟩
  · simp only [expConcreteLogProbT, ik, e1, e2, e4, e5, e6, e7, Option.bind_eq_bind, Option.bind_some]
  · rw [ir.2 idx hi]
    obtain rfl := funext fun i => rowAt_eq hl' hS.2.1 hi i
    obtain rfl := funext fun i => rowAt_eq hx hS.1 hi i
    simp only [expConcreteLogProb, real_pathParam]
    rfl

theorem is_normLogits (b : Bool) {t : Tensor ℝ} {S : List ℕ} {n : ℕ} {g : List ℕ → ℝ} (h : Is t (S ++ [n + 1]) g) :
    ∃ r, normLogitsT b t = some r ∧ r.shape = S ++ [n + 1] ∧ ∀ idx, InBounds idx S → ∀ i : Fin (n + 1),
      r.val (idx ++ [i.val]) = normLogits b (fun j : Fin (n + 1) => g (idx ++ [j.val])) i := by
  unfold normLogitsT
  cases b with
  | false =>
    refine ⟨t, rfl, h.1, fun idx hi i => ?_⟩
    rw [h.2 _ (inBounds_snoc hi i.isLt)]
    rfl
  | true =>
    obtain ⟨z, e1, iz⟩ := is_reduceRow lseRow h
    have he : Expands (S ++ [1]) (S ++ [n + 1]) := by
      refine ⟨by simp, fun i hi => ?_⟩
      rcases i with _ | i
      · left; simp
      · right; simp
    obtain ⟨r, e2, ir⟩ := is_map2_right (· - ·) h (is_expandLast iz) he
    refine ⟨r, ?_, ir.1, fun idx hi i => ?_⟩
    · simp only [if_true, e1, e2, Option.bind_eq_bind, Option.bind_some]
    · rw [ir.2 _ (inBounds_snoc hi i.isLt)]
      have hp : projIdx (S ++ [1]) (idx ++ [i.val]) = idx ++ [0] := by
        rw [projIdx_append (v := [1]) (by rw [hi.length]) (by simp), projIdx_self hi]
        rfl
      simp only [hp, List.dropLast_concat]
      rfl

/-- UnnormalizedMultinomial (BagofCategoricals). -/
theorem C76_unnormalized_multinomial (normalize : Bool) (logits given : STensor ℝ)
    (hlt : Admits logits.static logits.rt.shape) (hg : Admits given.static given.rt.shape) (S : List ℕ) (n : ℕ)
    (hS : IsBroadcast given.rt.shape logits.rt.shape (S ++ [n + 1])) :
    ∃ r, unnormalizedMultinomialLogProbT normalize logits given = some r ∧ r.shape = S ∧
      ∀ idx, InBounds idx S → ∀ l x : Fin (n + 1) → ℝ, RowAt logits.rt idx l → RowAt given.rt idx x →
        r.val idx = unnormalizedMultinomialLogProb normalize l x := by
  obtain ⟨g, l, e1, ig, il, -, -⟩ := is_meb given logits hg hlt (bcast_of_isBroadcast hS)
  obtain ⟨l', e2, s2, v2⟩ := is_normLogits normalize il
  obtain ⟨p, e3, ip⟩ := is_map2_same (· * ·) ig (⟨s2, fun _ _ => rfl⟩ : Is l' (S ++ [n + 1]) l'.val)
  obtain ⟨r, e4, ir⟩ := is_reduceRow sumRow ip
  refine ⟨r, ?_, ir.1, fun idx hi lr x hl hx => ?_⟩
  · simp only [unnormalizedMultinomialLogProbT, e1, e2, e3, e4, Option.bind_eq_bind, Option.bind_some]
  · rw [ir.2 idx hi]
    obtain rfl := funext fun i => rowAt_eq hl hS.2.1 hi i
    obtain rfl := funext fun i => rowAt_eq hx hS.1 hi i
    simp only [v2 idx hi]
    rfl

/-- Multinomial, with and without `n_experiments`. -/
theorem C76_multinomial (normalize : Bool) (nExperiments : Option ℕ) (logits given : STensor ℝ)
    (hlt : Admits logits.static logits.rt.shape) (hg : Admits given.static given.rt.shape) (S : List ℕ) (n : ℕ)
    (hS : IsBroadcast given.rt.shape logits.rt.shape (S ++ [n + 1])) :
    ∃ r, multinomialLogProbT normalize nExperiments logits given = some r ∧ r.shape = S ∧
      ∀ idx, InBounds idx S → ∀ l x : Fin (n + 1) → ℝ, RowAt logits.rt idx l → RowAt given.rt idx x →
        r.val idx = multinomialLogProb normalize nExperiments l x := by
  obtain ⟨g, l, e1, ig, il, -, -⟩ := is_meb given logits hg hlt (bcast_of_isBroadcast hS)
  obtain ⟨l', e2, s2, v2⟩ := is_normLogits normalize il
  obtain ⟨p, e3, ip⟩ := is_map2_same (· * ·) ig (⟨s2, fun _ _ => rfl⟩ : Is l' (S ++ [n + 1]) l'.val)
  obtain ⟨s, e4, is⟩ := is_reduceRow sumRow ip
  obtain ⟨ks, e5, iks⟩ := is_reduceRow sumRow (is_mapT (fun x : ℝ => Fn.lgamma (x + 1)) ig)
  have hn : ∃ N sh F, (match nExperiments with
        | none => reduceRow sumRow g.rt
        | some k => pure ⟨[], fun _ => (k : ℝ)⟩) = some N ∧ Is N sh F ∧ Expands sh S ∧
      ∀ idx, InBounds idx S → F (projIdx sh idx) = match nExperiments with
        | none => (Fn.sum fun i : Fin (n + 1) => given.rt.val (projIdx given.rt.shape (idx ++ [i.val])) : ℝ)
        | some k => (k : ℝ) := by
    cases nExperiments with
    | none =>
      obtain ⟨N, e, iN⟩ := is_reduceRow sumRow ig
      refine ⟨N, S, _, e, iN, expands_refl S, fun idx hi => ?_⟩
      rw [projIdx_self hi]
      rfl
    | some k => exact ⟨⟨[], fun _ => (k : ℝ)⟩, [], fun _ => (k : ℝ), rfl, ⟨rfl, fun _ _ => rfl⟩, expands_nil S, fun _ _ => rfl⟩
  obtain ⟨N, sh, F, e6, iN, heN, hF⟩ := hn
  obtain ⟨lc, e7, ilc⟩ := is_map2_left (· - ·) (is_mapT (fun x : ℝ => Fn.lgamma (x + 1)) iN) iks heN
  obtain ⟨r, e8, ir⟩ := is_map2_same (· + ·) ilc is
  refine ⟨r, ?_, ir.1, fun idx hi lr x hl hx => ?_⟩
  · simp only [multinomialLogProbT, logCombinationT, e1, e2, e3, e4, e5, Option.bind_eq_bind, Option.bind_some]
    cases nExperiments with
    | none =>
      have e6' : reduceRow sumRow g.rt = some N := e6
      simp only [e6', e7, e8, Option.bind_some]
    | some k =>
      have e6' : (⟨[], fun _ => (k : ℝ)⟩ : Tensor ℝ) = N := Option.some.inj e6
      simp only [e6', e7, e8, Option.bind_some, Option.pure_def]
  · rw [ir.2 idx hi]
    obtain rfl := funext fun i => rowAt_eq hl hS.2.1 hi i
    obtain rfl := funext fun i => rowAt_eq hx hS.1 hi i
    simp only [v2 idx hi, hF idx hi]
    cases nExperiments <;> rfl

theorem is_softmaxCE {labels logits : Tensor ℝ} {S : List ℕ} {n : ℕ} {f g : List ℕ → ℝ} (h1 : Is labels (S ++ [n + 1]) f)
    (h2 : Is logits (S ++ [n + 1]) g) :
    ∃ r, softmaxCE labels logits = some r ∧ Is r S (fun idx =>
      -Fn.sum fun i : Fin (n + 1) => f (idx ++ [i.val]) *
        (g (idx ++ [i.val]) - logSumExp fun j : Fin (n + 1) => g (idx ++ [j.val]))) := by
  unfold softmaxCE
  rw [h1.1, h2.1]
  simp only [if_true, List.getLast?_append, List.getLast?_singleton, Option.some_or, Option.map_some,
    List.dropLast_concat]
  refine ⟨_, rfl, rfl, fun idx hi => ?_⟩
  have e1 := fun i : Fin (n + 1) => h1.2 _ (inBounds_snoc hi i.isLt)
  have e2 := fun i : Fin (n + 1) => h2.2 _ (inBounds_snoc hi i.isLt)
  simp only [e1, e2]
  rfl

/-- OnehotCategorical. -/
theorem C76_onehot (logits given : STensor ℝ) (hlt : Admits logits.static logits.rt.shape)
    (hg : Admits given.static given.rt.shape) (b S : List ℕ) (n : ℕ) (hl : logits.rt.shape = b ++ [n + 1])
    (hS : IsBroadcast given.rt.shape logits.rt.shape (S ++ [n + 1])) :
    ∃ r, onehotLogProbT logits given = some r ∧ r.shape = S ∧
      ∀ idx, InBounds idx S → ∀ l x : Fin (n + 1) → ℝ, RowAt logits.rt idx l → RowAt given.rt idx x →
        r.val idx = onehotLogProb l x := by
  have ik : logits.rt.shape.getLast? = some (n + 1) := by rw [hl]; simp
  obtain ⟨g, l, e1, ig, il, -, -⟩ := is_meb given logits hg hlt (bcast_of_isBroadcast hS)
  unfold onehotLogProbT
  simp only [ik, e1, Option.bind_eq_bind, Option.bind_some]
  by_cases h2 : g.static.map List.length = some 2 ∨ l.static.map List.length = some 2
  · rw [if_pos h2]
    obtain ⟨ce, e2, ice⟩ := is_softmaxCE ig il
    refine ⟨mapT (fun x => -x) ce, by simp only [e2, Option.bind_some]; rfl, ice.1, fun idx hi lr x hl hx => ?_⟩
    rw [(is_mapT (fun x : ℝ => -x) ice).2 idx hi]
    obtain rfl := funext fun i => rowAt_eq hl hS.2.1 hi i
    obtain rfl := funext fun i => rowAt_eq hx hS.1 hi i
    rfl
  · rw [if_neg h2]
    obtain ⟨gf, e2, s2, v2⟩ := is_reshapeRows ig (Nat.succ_ne_zero n)
    obtain ⟨lf, e3, s3, v3⟩ := is_reshapeRows il (Nat.succ_ne_zero n)
    obtain ⟨ce, e4, ice⟩ := is_softmaxCE (S := [S.prod]) (⟨s2, fun _ _ => rfl⟩ : Is gf ([S.prod] ++ [n + 1]) gf.val)
      (⟨s3, fun _ _ => rfl⟩ : Is lf ([S.prod] ++ [n + 1]) lf.val)
    obtain ⟨r, e5, ir⟩ := is_reshape (s := S) (is_mapT (fun x : ℝ => -x) ice) (by simp)
    refine ⟨r, ?_, ir.1, fun idx hi lr x hl hx => ?_⟩
    · have hd : l.rt.shape.dropLast = S := by rw [il.1]; simp
      simp only [e2, e3, e4, Option.bind_some, hd, e5]
    · rw [ir.2 idx hi]
      obtain rfl := funext fun i => rowAt_eq hl hS.2.1 hi i
      obtain rfl := funext fun i => rowAt_eq hx hS.1 hi i
      have hu : unravel [S.prod] (ravel S idx) = [ravel S idx] := by simp [unravel]
      have w2 := fun i : Fin (n + 1) => v2 idx hi i.val i.isLt
      have w3 := fun i : Fin (n + 1) => v3 idx hi i.val i.isLt
      simp only [hu, List.cons_append, List.nil_append, w2, w3]
      rfl

theorem is_sparseCE {labels : Tensor ℤ} {logits : Tensor ℝ} {S : List ℕ} {n : ℕ} {f : List ℕ → ℤ} {g : List ℕ → ℝ}
    (h1 : Is labels S f) (h2 : Is logits (S ++ [n + 1]) g)
    (hr : ∀ idx, InBounds idx S → 0 ≤ f idx ∧ f idx < (n + 1 : ℕ)) :
    ∃ r, sparseCE labels logits = some r ∧ Is r S (fun idx =>
      -(g (idx ++ [(f idx).toNat]) - logSumExp fun j : Fin (n + 1) => g (idx ++ [j.val]))) := by
  unfold sparseCE
  rw [h1.1, h2.1]
  simp only [List.getLast?_append, List.getLast?_singleton, Option.some_or, List.dropLast_concat,
    Option.bind_eq_bind, Option.bind_some, true_and]
  rw [if_pos (by
    rw [List.all_eq_true]
    intro idx hi
    have hi := mem_allIndices.1 hi
    rw [h1.2 idx hi]
    exact decide_eq_true (hr idx hi))]
  refine ⟨_, rfl, rfl, fun idx hi => ?_⟩
  have e2 := fun i : Fin (n + 1) => h2.2 _ (inBounds_snoc hi i.isLt)
  simp only [h1.2 idx hi, e2]
  rw [h2.2 _ (inBounds_snoc hi (by have := hr idx hi; omega))]
  rfl

theorem sparseCE_none {labels : Tensor ℤ} {logits : Tensor ℝ} {S : List ℕ} {n : ℕ} {f : List ℕ → ℤ} {g : List ℕ → ℝ}
    (h1 : Is labels S f) (h2 : Is logits (S ++ [n + 1]) g) (idx : List ℕ) (hi : InBounds idx S)
    (hr : ¬(0 ≤ f idx ∧ f idx < (n + 1 : ℕ))) : sparseCE labels logits = none := by
  unfold sparseCE
  rw [h1.1, h2.1]
  simp only [List.getLast?_append, List.getLast?_singleton, Option.some_or, List.dropLast_concat,
    Option.bind_eq_bind, Option.bind_some, true_and]
  rw [if_neg]
  intro hall
  rw [List.all_eq_true] at hall
  have := of_decide_eq_true (hall idx (mem_allIndices.2 hi))
  rw [h1.2 idx hi] at this
  exact hr this

theorem is_catBroadcast {given : Tensor ℤ} {logits : Tensor ℝ} {b S : List ℕ} {k : ℕ} (hl : logits.shape = b ++ [k])
    (hS : IsBroadcast given.shape b S) :
    ∃ g l, catBroadcast given logits = some (g, l) ∧ Is g S (fun idx => given.val (projIdx given.shape idx)) ∧
      Is l (S ++ [k]) (fun idx => logits.val (projIdx logits.shape idx)) := by
  unfold catBroadcast
  have hd : logits.shape.dropLast = b := by rw [hl]; simp
  obtain ⟨g, e1, ig⟩ := is_map2 (· * ·) (is_self given) (⟨hd, fun _ _ => rfl⟩ :
    Is (⟨logits.shape.dropLast, fun _ => 1⟩ : Tensor ℤ) b (fun _ => 1)) (bcast_of_isBroadcast hS)
  have io : Is (onesLike (expandLast g) : Tensor ℝ) (S ++ [1]) (fun _ => 1) :=
    ⟨by simp [onesLike, expandLast, ig.1], fun _ _ => rfl⟩
  obtain ⟨l, e2, il⟩ := is_map2 (· * ·) (is_self logits) io (c := S ++ [k]) (by
    rw [hl]
    exact bcast_append rfl (bcast_eq_of_expands hS.2.1) (by simp [bcast, zipLongest, zipRest, dim_one_right]))
  refine ⟨g, l, ?_, ig.congr fun idx _ => by simp, il.congr fun idx _ => by simp⟩
  simp only [e1, e2, Option.bind_eq_bind, Option.bind_some]
  rfl

theorem admits_dropEnd {s : Static} {b : List ℕ} {k : ℕ} (h : Admits s (b ++ [k])) : Admits (s.dropEnd 1) b := by
  cases s with
  | none => trivial
  | some l =>
    have h' : List.Forall₂ (fun o n => o = none ∨ o = some n) l (b ++ [k]) := h
    have hlen := h'.length_eq
    have := List.forall₂_take (b.length) h'
    simp only [List.take_left'] at this
    show List.Forall₂ _ (l.take (l.length - 1)) b
    rw [hlen]
    simpa using this

/-- The labels and the logits after the branches of `Categorical._log_prob`. -/
theorem is_catBranches {given : STensor ℤ} {logits : STensor ℝ} (hg : Admits given.static given.rt.shape)
    (hlt : Admits logits.static logits.rt.shape) {b S : List ℕ} {k : ℕ} (hl : logits.rt.shape = b ++ [k])
    (hS : IsBroadcast given.rt.shape b S) :
    ∃ g l, categoricalLogProbT given logits = ((sparseCE g l).map (mapT fun x => -x)) ∧
      Is g S (fun idx => given.rt.val (projIdx given.rt.shape idx)) ∧
      Is l (S ++ [k]) (fun idx => logits.rt.val (projIdx logits.rt.shape idx)) := by
  obtain ⟨g, l, e, ig, il⟩ := is_catBroadcast hl hS
  have fin : ∀ o, o = catBroadcast given.rt logits.rt → (o.bind fun p => (sparseCE p.1 p.2).bind fun ce =>
      some (mapT (fun x => -x) ce)) = ((sparseCE g l).map (mapT fun x => -x)) := by
    intro o ho
    rw [ho, e]
    simp only [Option.bind_some]
    cases sparseCE g l <;> rfl
  unfold categoricalLogProbT
  simp only [Option.bind_eq_bind, Option.pure_def]
  by_cases h1 : (!(given.static.truthy && logits.static.truthy)) = true
  · rw [if_pos h1]; exact ⟨g, l, fin _ rfl, ig, il⟩
  rw [if_neg h1]
  by_cases h2 : (given.static.map fun s => (s.length : ℤ)) ≠ logits.static.map fun s => (s.length : ℤ) - 1
  · rw [if_pos h2]; exact ⟨g, l, fin _ rfl, ig, il⟩
  rw [if_neg h2]
  by_cases h3 : (given.static.fullyDefined && (logits.static.dropEnd 1).fullyDefined) = true
  swap
  · rw [if_neg h3]; exact ⟨g, l, fin _ rfl, ig, il⟩
  rw [if_pos h3]
  by_cases h4 : given.static ≠ logits.static.dropEnd 1
  · rw [if_pos h4]; exact ⟨g, l, fin _ rfl, ig, il⟩
  rw [if_neg h4]
  rw [Bool.and_eq_true] at h3
  have ex := admits_fully hg h3.1
  have ey := admits_fully (admits_dropEnd (hl ▸ hlt)) h3.2
  have hgb : given.rt.shape = b := by
    have h0 := ex.symm.trans ((not_not.1 h4).trans ey)
    simp only [Option.some.injEq] at h0
    have := congrArg (List.map (fun o => Option.getD o 0)) h0
    simpa [Function.comp_def] using this
  have hSb : S = b := by
    have := bcast_of_isBroadcast hS
    rw [hgb, bcast_self] at this
    exact (Option.some.inj this).symm
  refine ⟨given.rt, logits.rt, ?_, ⟨hgb.trans hSb.symm, fun idx hi => ?_⟩, ⟨hl.trans (by rw [hSb]), fun idx hi => ?_⟩⟩
  · simp only [Option.bind_some]
    cases sparseCE given.rt logits.rt <;> rfl
  · exact congrArg _ (projIdx_self (c := given.rt.shape) (by rw [hgb, ← hSb]; exact hi)).symm
  · exact congrArg _ (projIdx_self (c := logits.rt.shape) (by rw [hl, ← hSb]; exact hi)).symm

/-- Categorical, for labels that are classes. -/
theorem C76_categorical (given : STensor ℤ) (logits : STensor ℝ) (hg : Admits given.static given.rt.shape)
    (hlt : Admits logits.static logits.rt.shape) (b S : List ℕ) (n : ℕ) (hl : logits.rt.shape = b ++ [n + 1])
    (hS : IsBroadcast given.rt.shape b S)
    (hr : ∀ idx, InBounds idx given.rt.shape → 0 ≤ given.rt.val idx ∧ given.rt.val idx < (n + 1 : ℕ)) :
    ∃ r, categoricalLogProbT given logits = some r ∧ r.shape = S ∧
      ∀ idx, InBounds idx S → ∀ (l : Fin (n + 1) → ℝ) (x : Fin (n + 1)), RowAt logits.rt idx l →
        EntryAt given.rt idx (x : ℤ) → r.val idx = categoricalLogProb l x := by
  obtain ⟨g, l, e1, ig, il⟩ := is_catBranches hg hlt hl hS
  obtain ⟨ce, e2, ice⟩ := is_sparseCE ig il fun idx hi => hr _ (inBounds_projIdx hS.1 hi)
  refine ⟨mapT (fun x => -x) ce, by rw [e1, e2]; rfl, ice.1, fun idx hi lr x hlr hx => ?_⟩
  have heL : Expands logits.rt.shape (S ++ [n + 1]) := by rw [hl]; exact hS.2.1.append [n + 1]
  rw [(is_mapT (fun x : ℝ => -x) ice).2 idx hi]
  obtain rfl := funext fun i => rowAt_eq hlr heL hi i
  have hx' := entryAt_eq hx hS.1 hi
  simp only [← hx', Int.toNat_natCast]
  rfl

/-- Categorical fails when a label is not a class. -/
theorem C76_categorical_range (given : STensor ℤ) (logits : STensor ℝ) (hg : Admits given.static given.rt.shape)
    (hlt : Admits logits.static logits.rt.shape) (b S : List ℕ) (n : ℕ) (hl : logits.rt.shape = b ++ [n + 1])
    (hS : IsBroadcast given.rt.shape b S) (idx : List ℕ) (hi : InBounds idx S) (x : ℤ)
    (hx : EntryAt given.rt idx x) (hr : ¬(0 ≤ x ∧ x < (n + 1 : ℕ))) : categoricalLogProbT given logits = none := by
  obtain ⟨g, l, e1, ig, il⟩ := is_catBranches hg hlt hl hS
  have hx' := entryAt_eq hx hS.1 hi
  rw [e1, sparseCE_none ig il idx hi (by rw [← hx']; exact hr)]
  rfl

theorem bcast_square (k : ℕ) : bcast [k, k] [k, 1] = some [k, k] := by
  simp [bcast, zipLongest, zipRest, dim_one_right, dim_self]

/-- MultivariateNormalCholesky. -/
theorem C76_mvn (f : Flags) (mean covTril given : STensor ℝ) (hm : Admits mean.static mean.rt.shape)
    (hc : Admits covTril.static covTril.rt.shape) (hg : Admits given.static given.rt.shape) (b S : List ℕ) (n : ℕ)
    (hms : mean.rt.shape = b ++ [n]) (hcs : covTril.rt.shape = b ++ [n, n])
    (hS : IsBroadcast given.rt.shape mean.rt.shape (S ++ [n])) :
    ∃ r, mvnLogProbT mean covTril given = some r ∧ r.shape = S ∧
      ∀ idx, InBounds idx S → ∀ (m x : Fin n → ℝ) (L : Fin n → Fin n → ℝ), RowAt mean.rt idx m →
        MatAt covTril.rt idx L → RowAt given.rt idx x → r.val idx = mvnLogProb f m L x := by
  have ik : mean.rt.shape.getLast? = some n := by rw [hms]; simp
  have ic : Is covTril.rt (b ++ [n, n]) covTril.rt.val := ⟨hcs, fun _ _ => rfl⟩
  have heb : Expands b S := expands_of_append (v := [n]) (hms ▸ hS.2.1)
  have heC : Expands covTril.rt.shape (S ++ [n, n]) := by rw [hcs]; exact heb.append [n, n]
  obtain ⟨dg, e1, idg⟩ := is_diagPart ic
  obtain ⟨ld, e2, ild⟩ := is_reduceRow sumRow (is_mapT Fn.log idg)
  have ilz := is_mapT (fun x : ℝ => -(n : ℝ) / 2 * Fn.log (2 * Real.pi) - x / 2) (is_mapT (fun x : ℝ => 2 * x) ild)
  obtain ⟨st, e3⟩ : ∃ st, sbcast given.static mean.static = some st := by
    cases h : sbcast given.static mean.static with
    | none =>
      have := (sbcast_sound hg hm).1 h
      rw [bcast_of_isBroadcast hS] at this; cases this
    | some st => exact ⟨st, rfl⟩
  have hst := (sbcast_sound hg hm).2 _ _ e3 (bcast_of_isBroadcast hS)
  obtain ⟨gm, e4, igm⟩ := is_map2 (· - ·) (is_self given.rt) (is_self mean.rt) (bcast_of_isBroadcast hS)
  have iy := is_expandLast igm
  have hys : (expandLast gm).shape = S ++ [n, 1] := by rw [iy.1]; simp
  obtain ⟨L, Y, e5, iL, -, -, -⟩ := is_meb covTril ⟨staticExpandLast st, expandLast gm⟩ hc
    (by
      show Admits (staticExpandLast st) (expandLast gm).shape
      rw [iy.1]
      exact admits_concat hst (.cons (.inr rfl) .nil))
    (c := S ++ [n, n]) (by
      show bcast covTril.rt.shape (expandLast gm).shape = _
      rw [hys, hcs]
      exact bcast_append rfl (bcast_eq_of_expands heb) (bcast_square n))
  have iy' : Is (expandLast gm) (S ++ [n, 1]) (fun idx => given.rt.val (projIdx given.rt.shape idx.dropLast) -
      mean.rt.val (projIdx mean.rt.shape idx.dropLast)) := by
    have : S ++ [n] ++ [1] = S ++ [n, 1] := by simp
    rw [this] at iy
    exact iy
  obtain ⟨x, e6, sx, vx⟩ := is_triSolveT iL iy'
  obtain ⟨q, e7, iq⟩ := is_squeezeLast (S := S ++ [n]) (⟨by rw [sx]; simp, fun _ _ => rfl⟩ :
    Is x ((S ++ [n]) ++ [1]) x.val)
  obtain ⟨sq', e8, isq⟩ := is_reduceRow sumRow (is_mapT sq iq)
  obtain ⟨r, e9, ir⟩ := is_map2_left (· + ·) ilz (is_mapT (fun v : ℝ => -0.5 * v) isq) heb
  refine ⟨r, ?_, ir.1, fun idx hi m xr Lr hmr hLr hxr => ?_⟩
  · simp only [mvnLogProbT, ik, e1, e2, e3, e4, e5, e6, e7, e8, e9, Option.bind_eq_bind, Option.bind_some]
  · rw [ir.2 idx hi]
    obtain rfl := funext fun i => rowAt_eq hmr hS.2.1 hi i
    obtain rfl := funext fun i => rowAt_eq hxr hS.1 hi i
    obtain rfl := funext fun i => funext fun j => matAt_eq hLr heC hi i j
    have hv := fun i : Fin n => vx idx hi i 0 Nat.one_pos
    have hdiag : ∀ i : Fin n, projIdx covTril.rt.shape (idx ++ [i.val, i.val]) = projIdx b idx ++ [i.val, i.val] := by
      intro i
      rw [hcs]
      exact projIdx_tail heb hi (.cons i.isLt (.cons i.isLt .nil))
    simp only [mvnLogProb, real_pathParam, List.append_assoc, List.cons_append, List.nil_append,
      List.getLastD_concat, hv, dropLast_snoc2, hdiag]
    rfl

theorem is_reduceSumLast2 {t : Tensor ℝ} {S : List ℕ} {r c : ℕ} {f : List ℕ → ℝ} (h : Is t (S ++ [r, c]) f) :
    ∃ q, reduceSumLast2 t = some q ∧
      Is q S (fun idx => Fn.sum fun i : Fin r => Fn.sum fun j : Fin c => f (idx ++ [i.val, j.val])) := by
  unfold reduceSumLast2
  have h' : Is t ((S ++ [r]) ++ [c]) f := by simpa using h
  obtain ⟨t1, e1, i1⟩ := is_reduceRow sumRow h'
  obtain ⟨t2, e2, i2⟩ := is_reduceRow sumRow i1
  refine ⟨t2, by simp only [e1, e2, Option.bind_eq_bind, Option.bind_some], i2.congr fun idx hi => ?_⟩
  simp only [List.append_assoc, List.cons_append, List.nil_append]
  rfl

/-- MatrixVariateNormalCholesky. -/
theorem C76_matrix_normal (f : Flags) (su sv : Static) (mean uTril vTril given : STensor ℝ)
    (hu : Admits uTril.static uTril.rt.shape) (hv : Admits vTril.static vTril.rt.shape) (b S : List ℕ) (n p : ℕ)
    (hms : mean.rt.shape = b ++ [n, p]) (hus : uTril.rt.shape = b ++ [n, n]) (hvs : vTril.rt.shape = b ++ [p, p])
    (hsu : Admits su (S ++ [n, 1])) (hsv : Admits sv (S ++ [p, 1]))
    (hS : IsBroadcast given.rt.shape mean.rt.shape (S ++ [n, p])) :
    ∃ r, matNormalLogProbT su sv mean uTril vTril given = some r ∧ r.shape = S ∧
      ∀ idx, InBounds idx S → ∀ (m x : Fin n → Fin p → ℝ) (U : Fin n → Fin n → ℝ) (V : Fin p → Fin p → ℝ),
        MatAt mean.rt idx m → MatAt uTril.rt idx U → MatAt vTril.rt idx V → MatAt given.rt idx x →
        r.val idx = matNormalLogProb f m U V x := by
  have heb : Expands b S := expands_of_append (v := [n, p]) (hms ▸ hS.2.1)
  have heU : Expands uTril.rt.shape (S ++ [n, n]) := by rw [hus]; exact heb.append [n, n]
  have heV : Expands vTril.rt.shape (S ++ [p, p]) := by rw [hvs]; exact heb.append [p, p]
  obtain ⟨du, e1, idu⟩ := is_diagPart (⟨hus, fun _ _ => rfl⟩ : Is uTril.rt (b ++ [n, n]) uTril.rt.val)
  obtain ⟨su', e2, isu⟩ := is_reduceRow sumRow (is_mapT Fn.log idu)
  obtain ⟨dv, e3, idv⟩ := is_diagPart (⟨hvs, fun _ _ => rfl⟩ : Is vTril.rt (b ++ [p, p]) vTril.rt.val)
  obtain ⟨sv', e4, isv⟩ := is_reduceRow sumRow (is_mapT Fn.log idv)
  have em : split2 mean.rt.shape = some (b, n, p) := by rw [hms, split2_append]
  obtain ⟨lz, e5, ilz⟩ := is_map2_same (· - ·)
    (is_mapT (fun x : ℝ => -((n : ℝ) * p) / 2 * Fn.log (2 * Real.pi) - (n : ℝ) / 2 * x)
      (is_mapT (fun x : ℝ => 2 * x) isv))
    (is_mapT (fun x : ℝ => (p : ℝ) / 2 * x) (is_mapT (fun x : ℝ => 2 * x) isu))
  obtain ⟨y, e6, iy⟩ := is_map2 (· - ·) (is_self given.rt) (is_self mean.rt) (bcast_of_isBroadcast hS)
  have ey : split2 y.shape = some (S, n, p) := by rw [iy.1, split2_append]
  obtain ⟨Lu, Y, e7, iLu, -, -, -⟩ := is_meb uTril ⟨su, ⟨S ++ [n, 1], fun _ => 1⟩⟩ hu hsu (c := S ++ [n, n]) (by
      rw [hus]
      exact bcast_append rfl (bcast_eq_of_expands heb) (bcast_square n))
  obtain ⟨Lv, Y', e8, iLv, -, -, -⟩ := is_meb vTril ⟨sv, ⟨S ++ [p, 1], fun _ => 1⟩⟩ hv hsv (c := S ++ [p, p]) (by
      rw [hvs]
      exact bcast_append rfl (bcast_eq_of_expands heb) (bcast_square p))
  obtain ⟨x, e9, sx, vx⟩ := is_triSolveT iLu iy
  obtain ⟨xt, e10, ixt⟩ := is_transposeLast (⟨sx, fun _ _ => rfl⟩ : Is x (S ++ [n, p]) x.val)
  obtain ⟨w, e11, sw, vw⟩ := is_triSolveT iLv ixt
  obtain ⟨q, e12, iq⟩ := is_reduceSumLast2 (is_mapT sq (⟨sw, fun _ _ => rfl⟩ : Is w (S ++ [p, n]) w.val))
  obtain ⟨r, e13, ir⟩ := is_map2_left (· + ·) ilz (is_mapT (fun v : ℝ => -0.5 * v) iq) heb
  refine ⟨r, ?_, ir.1, fun idx hi m xr U V hmr hU hV hxr => ?_⟩
  · simp only [matNormalLogProbT, em, ey, e1, e2, e3, e4, e5, e6, e7, e8, e9, e10, e11, e12, e13,
      Option.bind_eq_bind, Option.bind_some]
  · rw [ir.2 idx hi]
    obtain rfl := funext fun i => funext fun j => matAt_eq hmr hS.2.1 hi i j
    obtain rfl := funext fun i => funext fun j => matAt_eq hxr hS.1 hi i j
    obtain rfl := funext fun i => funext fun j => matAt_eq hU heU hi i j
    obtain rfl := funext fun i => funext fun j => matAt_eq hV heV hi i j
    have hw := fun (i : Fin p) (j : Fin n) => vw idx hi i j.val j.isLt
    have hx := fun (i : Fin n) (j : Fin p) => vx idx hi i j.val j.isLt
    have hdu : ∀ i : Fin n, projIdx uTril.rt.shape (idx ++ [i.val, i.val]) = projIdx b idx ++ [i.val, i.val] := by
      intro i
      rw [hus]
      exact projIdx_tail heb hi (.cons i.isLt (.cons i.isLt .nil))
    have hdv : ∀ i : Fin p, projIdx vTril.rt.shape (idx ++ [i.val, i.val]) = projIdx b idx ++ [i.val, i.val] := by
      intro i
      rw [hvs]
      exact projIdx_tail heb hi (.cons i.isLt (.cons i.isLt .nil))
    simp only [matNormalLogProb, real_pathParam, List.append_assoc, List.cons_append, List.nil_append,
      List.getLastD_concat, List.dropLast_concat, dropLast_snoc2, getLastD_snoc2, hw, hx, hdu, hdv]
    rfl

/-- `group_ndims` then sums the trailing axes of the batch, and fails when there are too few. -/
theorem C76_group (p : Option (Tensor ℝ)) (r0 : Tensor ℝ) (h0 : p = some r0) (g : ℕ) :
    (g ≤ r0.shape.length → ∃ r, grouped p g = some r ∧ r.shape = r0.shape.take (r0.shape.length - g) ∧
      ∀ idx, InBounds idx r.shape → r.val idx =
        ((allIndices (r0.shape.drop (r0.shape.length - g))).map (fun j => r0.val (idx ++ j))).sum) ∧
    (r0.shape.length < g → grouped p g = none) := by
  subst h0
  refine ⟨fun hg => ?_, fun hg => groupReduce_fail _ r0 g hg⟩
  obtain ⟨r', f1, f2, f3⟩ := groupReduce_spec List.sum r0 g hg
  refine ⟨r', f1, f2, fun idx hi => ?_⟩
  rw [f3 idx (f2 ▸ hi)]

/-! ### The hypotheses are met -/

theorem isBroadcast_of_bcast {a b c : List ℕ} (h : bcast a b = some c) : IsBroadcast a b c :=
  (C12_least_upper_bound a b c).1 h

/-- A batch of 4 Dirichlets over 3 classes at values of shape `[2, 1, 3]`, one static shape unknown: the entry
`[1, 2]` of the result is that of the row 2 of `alpha` and of the row `[1, 0]` of the values. -/
example (alpha given : Tensor ℝ) (ha : alpha.shape = [4, 3]) (hg : given.shape = [2, 1, 3]) :
    ∃ r, dirichletLogProbT ⟨none, alpha⟩ ⟨some [some 2, none, some 3], given⟩ = some r ∧ r.shape = [2, 4] ∧
      r.val [1, 2] = dirichletLogProb ⟨true, true⟩ (fun i : Fin 3 => alpha.val [2, i.val])
        (fun i : Fin 3 => given.val [1, 0, i.val]) := by
  obtain ⟨r, h1, h2, h3⟩ := C76_dirichlet ⟨true, true⟩ ⟨none, alpha⟩ ⟨some [some 2, none, some 3], given⟩ trivial
    (by show Admits _ given.shape; rw [hg]; exact .cons (.inr rfl) (.cons (.inl rfl) (.cons (.inr rfl) .nil)))
    [2, 4] 3 (isBroadcast_of_bcast (by show bcast given.shape alpha.shape = _; rw [ha, hg]; decide))
  refine ⟨r, h1, h2, h3 [1, 2] (.cons (by decide) (.cons (by decide) .nil)) _ _ (fun i => ?_) (fun i => ?_)⟩
  · refine ⟨[2, i.val], ⟨by show _ = alpha.shape.length; rw [ha]; rfl, ?_⟩, rfl⟩
    show ∀ k, k < alpha.shape.length → _ = if alpha.shape.reverse[k]? = _ then _ else _
    rw [ha]
    intro k hk
    simp only [List.length_cons, List.length_nil] at hk
    interval_cases k <;> simp
  · refine ⟨[1, 0, i.val], ⟨by show _ = given.shape.length; rw [hg]; rfl, ?_⟩, rfl⟩
    show ∀ k, k < given.shape.length → _ = if given.shape.reverse[k]? = _ then _ else _
    rw [hg]
    intro k hk
    simp only [List.length_cons, List.length_nil] at hk
    interval_cases k <;> simp

/-- Two normal vectors of dimension 2 at five values, statically unknown. -/
example (mean cov given : Tensor ℝ) (hm : mean.shape = [2, 2]) (hc : cov.shape = [2, 2, 2])
    (hg : given.shape = [5, 1, 2]) :
    ∃ r, mvnLogProbT ⟨none, mean⟩ ⟨none, cov⟩ ⟨none, given⟩ = some r ∧ r.shape = [5, 2] := by
  obtain ⟨r, h1, h2, -⟩ := C76_mvn ⟨true, true⟩ ⟨none, mean⟩ ⟨none, cov⟩ ⟨none, given⟩ trivial trivial trivial [2] [5, 2] 2
    hm hc (isBroadcast_of_bcast (by show bcast given.shape mean.shape = _; rw [hm, hg]; decide))
  exact ⟨r, h1, h2⟩

/-- Three-by-two matrix normals. -/
example (mean u v given : Tensor ℝ) (hm : mean.shape = [4, 3, 2]) (hu : u.shape = [4, 3, 3]) (hv : v.shape = [4, 2, 2])
    (hg : given.shape = [3, 2]) :
    ∃ r, matNormalLogProbT none none ⟨none, mean⟩ ⟨none, u⟩ ⟨none, v⟩ ⟨none, given⟩ = some r ∧ r.shape = [4] := by
  obtain ⟨r, h1, h2, -⟩ := C76_matrix_normal ⟨true, true⟩ none none ⟨none, mean⟩ ⟨none, u⟩ ⟨none, v⟩ ⟨none, given⟩
    trivial trivial [4] [4] 3 2 hm hu hv trivial trivial
    (isBroadcast_of_bcast (by show bcast given.shape mean.shape = _; rw [hm, hg]; decide))
  exact ⟨r, h1, h2⟩

/-- A label equal to the number of classes makes Categorical fail. -/
example (logits : Tensor ℝ) (hl : logits.shape = [2, 3]) :
    categoricalLogProbT ⟨some [], ⟨[], fun _ => 3⟩⟩ ⟨none, logits⟩ = none :=
  C76_categorical_range ⟨some [], ⟨[], fun _ => 3⟩⟩ ⟨none, logits⟩ .nil trivial [2] [2] 2 hl
    (isBroadcast_of_bcast (by decide)) [1] (.cons (by decide) .nil) 3 ⟨[], ⟨rfl, fun k hk => by simp at hk⟩, rfl⟩
    (by decide)

end ZhuSuan.Batch

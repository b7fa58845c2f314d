import Verif.Lemmas.LogExp

/-! # C35: `log_sum_exp` and `log_mean_exp` are exact and stable -/

set_option autoImplicit false

namespace ZhuSuan.LogExp
open ZhuSuan.Shape

theorem wantedAxes_eq (n : ℕ) (axis : Option (List ℤ)) : wantedAxes n axis = axesOf n axis := by
  cases axis <;> rfl

theorem validAxes_none (n : ℕ) : ValidAxes n (axesOf n none) := by
  intro a ha
  simp only [axesOf, List.mem_map, List.mem_range] at ha
  obtain ⟨i, hi, rfl⟩ := ha
  omega

theorem reduceKeep_eq {α β : Type} (agg : List α → β) (x : Tensor α) {axes : List ℤ} {l : List ℕ}
    (hl : axes.mapM (normAxis x.shape.length) = some l) :
    reduceKeep agg x axes = some ⟨oneAxes l 0 x.shape, fun idx => agg (cellKeep l x idx)⟩ := by
  unfold reduceKeep cellKeep; rw [hl]; rfl

theorem reduceWith_eq {α β : Type} (agg : List α → β) (x : Tensor α) {axes : List ℤ} {l : List ℕ}
    (hl : axes.mapM (normAxis x.shape.length) = some l) :
    reduceWith agg x axes = some ⟨keepAxes l 0 x.shape, fun idx => agg (cell l x idx)⟩ := by
  unfold reduceWith cell; rw [hl]; rfl

theorem cell_ne_nil {α : Type} (l : List ℕ) (x : Tensor α) (hx : NonEmpty x) {idx : List ℕ}
    (h : InBounds idx (keepAxes l 0 x.shape)) : cell l x idx ≠ [] := by
  obtain ⟨k, hk, he⟩ := exists_full l 0 x.shape idx hx h
  intro hc
  unfold cell at hc
  rw [List.map_eq_nil_iff, List.filter_eq_nil_iff] at hc
  exact hc k (mem_allIndices.2 hk) (by simpa using he)

theorem expArg_eq (x : Tensor ℝ) {axis : Option (List ℤ)} {l : List ℕ}
    (hl : (axesOf x.shape.length axis).mapM (normAxis x.shape.length) = some l) :
    ∃ d, expArg x axis = some d ∧ d.shape = x.shape ∧ ∀ k, InBounds k x.shape →
      d.val k = x.val k - listMax (cell l x (keepAxes l 0 k)) := by
  unfold expArg
  rw [reduceKeep_eq _ _ hl]
  simp only [Option.bind_some, map2]
  rw [bcast_eq_of_expands' (expands_oneAxes l 0 x.shape)]
  refine ⟨_, rfl, rfl, ?_⟩
  intro k hk
  simp only
  rw [projIdx_self hk, projIdx_oneAxes l 0 _ _ hk, cellKeep_eq l x _ (zeroAxes_inBounds l 0 _ _ hk)]
  congr 3
  have h1 : (zeroAxes l 0 k).length = k.length := zeroAxes_length l 0 k
  rw [← zeroAxes_eq_iff l 0 _ _ h1]
  exact zeroAxes_of_inBounds l 0 x.shape _ (zeroAxes_inBounds l 0 _ _ hk)

theorem cell_exp (x d : Tensor ℝ) (l : List ℕ) (hs : d.shape = x.shape)
    (hd : ∀ k, InBounds k x.shape → d.val k = x.val k - listMax (cell l x (keepAxes l 0 k)))
    (idx : List ℕ) :
    cell l (mapT Real.exp d) idx =
      (cell l x idx).map (fun a => Real.exp (a - listMax (cell l x idx))) := by
  unfold cell mapT
  simp only [List.map_map, hs]
  apply List.map_congr_left
  intro k hk
  rw [List.mem_filter] at hk
  have hk2 : keepAxes l 0 k = idx := by simpa using hk.2
  simp only [Function.comp]
  rw [hd k (mem_allIndices.1 hk.1), hk2]
  rfl

/-- The generic computation: `log(A(exp(x - max))) + max`, reduced again by `A` unless `keepdims`. -/
theorem core (A : List ℝ → ℝ) (hA : ∀ (l : List ℝ) (m : ℝ), A (l.map (fun a => Real.exp (a - m))) =
      Real.exp (-m) * A (l.map Real.exp))
    (hpos : ∀ l : List ℝ, l ≠ [] → 0 < A (l.map Real.exp)) (hone : ∀ v, A [v] = v)
    (x : Tensor ℝ) (hx : NonEmpty x) (axis : Option (List ℤ))
    (hv : ValidAxes x.shape.length (axesOf x.shape.length axis)) (keepdims : Bool) :
    ∃ r r', ((reduceKeep listMax x (axesOf x.shape.length axis)).bind (fun xmax =>
        ((expArg x axis).bind (fun d =>
          reduceKeep A (mapT Real.exp d) (axesOf x.shape.length axis))).bind (fun s =>
        (map2 (· + ·) (mapT Real.log s) xmax).bind (fun ret =>
        if !keepdims then reduceWith A ret (axesOf ret.shape.length axis) else some ret)))) = some r ∧
      (if keepdims then reduceKeep (fun l => Real.log (A (l.map Real.exp))) x
          (axesOf x.shape.length axis)
        else reduceWith (fun l => Real.log (A (l.map Real.exp))) x (axesOf x.shape.length axis))
        = some r' ∧ SameTensor r r' := by
  obtain ⟨l, hl⟩ := mapM_normAxis hv
  obtain ⟨d, hd0, hds, hd⟩ := expArg_eq x hl
  have hl' : (axesOf x.shape.length axis).mapM (normAxis (mapT Real.exp d).shape.length) = some l := by
    simpa [mapT, hds] using hl
  rw [reduceKeep_eq _ _ hl, hd0]
  simp only [Option.bind_some]
  rw [reduceKeep_eq _ _ hl']
  simp only [Option.bind_some, map2, mapT, hds]
  rw [bcast_self]
  simp only [Option.map_some, Option.bind_some]
  set ret : Tensor ℝ := ⟨oneAxes l 0 x.shape, fun idx =>
      Real.log (A (cellKeep l ⟨x.shape, fun idx => Real.exp (d.val idx)⟩
        (projIdx (oneAxes l 0 x.shape) idx))) +
      listMax (cellKeep l x (projIdx (oneAxes l 0 x.shape) idx))⟩ with hret
  have hval : ∀ k, InBounds k ret.shape →
      ret.val k = Real.log (A ((cell l x (keepAxes l 0 k)).map Real.exp)) := by
    intro k hk
    have hk' : InBounds k (oneAxes l 0 x.shape) := hk
    simp only [hret]
    rw [projIdx_self hk', cellKeep_eq l x k hk',
      cellKeep_eq l ⟨x.shape, fun idx => Real.exp (d.val idx)⟩ k hk']
    have hc : cell l ⟨x.shape, fun idx => Real.exp (d.val idx)⟩ (keepAxes l 0 k) =
        (cell l x (keepAxes l 0 k)).map
          (fun a => Real.exp (a - listMax (cell l x (keepAxes l 0 k)))) := by
      have := cell_exp x d l hds hd (keepAxes l 0 k)
      rwa [mapT, hds] at this
    rw [hc, hA]
    have hne : cell l x (keepAxes l 0 k) ≠ [] := by
      apply cell_ne_nil l x hx
      have := keepAxes_inBounds l 0 _ _ hk'
      rwa [keepAxes_oneAxes] at this
    rw [Real.log_mul (Real.exp_pos _).ne' (hpos _ hne).ne', Real.log_exp]
    ring
  cases keepdims with
  | true =>
    refine ⟨ret, ⟨oneAxes l 0 x.shape, fun idx => Real.log (A ((cellKeep l x idx).map Real.exp))⟩, by
      simp, by simpa using reduceKeep_eq _ _ hl, rfl, ?_⟩
    intro k hk
    rw [hval k hk]
    simp only
    rw [cellKeep_eq l x k hk]
  | false =>
    have hl2 : (axesOf ret.shape.length axis).mapM (normAxis ret.shape.length) = some l := by
      have : ret.shape.length = x.shape.length := oneAxes_length l 0 _
      rwa [this]
    refine ⟨_, _, by simpa using reduceWith_eq A ret hl2, by simpa using reduceWith_eq _ _ hl,
      keepAxes_oneAxes l 0 x.shape, ?_⟩
    intro idx hidx
    simp only at hidx ⊢
    rw [show ret.shape = oneAxes l 0 x.shape from rfl, keepAxes_oneAxes] at hidx
    obtain ⟨k, hk, rfl⟩ := exists_one l 0 x.shape idx hidx
    rw [cell_keep l ret x.shape k rfl hk, hone, hval k hk]

/-- `log_sum_exp(x, axis, keepdims)` is the reduction of `x` by log-sum-exp over the same axes, for
every tensor without empty axes. -/
theorem C35_log_sum_exp (x : Tensor ℝ) (hx : NonEmpty x) (axis : Option (List ℤ))
    (hv : ValidAxes x.shape.length (wantedAxes x.shape.length axis)) (keepdims : Bool) :
    ∃ r r', logSumExp x axis keepdims = some r ∧
      (if keepdims then reduceKeep LSE x (wantedAxes x.shape.length axis)
        else reduceWith LSE x (wantedAxes x.shape.length axis)) = some r' ∧ SameTensor r r' := by
  simp only [wantedAxes_eq] at *
  exact core List.sum sum_exp_sub (fun _ h => sum_exp_pos h) (by simp) x hx axis hv keepdims

/-- `log_mean_exp(x, axis, keepdims)` is the reduction of `x` by log-mean-exp over the same axes. -/
theorem C35_log_mean_exp (x : Tensor ℝ) (hx : NonEmpty x) (axis : Option (List ℤ))
    (hv : ValidAxes x.shape.length (wantedAxes x.shape.length axis)) (keepdims : Bool) :
    ∃ r r', logMeanExp x axis keepdims = some r ∧
      (if keepdims then reduceKeep LME x (wantedAxes x.shape.length axis)
        else reduceWith LME x (wantedAxes x.shape.length axis)) = some r' ∧ SameTensor r r' := by
  simp only [wantedAxes_eq] at *
  have h := core listMean
    (fun l m => by unfold listMean; rw [sum_exp_sub]; simp [mul_div_assoc])
    (fun l h => by
      unfold listMean
      have h1 := sum_exp_pos h
      have : 0 < l.length := List.length_pos_iff.2 h
      have h2 : (0 : ℝ) < (l.map Real.exp).length := by simpa using this
      positivity)
    (by simp [listMean]) x hx axis hv keepdims
  have e : (fun l : List ℝ => Real.log (listMean (l.map Real.exp))) = LME := by
    funext l; simp [listMean, LME]
  rw [e] at h
  exact h

/-- With `axis=None` every axis is reduced: the result is a scalar, the log-sum-exp (log-mean-exp) of all the
entries. -/
theorem C35_all_axes (x : Tensor ℝ) (hx : NonEmpty x) :
    (∃ r, logSumExp x none false = some r ∧ r.shape = [] ∧
      r.val [] = LSE ((allIndices x.shape).map x.val)) ∧
    ∃ r, logMeanExp x none false = some r ∧ r.shape = [] ∧
      r.val [] = LME ((allIndices x.shape).map x.val) := by
  have hl : (axesOf x.shape.length none).mapM (normAxis x.shape.length) =
      some (List.range x.shape.length) := by
    have : ∀ l : List ℕ, (∀ i ∈ l, i < x.shape.length) →
        (l.map (fun i : ℕ => (i : ℤ))).mapM (normAxis x.shape.length) = some l := by
      intro l hl
      induction l with
      | nil => rfl
      | cons a l ih =>
        have ha := hl a (by simp)
        simp [List.mapM_cons, normAxis, ha, ih (fun i hi => hl i (by simp [hi]))]
    exact this _ (fun i hi => List.mem_range.1 hi)
  have hk : ∀ k : List ℕ, k.length = x.shape.length → keepAxes (List.range x.shape.length) 0 k = [] := by
    intro k hk
    rw [keepAxes_take _ 0 0 k (fun i hi => by simp; omega)]
    simp
  have hc : cell (List.range x.shape.length) x [] = (allIndices x.shape).map x.val := by
    unfold cell
    rw [List.filter_eq_self.2]
    intro k hk'
    simpa using hk k (mem_allIndices.1 hk').length_eq
  have main : ∀ (f : List ℝ → ℝ) (r r' : Tensor ℝ), reduceWith f x (axesOf x.shape.length none) = some r' →
      SameTensor r r' → r.shape = [] ∧ r.val [] = f ((allIndices x.shape).map x.val) := by
    intro f r r' h1 h2
    rw [reduceWith_eq _ _ hl, Option.some.injEq] at h1
    subst h1
    have hs : r.shape = [] := h2.1.trans (hk _ rfl)
    refine ⟨hs, ?_⟩
    rw [h2.2 [] (by rw [hs]; exact .nil)]
    show f (cell _ x []) = _
    rw [hc]
  obtain ⟨r, r', h1, h2, h3⟩ := C35_log_sum_exp x hx none (validAxes_none _) false
  obtain ⟨t, t', g1, g2, g3⟩ := C35_log_mean_exp x hx none (validAxes_none _) false
  exact ⟨⟨r, h1, main _ _ _ h2 h3⟩, t, g1, main _ _ _ g2 g3⟩

/-- Every exponential evaluated has a non-positive argument, and in every cell one of them is 0. -/
theorem C35_exp_arguments (x : Tensor ℝ) (hx : NonEmpty x) (axis : Option (List ℤ)) (l : List ℕ)
    (hl : (wantedAxes x.shape.length axis).mapM (normAxis x.shape.length) = some l) :
    ∃ d, expArg x axis = some d ∧ d.shape = x.shape ∧
      (∀ k, InBounds k x.shape → d.val k ≤ 0) ∧
      ∀ k, InBounds k x.shape → ∃ k', InBounds k' x.shape ∧ keepAxes l 0 k' = keepAxes l 0 k ∧
        d.val k' = 0 := by
  simp only [wantedAxes_eq] at *
  obtain ⟨d, h0, hs, hd⟩ := expArg_eq x hl
  refine ⟨d, h0, hs, ?_, ?_⟩
  · intro k hk
    rw [hd k hk]
    have : x.val k ∈ cell l x (keepAxes l 0 k) :=
      List.mem_map.2 ⟨k, List.mem_filter.2 ⟨mem_allIndices.2 hk, by simp⟩, rfl⟩
    have := le_listMax this
    linarith
  · intro k hk
    have hne : cell l x (keepAxes l 0 k) ≠ [] := cell_ne_nil l x hx (keepAxes_inBounds l 0 _ _ hk)
    obtain ⟨k', hk', he⟩ := List.mem_map.1 (listMax_mem hne)
    rw [List.mem_filter] at hk'
    have h2 : keepAxes l 0 k' = keepAxes l 0 k := by simpa using hk'.2
    refine ⟨k', mem_allIndices.1 hk'.1, h2, ?_⟩
    rw [hd k' (mem_allIndices.1 hk'.1), h2, he]
    exact sub_self _

theorem one_le_sum_exp {l : List ℝ} (h : l ≠ []) :
    1 ≤ (l.map (fun a => Real.exp (a - listMax l))).sum := by
  have h1 : (1 : ℝ) ∈ l.map (fun a => Real.exp (a - listMax l)) :=
    List.mem_map.2 ⟨listMax l, listMax_mem h, by simp⟩
  exact List.single_le_sum (fun y hy => by
    obtain ⟨a, _, rfl⟩ := List.mem_map.1 hy; exact (Real.exp_pos _).le) _ h1

theorem sum_exp_le {l : List ℝ} : (l.map (fun a => Real.exp (a - listMax l))).sum ≤ l.length := by
  have : ∀ (l' : List ℝ) (m : ℝ), (∀ a ∈ l', a ≤ m) →
      (l'.map (fun a => Real.exp (a - m))).sum ≤ l'.length := by
    intro l' m h
    induction l' with
    | nil => simp
    | cons a l' ih =>
      simp only [List.map_cons, List.sum_cons, List.length_cons, Nat.cast_add, Nat.cast_one]
      have h1 : Real.exp (a - m) ≤ 1 := Real.exp_le_one_iff.2 (by linarith [h a (by simp)])
      have h2 := ih (fun b hb => h b (by simp [hb]))
      linarith
  exact this l _ (fun a ha => le_listMax ha)

/-- The logarithm never sees 0: its argument is between 1 and the number of reduced entries for
`log_sum_exp`. -/
theorem C35_log_argument_sum (x : Tensor ℝ) (hx : NonEmpty x) (axis : Option (List ℤ))
    (hv : ValidAxes x.shape.length (wantedAxes x.shape.length axis)) :
    ∃ s, logArgSum x axis = some s ∧ ∀ k, InBounds k s.shape →
      1 ≤ s.val k ∧ s.val k ≤ (allIndices x.shape).length := by
  simp only [wantedAxes_eq] at *
  obtain ⟨l, hl⟩ := mapM_normAxis hv
  obtain ⟨d, hd0, hds, hd⟩ := expArg_eq x hl
  have hl' : (axesOf x.shape.length axis).mapM (normAxis (mapT Real.exp d).shape.length) = some l := by
    simpa [mapT, hds] using hl
  refine ⟨_, by unfold logArgSum; rw [hd0, Option.bind_some, reduceKeep_eq _ _ hl'], ?_⟩
  intro k hk
  have hk' : InBounds k (oneAxes l 0 x.shape) := by simpa [mapT, hds] using hk
  simp only
  rw [cellKeep_eq l _ k (by simpa [mapT, hds] using hk'), cell_exp x d l hds hd]
  have hne : cell l x (keepAxes l 0 k) ≠ [] := by
    apply cell_ne_nil l x hx
    have := keepAxes_inBounds l 0 _ _ hk'
    rwa [keepAxes_oneAxes] at this
  refine ⟨one_le_sum_exp hne, sum_exp_le.trans ?_⟩
  have : (cell l x (keepAxes l 0 k)).length ≤ (allIndices x.shape).length := by
    unfold cell; rw [List.length_map]; exact List.length_filter_le _ _
  exact_mod_cast this

/-- The logarithm of `log_mean_exp` sees a number in `(0, 1]`. -/
theorem C35_log_argument_mean (x : Tensor ℝ) (hx : NonEmpty x) (axis : Option (List ℤ))
    (hv : ValidAxes x.shape.length (wantedAxes x.shape.length axis)) :
    ∃ s, logArgMean x axis = some s ∧ ∀ k, InBounds k s.shape →
      1 / ((allIndices x.shape).length : ℝ) ≤ s.val k ∧ 0 < s.val k ∧ s.val k ≤ 1 := by
  simp only [wantedAxes_eq] at *
  obtain ⟨l, hl⟩ := mapM_normAxis hv
  obtain ⟨d, hd0, hds, hd⟩ := expArg_eq x hl
  have hl' : (axesOf x.shape.length axis).mapM (normAxis (mapT Real.exp d).shape.length) = some l := by
    simpa [mapT, hds] using hl
  refine ⟨_, by unfold logArgMean; rw [hd0, Option.bind_some, reduceKeep_eq _ _ hl'], ?_⟩
  intro k hk
  have hk' : InBounds k (oneAxes l 0 x.shape) := by simpa [mapT, hds] using hk
  simp only
  rw [cellKeep_eq l _ k (by simpa [mapT, hds] using hk'), cell_exp x d l hds hd]
  have hne : cell l x (keepAxes l 0 k) ≠ [] := by
    apply cell_ne_nil l x hx
    have := keepAxes_inBounds l 0 _ _ hk'
    rwa [keepAxes_oneAxes] at this
  have hlen : (cell l x (keepAxes l 0 k)).length ≤ (allIndices x.shape).length := by
    unfold cell; rw [List.length_map]; exact List.length_filter_le _ _
  have hlen' : ((cell l x (keepAxes l 0 k)).length : ℝ) ≤ (allIndices x.shape).length := by
    exact_mod_cast hlen
  have hp : (0 : ℝ) < (cell l x (keepAxes l 0 k)).length := by
    exact_mod_cast List.length_pos_iff.2 hne
  have h1 := one_le_sum_exp hne
  have h2 := sum_exp_le (l := cell l x (keepAxes l 0 k))
  unfold listMean
  rw [List.length_map]
  refine ⟨?_, by positivity, (div_le_one hp).2 h2⟩
  exact (div_le_div_of_nonneg_left zero_le_one hp hlen').trans
    (div_le_div_of_nonneg_right h1 hp.le)

/-- The log-mean-exp of a cell is between two of its entries. -/
theorem C35_between (l : List ℝ) (h : l ≠ []) :
    (∃ a ∈ l, a ≤ LME l) ∧ ∃ b ∈ l, LME l ≤ b := by
  have hp : (0 : ℝ) < l.length := by exact_mod_cast List.length_pos_iff.2 h
  have hs := sum_exp_pos h
  constructor
  · by_contra hc
    push Not at hc
    have : (l.map Real.exp).sum < (l.map Real.exp).sum := by
      have hlt : ∀ a ∈ l, (l.map Real.exp).sum / l.length < Real.exp a := by
        intro a ha
        have := Real.exp_lt_exp.2 (hc a ha)
        rwa [LME, Real.exp_log (by positivity)] at this
      calc (l.map Real.exp).sum = (l.map (fun _ => (l.map Real.exp).sum / l.length)).sum := by
            simp [List.map_const', List.sum_replicate]; field_simp
        _ < (l.map Real.exp).sum := List.sum_lt_sum_of_ne_nil h _ _ hlt
    exact lt_irrefl _ this
  · by_contra hc
    push Not at hc
    have : (l.map Real.exp).sum < (l.map Real.exp).sum := by
      have hlt : ∀ a ∈ l, Real.exp a < (l.map Real.exp).sum / l.length := by
        intro a ha
        have := Real.exp_lt_exp.2 (hc a ha)
        rwa [LME, Real.exp_log (by positivity)] at this
      calc (l.map Real.exp).sum < (l.map (fun _ => (l.map Real.exp).sum / l.length)).sum :=
            List.sum_lt_sum_of_ne_nil h _ _ hlt
        _ = (l.map Real.exp).sum := by
            simp [List.map_const', List.sum_replicate]; field_simp
    exact lt_irrefl _ this

/-- Adding a constant to every entry of a cell adds it to the result. -/
theorem C35_shift (l : List ℝ) (h : l ≠ []) (c : ℝ) :
    LSE (l.map (· + c)) = LSE l + c ∧ LME (l.map (· + c)) = LME l + c := by
  have e : ((l.map (· + c)).map Real.exp).sum = Real.exp c * (l.map Real.exp).sum := by
    rw [← List.sum_map_mul_left, List.map_map]
    congr 1
    apply List.map_congr_left
    intro a _
    simp [Real.exp_add, mul_comm]
  have hs := sum_exp_pos h
  have hp : (0 : ℝ) < l.length := by exact_mod_cast List.length_pos_iff.2 h
  constructor
  · unfold LSE; rw [e, Real.log_mul (Real.exp_pos _).ne' hs.ne', Real.log_exp]; ring
  · unfold LME
    rw [e, List.length_map, mul_div_assoc, Real.log_mul (Real.exp_pos _).ne' (by positivity),
      Real.log_exp]
    ring

/-- The order of the entries of a cell does not matter. -/
theorem C35_perm (l l' : List ℝ) (h : l.Perm l') : LSE l = LSE l' ∧ LME l = LME l' := by
  unfold LSE LME
  rw [(h.map Real.exp).sum_eq, h.length_eq]
  exact ⟨rfl, rfl⟩

/-- A concrete case: a 2×3 tensor reduced over its last axis. -/
example : NonEmpty (⟨[2, 3], fun k => (k.sum : ℝ)⟩ : Tensor ℝ) ∧
    ValidAxes 2 (wantedAxes 2 (some [-1])) ∧ (wantedAxes 2 (some [-1])).mapM (normAxis 2) = some [1] := by
  refine ⟨?_, ?_, by decide⟩
  · intro d hd; simp at hd; omega
  · intro a ha; simp [wantedAxes] at ha; omega

/-- A concrete case: the log-sum-exp of all six entries. -/
example : ∃ r, logSumExp ⟨[2, 3], fun _ => 0⟩ none false = some r ∧ r.val [] = Real.log 6 := by
  obtain ⟨⟨r, h1, -, h2⟩, -⟩ := C35_all_axes ⟨[2, 3], fun _ => 0⟩ (by intro d hd; simp at hd; omega)
  refine ⟨r, h1, h2.trans ?_⟩
  simp [LSE, allIndices, List.range, List.range.loop]
  norm_num

end ZhuSuan.LogExp

import Mathlib.Tactic.FieldSimp
import Mathlib.Tactic.Ring
import Mathlib.Tactic.Linarith
import Mathlib.Tactic.NormNum
import Mathlib.Algebra.Order.BigOperators.Group.Finset
import Mathlib.Algebra.BigOperators.Field
import Verif.Model.ExampleUtils

/-!
# C67  Utilities of the examples
-/

set_option autoImplicit false

namespace ZhuSuan.ExUtils

open ZhuSuan.Shape

/-! ## standardize -/

theorem colStd_eq_zero_iff {n d : ℕ} (hn : 0 < n) (x : Fin n → Fin d → ℝ) (j : Fin d) :
    colStd x j = 0 ↔ ∀ i i', x i j = x i' j := by
  have hn' : (0 : ℝ) < n := by exact_mod_cast hn
  rw [colStd, Real.sqrt_eq_zero (by positivity), div_eq_zero_iff, or_iff_left hn'.ne',
    Finset.sum_eq_zero_iff_of_nonneg (fun i _ => sq_nonneg _)]
  constructor
  · intro h i i'
    have h1 := pow_eq_zero_iff (two_ne_zero) |>.1 (h i (Finset.mem_univ _))
    have h2 := pow_eq_zero_iff (two_ne_zero) |>.1 (h i' (Finset.mem_univ _))
    linarith
  · intro h i _
    have : colMean x j = x i j := by
      rw [colMean, Finset.sum_congr rfl fun i' _ => h i' i, Finset.sum_const, Finset.card_univ, Fintype.card_fin,
        nsmul_eq_mul, mul_div_assoc, mul_comm, div_mul_cancel₀ _ hn'.ne']
    rw [this, sub_self, zero_pow two_ne_zero]

theorem fixedStd_pos {n d : ℕ} (x : Fin n → Fin d → ℝ) (j : Fin d) : 0 < fixedStd x j := by
  unfold fixedStd
  split_ifs with h
  · norm_num
  · exact lt_of_le_of_ne (Real.sqrt_nonneg _) (Ne.symm h)

/-- C67.  `standardize` with at least one training row: every column of the training data gets mean 0; it gets variance
1 unless it was constant, and then it becomes 0; training and test data go through the same map, the inverse of
`z ↦ std * z + mean` for the returned positive `std` and the returned `mean`, which is the mean of the column. -/
theorem C67_standardize {n m d : ℕ} (hn : 0 < n) (train : Fin n → Fin d → ℝ) (test : Fin m → Fin d → ℝ) (j : Fin d) :
    let r := standardize train test
    (∑ i, r.train i j) / n = 0 ∧
    ((∃ i i', train i j ≠ train i' j) → (∑ i, r.train i j ^ 2) / n = 1) ∧
    ((∀ i i', train i j = train i' j) → ∀ i, r.train i j = 0) ∧
    0 < r.std j ∧ r.mean j = (∑ i, train i j) / n ∧
    (∀ i, train i j = r.std j * r.train i j + r.mean j) ∧ ∀ i, test i j = r.std j * r.test i j + r.mean j := by
  intro r
  have hn' : (0 : ℝ) < n := by exact_mod_cast hn
  have hp := fixedStd_pos train j
  have hsum : ∑ i, (train i j - colMean train j) = 0 := by
    rw [Finset.sum_sub_distrib, Finset.sum_const, Finset.card_univ, Fintype.card_fin, nsmul_eq_mul, colMean,
      mul_div_cancel₀ _ hn'.ne', sub_self]
  have haff : ∀ y : ℝ, y = fixedStd train j * ((y - colMean train j) / fixedStd train j) + colMean train j := by
    intro y
    rw [mul_div_cancel₀ _ hp.ne', sub_add_cancel]
  refine ⟨?_, ?_, ?_, hp, rfl, fun i => haff _, fun i => haff _⟩
  · have : ∑ i, r.train i j = (∑ i, (train i j - colMean train j)) / fixedStd train j :=
      (Finset.sum_div _ _ _).symm
    rw [this, hsum, zero_div, zero_div]
  · rintro ⟨i, i', hne⟩
    have h0 : colStd train j ≠ 0 := fun h => hne ((colStd_eq_zero_iff hn train j).1 h i i')
    have hf : fixedStd train j = colStd train j := if_neg h0
    have hsq : fixedStd train j ^ 2 = (∑ i, (train i j - colMean train j) ^ 2) / n := by
      rw [hf, colStd, Real.sq_sqrt (div_nonneg (Finset.sum_nonneg fun _ _ => sq_nonneg _) hn'.le)]
    have : ∑ i, r.train i j ^ 2 = (∑ i, (train i j - colMean train j) ^ 2) / fixedStd train j ^ 2 := by
      rw [Finset.sum_div]
      exact Finset.sum_congr rfl fun i _ => div_pow _ _ _
    have hne0 : fixedStd train j ^ 2 ≠ 0 := pow_ne_zero 2 hp.ne'
    rw [this, div_div, mul_comm, ← div_div, ← hsq, div_self hne0]
  · intro h i
    have : colMean train j = train i j := by
      rw [colMean, Finset.sum_congr rfl fun i' _ => h i' i, Finset.sum_const, Finset.card_univ, Fintype.card_fin,
        nsmul_eq_mul, mul_div_assoc, mul_comm, div_mul_cancel₀ _ hn'.ne']
    show (train i j - colMean train j) / _ = 0
    rw [this, sub_self, zero_div]

example : ∃ i i' : Fin 2, (fun (i : Fin 2) (_ : Fin 1) => (i : ℝ)) i 0 ≠ (fun (i : Fin 2) (_ : Fin 1) => (i : ℝ)) i' 0 :=
  ⟨0, 1, by norm_num⟩

/-! ## to_one_hot -/

theorem setOnes_spec (depth : ℕ) : ∀ (x : List ℤ) (i : ℕ) (a : ℕ → ℕ → ℕ), (∀ r, i ≤ r → ∀ s, a r s = 0) →
    ((setOnes depth i x a = none ↔ ∃ k ∈ x, k < -depth ∨ (depth : ℤ) ≤ k) ∧
    ∀ r, setOnes depth i x a = some r →
      (∀ p < i, r p = a p) ∧ (∀ p, ∀ hp : p < x.length, ∀ s, r (i + p) s = if npIndex depth x[p] = some s then 1 else 0) ∧
      ∀ p, i + x.length ≤ p → ∀ s, r p s = 0) := by
  intro x
  induction x with
  | nil =>
    intro i a ha
    refine ⟨by simp [setOnes], fun r h => ?_⟩
    obtain rfl := Option.some.inj h
    exact ⟨fun _ _ => rfl, fun p hp => absurd hp (by simp), fun p hp s => ha p (by simpa using hp) s⟩
  | cons k l ih =>
    intro i a ha
    cases hk : npIndex depth k with
    | none =>
      have hk' : k < -depth ∨ (depth : ℤ) ≤ k := by
        unfold npIndex at hk
        split_ifs at hk with h1 h2
        omega
      refine ⟨?_, fun r h => ?_⟩
      · simp only [setOnes, hk, Option.bind_none, true_iff]
        exact ⟨k, by simp, hk'⟩
      · simp [setOnes, hk] at h
    | some c =>
      have hk' : ¬ (k < -depth ∨ (depth : ℤ) ≤ k) := by
        unfold npIndex at hk
        split_ifs at hk with h1 h2 <;> omega
      obtain ⟨h1, h2⟩ := ih (i + 1) (fun r s => if r = i ∧ s = c then 1 else a r s) (by
        intro r hr s
        rw [if_neg (by omega)]
        exact ha r (by omega) s)
      have he : setOnes depth i (k :: l) a = setOnes depth (i + 1) l fun r s => if r = i ∧ s = c then 1 else a r s := by
        simp [setOnes, hk]
      rw [he]
      refine ⟨?_, fun r hr => ?_⟩
      · rw [h1]
        simp [hk']
      · obtain ⟨g1, g2, g3⟩ := h2 r hr
        refine ⟨fun p hp => ?_, fun p hp s => ?_, fun p hp s => g3 p (by simp at hp; omega) s⟩
        · rw [g1 p (by omega)]
          funext s
          exact if_neg (by omega)
        · cases p with
          | zero =>
            rw [Nat.add_zero, g1 i (by omega)]
            simp only [true_and, List.getElem_cons_zero, hk, Option.some.injEq]
            by_cases hs : s = c
            · rw [if_pos hs, if_pos hs.symm]
            · rw [if_neg hs, if_neg (fun h => hs h.symm), ha i le_rfl]
          | succ p =>
            have := g2 p (by simpa using hp) s
            rw [show i + (p + 1) = i + 1 + p by omega, this]
            simp

/-- C67.  `to_one_hot` for labels from 0 to `depth - 1`: in the row of each label there is 1 at the label and 0 at every
other column. -/
theorem C67_one_hot (x : List ℤ) (depth : ℕ) (h : ∀ k ∈ x, 0 ≤ k ∧ k < depth) :
    ∃ r, toOneHot x depth = some r ∧
      ∀ i, ∀ hi : i < x.length, ∀ s, r i s = if (s : ℤ) = x[i] then 1 else 0 := by
  obtain ⟨h1, h2⟩ := setOnes_spec depth x 0 (fun _ _ => 0) (fun _ _ _ => rfl)
  cases hr : toOneHot x depth with
  | none =>
    obtain ⟨k, hk, hk'⟩ := h1.1 hr
    have := h k hk
    omega
  | some r =>
    refine ⟨r, rfl, fun i hi s => ?_⟩
    have := (h2 r hr).2.1 i hi s
    rw [Nat.zero_add] at this
    rw [this]
    have hb := h x[i] (List.getElem_mem hi)
    rw [npIndex, if_pos hb]
    by_cases hs : (s : ℤ) = x[i]
    · rw [if_pos hs, if_pos (by rw [← hs]; simp)]
    · rw [if_neg hs, if_neg (by intro he; apply hs; have := Option.some.inj he; omega)]

/-- C67.  `to_one_hot` fails exactly if a label is `depth` or more, or below `-depth`. -/
theorem C67_one_hot_error (x : List ℤ) (depth : ℕ) :
    toOneHot x depth = none ↔ ∃ k ∈ x, k < -depth ∨ (depth : ℤ) ≤ k :=
  (setOnes_spec depth x 0 (fun _ _ => 0) (fun _ _ _ => rfl)).1

/-- C67.  Labels from `-depth` to -1 are not refused: they are read as the label plus `depth`. -/
theorem C67_one_hot_negative (k : ℤ) (depth : ℕ) (h : -depth ≤ k) (h' : k < 0) :
    toOneHot [k] depth = toOneHot [k + depth] depth := by
  have h1 : npIndex depth k = some (k + depth).toNat := by
    rw [npIndex, if_neg (by omega), if_pos ⟨h, h'⟩]
  have h2 : npIndex depth (k + depth) = some (k + depth).toNat := by
    rw [npIndex, if_pos (by omega)]
  simp [toOneHot, setOnes, h1, h2]

example : (∀ k ∈ [(2 : ℤ), 0, 2], 0 ≤ k ∧ k < (3 : ℕ)) := by decide

/-! ## Towers -/

theorem foldl_min (m : ℕ) (ls : List ℕ) (h : ∀ l ∈ ls, l = m) : ls.foldl min m = m := by
  induction ls with
  | nil => rfl
  | cons a ls ih =>
    rw [List.foldl_cons, h a (by simp), min_self]
    exact ih fun l hl => h l (by simp [hl])

/-- `zip(*towers)` for towers of the same length. -/
theorem zipStar_eq {α : Type} {n m : ℕ} (f : Fin (n + 1) → Fin m → α) :
    zipStar ((List.finRange (n + 1)).map fun t => (List.finRange m).map (f t)) =
      (List.finRange m).map fun i => (List.finRange (n + 1)).map fun t => f t i := by
  rw [List.finRange_succ, List.map_cons, zipStar, ← List.foldl_map, List.length_map, List.length_finRange,
    foldl_min _ _ (by simp)]
  conv_rhs => rw [← List.finRange_succ]
  rw [← List.map_cons (f := fun t => (List.finRange m).map (f t)), ← List.finRange_succ]
  refine List.ext_getElem (by simp) fun i h1 h2 => ?_
  simp only [List.length_map, List.length_range] at h1
  simp only [List.getElem_map, List.getElem_range, List.filterMap_map, List.getElem_finRange]
  rw [← List.filterMap_eq_map]
  refine List.filterMap_congr fun t _ => ?_
  simp [h1]

theorem allSome_map {α : Type} (l : List α) : allSome (l.map some) = .ok l := by
  induction l with
  | nil => rfl
  | cons a l ih => simp [allSome, ih]

/-- C67.  `average_gradients` for one or more towers with the same number of pairs: the variables whose gradient is not
`None` remain in their order, each with the arithmetic mean of its gradients over the towers. -/
theorem C67_average_gradients {V : Type} {n m : ℕ} (g : Fin (n + 1) → Fin m → Option (Tensor ℝ))
    (v : Fin (n + 1) → Fin m → V)
    (hg : ∀ i, g 0 i = none ∨ ∃ s, ∀ t, ∃ x, g t i = some x ∧ x.shape = s) :
    ∃ res, averageGradients ((List.finRange (n + 1)).map fun t => (List.finRange m).map fun i => (g t i, v t i)) = .ok res ∧
      res.map Prod.snd = ((List.finRange m).filter fun i => (g 0 i).isSome).map (v 0) ∧
      List.Forall₂ (fun p i => ∀ idx, p.1.val idx = (∑ t, (g t i).elim 0 fun x => x.val idx) / (n + 1 : ℕ))
        res ((List.finRange m).filter fun i => (g 0 i).isSome) := by
  rw [averageGradients, zipStar_eq]
  generalize List.finRange m = is
  induction is with
  | nil => exact ⟨[], rfl, rfl, List.Forall₂.nil⟩
  | cons i is ih =>
    obtain ⟨res, h1, h2, h3⟩ := ih
    rw [List.map_cons]
    rcases hg i with hi | ⟨s, hs⟩
    · refine ⟨res, ?_, ?_, ?_⟩
      · have : averageOne ((List.finRange (n + 1)).map fun t => (g t i, v t i)) = .ok none := by
          rw [List.finRange_succ, List.map_cons, hi]; rfl
        rw [averageLoop, this, h1]
      · rw [h2, List.filter_cons_of_neg (by simp [hi])]
      · rwa [List.filter_cons_of_neg (by simp [hi])]
    · choose x hx hsh using hs
      have hone : averageOne ((List.finRange (n + 1)).map fun t => (g t i, v t i)) =
          .ok (some (⟨s, fun idx => ((List.finRange (n + 1)).map fun t => (x t).val idx).sum / (n + 1 : ℕ)⟩, v 0 i)) := by
        have e1 : (List.finRange (n + 1)).map (fun t => (g t i, v t i)) =
            (some (x 0), v 0 i) :: ((List.finRange n).map Fin.succ).map fun t => (g t i, v t i) := by
          rw [List.finRange_succ, List.map_cons, hx]
        have e2 : some (x 0) :: (((List.finRange n).map Fin.succ).map fun t => (g t i, v t i)).map Prod.fst =
            ((List.finRange (n + 1)).map x).map some := by
          rw [List.finRange_succ]
          simp [hx]
        have e3 : stackMean ((List.finRange (n + 1)).map x) =
            .ok ⟨s, fun idx => ((List.finRange (n + 1)).map fun t => (x t).val idx).sum / (n + 1 : ℕ)⟩ := by
          have : (List.finRange (n + 1)).map x = x 0 :: ((List.finRange n).map Fin.succ).map x := by
            rw [List.finRange_succ, List.map_cons]
          have hl : (List.finRange (n + 1)).map x = x 0 :: ((List.finRange n).map Fin.succ).map x := this
          rw [hl, stackMean, if_pos (by simp [hsh]), ← hl, hsh 0]
          congr 2
          funext idx
          rw [List.map_map, List.length_map, List.length_finRange]
          rfl
        rw [e1, averageOne, e2, allSome_map]
        simp only
        rw [e3]
      rw [averageLoop, hone, h1]
      refine ⟨_, rfl, ?_, ?_⟩
      · rw [List.map_cons, h2, List.filter_cons_of_pos (by simp [hx]), List.map_cons]
      · rw [List.filter_cons_of_pos (by simp [hx])]
        refine List.Forall₂.cons (fun idx => ?_) h3
        simp only [hx, Option.elim_some]
        rw [← List.ofFn_eq_map, List.sum_ofFn]

example : ∀ i : Fin 2, (fun (_ : Fin 3) (i : Fin 2) => if i = 0 then none else some (⟨[2], fun _ => 1⟩ : Tensor ℝ)) 0 i = none ∨
    ∃ s, ∀ t : Fin 3, ∃ x, (fun (_ : Fin 3) (i : Fin 2) => if i = 0 then none else some (⟨[2], fun _ => 1⟩ : Tensor ℝ)) t i =
      some x ∧ x.shape = s := by
  intro i
  by_cases h : i = 0
  · exact Or.inl (by simp [h])
  · exact Or.inr ⟨[2], fun t => ⟨⟨[2], fun _ => 1⟩, by simp [h], rfl⟩⟩

/-- C67.  A gradient that is `None` in another tower than the first is an error. -/
theorem C67_missing_gradient {V : Type} (x : Tensor ℝ) (v v' : V) :
    averageGradients [[(some x, v)], [(none, v')]] = .error .valueError := rfl

/-- C67.  `average_losses` for one or more towers with the same number of quantities: the arithmetic means over the
towers. -/
theorem C67_average_losses {n m : ℕ} (q : Fin (n + 1) → Fin m → Tensor ℝ) (hq : ∀ i, ∀ t, (q t i).shape = (q 0 i).shape) :
    ∃ res, averageLosses ((List.finRange (n + 1)).map fun t => (List.finRange m).map (q t)) = .ok res ∧
      List.Forall₂ (fun p i => p.shape = (q 0 i).shape ∧ ∀ idx, p.val idx = (∑ t, (q t i).val idx) / (n + 1 : ℕ))
        res (List.finRange m) := by
  rw [averageLosses, zipStar_eq]
  generalize List.finRange m = is
  induction is with
  | nil => exact ⟨[], rfl, List.Forall₂.nil⟩
  | cons i is ih =>
    obtain ⟨res, h1, h2⟩ := ih
    have hl : (List.finRange (n + 1)).map (fun t => q t i) = q 0 i :: ((List.finRange n).map Fin.succ).map fun t => q t i := by
      rw [List.finRange_succ, List.map_cons]
    have hone : addNMean ((List.finRange (n + 1)).map fun t => q t i) =
        .ok ⟨(q 0 i).shape, fun idx => ((List.finRange (n + 1)).map fun t => (q t i).val idx).sum / (n + 1 : ℕ)⟩ := by
      rw [hl, addNMean, if_pos (by simp [hq i]), ← hl]
      congr 2
      funext idx
      rw [List.map_map, List.length_map, List.length_finRange]
      rfl
    rw [List.map_cons, lossLoop, hone, h1]
    refine ⟨_, rfl, List.Forall₂.cons ⟨rfl, fun idx => ?_⟩ h2⟩
    simp only
    rw [← List.ofFn_eq_map, List.sum_ofFn]

/-! ## rmse -/

/-- The root of the mean of the squares. -/
noncomputable def rmse (errs : List ℝ) : ℝ := Real.sqrt ((errs.map (· ^ 2)).sum / errs.length)

/-- C67.  Averaging the rmses of one or more non-empty batches gives the rmse of all the errors. -/
theorem C67_rmse (batches : List (List ℝ)) (_hne : batches ≠ []) (_hb : ∀ b ∈ batches, b ≠ []) :
    averageRmse (batches.map rmse) (batches.map fun b => (b.length : ℝ)) = rmse batches.flatten := by
  have h2 : (batches.map fun b => (b.length : ℝ)).sum = batches.flatten.length := by
    clear _hne _hb
    induction batches with
    | nil => simp
    | cons b bs ih =>
      rw [List.map_cons, List.sum_cons, List.flatten_cons, List.length_append, Nat.cast_add, ih]
  have h1 : (List.zipWith (fun r s => r ^ 2 * s) (batches.map rmse) (batches.map fun b => (b.length : ℝ))).sum =
      (batches.flatten.map (· ^ 2)).sum := by
    clear h2 _hne _hb
    induction batches with
    | nil => simp
    | cons b bs ih =>
      rw [List.map_cons, List.map_cons, List.zipWith_cons_cons, List.sum_cons, ih, List.flatten_cons, List.map_append,
        List.sum_append]
      congr 1
      have hnn : 0 ≤ (b.map (· ^ 2)).sum :=
        List.sum_nonneg fun x hx => by
          obtain ⟨y, _, rfl⟩ := List.mem_map.1 hx
          exact sq_nonneg y
      rw [rmse, Real.sq_sqrt (div_nonneg hnn (Nat.cast_nonneg _))]
      rcases Nat.eq_zero_or_pos b.length with hb | hb
      · rw [List.length_eq_zero_iff] at hb
        subst hb
        simp
      · rw [div_mul_cancel₀ _ (by exact_mod_cast hb.ne')]
  rw [averageRmse, h1, h2, rmse]

/-! ## Images -/

theorem tile_iff {h w : ℕ} (hh : 0 < h) (hw : 0 < w) (i j R S : ℕ) :
    (i * h ≤ R ∧ R < (i + 1) * h ∧ j * w ≤ S ∧ S < (j + 1) * w) ↔ R / h = i ∧ S / w = j := by
  rw [Nat.div_eq_iff hh, Nat.div_eq_iff hw, Nat.add_mul, Nat.add_mul, Nat.one_mul, Nat.one_mul]
  omega

theorem setTile_apply {α : Type} {h w : ℕ} (hh : 0 < h) (hw : 0 < w) (i j R S : ℕ) (img ret : ℕ → ℕ → α) :
    setTile h w i j img ret R S = if R / h = i ∧ S / w = j then img (R % h) (S % w) else ret R S := by
  unfold setTile
  by_cases hc : R / h = i ∧ S / w = j
  · rw [if_pos hc, if_pos ((tile_iff hh hw i j R S).2 hc)]
    obtain ⟨rfl, rfl⟩ := hc
    congr 1
    · have := Nat.div_add_mod R h
      rw [Nat.mul_comm] at this
      omega
    · have := Nat.div_add_mod S w
      rw [Nat.mul_comm] at this
      omega
  · rw [if_neg hc, if_neg (fun h' => hc ((tile_iff hh hw i j R S).1 h'))]

/-- C67.  In the picture made of `n` images of `h` by `w` pixels on a grid of `r` rows and `c` columns, the pixel at
row `R` and column `S` is the corresponding pixel of image number `(R / h) c + S / w`, and zero if there is none. -/
theorem C67_tiles {α : Type} (zero : α) (n h w r c : ℕ) (x : ℕ → ℕ → ℕ → α) (R S : ℕ) (hR : R < r * h) (hS : S < c * w) :
    tileImages zero n h w r c x R S =
      if R / h * c + S / w < n then x (R / h * c + S / w) (R % h) (S % w) else zero := by
  have hh : 0 < h := Nat.pos_of_ne_zero fun h0 => by simp [h0] at hR
  have hw : 0 < w := Nat.pos_of_ne_zero fun h0 => by simp [h0] at hS
  have inner : ∀ (i c' : ℕ) (ret : ℕ → ℕ → α), (List.range c').foldl (fun ret j =>
      if i * c + j < n then setTile h w i j (x (i * c + j)) ret else ret) ret R S =
      if R / h = i ∧ S / w < c' ∧ i * c + S / w < n then x (i * c + S / w) (R % h) (S % w) else ret R S := by
    intro i c' ret
    induction c' with
    | zero => simp
    | succ c' ih =>
      rw [List.range_succ, List.foldl_append, List.foldl_cons, List.foldl_nil]
      by_cases hn : i * c + c' < n
      · rw [if_pos hn, setTile_apply hh hw, ih]
        by_cases h1 : R / h = i ∧ S / w = c'
        · rw [if_pos h1, if_pos ⟨h1.1, by omega, by rw [h1.2]; exact hn⟩, h1.2]
        · rw [if_neg h1]
          by_cases h2 : R / h = i ∧ S / w < c' ∧ i * c + S / w < n
          · rw [if_pos h2, if_pos ⟨h2.1, by omega, h2.2.2⟩]
          · rw [if_neg h2, if_neg (by omega)]
      · rw [if_neg hn, ih]
        by_cases h2 : R / h = i ∧ S / w < c' ∧ i * c + S / w < n
        · rw [if_pos h2, if_pos ⟨h2.1, by omega, h2.2.2⟩]
        · rw [if_neg h2, if_neg ?_]
          rintro ⟨h3, h4, h5⟩
          rcases Nat.lt_succ_iff_lt_or_eq.1 h4 with h6 | h6
          · exact h2 ⟨h3, h6, h5⟩
          · rw [h6] at h5; exact hn h5
  have hSw : S / w < c := (Nat.div_lt_iff_lt_mul hw).2 hS
  have hRh : R / h < r := (Nat.div_lt_iff_lt_mul hh).2 hR
  have outer : ∀ r' : ℕ, (List.range r').foldl (fun ret i => (List.range c).foldl (fun ret j =>
      if i * c + j < n then setTile h w i j (x (i * c + j)) ret else ret) ret) (fun _ _ => zero) R S =
      if R / h < r' ∧ R / h * c + S / w < n then x (R / h * c + S / w) (R % h) (S % w) else zero := by
    intro r'
    induction r' with
    | zero => simp
    | succ r' ih =>
      rw [List.range_succ, List.foldl_append, List.foldl_cons, List.foldl_nil, inner, ih]
      by_cases h1 : R / h = r'
      · subst h1
        simp [hSw]
      · have : (R / h < r' + 1) ↔ R / h < r' := by omega
        simp [h1, this]
  rw [tileImages, outer]
  simp [hRh]

end ZhuSuan.ExUtils

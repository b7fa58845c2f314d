import Verif.Props.Checked
import Verif.Props.HmcNumeric
import Verif.Spec.Outside

/-!
# C83  `log_prob` outside the support
-/

set_option autoImplicit false

namespace ZhuSuan.Checked
open XF

theorem div_fin_isFinite (a : XF) (b : ℝ) (hb : b ≠ 0) : (a / fin b).isFinite ↔ a.isFinite := by
  show (XF.div a (fin b)).isFinite ↔ _
  cases a with
  | fin r => simp [XF.div, isFinite, hb]
  | inf => by_cases h : b < 0 <;> simp [XF.div, isFinite, h]
  | ninf => by_cases h : b < 0 <;> simp [XF.div, isFinite, h]
  | nan => simp [XF.div, isFinite]

theorem abs_isFinite (a : XF) : (XF.abs a).isFinite ↔ a.isFinite := by
  cases a <;> simp [XF.abs, isFinite]

/-- The right-hand side of a triangular system with finite solution is finite. -/
theorem rhs_isFinite {n : ℕ} (L : Fin n → Fin n → ℝ) (b : Fin n → XF) (hL : ∀ i, L i i ≠ 0)
    (h : ∀ i, (Num.triSolve (fun i j => fin (L i j)) b i).isFinite) (i : Fin n) : (b i).isFinite := by
  have h1 := h i
  rw [Num.triSolve, Num.triSolveAux, div_fin_isFinite _ _ (hL _), sub_isFinite] at h1
  exact h1.1

theorem exists_fin {x : XF} (h : x.isFinite) : ∃ r, x = fin r := (isFinite_iff x).1 h

theorem exists_fin_vec {n : ℕ} {x : Fin n → XF} (h : ∀ i, (x i).isFinite) : ∃ y : Fin n → ℝ, x = fun i => fin (y i) :=
  ⟨fun i => (exists_fin (h i)).choose, funext fun i => (exists_fin (h i)).choose_spec⟩

theorem normal_finite (on : Bool) (m l : ℝ) (c : Ck XF) (hc : c.val = fin l) (x : XF)
    (h : (normalLogProb on (fin m) c x).val.isFinite) : x.isFinite := by
  simp only [normalLogProb, bind_val, hc, check_val, pure_val, sub_isFinite, mul_isFinite] at h
  exact h.2.2.1.1

theorem foldNormal_finite (on : Bool) (m l : ℝ) (c : Ck XF) (hc : c.val = fin l) (x : XF)
    (h : (foldNormalLogProb on (fin m) c x).val.isFinite) : ∃ r : ℝ, 0 ≤ r ∧ x = fin r := by
  simp only [foldNormalLogProb, bind_val, hc, check_val, pure_val, sub_isFinite, mul_isFinite, add_isFinite] at h
  obtain ⟨r, rfl⟩ := exists_fin h.1.1.2.2.2.1.1
  have h2 := h.2
  refine ⟨r, ?_, rfl⟩
  by_contra hr
  simp [XF.cast, le, hr, log_isFinite, pos_fin] at h2

theorem neg_int_lt_zero (k : ℤ) (h : k < 0) : ∃ j : ℕ, (k : ℝ) + 1 = -(j : ℝ) := by
  obtain ⟨j, rfl⟩ : ∃ j : ℕ, k = -(j : ℤ) - 1 := ⟨(-k - 1).toNat, by omega⟩
  exact ⟨j, by push_cast; ring⟩

/-- C83.  (Part.)  With documented parameters, a finite `log_prob` certifies that the value is a finite number (or
vector or matrix of them) in the interior of the support, whatever float was passed.  Missing: that a `Poisson` or
`Binomial` value is an integer, and that a `Dirichlet`, `Concrete` or `ExpConcrete` value is normalised. -/
theorem C83_finite_partial (d : Dist ℝ) (hd : d.Valid) (x : d.toX.Val)
    (h : (d.toX.logProb false x).val.isFinite) : ∃ y : d.Val, x = d.valX y ∧ d.Plausible y := by
  cases d <;> dsimp only [Dist.toX, Dist.Val] at x <;>
    dsimp only [Dist.toX, Dist.valX, Dist.logProb, Dist.Valid, Dist.Plausible, Dist.Inside] at *
  case normalStd m s =>
    obtain ⟨r, rfl⟩ := exists_fin (normal_finite _ _ (Real.log s) _ (by simp [logstdOfStd, fin_log s hd]) _ h)
    exact ⟨r, rfl, trivial⟩
  case normalLogstd m l =>
    obtain ⟨r, rfl⟩ := exists_fin (normal_finite _ _ l _ rfl _ h)
    exact ⟨r, rfl, trivial⟩
  case foldNormalStd m s =>
    obtain ⟨r, hr, rfl⟩ := foldNormal_finite _ _ (Real.log s) _ (by simp [logstdOfStd, fin_log s hd]) _ h
    exact ⟨r, rfl, hr⟩
  case foldNormalLogstd m l =>
    obtain ⟨r, hr, rfl⟩ := foldNormal_finite _ _ l _ rfl _ h
    exact ⟨r, rfl, hr⟩
  case uniform a b =>
    simp only [uniformLogProb, uniformProb, bind_val, check_val, pure_val, log_isFinite, uniform_log_iff] at h
    obtain ⟨r, s, t, h1, h2, rfl, h3, h4⟩ := h
    cases h1; cases h2
    exact ⟨t, rfl, h3, h4⟩
  case gamma a b =>
    simp only [gammaLogProb, bind_val, check_val, pure_val, sub_isFinite, add_isFinite, mul_isFinite,
      log_isFinite] at h
    obtain ⟨r, hr, rfl⟩ := h.1.2.2
    exact ⟨r, rfl, hr⟩
  case beta a b =>
    simp only [betaLogProb, bind_val, check_val, pure_val, sub_isFinite, add_isFinite, mul_isFinite,
      log_isFinite, pos_one_sub] at h
    obtain ⟨r, hr, rfl⟩ := h.1.1.2
    obtain ⟨t, ht, e⟩ := h.1.2.2
    cases e
    exact ⟨r, rfl, hr, ht⟩
  case poisson r =>
    simp only [poissonLogProb, bind_val, check_val, pure_val, sub_isFinite, mul_isFinite, lgamma_isFinite] at h
    obtain ⟨y, rfl⟩ := exists_fin h.1.1.1
    obtain ⟨t, e, ht⟩ := (regular_add_one _).1 h.2
    cases e
    refine ⟨y, rfl, fun k hk => ?_⟩
    by_contra hn
    exact (neg_int_lt_zero k (by omega)).elim fun j hj => ht j (by rw [hk, ← hj])
  case binomial l n =>
    simp only [binomialLogProb, bind_val, check_val, pure_val, sub_isFinite, add_isFinite, mul_isFinite,
      lgamma_isFinite] at h
    obtain ⟨y, rfl⟩ := exists_fin h.1.2.1
    obtain ⟨t, e, ht⟩ := (regular_add_one _).1 h.1.1.2
    cases e
    obtain ⟨t, e, ht'⟩ := (regular_sub_add_one n _).1 h.1.1.1.2
    cases e
    refine ⟨y, rfl, fun k hk => ?_⟩
    by_contra hn
    rcases (show k < 0 ∨ (n : ℤ) < k by omega) with h0 | h0
    · exact (neg_int_lt_zero k h0).elim fun j hj => ht j (by rw [hk, ← hj])
    · exact (neg_int_lt_zero (n - k) (by omega)).elim fun j hj => ht' j (by rw [hk, ← hj]; push_cast; ring)
  case inverseGamma a b =>
    simp only [inverseGammaLogProb, bind_val, check_val, pure_val, sub_isFinite, add_isFinite, mul_isFinite,
      log_isFinite] at h
    obtain ⟨r, hr, rfl⟩ := h.1.2.2
    exact ⟨r, rfl, hr⟩
  case laplace a b =>
    simp only [laplaceLogProb, bind_val, check_val, pure_val, sub_isFinite, div_fin_isFinite _ _ hd.ne',
      abs_isFinite] at h
    obtain ⟨r, rfl⟩ := exists_fin h.2.1
    exact ⟨r, rfl, trivial⟩
  case binConcrete t l =>
    simp only [binConcreteLogProb, bind_val, check_val, pure_val, sub_isFinite, add_isFinite, mul_isFinite,
      log_isFinite, pos_one_sub] at h
    obtain ⟨r, hr, rfl⟩ := h.1.1.1.2
    obtain ⟨t, ht, e⟩ := h.1.1.2
    cases e
    exact ⟨r, rfl, hr, ht⟩
  case mvn n m L =>
    simp only [mvnLogProb, bind_val, check_val, pure_val, add_isFinite, mul_isFinite, sum_isFinite] at h
    have h1 := rhs_isFinite L _ (fun i => (hd i).ne') fun i => (h.2.2 i (Finset.mem_univ i)).1
    obtain ⟨y, rfl⟩ := exists_fin_vec fun i => ((sub_isFinite _ _).1 (h1 i)).1
    exact ⟨y, rfl, trivial⟩
  case dirichlet n a =>
    simp only [dirichletLogProb, bind_val, check_val, checkV_val, pure_val, add_isFinite, mul_isFinite,
      sum_isFinite, log_isFinite] at h
    have h1 : ∀ i, Pos (x i) := fun i => (h.2 i (Finset.mem_univ i)).2
    choose y hy e using h1
    exact ⟨y, funext e, hy⟩
  case expConcrete n t l =>
    simp only [expConcreteLogProb, bind_val, check_val, pure_val, sub_isFinite, add_isFinite, mul_isFinite,
      sum_isFinite] at h
    obtain ⟨y, rfl⟩ := exists_fin_vec fun i => (h.1.2 i (Finset.mem_univ i)).2.2
    exact ⟨y, rfl, trivial⟩
  case concrete n t l =>
    simp only [concreteLogProb, bind_val, check_val, checkV_val, pure_val, sub_isFinite, add_isFinite, mul_isFinite,
      sum_isFinite, log_isFinite] at h
    have h1 : ∀ i, Pos (x i) := fun i => (h.1.2 i (Finset.mem_univ i)).2
    choose y hy e using h1
    exact ⟨y, funext e, hy⟩
  case matNormal r c m U V =>
    simp only [matNormalLogProb, bind_val, check_val, pure_val, add_isFinite, mul_isFinite, sum_isFinite] at h
    have h1 : ∀ j i, (Num.triSolve (fun i j => fin (U i j)) (fun k => x k i - fin (m k i)) j).isFinite := by
      intro j
      exact rhs_isFinite V _ (fun i => (hd.2 i).ne') fun i =>
        (h.2.2 i (Finset.mem_univ i) j (Finset.mem_univ j)).1
    have h2 : ∀ i j, (x j i - fin (m j i)).isFinite := by
      intro i
      exact rhs_isFinite U _ (fun i => (hd.1 i).ne') fun j => h1 j i
    have h3 : ∀ i j, (x i j).isFinite := fun i j => ((sub_isFinite _ _).1 (h2 j i)).1
    choose y e using fun i j => exists_fin (h3 i j)
    exact ⟨y, funext fun i => funext fun j => e i j, trivial⟩

theorem nan_add (x : XF) : nan + x = nan := by cases x <;> rfl
theorem add_nan (x : XF) : x + nan = nan := by cases x <;> rfl
theorem nan_sub (x : XF) : nan - x = nan := by cases x <;> rfl
theorem sub_nan (x : XF) : x - nan = nan := by cases x <;> rfl
theorem nan_mul (x : XF) : nan * x = nan := by cases x <;> rfl
theorem mul_nan (x : XF) : x * nan = nan := by cases x <;> rfl

theorem sum_nan {ι : Type} (s : Finset ι) (f : ι → XF) (i : ι) (hi : i ∈ s) (h : f i = nan) : ∑ i ∈ s, f i = nan := by
  classical
  rw [← Finset.add_sum_erase _ _ hi, h, nan_add]

theorem log_neg {r : ℝ} (h : r < 0) : XF.log (fin r) = nan := by
  rw [XF.log, if_neg h.not_gt, if_neg h.ne]

theorem cast_false {p : Prop} (h : ¬ p) : XF.cast p = fin 0 := by
  rw [XF.cast, if_neg h]

theorem log_cast_false {p : Prop} (h : ¬ p) : XF.log (XF.cast p) = ninf := by
  rw [cast_false h, XF.log, if_neg (lt_irrefl _), if_pos rfl]

theorem log_zero : XF.log (fin 0) = ninf := by
  rw [XF.log, if_neg (lt_irrefl _), if_pos rfl]

theorem foldNormal_below (m l : ℝ) (c : Ck XF) (hc : c.val = fin l) (x : ℝ) (hx : x < 0) :
    (foldNormalLogProb false (fin m) c (fin x)).val = ninf := by
  have h : XF.log (XF.cast (le (fin 0) (fin x))) = ninf := log_cast_false hx.not_ge
  simp only [foldNormalLogProb, bind_val, hc, check_val, pure_val, h, fin_mul, fin_sub, fin_exp, fin_add, softplus]
  rfl

/-- C83.  With documented parameters, `log_prob` at an excluded value is `-inf` for `FoldNormal`, `Uniform`,
`Poisson` and `Binomial`, and NaN for the other classes. -/
theorem C83_outside (d : Dist ℝ) (hd : d.Valid) (x : d.Val) (hx : d.Excluded x) :
    (d.SaysZero → (d.toX.logProb false (d.valX x)).run = .ok ninf) ∧
    (¬ d.SaysZero → (d.toX.logProb false (d.valX x)).run = .ok nan) := by
  simp only [run_ok, logProb_off, true_and]
  cases d <;> dsimp only [Dist.Val] at x <;>
    dsimp only [Dist.toX, Dist.valX, Dist.logProb, Dist.Valid, Dist.Excluded, Dist.SaysZero, Dist.Support] at *
  case normalStd => exact absurd trivial hx
  case normalLogstd => exact absurd trivial hx
  case laplace => exact absurd trivial hx
  case mvn => exact absurd trivial hx
  case matNormal => exact absurd trivial hx
  case foldNormalStd m s =>
    exact ⟨fun _ => foldNormal_below _ (Real.log s) _ (by simp [logstdOfStd, fin_log s hd]) _ (not_le.1 hx),
      fun h => absurd trivial h⟩
  case foldNormalLogstd m l =>
    exact ⟨fun _ => foldNormal_below _ l _ rfl _ (not_le.1 hx), fun h => absurd trivial h⟩
  case uniform a b =>
    refine ⟨fun _ => ?_, fun h => absurd trivial h⟩
    have h : ¬ (le (fin a) (fin x) ∧ lt (fin x) (fin b)) := fun h => hx ⟨h.1, le_of_lt h.2⟩
    have e : b - a ≠ 0 := by linarith
    have e1 : fin 1 / (fin b - fin a) = fin (1 / (b - a)) := by
      rw [fin_sub, fin_div _ _ e]
    simp only [uniformLogProb, uniformProb, bind_val, check_val, pure_val, cast_false h, e1, fin_mul, mul_zero]
    rw [XF.log, if_neg (lt_irrefl _), if_pos rfl]
  case poisson r =>
    refine ⟨fun _ => ?_, fun h => absurd trivial h⟩
    obtain ⟨k, hk, rfl⟩ := hx
    obtain ⟨j, hj⟩ := neg_int_lt_zero k hk
    simp only [poissonLogProb, bind_val, check_val, pure_val, fin_log r hd, fin_mul, fin_sub, fin_add, XF.lgamma]
    rw [if_pos ⟨j, hj⟩]
    rfl
  case binomial l n =>
    refine ⟨fun _ => ?_, fun h => absurd trivial h⟩
    obtain ⟨k, hk, rfl⟩ := hx
    have hn : ¬ ∃ j : ℕ, (n : ℝ) + 1 = -j := fun ⟨j, hj⟩ => pos_regular (by positivity) j hj
    simp only [binomialLogProb, bind_val, check_val, pure_val, fin_mul, fin_sub, fin_add, XF.lgamma, softplus]
    rw [if_neg hn]
    rcases hk with hk | hk
    · obtain ⟨j, hj⟩ := neg_int_lt_zero k hk
      have h1 : ¬ ∃ j : ℕ, (n : ℝ) - k + 1 = -j := by
        have : (k : ℝ) < 0 := by exact_mod_cast hk
        exact fun ⟨j, hj⟩ => pos_regular (by have : (0 : ℝ) ≤ n := n.cast_nonneg; linarith) j hj
      rw [if_neg h1, if_pos ⟨j, hj⟩]
      rfl
    · obtain ⟨j, hj⟩ := neg_int_lt_zero (n - k) (by omega)
      rw [if_pos ⟨j, by rw [← hj]; push_cast; ring⟩]
      have h1 : ¬ ∃ j : ℕ, (k : ℝ) + 1 = -j := by
        have : (n : ℝ) < k := by exact_mod_cast hk
        exact fun ⟨j, hj⟩ => pos_regular (by have : (0 : ℝ) ≤ n := n.cast_nonneg; linarith) j hj
      rw [if_neg h1]
      rfl
  case gamma a b =>
    refine ⟨fun h => h.elim, fun _ => ?_⟩
    simp only [gammaLogProb, bind_val, check_val, pure_val, log_neg (not_le.1 hx), mul_nan, add_nan, nan_sub]
  case inverseGamma a b =>
    refine ⟨fun h => h.elim, fun _ => ?_⟩
    simp only [inverseGammaLogProb, bind_val, check_val, pure_val, log_neg (not_le.1 hx), mul_nan, sub_nan, nan_sub]
  case beta a b =>
    refine ⟨fun h => h.elim, fun _ => ?_⟩
    rcases lt_or_ge x 0 with h0 | h0
    · simp only [betaLogProb, bind_val, check_val, pure_val, log_neg h0, mul_nan, nan_add, nan_sub]
    · have h1 : 1 - x < 0 := by
        have := not_le.1 fun h => hx ⟨h0, h⟩
        linarith
      simp only [betaLogProb, bind_val, check_val, pure_val, fin_sub, log_neg h1, mul_nan, add_nan, nan_sub]
  case binConcrete t l =>
    refine ⟨fun h => h.elim, fun _ => ?_⟩
    rcases lt_or_ge x 0 with h0 | h0
    · simp only [binConcreteLogProb, bind_val, check_val, pure_val, log_neg h0, sub_nan, nan_add, nan_sub]
    · have h1 : 1 - x < 0 := by
        have := not_le.1 fun h => hx ⟨h0, h⟩
        linarith
      simp only [binConcreteLogProb, bind_val, check_val, pure_val, fin_sub, log_neg h1, sub_nan, nan_add, nan_sub]
  case dirichlet n a =>
    refine ⟨fun h => h.elim, fun _ => ?_⟩
    obtain ⟨i, hi⟩ := hx
    simp only [dirichletLogProb, bind_val, check_val, checkV_val, pure_val]
    rw [sum_nan _ _ i (Finset.mem_univ i) (by rw [log_neg hi, mul_nan]), add_nan]
  case concrete n t l =>
    refine ⟨fun h => h.elim, fun _ => ?_⟩
    obtain ⟨i, hi⟩ := hx
    simp only [concreteLogProb, bind_val, check_val, checkV_val, pure_val]
    rw [sum_nan _ _ i (Finset.mem_univ i) (by rw [log_neg hi, sub_nan]), add_nan, nan_sub]

/-- C83.  `prob` at an excluded value is 0 or NaN accordingly. -/
theorem C83_prob (d : Dist ℝ) (hd : d.Valid) (x : d.Val) (hx : d.Excluded x) :
    (d.SaysZero → (d.toX.prob false (d.valX x)).run = .ok (fin 0)) ∧
    (¬ d.SaysZero → (d.toX.prob false (d.valX x)).run = .ok nan) := by
  have h := C83_outside d hd x hx
  simp only [run_ok, logProb_off, prob_off, true_and] at h ⊢
  cases d
  case uniform a b =>
    refine ⟨fun _ => ?_, fun h => absurd trivial h⟩
    dsimp only [Dist.Val, Dist.toX, Dist.valX, Dist.prob, Dist.Valid, Dist.Excluded, Dist.Support] at *
    have h : ¬ (le (fin a) (fin x) ∧ lt (fin x) (fin b)) := fun h => hx ⟨h.1, le_of_lt h.2⟩
    have e : b - a ≠ 0 := by linarith
    simp only [uniformProb, bind_val, check_val, pure_val, cast_false h, fin_sub, fin_div _ _ e, fin_mul, mul_zero]
  all_goals
    refine ⟨fun h1 => ?_, fun h1 => ?_⟩
    · exact congrArg XF.exp (h.1 h1)
    · exact congrArg XF.exp (h.2 h1)

/-- C83.  Excluded values are outside the support; for the classes that are neither over integers nor over the simplex
they are all the values outside. -/
theorem C83_excluded (d : Dist ℝ) (x : d.Val) :
    (d.Excluded x → ¬ d.Support x) ∧ (¬ d.IsUnseen → ¬ d.Support x → d.Excluded x) := by
  cases d <;> dsimp only [Dist.Val] at x <;> dsimp only [Dist.Excluded, Dist.Support, Dist.IsUnseen] at *
  case poisson r =>
    refine ⟨?_, fun h => absurd trivial h⟩
    rintro ⟨k, hk, rfl⟩ ⟨j, hj⟩
    have : k = j := by exact_mod_cast hj
    omega
  case binomial l n =>
    refine ⟨?_, fun h => absurd trivial h⟩
    rintro ⟨k, hk, rfl⟩ ⟨j, hjn, hj⟩
    have : k = j := by exact_mod_cast hj
    omega
  case dirichlet n a => exact ⟨fun ⟨i, hi⟩ h => (h.1 i).not_gt hi, fun h => absurd trivial h⟩
  case expConcrete n t l => exact ⟨fun h => h.elim, fun h => absurd trivial h⟩
  case concrete n t l => exact ⟨fun ⟨i, hi⟩ h => (h.1 i).not_gt hi, fun h => absurd trivial h⟩
  all_goals exact ⟨id, fun _ => id⟩

/-- A chain stays, or moves to a state of finite log density. -/
theorem accepted {C ι : Type} [Fintype ι] (n : ℕ) (logPost : (C → ι → XF) → C → XF)
    (grad : (C → ι → XF) → C → ι → XF) (mass : ι → XF) (eps : XF) (q p : C → ι → XF) (u : C → XF) (c : C)
    (hu : ∃ r : ℝ, 0 ≤ r ∧ u c = fin r) :
    (Hmc.transition n logPost grad mass eps q p u).newQ c = q c ∨
    ∃ y, (Hmc.transition n logPost grad mass eps q p u).newQ c = y c ∧ (logPost y c).isFinite := by
  classical
  by_cases hf : (logPost (Hmc.leapfrog mass grad n eps (q, p)).1 c).isFinite
  · by_cases ha : Flt.lt (u c) ((Hmc.transition n logPost grad mass eps q p u).mh c).rate
    · exact .inr ⟨_, funext fun i => if_pos ha, hf⟩
    · exact .inl (funext fun i => if_neg ha)
  · left
    obtain ⟨r, hr, hur⟩ := hu
    have h0 : ((Hmc.transition n logPost grad mass eps q p u).mh c).rate = fin 0 := by
      refine if_neg fun h => hf ?_
      have h := h.2
      simp only [Hmc.hamiltonian] at h
      generalize logPost (Hmc.leapfrog mass grad n eps (q, p)).1 c = x at h ⊢
      cases x <;> exact h
    refine funext fun i => if_neg fun ha => ?_
    have ha : Flt.lt (u c) ((Hmc.transition n logPost grad mass eps q p u).mh c).rate := ha
    rw [h0, hur] at ha
    exact hr.not_gt ha

/-- C83.  HMC on a joint density with a factor of documented parameters: an iteration that finishes with its log density fetched starts
and ends, in every chain, at a value in the interior of the support, as far as `log_prob` can tell. -/
theorem C83_hmc {C ι : Type} [Fintype C] [Fintype ι] (d : Dist ℝ) (hd : d.Valid) (val : (ι → XF) → d.toX.Val)
    (rest : (C → ι → XF) → C → XF) (cfg : Hmc.Cfg XF) (grad : (C → ι → XF) → C → ι → XF) (feed : Hmc.Feed)
    (z : C → ι → XF) (u : C → XF) (hu : ∀ c, ∃ r : ℝ, 0 ≤ r ∧ u c = fin r) (s s' : Hmc.State XF C ι)
    (info : Hmc.Info XF C ι)
    (hs : Hmc.sample cfg (fun q c => rest q c + (d.toX.logProb false (val (q c))).val) grad feed z u s = .ok s' info)
    (c : C) :
    (∃ y : d.Val, val (s.q c) = d.valX y ∧ d.Plausible y) ∧
    (∃ y : d.Val, val (s'.q c) = d.valX y ∧ d.Plausible y) := by
  have h1 : ∃ y : d.Val, val (s.q c) = d.valX y ∧ d.Plausible y := by
    refine C83_finite_partial d hd _ ?_
    by_contra h
    exact Hmc.C51_bad_start cfg _ grad feed z u s c (fun h' => h ((add_isFinite _ _).1 h').2) s' info hs
  refine ⟨h1, ?_⟩
  simp only [Hmc.sample] at hs
  split at hs
  · exact absurd hs (by simp)
  · rename_i eps heps
    split at hs
    · simp only [Hmc.Outcome.ok.injEq] at hs
      obtain ⟨rfl, rfl⟩ := hs
      rcases accepted cfg.nLeapfrogs (fun q c => rest q c + (d.toX.logProb false (val (q c))).val) grad
        (Hmc.adaptMass cfg feed (s.t + 1) s.q s.ewmv).2 eps s.q
        (Hmc.randomMomentum z (Hmc.adaptMass cfg feed (s.t + 1) s.q s.ewmv).2) u c (hu c) with e | ⟨y, e, hy⟩
      · rwa [← e] at h1
      · refine C83_finite_partial d hd _ ?_
        dsimp only
        rw [e]
        exact ((add_isFinite _ _).1 hy).2
    · exact absurd hs (by simp)

theorem finite_of_inside (d : Dist ℝ) (hd : d.Valid) (x : d.Val) (hx : d.Inside x) (hb : ¬ d.BelowFold x) :
    (d.toX.logProb false (d.valX x)).val.isFinite := by
  obtain ⟨v, hv⟩ := C82_in_domain d x hd hx
  rcases C82_finite d x v hv with ⟨r, rfl⟩ | h
  · have e := ((run_ok _ _).1 hv).2
    rw [logProb_val] at e
    rw [e]
    trivial
  · exact absurd h.1 hb

/-- The hypotheses are met: one chain on `Gamma(2, 1)` at 1. -/
example (grad : (Unit → Unit → XF) → Unit → Unit → XF) (t : Hmc.TunerCfg XF) (w : Hmc.Tuner XF) (e : Hmc.Ewmv XF Unit) :
    ∃ s' info, Hmc.sample (C := Unit) (ι := Unit) ⟨3, fin 0.8, t, false, false, 0, fin 0.9⟩
      (fun q c => fin 0 + ((Dist.gamma 2 1).toX.logProb false (q c ())).val) grad ⟨false, false⟩ (fun _ _ => fin 0.3)
      (fun _ => fin 0.5) ⟨fun _ _ => fin 1, 0, fin 0.1, w, e⟩ = .ok s' info := by
  simp only [Hmc.sample, Hmc.usedStepSize]
  refine ⟨_, _, if_pos fun c => ?_⟩
  simp only [Hmc.transition, Hmc.getAcceptanceRate, Hmc.hamiltonian]
  have h := finite_of_inside (.gamma 2 1) ⟨two_pos, one_pos⟩ (1 : ℝ) one_pos id
  obtain ⟨r, hr⟩ := exists_fin h
  have hr : (Dist.logProb false (Dist.gamma 2 1).toX (fin 1)).val = fin r := hr
  rw [hr]
  trivial

/-- `Gamma(2, 1)` at -1 is excluded, and so is `Poisson(1)` at -1. -/
example : (Dist.gamma 2 1).Excluded (-1 : ℝ) ∧ (Dist.poisson 1).Excluded (-1 : ℝ) :=
  ⟨fun h : (0 : ℝ) ≤ -1 => by linarith, -1, by omega, by norm_num⟩

/-- C83, finding.  The full claim is false: `log_prob` is finite at values of probability or density zero.  `Poisson`
at one half, `Binomial` at one half, `Dirichlet` and `Concrete` at a vector of positive numbers that do not sum to
one, and `ExpConcrete` at a vector whose exponentials do not. -/
theorem C83_unrecognised :
    (∃ x : ℝ, ¬ (Dist.poisson 1).Support x ∧ ((Dist.poisson 1).toX.logProb false (fin x)).val.isFinite) ∧
    (∃ x : ℝ, ¬ (Dist.binomial 0 1).Support x ∧ ((Dist.binomial 0 1).toX.logProb false (fin x)).val.isFinite) ∧
    (∀ (n : ℕ) (a : Fin n → ℝ), (Dist.dirichlet a).Valid → ∃ x : Fin n → ℝ, ¬ (Dist.dirichlet a).Support x ∧
      ((Dist.dirichlet a).toX.logProb false (fun i => fin (x i))).val.isFinite) ∧
    (∀ (n : ℕ) (t : ℝ) (l : Fin (n + 1) → ℝ), 0 < t → ∃ x : Fin (n + 1) → ℝ, ¬ (Dist.concrete t l).Support x ∧
      ((Dist.concrete t l).toX.logProb false (fun i => fin (x i))).val.isFinite) ∧
    ∀ (n : ℕ) (t : ℝ) (l : Fin (n + 1) → ℝ), 0 < t → ∃ x : Fin (n + 1) → ℝ, ¬ (Dist.expConcrete t l).Support x ∧
      ((Dist.expConcrete t l).toX.logProb false (fun i => fin (x i))).val.isFinite := by
  refine ⟨⟨1 / 2, ?_, ?_⟩, ⟨1 / 2, ?_, ?_⟩, fun n a h => ⟨fun _ => 2, ?_, ?_⟩, fun n t l h => ⟨fun _ => 2, ?_, ?_⟩,
    fun n t l h => ⟨fun _ => Real.log 2, ?_, ?_⟩⟩
  · rintro ⟨k, hk⟩
    have h1 : (1 : ℝ) = ((2 * k : ℕ) : ℝ) := by push_cast; rw [← hk]; norm_num
    have h2 : 1 = 2 * k := by exact_mod_cast h1
    omega
  · simp only [Dist.toX, Dist.logProb, poissonLogProb, bind_val, check_val, pure_val, fin_log 1 one_pos, fin_add,
      fin_lgamma (1 / 2 + 1) (pos_regular (by norm_num)), fin_mul, fin_sub, fin_isFinite]
  · rintro ⟨k, -, hk⟩
    have h1 : (1 : ℝ) = ((2 * k : ℕ) : ℝ) := by push_cast; rw [← hk]; norm_num
    have h2 : 1 = 2 * k := by exact_mod_cast h1
    omega
  · simp only [Dist.toX, Dist.logProb, binomialLogProb, bind_val, check_val, pure_val, fin_add, fin_sub,
      fin_lgamma (1 / 2 + 1) (pos_regular (by norm_num)),
      fin_lgamma ((1 : ℕ) + 1) (pos_regular (by norm_num)),
      fin_lgamma ((1 : ℕ) - 1 / 2 + 1) (pos_regular (by norm_num)), fin_mul, fin_softplus, fin_neg, fin_isFinite]
  · rintro ⟨-, h1⟩
    simp only [Finset.sum_const, Finset.card_univ, Fintype.card_fin, nsmul_eq_mul] at h1
    have h2 : n * 2 = 1 := by exact_mod_cast h1
    omega
  · exact finite_of_inside (.dirichlet a) h (fun _ => (2 : ℝ)) (fun _ => two_pos) id
  · rintro ⟨-, h1⟩
    simp only [Finset.sum_const, Finset.card_univ, Fintype.card_fin, nsmul_eq_mul] at h1
    have h2 : (n + 1) * 2 = 1 := by exact_mod_cast h1
    omega
  · exact finite_of_inside (.concrete t l) h (fun _ => (2 : ℝ)) (fun _ => two_pos) id
  · intro h1
    simp only [Dist.Support, Real.exp_log two_pos, Finset.sum_const, Finset.card_univ, Fintype.card_fin,
      nsmul_eq_mul] at h1
    have h2 : (n + 1) * 2 = 1 := by exact_mod_cast h1
    omega
  · exact finite_of_inside (.expConcrete t l) h (fun _ => Real.log 2) trivial id

/-- C83, finding.  On the boundary of the support the density may be positive and `log_prob` NaN: the uniform
distributions `Beta(1, 1)` and `Dirichlet(1, …, 1)`, and `Gamma(1, β)`.  -/
theorem C83_boundary :
    (∀ b : ℝ, 0 < b → ((Dist.gamma 1 b).toX.logProb false (fin 0)).run = .ok nan) ∧
    ((Dist.beta 1 1).toX.logProb false (fin 0)).run = .ok nan ∧
    ((Dist.beta 1 1).toX.logProb false (fin 1)).run = .ok nan ∧
    ∀ (n : ℕ) (x : Fin n → ℝ) (i : Fin n), x i = 0 →
      ((Dist.dirichlet fun _ : Fin n => (1 : ℝ)).toX.logProb false fun i => fin (x i)).run = .ok nan := by
  have e : fin 1 - fin 1 = fin 0 := by rw [fin_sub, sub_self]
  have e1 : fin 0 * ninf = nan := by
    show XF.mul _ _ = _
    simp [XF.mul, infSign]
  refine ⟨fun b hb => (run_ok _ _).2 ⟨logProb_off _ _, ?_⟩, (run_ok _ _).2 ⟨logProb_off _ _, ?_⟩,
    (run_ok _ _).2 ⟨logProb_off _ _, ?_⟩, fun n x i hi => (run_ok _ _).2 ⟨logProb_off _ _, ?_⟩⟩
  · simp only [Dist.toX, Dist.logProb, gammaLogProb, bind_val, check_val, pure_val, log_zero, e, e1, add_nan, nan_sub]
  · simp only [Dist.toX, Dist.logProb, betaLogProb, bind_val, check_val, pure_val, log_zero, e, e1, nan_add, nan_sub]
  · simp only [Dist.toX, Dist.logProb, betaLogProb, bind_val, check_val, pure_val, log_zero, e, e1, add_nan, nan_sub]
  · simp only [Dist.toX, Dist.logProb, dirichletLogProb, bind_val, check_val, checkV_val, pure_val]
    rw [sum_nan _ _ i (Finset.mem_univ i) (by rw [hi, log_zero, e, e1]), add_nan]

/-- C83, finding.  `InverseGamma` at zero: the density tends to zero there, `log_prob` is NaN. -/
theorem C83_inverse_gamma_zero (a b : ℝ) (ha : 0 < a) (hb : 0 < b) :
    ((Dist.inverseGamma a b).toX.logProb false (fin 0)).run = .ok nan := by
  refine (run_ok _ _).2 ⟨logProb_off _ _, ?_⟩
  have e : fin b / fin 0 = inf := by
    show XF.div _ _ = _
    simp [XF.div, infSign, hb]
  have e1 : fin (a + 1) * ninf = ninf := by
    show XF.mul _ _ = _
    simp [XF.mul, infSign, show ¬ a < -1 by linarith, show -1 < a by linarith]
  simp only [Dist.toX, Dist.logProb, inverseGammaLogProb, bind_val, check_val, pure_val, log_zero, e, fin_add, e1,
    fin_log b hb, fin_lgamma a (pos_regular ha), fin_mul, fin_sub]
  rfl

end ZhuSuan.Checked

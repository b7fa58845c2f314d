import Verif.Spec.Checked

/-!
# C82  `check_numerics` only adds exceptions, and adds them exactly for the values it names
-/

set_option autoImplicit false

namespace ZhuSuan.Checked
open XF

/-! ## Arithmetic on finite floats -/

@[simp] theorem fin_add (a b : ℝ) : fin a + fin b = fin (a + b) := rfl
@[simp] theorem fin_neg (a : ℝ) : -fin a = fin (-a) := rfl
@[simp] theorem fin_sub (a b : ℝ) : fin a - fin b = fin (a - b) := by
  show XF.add (fin a) (XF.neg (fin b)) = _
  simp [XF.add, XF.neg, sub_eq_add_neg]
@[simp] theorem fin_mul (a b : ℝ) : fin a * fin b = fin (a * b) := rfl
theorem fin_div (a b : ℝ) (h : b ≠ 0) : fin a / fin b = fin (a / b) := by
  show XF.div _ _ = _
  simp [XF.div, h]
@[simp] theorem fin_exp (a : ℝ) : exp (fin a) = fin (Real.exp a) := rfl
theorem fin_log (a : ℝ) (h : 0 < a) : log (fin a) = fin (Real.log a) := by simp [log, h]
theorem fin_lgamma (a : ℝ) (h : ∀ k : ℕ, a ≠ -k) : lgamma (fin a) = fin (Uni.lgamma a) := by
  simp [lgamma, h]
@[simp] theorem fin_softplus (a : ℝ) : softplus (fin a) = fin (Uni.softplus a) := rfl
@[simp] theorem fin_abs (a : ℝ) : XF.abs (fin a) = fin |a| := rfl
@[simp] theorem fin_isFinite (a : ℝ) : (fin a).isFinite := trivial
@[simp] theorem fin_inj (a b : ℝ) : fin a = fin b ↔ a = b := ⟨fun h => XF.fin.inj h, fun h => by rw [h]⟩

theorem isFinite_iff (x : XF) : x.isFinite ↔ ∃ r, x = fin r := by
  cases x <;> simp [isFinite]

theorem fin_sum {ι : Type} (s : Finset ι) (f : ι → ℝ) : ∑ i ∈ s, fin (f i) = fin (∑ i ∈ s, f i) := by
  classical
  induction s using Finset.induction_on with
  | empty => rfl
  | insert a s ha ih => rw [Finset.sum_insert ha, Finset.sum_insert ha, ih]; rfl

theorem add_isFinite (a b : XF) : (a + b).isFinite ↔ a.isFinite ∧ b.isFinite := by
  show (XF.add a b).isFinite ↔ _
  cases a <;> cases b <;> simp [XF.add, isFinite]

theorem neg_isFinite (a : XF) : (-a).isFinite ↔ a.isFinite := by
  show (XF.neg a).isFinite ↔ _
  cases a <;> simp [XF.neg, isFinite]

theorem sub_isFinite (a b : XF) : (a - b).isFinite ↔ a.isFinite ∧ b.isFinite := by
  show (XF.add a (XF.neg b)).isFinite ↔ _
  cases a <;> cases b <;> simp [XF.add, XF.neg, isFinite]

theorem infSign_not_finite (r : ℝ) : ¬ (infSign r).isFinite := by
  unfold infSign
  split
  · simp [isFinite]
  · split <;> simp [isFinite]

theorem mul_isFinite (a b : XF) : (a * b).isFinite ↔ a.isFinite ∧ b.isFinite := by
  show (XF.mul a b).isFinite ↔ _
  cases a <;> cases b <;> simp [XF.mul, isFinite, infSign_not_finite]
  all_goals exact fun h => infSign_not_finite _ h

theorem sum_isFinite {ι : Type} (s : Finset ι) (f : ι → XF) :
    (∑ i ∈ s, f i).isFinite ↔ ∀ i ∈ s, (f i).isFinite := by
  classical
  induction s using Finset.induction_on with
  | empty => simp [show (0 : XF) = fin 0 from rfl]
  | insert a s ha ih => rw [Finset.sum_insert ha, add_isFinite, ih]; simp

theorem log_isFinite (x : XF) : (log x).isFinite ↔ Pos x := by
  cases x with
  | fin r =>
    simp only [log, Pos, fin_inj]
    split
    · simpa using ‹0 < r›
    · rename_i h
      split <;> simp [isFinite, not_lt.1 h]
  | _ => simp [log, isFinite, Pos]

theorem lgamma_isFinite (x : XF) : (lgamma x).isFinite ↔ Regular x := by
  cases x with
  | fin r =>
    simp only [lgamma, Regular, fin_inj]
    split
    · rename_i h
      obtain ⟨k, hk⟩ := h
      simp only [isFinite, false_iff]
      rintro ⟨r', h1, rfl⟩
      exact h1 k hk
    · rename_i h
      simp only [fin_isFinite, true_iff]
      exact ⟨r, fun k hk => h ⟨k, hk⟩, rfl⟩
  | _ => simp [lgamma, isFinite, Regular]

/-! ## Checks -/

@[simp] theorem pure_val {α : Type} (x : α) : (pure x : Ck α).val = x := rfl
@[simp] theorem pure_failed {α : Type} (x : α) : (pure x : Ck α).failed = [] := rfl
@[simp] theorem bind_val {α β : Type} (m : Ck α) (f : α → Ck β) : (m >>= f).val = (f m.val).val := rfl
@[simp] theorem bind_failed {α β : Type} (m : Ck α) (f : α → Ck β) :
    (m >>= f).failed = m.failed ++ (f m.val).failed := rfl
@[simp] theorem check_val (on : Bool) (x : XF) (m : String) : (check on x m).val = x := rfl
@[simp] theorem checkV_val (on : Bool) {n : ℕ} (x : Fin n → XF) (m : String) : (checkV on x m).val = x := rfl
@[simp] theorem check_off (x : XF) (m : String) : (check false x m).failed = [] := by simp [check]
@[simp] theorem checkV_off {n : ℕ} (x : Fin n → XF) (m : String) : (checkV false x m).failed = [] := by
  simp [checkV]
theorem mem_check (x : XF) (m m' : String) : m' ∈ (check true x m).failed ↔ m' = m ∧ ¬ x.isFinite := by
  unfold check
  by_cases h : x.isFinite <;> simp [h]
theorem mem_checkV {n : ℕ} (x : Fin n → XF) (m m' : String) :
    m' ∈ (checkV true x m).failed ↔ m' = m ∧ ∃ i, ¬ (x i).isFinite := by
  unfold checkV
  by_cases h : ∃ i, ¬ (x i).isFinite <;> simp [h]

theorem run_ok {α : Type} (m : Ck α) (v : α) : m.run = .ok v ↔ m.failed = [] ∧ m.val = v := by
  unfold Ck.run
  by_cases h : m.failed = [] <;> simp [h]

theorem run_error {α : Type} (m : Ck α) (e : List String) : m.run = .error e ↔ m.failed ≠ [] ∧ m.failed = e := by
  unfold Ck.run
  by_cases h : m.failed = [] <;> simp [h]

theorem logProb_val (d : Dist XF) (x : d.Val) : (d.logProb true x).val = (d.logProb false x).val := by
  cases d <;> rfl

theorem logProb_off (d : Dist XF) (x : d.Val) : (d.logProb false x).failed = [] := by
  cases d <;> simp [Dist.logProb, normalLogProb, logstdOfStd, foldNormalLogProb, uniformLogProb, uniformProb,
    gammaLogProb, betaLogProb, poissonLogProb, binomialLogProb, inverseGammaLogProb, laplaceLogProb,
    binConcreteLogProb, mvnLogProb, dirichletLogProb, expConcreteLogProb, concreteLogProb, matNormalLogProb]

theorem prob_val (d : Dist XF) (x : d.Val) : (d.prob true x).val = (d.prob false x).val := by
  cases d <;> rfl

theorem prob_off (d : Dist XF) (x : d.Val) : (d.prob false x).failed = [] := by
  cases d
  case uniform => simp [Dist.prob, uniformProb]
  all_goals simpa [Dist.prob] using logProb_off _ x

/-- C82.  Without the switch `log_prob` and `prob` return a float for every parameter and value. -/
theorem C82_off (d : Dist XF) (x : d.Val) :
    (∃ v, (d.logProb false x).run = .ok v) ∧ ∃ v, (d.prob false x).run = .ok v :=
  ⟨⟨_, (run_ok _ _).2 ⟨logProb_off d x, rfl⟩⟩, ⟨_, (run_ok _ _).2 ⟨prob_off d x, rfl⟩⟩⟩

/-- C82.  What is returned with the switch on is what is returned with the switch off. -/
theorem C82_same (d : Dist XF) (x : d.Val) (v : XF) :
    ((d.logProb true x).run = .ok v → (d.logProb false x).run = .ok v) ∧
    ((d.prob true x).run = .ok v → (d.prob false x).run = .ok v) := by
  simp only [run_ok, logProb_off, prob_off, true_and, logProb_val, prob_val]
  exact ⟨fun h => h.2, fun h => h.2⟩

theorem not_pos_fin (r : ℝ) : ¬ Pos (fin r) ↔ r ≤ 0 := by
  simp [Pos]

theorem precision_iff (l : XF) : ¬ (exp (fin (-2) * l)).isFinite ↔ l = nan ∨ l = ninf := by
  show ¬ (exp (XF.mul (fin (-2)) l)).isFinite ↔ _
  cases l <;> norm_num [XF.mul, exp, infSign, isFinite]
  all_goals exact ⟨by simp, by simp⟩

theorem precision_log_iff (s : XF) : ¬ (exp (fin (-2) * log s)).isFinite ↔ ¬ Pos s ∧ s ≠ inf := by
  rw [precision_iff]
  cases s with
  | fin r =>
    rw [not_pos_fin]
    simp only [log]
    split
    · simpa using ‹0 < r›
    · rename_i h
      split <;> simp [not_lt.1 h]
  | _ => simp [log, Pos]

theorem log_bad (s : XF) : log s = nan ∨ log s = ninf ↔ ¬ Pos s ∧ s ≠ inf := by
  rw [← precision_iff, precision_log_iff]

theorem one_div_sub_iff (a b : XF) : ¬ (fin 1 / (b - a)).isFinite ↔ a = b ∨ a = nan ∨ b = nan := by
  show ¬ (XF.div (fin 1) (XF.add b (XF.neg a))).isFinite ↔ _
  cases a <;> cases b <;> simp [XF.add, XF.neg, XF.div, isFinite]
  rename_i r s
  by_cases h : s + -r = 0
  · simp only [h, if_true, infSign]
    simp
    linarith
  · simp only [h, if_false]
    simp
    intro h'
    exact h (by rw [h']; ring)

theorem uniform_log_iff (a b x : XF) :
    Pos (fin 1 / (b - a) * XF.cast (le a x ∧ lt x b)) ↔
      ∃ r s t : ℝ, a = fin r ∧ b = fin s ∧ x = fin t ∧ r ≤ t ∧ t < s := by
  constructor
  · rintro ⟨q, hq, h⟩
    have hf : (fin 1 / (b - a) * XF.cast (le a x ∧ lt x b)).isFinite := by rw [h]; trivial
    have hp := ((mul_isFinite _ _).1 hf).1
    by_cases hm : le a x ∧ lt x b
    · rw [XF.cast, if_pos hm] at h
      change XF.mul (XF.div (fin 1) (XF.add b (XF.neg a))) (fin 1) = _ at h
      cases a <;> cases b <;> simp [XF.add, XF.neg, XF.div, XF.mul, infSign] at h
      · cases x <;> simp [le, lt] at hm
        rename_i r s t
        exact ⟨r, s, t, rfl, rfl, rfl, hm.1, hm.2⟩
      all_goals exact absurd h hq.ne
    · exfalso
      obtain ⟨p, hp⟩ := (isFinite_iff _).1 hp
      rw [hp] at h
      simp [XF.cast, hm] at h
      exact hq.ne h
  · rintro ⟨r, s, t, rfl, rfl, rfl, h1, h2⟩
    have h : s - r ≠ 0 := by linarith
    rw [fin_sub, fin_div _ _ h]
    simp only [XF.cast, le, lt, h1, h2, and_self, if_true, fin_mul, Pos, fin_inj]
    exact ⟨_, by have : 0 < s - r := by linarith
                 positivity, rfl⟩

theorem pos_one_sub (x : XF) : Pos (fin 1 - x) ↔ ∃ t : ℝ, t < 1 ∧ x = fin t := by
  show Pos (XF.add (fin 1) (XF.neg x)) ↔ _
  cases x <;> simp [XF.add, XF.neg, Pos]

theorem regular_add (a b : XF) :
    Regular (a + b) ↔ ∃ r s : ℝ, a = fin r ∧ b = fin s ∧ ∀ k : ℕ, r + s ≠ -k := by
  show Regular (XF.add a b) ↔ _
  cases a <;> cases b <;> simp [XF.add, Regular]

theorem regular_add_one (x : XF) :
    Regular (x + fin 1) ↔ ∃ t : ℝ, x = fin t ∧ ∀ k : ℕ, t + 1 ≠ -k := by
  show Regular (XF.add x (fin 1)) ↔ _
  cases x <;> simp [XF.add, Regular]

theorem regular_sub_add_one (n : ℝ) (x : XF) :
    Regular (fin n - x + fin 1) ↔ ∃ t : ℝ, x = fin t ∧ ∀ k : ℕ, n - t + 1 ≠ -k := by
  show Regular (XF.add (XF.add (fin n) (XF.neg x)) (fin 1)) ↔ _
  cases x <;> simp [XF.add, XF.neg, Regular, sub_eq_add_neg]

theorem div_two_isFinite (a : XF) : (a / fin 2).isFinite ↔ a.isFinite := by
  show (XF.div a (fin 2)).isFinite ↔ _
  cases a <;> norm_num [XF.div, isFinite]

theorem sum_log_isFinite {n : ℕ} (L : Fin n → Fin n → XF) :
    (∑ i, log (L i i)).isFinite ↔ ∀ i, Pos (L i i) := by
  simp [sum_isFinite, log_isFinite]

theorem two_pi_pos : Pos (fin 2 * fin Real.pi) := ⟨2 * Real.pi, by positivity, by simp⟩

theorem lbeta_isFinite {n : ℕ} (a : Fin n → XF) :
    (Num.lbeta a).isFinite ↔ (∀ i, Regular (a i)) ∧ Regular (∑ i, a i) := by
  show ((∑ i, lgamma (a i)) - lgamma (∑ i, a i)).isFinite ↔ _
  simp [sub_isFinite, sum_isFinite, lgamma_isFinite]

theorem failed_iff (d : Dist XF) (x : d.Val) (m : String) : m ∈ (d.logProb true x).failed ↔ Complains d x m := by
  cases d <;> dsimp only [Dist.Val] at x <;> simp only [Dist.logProb, normalLogProb, logstdOfStd,
    foldNormalLogProb, uniformLogProb, uniformProb, gammaLogProb, betaLogProb, poissonLogProb, binomialLogProb,
    inverseGammaLogProb, laplaceLogProb, binConcreteLogProb, mvnLogProb, dirichletLogProb, expConcreteLogProb,
    concreteLogProb, matNormalLogProb, Complains, bind_failed, bind_val, List.mem_append, mem_check, mem_checkV, check_val, checkV_val, pure_val,
    pure_failed, List.not_mem_nil, or_false, false_or, precision_iff, log_bad, log_isFinite,
    lgamma_isFinite, one_div_sub_iff, uniform_log_iff, pos_one_sub, lbeta_isFinite, sub_isFinite, mul_isFinite, div_two_isFinite, sum_log_isFinite, two_pi_pos, not_true,
    fin_isFinite, true_and, not_forall, not_and_or, or_assoc]
  case beta => rw [regular_add]; exact Iff.rfl
  case poisson => rw [regular_add_one]; exact Iff.rfl
  case binomial => rw [regular_add_one, regular_sub_add_one]; exact Iff.rfl
  case uniform => exact Iff.rfl
  case binConcrete => exact Iff.rfl
  case matNormal => rw [or_comm (b := ∃ i, _)]

/-- C82.  With the switch on, `log_prob` returns a value exactly when no message is due, and otherwise the
exception carries messages that are due. -/
theorem C82_complaints (d : Dist XF) (x : d.Val) :
    ((∃ v, (d.logProb true x).run = .ok v) ↔ ∀ m, ¬ Complains d x m) ∧
    ∀ ms, (d.logProb true x).run = .error ms → ms ≠ [] ∧ ∀ m, m ∈ ms ↔ Complains d x m := by
  constructor
  · simp only [run_ok, exists_and_left, exists_eq', and_true, ← failed_iff]
    exact List.eq_nil_iff_forall_not_mem
  · intro ms h
    obtain ⟨h1, rfl⟩ := (run_error _ _).1 h
    exact ⟨h1, fun m => failed_iff d x m⟩

/-! ## Finite parameters and values -/

theorem triSolveAux_fin {n : ℕ} (L : Fin n → Fin n → ℝ) (b : Fin n → ℝ) (hL : ∀ i, L i i ≠ 0) (k : ℕ) (h : k < n) :
    Num.triSolveAux (fun i j => fin (L i j)) (fun i => fin (b i)) k h = fin (Num.triSolveAux L b k h) := by
  induction k using Nat.strong_induction_on with
  | _ k ih =>
    rw [Num.triSolveAux, Num.triSolveAux]
    have e : (Num.Fn.sum fun j : Fin k => (fin (L ⟨k, h⟩ ⟨j.val, j.isLt.trans h⟩) : XF) *
        Num.triSolveAux (fun i j => fin (L i j)) (fun i => fin (b i)) j.val (j.isLt.trans h)) =
        fin (∑ j : Fin k, L ⟨k, h⟩ ⟨j.val, j.isLt.trans h⟩ * Num.triSolveAux L b j.val (j.isLt.trans h)) := by
      show (∑ j : Fin k, _) = _
      rw [← fin_sum]
      refine Finset.sum_congr rfl fun j _ => ?_
      rw [ih j.val j.isLt, fin_mul]
    rw [e, fin_sub, fin_div _ _ (hL _)]
    rfl

theorem triSolve_fin {n : ℕ} (L : Fin n → Fin n → ℝ) (b : Fin n → ℝ) (hL : ∀ i, L i i ≠ 0) (i : Fin n) :
    Num.triSolve (fun i j => fin (L i j)) (fun i => fin (b i)) i = fin (Num.triSolve L b i) :=
  triSolveAux_fin L b hL i.val i.isLt

theorem maxVal_fin {n : ℕ} (x : Fin (n + 1) → ℝ) :
    XF.maxVal (fun i => fin (x i)) = fin (Grad.maxVal x) := by
  have h3 : ¬ ∀ i : Fin (n + 1), fin (x i) = ninf := fun h => by simpa using h 0
  have hs : {r | ∃ i, x i = r} = Set.range x := rfl
  rw [XF.maxVal, if_neg (by simp), if_neg (by simp), if_neg h3]
  simp only [fin_inj, hs, Grad.maxVal]
  rw [Finset.sup'_univ_eq_ciSup]
  rfl

theorem logSumExp_fin {n : ℕ} (x : Fin (n + 1) → ℝ) :
    XF.logSumExp (fun i => fin (x i)) = fin (Num.logSumExp x) := by
  simp only [XF.logSumExp, maxVal_fin, fin_isFinite, if_true, fin_sub, fin_exp, fin_sum]
  rw [fin_log _ (Finset.sum_pos (fun i _ => Real.exp_pos _) Finset.univ_nonempty), fin_add]
  rfl

theorem pos_fin (r : ℝ) : Pos (fin r) ↔ 0 < r := by simp [Pos]

theorem regular_fin (r : ℝ) : Regular (fin r) ↔ ∀ k : ℕ, r ≠ -k := by
  simp [Regular]

theorem pos_regular {r : ℝ} (hr : 0 < r) (k : ℕ) : r ≠ -k := by
  have : (0 : ℝ) ≤ k := Nat.cast_nonneg k
  linarith

theorem normal_value (on : Bool) (m l x : ℝ) (c : Ck XF) (hc : c.val = fin l) :
    (normalLogProb on (fin m) c (fin x)).val = fin (Uni.Normal.logProb m l x) := by
  simp only [normalLogProb, bind_val, hc, check_val, pure_val, fin_mul, fin_exp, fin_sub, Uni.Normal.logProb, sq]

theorem foldNormal_value (on : Bool) (m l x : ℝ) (c : Ck XF) (hc : c.val = fin l) :
    ext (foldNormalLogProb on (fin m) c (fin x)).val = some (Uni.FoldNormal.logProb m l x) := by
  simp only [foldNormalLogProb, bind_val, hc, check_val, pure_val, fin_mul, fin_exp, fin_sub, fin_add, fin_softplus,
    Uni.FoldNormal.logProb, sq, XF.cast, le, Uni.ind, ge_iff_le]
  by_cases h : 0 ≤ x
  · simp only [h, if_true, fin_log 1 one_pos, fin_add, ext, Uni.elog]
    simp
  · simp only [h, if_false, XF.log, lt_irrefl, if_true, Uni.elog]
    simp
    rfl

theorem value_aux (d : Dist ℝ) (x : d.Val) (h : ∀ m, ¬ Complains d.toX (d.valX x) m) :
    ext (d.toX.logProb true (d.valX x)).val = some (d.realLogProb x) := by
  cases d <;> dsimp only [Dist.Val] at x <;> dsimp only [Dist.toX, Dist.valX, Dist.logProb, Dist.realLogProb]
  case normalStd m s =>
    have hs : 0 < s := by have := h "log(std)"; simpa [Complains, Dist.toX, pos_fin] using this
    rw [normal_value _ _ (Real.log s) _ _ (by simp [logstdOfStd, fin_log s hs])]
    rfl
  case normalLogstd m l =>
    rw [normal_value _ _ l _ _ rfl]
    rfl
  case foldNormalStd m s =>
    have hs : 0 < s := by have := h "log(std)"; simpa [Complains, Dist.toX, pos_fin] using this
    rw [foldNormal_value _ _ (Real.log s) _ _ (by simp [logstdOfStd, fin_log s hs])]
    rfl
  case foldNormalLogstd m l =>
    rw [foldNormal_value _ _ l _ _ rfl]
    rfl
  case uniform a b =>
    have h1 : a ≤ x ∧ x < b := by
      obtain ⟨r, s, t, h1, h2, h3, h4, h5⟩ := not_not.1 fun hn => h "log_p" (Or.inr ⟨rfl, hn⟩)
      cases h1; cases h2; cases h3
      exact ⟨h4, h5⟩
    have h2 : b - a ≠ 0 := by linarith
    have h3 : 0 < 1 / (b - a) * 1 := by
      have : 0 < b - a := by linarith
      positivity
    simp only [uniformLogProb, uniformProb, bind_val, check_val, pure_val, XF.cast, le, XF.lt, h1, and_self, if_true,
      fin_sub, fin_div _ _ h2, fin_mul, fin_log _ h3, ext, Uni.Uniform.logProb, Uni.Uniform.prob, Uni.ind, Uni.elog,
      ENNReal.log_ofReal_of_pos h3]
  case gamma a b =>
    have hx : 0 < x := (pos_fin _).1 (not_not.1 fun hn => h "log(given)" (Or.inl ⟨rfl, hn⟩))
    have hb : 0 < b := (pos_fin _).1 (not_not.1 fun hn => h "log(beta)" (Or.inr (Or.inl ⟨rfl, hn⟩)))
    have ha := (regular_fin a).1 (not_not.1 fun hn => h "lgamma(alpha)" (Or.inr (Or.inr ⟨rfl, hn⟩)))
    simp only [gammaLogProb, bind_val, check_val, pure_val, fin_log _ hx, fin_log _ hb, fin_lgamma _ ha, fin_mul,
      fin_sub, fin_add, ext, Uni.Gamma.logProb]
  case beta a b =>
    have hx : 0 < x := (pos_fin _).1 (not_not.1 fun hn => h "log(given)" (Or.inl ⟨rfl, hn⟩))
    have hx' : 0 < 1 - x := by
      obtain ⟨t, ht, e⟩ := not_not.1 fun hn => h "log(1 - given)" (Or.inr (Or.inl ⟨rfl, hn⟩))
      cases e
      linarith
    have ha := (regular_fin a).1 (not_not.1 fun hn => h "lgamma(alpha)" (Or.inr (Or.inr (Or.inl ⟨rfl, hn⟩))))
    have hb := (regular_fin b).1
      (not_not.1 fun hn => h "lgamma(beta)" (Or.inr (Or.inr (Or.inr (Or.inl ⟨rfl, hn⟩)))))
    have hab : ∀ k : ℕ, a + b ≠ -k := by
      obtain ⟨r, s, h1, h2, h3⟩ :=
        not_not.1 fun hn => h "lgamma(alpha + beta)" (Or.inr (Or.inr (Or.inr (Or.inr ⟨rfl, hn⟩))))
      cases h1; cases h2
      exact h3
    simp only [betaLogProb, bind_val, check_val, pure_val, fin_log _ hx, fin_log _ hx', fin_lgamma _ ha,
      fin_lgamma _ hb, fin_lgamma _ hab, fin_mul, fin_sub, fin_add, ext, Uni.Beta.logProb]
  case poisson r =>
    have hr : 0 < r := (pos_fin _).1 (not_not.1 fun hn => h "log(rate)" (Or.inl ⟨rfl, hn⟩))
    have hx : ∀ k : ℕ, x + 1 ≠ -k := by
      obtain ⟨t, h1, h2⟩ := not_not.1 fun hn => h "lgamma(given + 1)" (Or.inr ⟨rfl, hn⟩)
      cases h1
      exact h2
    simp only [poissonLogProb, bind_val, check_val, pure_val, fin_log _ hr, fin_lgamma _ hx, fin_mul, fin_sub, fin_add,
      ext, Uni.Poisson.logProb]
  case binomial l n =>
    have hx : ∀ k : ℕ, x + 1 ≠ -k := by
      obtain ⟨t, h1, h2⟩ := not_not.1 fun hn => h "lgamma(given + 1)" (Or.inl ⟨rfl, hn⟩)
      cases h1
      exact h2
    have hx' : ∀ k : ℕ, (n : ℝ) - x + 1 ≠ -k := by
      obtain ⟨t, h1, h2⟩ := not_not.1 fun hn => h "lgamma(n - given + 1)" (Or.inr ⟨rfl, hn⟩)
      cases h1
      exact h2
    have hn : ∀ k : ℕ, (n : ℝ) + 1 ≠ -k := pos_regular (by positivity)
    simp only [binomialLogProb, bind_val, check_val, pure_val, fin_lgamma _ hx, fin_lgamma _ hx', fin_lgamma _ hn,
      fin_mul, fin_sub, fin_add, fin_neg, fin_softplus, ext, Uni.Binomial.logProb]
  case inverseGamma a b =>
    have hx : 0 < x := (pos_fin _).1 (not_not.1 fun hn => h "log(given)" (Or.inl ⟨rfl, hn⟩))
    have hb : 0 < b := (pos_fin _).1 (not_not.1 fun hn => h "log(beta)" (Or.inr (Or.inl ⟨rfl, hn⟩)))
    have ha := (regular_fin a).1 (not_not.1 fun hn => h "lgamma(alpha)" (Or.inr (Or.inr ⟨rfl, hn⟩)))
    simp only [inverseGammaLogProb, bind_val, check_val, pure_val, fin_log _ hx, fin_log _ hb, fin_lgamma _ ha,
      fin_mul, fin_sub, fin_add, fin_div _ _ hx.ne', ext, Uni.InverseGamma.logProb]
  case laplace a b =>
    have hb : 0 < b := (pos_fin _).1 (not_not.1 fun hn => h "log(scale)" ⟨rfl, hn⟩)
    simp only [laplaceLogProb, bind_val, check_val, pure_val, fin_log _ hb, fin_sub, fin_abs, fin_div _ _ hb.ne', ext,
      Uni.Laplace.logProb]
  case binConcrete t l =>
    have hx : 0 < x := (pos_fin _).1 (not_not.1 fun hn => h "log(given)" (Or.inl ⟨rfl, hn⟩))
    have hx' : 0 < 1 - x := by
      obtain ⟨t, ht, e⟩ := not_not.1 fun hn => h "log(1 - given)" (Or.inr (Or.inl ⟨rfl, hn⟩))
      cases e
      linarith
    have ht : 0 < t := (pos_fin _).1 (not_not.1 fun hn => h "log(temperature)" (Or.inr (Or.inr ⟨rfl, hn⟩)))
    simp only [binConcreteLogProb, bind_val, check_val, pure_val, fin_log _ hx, fin_log _ hx', fin_log _ ht, fin_mul,
      fin_sub, fin_add, fin_softplus, ext, Uni.BinConcrete.logProb]
  case mvn n m L =>
    have hL : ∀ i, 0 < L i i := fun i => (pos_fin _).1 (not_not.1 fun hn => h "log[det(Cov)]" ⟨rfl, i, hn⟩)
    have e1 : ∑ i, XF.log (fin (L i i)) = fin (∑ i, Real.log (L i i)) := by
      rw [← fin_sum]
      exact Finset.sum_congr rfl fun i _ => fin_log _ (hL i)
    simp only [mvnLogProb, bind_val, check_val, pure_val, e1, fin_mul, fin_log _ (show 0 < 2 * Real.pi by positivity),
      fin_div _ 2 two_ne_zero, fin_sub, triSolve_fin L _ (fun i => (hL i).ne'), fin_sum, fin_add, ext]
    rfl
  case dirichlet n a =>
    have ha := not_not.1 fun hn => h "lbeta(alpha)" (Or.inl ⟨rfl, hn⟩)
    have hx : ∀ i, 0 < x i := fun i => (pos_fin _).1 (not_not.1 fun hn => h "log(given)" (Or.inr ⟨rfl, i, hn⟩))
    have ha1 : ∀ i, ∀ k : ℕ, a i ≠ -k := fun i => (regular_fin _).1 (ha.1 i)
    have ha2 : ∀ k : ℕ, ∑ i, a i ≠ -k := by
      have := ha.2
      rw [fin_sum] at this
      exact (regular_fin _).1 this
    have e1 : Num.lbeta (fun i => fin (a i)) = fin (Num.lbeta a) := by
      show (∑ i, lgamma (fin (a i))) - lgamma (∑ i, fin (a i)) = _
      rw [fin_sum, fin_lgamma _ ha2, Finset.sum_congr rfl fun i _ => fin_lgamma _ (ha1 i), fin_sum, fin_sub]
      rfl
    have e2 : ∀ i, XF.log (fin (x i)) = fin (Real.log (x i)) := fun i => fin_log _ (hx i)
    simp only [dirichletLogProb, bind_val, check_val, checkV_val, pure_val, e1, e2, fin_sub, fin_mul, fin_sum, fin_neg,
      fin_add, ext]
    rfl
  case expConcrete n t l =>
    have ht : 0 < t := (pos_fin _).1 (not_not.1 fun hn => h "log(temperature)" ⟨rfl, hn⟩)
    have hN : ∀ k : ℕ, ((n + 1 : ℕ) : ℝ) ≠ -k := pos_regular (by positivity)
    simp only [expConcreteLogProb, bind_val, check_val, pure_val, fin_log _ ht, fin_lgamma _ hN, fin_mul, fin_sub,
      fin_sum, fin_add, logSumExp_fin, ext]
    rfl
  case concrete n t l =>
    have hx : ∀ i, 0 < x i := fun i => (pos_fin _).1 (not_not.1 fun hn => h "log(given)" (Or.inl ⟨rfl, i, hn⟩))
    have ht : 0 < t := (pos_fin _).1 (not_not.1 fun hn => h "log(temperature)" (Or.inr ⟨rfl, hn⟩))
    have hN : ∀ k : ℕ, ((n + 1 : ℕ) : ℝ) ≠ -k := pos_regular (by positivity)
    have e2 : ∀ i, XF.log (fin (x i)) = fin (Real.log (x i)) := fun i => fin_log _ (hx i)
    simp only [concreteLogProb, bind_val, check_val, checkV_val, pure_val, fin_log _ ht, e2, fin_lgamma _ hN, fin_mul,
      fin_sub, fin_sum, fin_add, logSumExp_fin, ext]
    rfl
  case matNormal r c m U V =>
    have hU : ∀ i, 0 < U i i := fun i =>
      (pos_fin _).1 (not_not.1 fun hn => h "log[det(Cov)]" ⟨rfl, Or.inl ⟨i, hn⟩⟩)
    have hV : ∀ i, 0 < V i i := fun i =>
      (pos_fin _).1 (not_not.1 fun hn => h "log[det(Cov)]" ⟨rfl, Or.inr ⟨i, hn⟩⟩)
    have e1 : ∑ i, XF.log (fin (U i i)) = fin (∑ i, Real.log (U i i)) := by
      rw [← fin_sum]
      exact Finset.sum_congr rfl fun i _ => fin_log _ (hU i)
    have e2 : ∑ i, XF.log (fin (V i i)) = fin (∑ i, Real.log (V i i)) := by
      rw [← fin_sum]
      exact Finset.sum_congr rfl fun i _ => fin_log _ (hV i)
    simp only [matNormalLogProb, bind_val, check_val, pure_val, e1, e2, fin_mul,
      fin_log _ (show 0 < 2 * Real.pi by positivity), fin_sub, triSolve_fin U _ (fun i => (hU i).ne'),
      triSolve_fin V _ (fun i => (hV i).ne'), fin_sum, fin_add, ext]
    rfl

/-- C82.  For finite parameters and a finite value, what is returned with the switch on is the log density of the
real model. -/
theorem C82_value (d : Dist ℝ) (x : d.Val) (v : XF) (h : (d.toX.logProb true (d.valX x)).run = .ok v) :
    ext v = some (d.realLogProb x) := by
  rw [← ((run_ok _ _).1 h).2]
  exact value_aux d x ((C82_complaints _ _).1.1 ⟨v, h⟩)

/-- C82.  For finite parameters and a finite value, what is returned with the switch on is finite, except for
`FoldNormal` at a negative value, where it is `-inf`. -/
theorem C82_finite (d : Dist ℝ) (x : d.Val) (v : XF) (h : (d.toX.logProb true (d.valX x)).run = .ok v) :
    (∃ r, v = fin r) ∨ (d.BelowFold x ∧ v = ninf) := by
  have e := C82_value d x v h
  have real : ∀ r : ℝ, ext v = some (r : EReal) → ∃ r, v = fin r := by
    intro r e
    cases v <;> simp_all [ext]
  have fold : ∀ m l t : ℝ, ext v = some (Uni.FoldNormal.logProb m l t) →
      (∃ r, v = fin r) ∨ (t < 0 ∧ v = ninf) := by
    intro m l t e
    by_cases ht : 0 ≤ t
    · left
      rw [Uni.FoldNormal.logProb] at e
      simp only [Uni.ind, ge_iff_le, ht, if_true, Uni.elog, ENNReal.ofReal_one, ENNReal.log_one, add_zero] at e
      exact real _ e
    · right
      rw [Uni.FoldNormal.logProb] at e
      simp only [Uni.ind, ge_iff_le, ht, if_false, Uni.elog, ENNReal.ofReal_zero, ENNReal.log_zero, EReal.add_bot] at e
      refine ⟨not_le.1 ht, ?_⟩
      cases v <;> simp_all [ext]
  cases d <;> dsimp only [Dist.Val] at x <;> dsimp only [Dist.realLogProb] at e
  case foldNormalStd => exact fold _ _ _ e
  case foldNormalLogstd => exact fold _ _ _ e
  case uniform a b =>
    left
    have hn := (C82_complaints _ _).1.1 ⟨v, h⟩
    obtain ⟨r, s, t, h1, h2, h3, h4, h5⟩ := not_not.1 fun hn' => hn "log_p" (Or.inr ⟨rfl, hn'⟩)
    cases h1; cases h2; cases h3
    have h3 : 0 < 1 / (b - a) * 1 := by
      have : 0 < b - a := by linarith
      positivity
    refine real (Real.log (1 / (b - a) * 1)) ?_
    rw [e]
    simp only [Uni.Uniform.logProb, Uni.Uniform.prob, Uni.ind, h4, h5, and_self, if_true, Uni.elog,
      ENNReal.log_ofReal_of_pos h3]
  all_goals exact Or.inl (real _ e)

/-- C82.  With documented parameters and a value of positive density nothing is raised. -/
theorem C82_in_domain (d : Dist ℝ) (x : d.Val) (hd : d.Valid) (hx : d.Inside x) :
    ∃ v, (d.toX.logProb true (d.valX x)).run = .ok v := by
  rw [(C82_complaints _ _).1]
  intro m
  cases d <;> dsimp only [Dist.Val] at x <;> dsimp only [Dist.toX, Dist.valX, Complains, Dist.Valid, Dist.Inside] at *
  case normalStd => simp [pos_fin, hd]
  case normalLogstd => simp
  case foldNormalStd => simp [pos_fin, hd]
  case foldNormalLogstd => simp
  case uniform a b =>
    rintro (⟨-, h | h | h⟩ | ⟨-, h⟩)
    · exact hd.ne (XF.fin.inj h)
    · cases h
    · cases h
    · exact h ⟨a, b, x, rfl, rfl, rfl, hx.1, hx.2⟩
  case gamma a b =>
    rintro (⟨-, h⟩ | ⟨-, h⟩ | ⟨-, h⟩)
    · exact h ((pos_fin _).2 hx)
    · exact h ((pos_fin _).2 hd.2)
    · exact h ((regular_fin _).2 (pos_regular hd.1))
  case beta a b =>
    rintro (⟨-, h⟩ | ⟨-, h⟩ | ⟨-, h⟩ | ⟨-, h⟩ | ⟨-, h⟩)
    · exact h ((pos_fin _).2 hx.1)
    · exact h ⟨x, hx.2, rfl⟩
    · exact h ((regular_fin _).2 (pos_regular hd.1))
    · exact h ((regular_fin _).2 (pos_regular hd.2))
    · exact h ⟨a, b, rfl, rfl, pos_regular (add_pos hd.1 hd.2)⟩
  case poisson r =>
    obtain ⟨k, hk⟩ := hx
    rintro (⟨-, h⟩ | ⟨-, h⟩)
    · exact h ((pos_fin _).2 hd)
    · exact h ⟨x, rfl, pos_regular (by rw [hk]; positivity)⟩
  case binomial l n =>
    obtain ⟨k, hkn, hk⟩ := hx
    have hkn' : (k : ℝ) ≤ n := by exact_mod_cast hkn
    rintro (⟨-, h⟩ | ⟨-, h⟩)
    · exact h ⟨x, rfl, pos_regular (by rw [hk]; positivity)⟩
    · exact h ⟨x, rfl, pos_regular (by rw [hk]; linarith)⟩
  case inverseGamma a b =>
    rintro (⟨-, h⟩ | ⟨-, h⟩ | ⟨-, h⟩)
    · exact h ((pos_fin _).2 hx)
    · exact h ((pos_fin _).2 hd.2)
    · exact h ((regular_fin _).2 (pos_regular hd.1))
  case laplace => simp [pos_fin, hd]
  case binConcrete t l =>
    rintro (⟨-, h⟩ | ⟨-, h⟩ | ⟨-, h⟩)
    · exact h ((pos_fin _).2 hx.1)
    · exact h ⟨x, hx.2, rfl⟩
    · exact h ((pos_fin _).2 hd)
  case mvn =>
    rintro ⟨-, i, h⟩
    exact h ((pos_fin _).2 (hd i))
  case dirichlet n a =>
    rintro (⟨-, h⟩ | ⟨-, i, h⟩)
    · refine h ⟨fun i => (regular_fin _).2 (pos_regular (hd.2 i)), ?_⟩
      rw [fin_sum]
      have : Nonempty (Fin n) := ⟨⟨0, hd.1⟩⟩
      exact (regular_fin _).2 (pos_regular (Finset.sum_pos (fun i _ => hd.2 i) Finset.univ_nonempty))
    · exact h ((pos_fin _).2 (hx i))
  case expConcrete =>
    rintro ⟨-, h⟩
    exact h ((pos_fin _).2 hd)
  case concrete =>
    rintro (⟨-, i, h⟩ | ⟨-, h⟩)
    · exact h ((pos_fin _).2 (hx i))
    · exact h ((pos_fin _).2 hd)
  case matNormal =>
    rintro ⟨-, ⟨i, h⟩ | ⟨i, h⟩⟩
    · exact h ((pos_fin _).2 (hd.1 i))
    · exact h ((pos_fin _).2 (hd.2 i))

/-- C82.  `prob` raises when `log_prob` does and otherwise is its exponential.  `Uniform.prob` raises only if the two
bounds are equal or one of them is NaN. -/
theorem C82_prob (d : Dist XF) (x : d.Val) :
    (¬ d.IsUniform → (d.prob true x).run = (d.logProb true x).run.map XF.exp) ∧
    ∀ a b y : XF, (∃ v, ((Dist.uniform a b).prob true y).run = .ok v) ↔ a ≠ b ∧ a ≠ nan ∧ b ≠ nan := by
  constructor
  · intro hu
    have key : ∀ m : Ck XF, (do return XF.exp (← m) : Ck XF).run = m.run.map XF.exp := by
      intro m
      unfold Ck.run
      simp only [bind_failed, pure_failed, List.append_nil, bind_val, pure_val]
      split <;> rfl
    cases d
    case uniform => exact absurd trivial hu
    all_goals exact key _
  · intro a b y
    simp only [run_ok, exists_and_left, exists_eq', and_true]
    have : ((Dist.uniform a b).prob true y).failed = (check true (fin 1 / (b - a)) "p").failed := by
      simp [Dist.prob, uniformProb]
    rw [this, List.eq_nil_iff_forall_not_mem]
    simp only [mem_check, one_div_sub_iff]
    constructor
    · intro h
      have := h "p"
      simpa [not_or] using this
    · rintro ⟨h1, h2, h3⟩ m ⟨-, h | h | h⟩
      exacts [h1 h, h2 h, h3 h]

/-- C82.  `sample` of `Normal` and `FoldNormal` raises exactly if they were built from a `logstd` that is `inf` or
NaN; what it returns is what it returns with the switch off. -/
theorem C82_sample (mean logstd : XF) (z : ℝ) :
    ((∃ v, (normalSample mean (stdOfLogstd true logstd) z).run = .ok v) ↔ logstd ≠ inf ∧ logstd ≠ nan) ∧
    ∀ v, (normalSample mean (stdOfLogstd true logstd) z).run = .ok v →
      (normalSample mean (stdOfLogstd false logstd) z).run = .ok v := by
  simp only [run_ok, exists_and_left, exists_eq', and_true]
  have e : ∀ on, (normalSample mean (stdOfLogstd on logstd) z).failed =
      (check on (XF.exp logstd) "exp(logstd)").failed := by
    intro on
    simp [normalSample, stdOfLogstd]
  rw [e, e]
  constructor
  · cases logstd <;> simp [check, XF.exp, isFinite]
  · rintro v ⟨-, h⟩
    exact ⟨by simp, h⟩

/-- C82.  For finite parameters the sample is that of the real model. -/
theorem C82_sample_value (mean : ℝ) (z : ℝ) (on : Bool) :
    (∀ std : ℝ, (normalSample (fin mean) (pure (fin std)) z).run =
      .ok (fin (Uni.Normal.sample mean (Uni.StdArg.getStd (.std std)) z))) ∧
    ∀ logstd : ℝ, (normalSample (fin mean) (stdOfLogstd on (fin logstd)) z).run =
      .ok (fin (Uni.Normal.sample mean (Uni.StdArg.getStd (.logstd logstd)) z)) := by
  refine ⟨fun std => rfl, fun logstd => (run_ok _ _).2 ⟨?_, rfl⟩⟩
  simp [normalSample, stdOfLogstd, check, XF.exp, isFinite]

/-! ## What the switch does not find -/

/-- Built from `std`, `Normal` draws samples from any `std` without an exception: NaN gives NaN. -/
theorem C82_sample_std_unchecked (z : ℝ) : (normalSample (fin 0) (pure nan) z).run = .ok nan := rfl

/-- A negative shape parameter is accepted if it is not an integer: `Gamma(-1/2, 1)` at 1. -/
theorem C82_shape_unchecked :
    ∃ r : ℝ, ((Dist.gamma (fin (-(1 / 2))) (fin 1)).logProb true (fin 1)).run = .ok (fin r) := by
  have h : ∃ v, ((Dist.gamma (fin (-(1 / 2))) (fin 1)).logProb true (fin 1)).run = .ok v := by
    refine (C82_complaints (.gamma (fin (-(1 / 2))) (fin 1)) _).1.2 ?_
    rintro m (⟨-, h⟩ | ⟨-, h⟩ | ⟨-, h⟩)
    · exact h ((pos_fin _).2 one_pos)
    · exact h ((pos_fin _).2 one_pos)
    · refine h ((regular_fin _).2 fun k hk => ?_)
      have h2 : ((1 : ℕ) : ℝ) = ((2 * k : ℕ) : ℝ) := by push_cast; linarith
      have := Nat.cast_injective h2
      omega
  obtain ⟨v, hv⟩ := h
  rcases C82_finite (.gamma (-(1 / 2)) 1) (1 : ℝ) v hv with ⟨r, rfl⟩ | ⟨h, -⟩
  · exact ⟨r, hv⟩
  · exact h.elim

/-! ## The hypotheses can be met -/

/-- `Beta(2, 3)` at 1/4: accepted, with its log density. -/
example : ∃ v, ((Dist.beta (fin 2) (fin 3)).logProb true (fin (1 / 4))).run = .ok v ∧
    ext v = some ((Uni.Beta.logProb 2 3 (1 / 4) : ℝ) : EReal) := by
  obtain ⟨v, hv⟩ := C82_in_domain (.beta 2 3) (1 / 4 : ℝ) ⟨by norm_num, by norm_num⟩ ⟨by norm_num, by norm_num⟩
  exact ⟨v, hv, C82_value _ _ v hv⟩

/-- `Normal(0, std=-1)`: both checks fail, whatever the value. -/
example (x : XF) (ms : List String) (h : ((Dist.normalStd (fin 0) (fin (-1))).logProb true x).run = .error ms) :
    "log(std)" ∈ ms ∧ "precision" ∈ ms := by
  have h' := ((C82_complaints _ _).2 ms h).2
  have hs : ¬ Pos (fin (-1)) := by rw [pos_fin]; norm_num
  exact ⟨(h' _).2 (Or.inl ⟨rfl, hs⟩), (h' _).2 (Or.inr ⟨rfl, hs, by simp⟩)⟩

end ZhuSuan.Checked

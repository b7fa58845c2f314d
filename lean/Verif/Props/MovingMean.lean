import Verif.Model.MovingMean
import Verif.Props.ScoreEst

/-!
# C43: the baseline that `reinforce` keeps

The property asks that the value used at a step depends on earlier steps only, in every order the session
may choose.  It fails for one of the two orders, so the full property is refuted
(`C43_update_first_reads_present`, with the bias it causes in `C43_update_first_biased`), and what holds is
`C43_read_first_partial`.
-/

set_option autoImplicit false

namespace ZhuSuan.Grad
open Dual

theorem sessionStep_state (decay : ℝ) (o : ReadOrder) (bc : ℝ) (s : MMState) :
    (sessionStep decay o bc s).2 = s.update decay bc := by cases o <;> rfl

/-- C43.  The state after a history does not depend on the orders chosen. -/
theorem C43_state_order_free (decay : ℝ) (h h' : List (ReadOrder × ℝ))
    (e : h.map Prod.snd = h'.map Prod.snd) : mmAfter decay h = mmAfter decay h' := by
  have key : ∀ l : List (ReadOrder × ℝ), ∀ s,
      l.foldl (fun s x => (sessionStep decay x.1 x.2 s).2) s =
        (l.map Prod.snd).foldl (fun s bc => s.update decay bc) s := by
    intro l
    induction l with
    | nil => intro s; rfl
    | cons a l ih => intro s; rw [List.foldl_cons, List.map_cons, List.foldl_cons, ih, sessionStep_state]
  unfold mmAfter
  rw [key, key, e]

/-- C43, partial: when the read runs first, the value is a function of the learning signals of the previous
steps.  Missing: the other order, for which it is false. -/
theorem C43_read_first_partial (decay : ℝ) (h h' : List (ReadOrder × ℝ)) (bc bc' : ℝ)
    (e : h.map Prod.snd = h'.map Prod.snd) :
    mmRead decay h (.readFirst, bc) = mmRead decay h' (.readFirst, bc') := by
  simp only [mmRead, C43_state_order_free decay h h' e, sessionStep]

/-- C43.  When the update runs first the value read does depend on the present step, after every
history. -/
theorem C43_update_first_reads_present (decay : ℝ) (h0 : 0 ≤ decay) (h1 : decay < 1)
    (h : List (ReadOrder × ℝ)) (bc bc' : ℝ) (hne : bc ≠ bc') :
    mmRead decay h (.updateFirst, bc) ≠ mmRead decay h (.updateFirst, bc') := by
  simp only [mmRead, sessionStep, MMState.update]
  have hp : decay ^ ((mmAfter decay h).step + 1) < 1 := pow_lt_one₀ h0 h1 (by omega)
  have hd : 1 - decay ^ ((mmAfter decay h).step + 1) ≠ 0 := by linarith
  intro e
  rw [div_left_inj' hd] at e
  apply hne
  have hd' : (1 - decay) ≠ 0 := by linarith
  have : (bc - bc') * (1 - decay) = 0 := by linarith
  rcases mul_eq_zero.mp this with h | h
  · linarith
  · exact absurd h hd'

/-- C43.  In the first step of that order the value read is the present learning signal itself. -/
theorem C43_update_first_at_start (decay bc : ℝ) (h1 : decay < 1) :
    mmRead decay [] (.updateFirst, bc) = bc := by
  have : (1 - decay) ≠ 0 := by linarith
  simp only [mmRead, sessionStep, MMState.update, mmAfter, List.foldl_nil, MMState.init]
  rw [zero_add, pow_one, zero_sub, zero_sub, neg_mul, neg_neg, mul_div_cancel_right₀ _ this]

/-- C43.  So with one sample the score term disappears, and the gradient of the cost is only that of
`-log p`: for a joint that does not depend on the parameter the estimate is zero whatever the true
gradient. -/
theorem C43_update_first_biased (decay : ℝ) (h1 : decay < 1) (logp logq : Dual) :
    (reinforceCost1 true none (const (mmRead decay [] (.updateFirst, logp.val - logq.val)))
      logp logq).der = -logp.der := by
  rw [reinforceCost1_der, C43_update_first_at_start decay _ h1]
  simp

/-- The total weight `1 - decay ^ n` of a history of `n` steps, and the weighted sum of the signals. -/
theorem mmAfter_biased (decay : ℝ) (l : List (ReadOrder × ℝ)) :
    (mmAfter decay l).step = l.length ∧
    (mmAfter decay l).biased =
      ∑ i : Fin l.length, (1 - decay) * decay ^ (l.length - 1 - i.val) * (l.get i).2 := by
  induction l using List.reverseRecOn with
  | nil => exact ⟨rfl, by simp [mmAfter, MMState.init]⟩
  | append_singleton l a ih =>
    have hs : mmAfter decay (l ++ [a]) = (mmAfter decay l).update decay a.2 := by
      simp only [mmAfter, List.foldl_append, List.foldl_cons, List.foldl_nil, sessionStep_state]
    rw [hs]
    refine ⟨by simp [MMState.update, ih.1], ?_⟩
    have hl : (l ++ [a]).length = l.length + 1 := by simp
    rw [← Equiv.sum_comp (finCongr hl).symm]
    rw [Fin.sum_univ_castSucc]
    simp only [MMState.update, ih.2, hl, Nat.add_sub_cancel, finCongr_symm, finCongr_apply,
      Fin.val_cast, Fin.val_castSucc, Fin.val_last, Nat.sub_self, pow_zero, mul_one, List.get_eq_getElem,
      List.getElem_concat_length]
    have : ∀ i : Fin l.length, (1 - decay) * decay ^ (l.length - i.val) * (l ++ [a])[i.val].2 =
        decay * ((1 - decay) * decay ^ (l.length - 1 - i.val) * l[i.val].2) := by
      intro i
      rw [List.getElem_append_left i.2, show l.length - i.val = (l.length - 1 - i.val) + 1 by
        have := i.2; omega]
      ring
    simp only [this, ← Finset.mul_sum]
    ring

theorem weight_sum (decay : ℝ) (n : ℕ) :
    ∑ i : Fin n, (1 - decay) * decay ^ (n - 1 - i.val) = 1 - decay ^ n := by
  induction n with
  | zero => simp
  | succ n ih =>
    rw [Fin.sum_univ_castSucc]
    simp only [Fin.val_castSucc, Fin.val_last, Nat.add_sub_cancel, Nat.sub_self, pow_zero, mul_one]
    have : ∀ i : Fin n, (1 - decay) * decay ^ (n - i.val) =
        decay * ((1 - decay) * decay ^ (n - 1 - i.val)) := by
      intro i
      rw [show n - i.val = (n - 1 - i.val) + 1 by have := i.2; omega]; ring
    simp only [this, ← Finset.mul_sum, ih]
    ring

/-- C43.  After at least one step the moving mean lies between the smallest and the largest learning
signal seen. -/
theorem C43_moving_mean_bounds (decay a b : ℝ) (h0 : 0 ≤ decay) (h1 : decay < 1)
    (l : List (ReadOrder × ℝ)) (hne : l ≠ []) (hl : ∀ x ∈ l, a ≤ x.2 ∧ x.2 ≤ b) :
    a ≤ (mmAfter decay l).mm ∧ (mmAfter decay l).mm ≤ b := by
  obtain ⟨l', x, rfl⟩ : ∃ l' x, l = l' ++ [x] := ⟨l.dropLast, l.getLast hne,
    (List.dropLast_append_getLast hne).symm⟩
  have hmm : (mmAfter decay (l' ++ [x])).mm = (mmAfter decay (l' ++ [x])).biased /
      (1 - decay ^ (mmAfter decay (l' ++ [x])).step) := by
    have hs : mmAfter decay (l' ++ [x]) = (mmAfter decay l').update decay x.2 := by
      simp only [mmAfter, List.foldl_append, List.foldl_cons, List.foldl_nil, sessionStep_state]
    rw [hs]; rfl
  rw [hmm, (mmAfter_biased decay _).1, (mmAfter_biased decay _).2]
  set L := l' ++ [x] with hL
  have hlen : 0 < L.length := List.length_pos_iff.mpr hne
  have hp : decay ^ L.length < 1 := pow_lt_one₀ h0 h1 (by omega)
  have hd : 0 < 1 - decay ^ L.length := by linarith
  have hw : ∀ i : Fin L.length, 0 ≤ (1 - decay) * decay ^ (L.length - 1 - i.val) := fun i =>
    mul_nonneg (by linarith) (pow_nonneg h0 _)
  have hb : ∀ i : Fin L.length, a ≤ (L.get i).2 ∧ (L.get i).2 ≤ b := fun i =>
    hl _ (List.get_mem _ _)
  constructor
  · rw [le_div_iff₀ hd, ← weight_sum decay L.length, Finset.mul_sum]
    refine Finset.sum_le_sum fun i _ => ?_
    rw [mul_comm]
    exact mul_le_mul_of_nonneg_left (hb i).1 (hw i)
  · rw [div_le_iff₀ hd, ← weight_sum decay L.length, Finset.mul_sum]
    refine Finset.sum_le_sum fun i _ => ?_
    rw [mul_comm b]
    exact mul_le_mul_of_nonneg_left (hb i).2 (hw i)

/-- A concrete family for C42, C44: a Bernoulli posterior with log odds `t`, any joint. -/
theorem bernoulli_family (θ : ℝ) :
    (∀ z : Bool, HasDerivAt (fun t => (if z then t else 0) - Real.log (1 + Real.exp t))
      ((if z then 1 else 0) - Real.exp θ / (1 + Real.exp θ)) θ) ∧
    ∀ t : ℝ, ∑ z : Bool, Real.exp ((if z then t else 0) - Real.log (1 + Real.exp t)) = 1 := by
  refine ⟨fun z => ?_, fun t => ?_⟩
  · have h2 : HasDerivAt (fun t : ℝ => Real.log (1 + Real.exp t))
        (Real.exp θ / (1 + Real.exp θ)) θ :=
      ((Real.hasDerivAt_exp θ).const_add 1).log (by positivity)
    have h1 : HasDerivAt (fun t : ℝ => if z then t else 0) (if z then 1 else 0) θ := by
      cases z
      · simpa using hasDerivAt_const θ (0 : ℝ)
      · simpa using hasDerivAt_id' θ
    exact h1.sub h2
  · have : (0 : ℝ) < 1 + Real.exp t := by positivity
    simp [Real.exp_sub, Real.exp_log this]
    field_simp
    ring

/-- C43.  A case in which the estimate is wrong: a Bernoulli posterior with log odds `0` and log joint `1`
or `0`.  The gradient of the expected elbo is `1/4`, and the expected gradient of the cost in the first
step, with the update first, is `0`. -/
theorem C43_bias_witness (decay : ℝ) (h1 : decay < 1) :
    let lp : Bool → ℝ := fun z => if z then 1 else 0
    let lq : ℝ → Bool → ℝ := fun t z => (if z then t else 0) - Real.log (1 + Real.exp t)
    let lq' : Bool → ℝ := fun z => (if z then 1 else 0) - Real.exp 0 / (1 + Real.exp 0)
    HasDerivAt (fun t => ∑ z, Real.exp (lq t z) * (lp z - lq t z)) (1 / 4) 0 ∧
    ∑ z, Real.exp (lq 0 z) * (reinforceCost1 true none
      (const (mmRead decay [] (.updateFirst, lp z - lq 0 z))) ⟨lp z, 0⟩ ⟨lq 0 z, lq' z⟩).der = 0 := by
  intro lp lq lq'
  obtain ⟨hd, -⟩ := bernoulli_family 0
  constructor
  · have h := HasDerivAt.fun_sum (u := (Finset.univ : Finset Bool))
      (fun z _ => (hd z).exp.mul ((hd z).const_sub (lp z)))
    refine h.congr_deriv ?_
    have h2 : Real.exp (-Real.log 2) = 1 / 2 := by
      rw [Real.exp_neg, Real.exp_log (by norm_num)]; norm_num
    simp [lp, one_add_one_eq_two, h2]
    ring
  · refine Finset.sum_eq_zero fun z _ => ?_
    rw [C43_update_first_biased decay h1 ⟨lp z, 0⟩ ⟨lq 0 z, lq' z⟩]
    simp

end ZhuSuan.Grad

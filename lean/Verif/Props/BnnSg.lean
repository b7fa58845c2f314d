import Verif.Model.BnnSg
import Verif.Props.ExampleUtils
import Verif.Props.Minibatch

/-!
# C112: the Bayesian neural net that is sampled with SGHMC
-/

set_option autoImplicit false

open MeasureTheory

namespace ZhuSuan.BnnSg

open ZhuSuan.Minibatch ZhuSuan.Sgmcmc

variable {L K : ℕ} {sizes : ℕ → ℕ}

/-! ## Particles -/

theorem particle_setEntry_self (w : Lat (Idx K (L := L) sizes)) (l : Fin L) (k : Fin K) (m : Fin (sizes (l + 1))) (c : Fin (sizes l + 1)) (u : ℝ) :
    particle (setEntry w l (k, m, c) u) k = Function.update (particle w k) ⟨l, m, c⟩ u := by
  classical
  funext ⟨l', m', c'⟩
  unfold particle setEntry
  by_cases h : l' = l
  · subst h
    by_cases h' : (m', c') = (m, c)
    · cases h'
      simp
    · have h1 : (⟨l', m', c'⟩ : Wt L sizes) ≠ ⟨l', m, c⟩ := fun e => h' (eq_of_heq (Sigma.mk.inj e).2)
      have h2 : ((k, m', c') : Idx K sizes l') ≠ (k, m, c) := fun e => h' (Prod.mk.inj e).2
      rw [Function.update_of_ne h1, Function.update_self]
      exact Function.update_of_ne h2 ..
  · have h1 : (⟨l', m', c'⟩ : Wt L sizes) ≠ ⟨l, m, c⟩ := fun e => h (Sigma.mk.inj e).1
    rw [Function.update_of_ne h1, Function.update_of_ne h]

theorem particle_setEntry_of_ne (w : Lat (Idx K (L := L) sizes)) (l : Fin L) (i : Idx K sizes l) (u : ℝ) (k : Fin K) (h : k ≠ i.1) :
    particle (setEntry w l i u) k = particle w k := by
  classical
  funext ⟨l', m', c'⟩
  unfold particle setEntry
  by_cases hl : l' = l
  · subst hl
    have h2 : ((k, m', c') : Idx K sizes l') ≠ i := fun e => h (congrArg Prod.fst e)
    rw [Function.update_self]
    exact Function.update_of_ne h2 ..
  · rw [Function.update_of_ne hl]

/-- **C112.** The gradient that moves a weight of particle `k` is the derivative of the log joint of that particle alone. -/
theorem C112_gradient (f : (Wt L sizes → ℝ) → ℝ) (w : Lat (Idx K (L := L) sizes)) (l : Fin L) (k : Fin K) (m : Fin (sizes (l + 1)))
    (c : Fin (sizes l + 1)) :
    grads f w l (k, m, c) = deriv (fun u => f (Function.update (particle w k) ⟨l, m, c⟩ u)) (particle w k ⟨l, m, c⟩) := by
  unfold grads
  have e : (fun u => ∑ k', f (particle (setEntry w l (k, m, c) u) k')) =
      fun u => f (Function.update (particle w k) ⟨l, m, c⟩ u) + ∑ k' ∈ Finset.univ.erase k, f (particle w k') := by
    funext u
    rw [← Finset.add_sum_erase _ _ (Finset.mem_univ k), particle_setEntry_self]
    congr 1
    exact Finset.sum_congr rfl fun k' hk' => by rw [particle_setEntry_of_ne _ _ _ _ _ (Finset.ne_of_mem_erase hk')]
  rw [e, deriv_add_const]
  rfl

/-- Particle `k` alone, as a run with one particle. -/
def only (k : Fin K) (w : Lat (Idx K (L := L) sizes)) : Lat (Idx 1 (L := L) sizes) := fun l i => w l (k, i.2)

/-- Particle `k` of a chain. -/
def onlyChain (k : Fin K) (s : Chain K L sizes) : Chain 1 L sizes := fun l => ⟨fun i => (s l).q (k, i.2), fun i => (s l).v (k, i.2)⟩

/-- The inputs of particle `k`. -/
def onlyInput (k : Fin K) (a : Input K L sizes) : Input 1 L sizes := ⟨a.fed, a.now, only k a.r, only k a.z⟩

theorem grads_only (f : (Wt L sizes → ℝ) → ℝ) (w : Lat (Idx K (L := L) sizes)) (k : Fin K) (l : Fin L) (i : Idx 1 sizes l) :
    grads f (only k w) l i = grads f w l (k, i.2) := by
  obtain ⟨k', m, c⟩ := i
  rw [C112_gradient f w l k m c, C112_gradient f (only k w) l k' m c]
  rfl

/-- **C112.** The particles are independent chains: what particle `k` is after any number of runs, on any batches and with any draws, is what a
program with this particle alone computes from its own draws. -/
theorem C112_particles (hL : sizes L = 1) (lr alpha : ℝ) (n : ℕ) (logstds : Wt L sizes → ℝ) (l : List (Input K L sizes)) (s : Chain K L sizes)
    (k : Fin K) :
    onlyChain k (runs hL lr alpha n logstds l s) = runs hL lr alpha n logstds (l.map (onlyInput k)) (onlyChain k s) := by
  unfold runs
  induction l generalizing s with
  | nil => rfl
  | cons a l ih =>
    rw [List.foldl_cons, ih, List.map_cons, List.foldl_cons]
    congr 1
    funext v
    have hg (q : Lat (Idx K (L := L) sizes)) (i : Idx 1 sizes v) :
        grads (logJoint hL n logstds a.fed) (only k q) v i = grads (logJoint hL n logstds a.fed) q v (k, i.2) := grads_only _ q k v i
    have e : onlyInput k a = ⟨a.fed, a.now, only k a.r, only k a.z⟩ := rfl
    show HState.mk _ _ = HState.mk _ _
    simp only [sampleOp, sghmc2, e, HState.mk.injEq]
    have hq : (fun (v : Fin L) (i : Idx 1 sizes v) => (onlyChain k s v).q i + 0.5 * oldV lr a.now (only k a.r) (fun v => (onlyChain k s v).v) v i) =
        only k fun v i => (s v).q i + 0.5 * oldV lr a.now a.r (fun v => (s v).v) v i := by
      funext v i
      simp only [only, onlyChain, oldV]
    have hv : (fun i : Idx 1 sizes v => oldV lr a.now (only k a.r) (fun v => (onlyChain k s v).v) v i) =
        fun i => oldV lr a.now a.r (fun v => (s v).v) v (k, i.2) := by
      funext i
      simp only [only, onlyChain, oldV]
    have hv' (i : Idx 1 sizes v) := congrFun hv i
    simp only [hq, hg]
    constructor <;> (funext i; simp only [hv', only]) <;> rfl

/-! ## The M step -/

theorem prior_entry (s : ℝ) (x : Fin K → ℝ) (hK : 0 < K) :
    ∑ k, Uni.Normal.logProb 0 s (x k) = K * (-0.5 * Real.log (2 * Real.pi) - s - 0.5 * Real.exp (-2 * s) * ((∑ k, x k * x k) / K)) := by
  have : (K : ℝ) ≠ 0 := by positivity
  unfold Uni.Normal.logProb
  simp only [sub_zero, Finset.sum_sub_distrib, Finset.sum_const, Finset.card_univ, Fintype.card_fin, nsmul_eq_mul, ← Finset.mul_sum]
  rw [show ∑ k, x k ^ 2 = ∑ k, x k * x k from Finset.sum_congr rfl fun k _ => sq _]
  field_simp

theorem entry_max (s m : ℝ) (hm : 0 < m) (hs : s ≠ 0.5 * Real.log m) :
    -s - 0.5 * Real.exp (-2 * s) * m < -(0.5 * Real.log m) - 0.5 * Real.exp (-2 * (0.5 * Real.log m)) * m := by
  have h1 : Real.exp (-2 * (0.5 * Real.log m)) * m = 1 := by
    rw [show -2 * (0.5 * Real.log m) = -Real.log m by ring, Real.exp_neg, Real.exp_log hm, inv_mul_cancel₀ hm.ne']
  have h2 : Real.exp (-2 * s) * m = Real.exp (Real.log m - 2 * s) := by
    rw [Real.exp_sub, Real.exp_log hm, show -2 * s = -(2 * s) by ring, Real.exp_neg, div_eq_inv_mul]
  have h3 : Real.log m - 2 * s ≠ 0 := fun h => hs (by linarith)
  have h4 := Real.add_one_lt_exp h3
  rw [mul_assoc, mul_assoc, h1, h2]
  linarith

theorem entry_prior_lt (x : Fin K → ℝ) (hK : 0 < K) (hx : ∃ k, x k ≠ 0) (s : ℝ) (hs : s ≠ 0.5 * Real.log ((∑ k, x k * x k) / K)) :
    ∑ k, Uni.Normal.logProb 0 s (x k) < ∑ k, Uni.Normal.logProb 0 (0.5 * Real.log ((∑ k, x k * x k) / K)) (x k) := by
  have hK' : (0 : ℝ) < K := by exact_mod_cast hK
  have hm : 0 < (∑ k, x k * x k) / K := by
    refine div_pos (Finset.sum_pos' (fun k _ => mul_self_nonneg _) ?_) hK'
    obtain ⟨k, hk⟩ := hx
    exact ⟨k, Finset.mem_univ k, mul_self_pos.2 hk⟩
  rw [prior_entry _ _ hK, prior_entry _ _ hK]
  have := entry_max s _ hm hs
  exact mul_lt_mul_of_pos_left (by linarith) hK'

/-- **C112.** The M step sets the standard deviations of the weights to the values under which the particles are most likely, and no other values are
as good: for weights none of whose entries is zero in all particles, the sum over the particles of the log prior has its only maximum there.  Missing: entries that are zero in all
particles, for which there is no maximum (`C112_zero`). -/
theorem C112_m_step_partial (w : Lat (Idx K (L := L) sizes)) (hw : ∀ j, ∃ k, particle w k j ≠ 0) (logstds : Wt L sizes → ℝ) :
    ∑ k, logPrior logstds (particle w k) ≤ ∑ k, logPrior (mStep w) (particle w k) ∧
    (logstds ≠ mStep w → ∑ k, logPrior logstds (particle w k) < ∑ k, logPrior (mStep w) (particle w k)) := by
  have hK (j : Wt L sizes) : 0 < K := let ⟨k, _⟩ := hw j; k.pos
  have hlt (j : Wt L sizes) (h : logstds j ≠ mStep w j) :
      ∑ k, Uni.Normal.logProb 0 (logstds j) (particle w k j) < ∑ k, Uni.Normal.logProb 0 (mStep w j) (particle w k j) :=
    entry_prior_lt (fun k => particle w k j) (hK j) (hw j) (logstds j) h
  have hle (j : Wt L sizes) :
      ∑ k, Uni.Normal.logProb 0 (logstds j) (particle w k j) ≤ ∑ k, Uni.Normal.logProb 0 (mStep w j) (particle w k j) := by
    by_cases h : logstds j = mStep w j
    · rw [h]
    · exact (hlt j h).le
  unfold logPrior
  rw [Finset.sum_comm, Finset.sum_comm (f := fun k j => Uni.Normal.logProb 0 (mStep w j) (particle w k j))]
  refine ⟨Finset.sum_le_sum fun j _ => hle j, fun h => ?_⟩
  obtain ⟨j, hj⟩ := Function.ne_iff.1 h
  exact Finset.sum_lt_sum (fun j _ => hle j) ⟨j, Finset.mem_univ j, hlt j hj⟩

/-- **C112.** An epoch moves the particles with the old standard deviations, and then the update of the standard deviations does not lower the log
joint of all the data, summed over the particles.  Whether an entry is zero in all particles is asked of the weights at the end of the epoch. -/
theorem C112_epoch_partial {n : ℕ} (hL : sizes L = 1) (lr alpha : ℝ) (b : ℕ) (data : Arrays n (Fin (sizes 0) → ℝ) ℝ)
    (draws : ℕ → (Fin L → Bool) × Lat (Idx K (L := L) sizes) × Lat (Idx K (L := L) sizes)) (s : State K L sizes)
    (hw : ∀ j, ∃ k, particle (epoch hL lr alpha b data draws s).chain.q k j ≠ 0) :
    let s' := epoch hL lr alpha b data draws s
    ∑ k, (logPrior s.logstds (particle s'.chain.q k) + ∑ i, logLik hL (data.x i, data.y i) (particle s'.chain.q k)) ≤
      ∑ k, (logPrior s'.logstds (particle s'.chain.q k) + ∑ i, logLik hL (data.x i, data.y i) (particle s'.chain.q k)) := by
  intro s'
  rw [Finset.sum_add_distrib, Finset.sum_add_distrib]
  have := (C112_m_step_partial s'.chain.q hw s.logstds).1
  exact add_le_add_left this _

/-- **C112.** If an entry is zero in all particles, there is no best standard deviation: the log prior exceeds every bound. -/
theorem C112_zero (w : Lat (Idx K (L := L) sizes)) (hK : 0 < K) (j : Wt L sizes) (h0 : ∀ k, particle w k j = 0) (logstds : Wt L sizes → ℝ) (B : ℝ) :
    ∃ s, B < ∑ k, logPrior (Function.update logstds j s) (particle w k) := by
  classical
  have hK' : (0 : ℝ) < K := by exact_mod_cast hK
  set R := ∑ k : Fin K, ∑ j' ∈ Finset.univ.erase j, Uni.Normal.logProb 0 (logstds j') (particle w k j')
  refine ⟨(K * (-0.5 * Real.log (2 * Real.pi)) + R - B - 1) / K, ?_⟩
  set s := (K * (-0.5 * Real.log (2 * Real.pi)) + R - B - 1) / K with hs
  have e : ∑ k, logPrior (Function.update logstds j s) (particle w k) = (K * (-0.5 * Real.log (2 * Real.pi) - s)) + R := by
    have (k : Fin K) : logPrior (Function.update logstds j s) (particle w k) = (-0.5 * Real.log (2 * Real.pi) - s) +
        ∑ j' ∈ Finset.univ.erase j, Uni.Normal.logProb 0 (logstds j') (particle w k j') := by
      unfold logPrior
      rw [← Finset.add_sum_erase _ _ (Finset.mem_univ j), Function.update_self, h0 k]
      congr 1
      · simp [Uni.Normal.logProb]
      · exact Finset.sum_congr rfl fun j' hj' => by rw [Function.update_of_ne (Finset.ne_of_mem_erase hj')]
    simp only [this, Finset.sum_add_distrib, Finset.sum_const, Finset.card_univ, Fintype.card_fin, nsmul_eq_mul]
    rfl
  have hsK : K * s = K * (-0.5 * Real.log (2 * Real.pi)) + R - B - 1 := by rw [hs]; field_simp
  rw [e, mul_sub, hsK]
  linarith

/-- **C112.** The value that is printed for a layer belongs to the average of the estimated variances of its entries. -/
theorem C112_reported (w : Lat (Idx K (L := L) sizes)) (l : Fin L) (hw : ∀ m c, ∃ k, particle w k ⟨l, m, c⟩ ≠ 0) (hl : 0 < sizes (l + 1)) :
    Real.exp (outputLogstd w l) ^ 2 =
      (∑ m : Fin (sizes (l + 1)), ∑ c : Fin (sizes l + 1), Real.exp (mStep w ⟨l, m, c⟩) ^ 2) / (sizes (l + 1) * (sizes l + 1)) := by
  have hK : 0 < K := let ⟨k, _⟩ := hw ⟨0, hl⟩ 0; k.pos
  have hK' : (0 : ℝ) < K := by exact_mod_cast hK
  have hl' : (0 : ℝ) < sizes (l + 1) := by exact_mod_cast hl
  have sqr (x : ℝ) (hx : 0 < x) : Real.exp (0.5 * Real.log x) ^ 2 = x := by
    rw [← Real.exp_nat_mul, show ((2 : ℕ) : ℝ) * (0.5 * Real.log x) = Real.log x by push_cast; ring, Real.exp_log hx]
  have hpos (m : Fin (sizes (l + 1))) (c : Fin (sizes l + 1)) : 0 < ∑ k, particle w k ⟨l, m, c⟩ * particle w k ⟨l, m, c⟩ := by
    obtain ⟨k, hk⟩ := hw m c
    exact Finset.sum_pos' (fun k _ => mul_self_nonneg _) ⟨k, Finset.mem_univ k, mul_self_pos.2 hk⟩
  have hsum : ∑ i, w l i * w l i = ∑ m, ∑ c, ∑ k, particle w k ⟨l, m, c⟩ * particle w k ⟨l, m, c⟩ := by
    rw [Fintype.sum_prod_type, Finset.sum_comm, Fintype.sum_prod_type]
    rfl
  have htot : 0 < ∑ i, w l i * w l i := by
    rw [hsum]
    exact Finset.sum_pos (fun m _ => Finset.sum_pos (fun c _ => hpos m c) ⟨0, Finset.mem_univ _⟩) ⟨⟨0, hl⟩, Finset.mem_univ _⟩
  have hcard : (Fintype.card (Idx K sizes l) : ℝ) = K * (sizes (l + 1) * (sizes l + 1)) := by simp
  unfold outputLogstd mStep
  rw [sqr _ (div_pos htot (by rw [hcard]; positivity)), hcard]
  simp only [fun m c => sqr _ (div_pos (hpos m c) hK')]
  rw [hsum]
  simp only [← Finset.sum_div]
  rw [div_div]

/-! ## The target, the prediction and the error -/

/-- **C112.** In every iteration of every epoch, whatever the earlier permutations were, the log joint of a particle is an unbiased estimate of the
log posterior for all the data, up to its constant, under the current standard deviations. -/
theorem C112_target {n : ℕ} (hL : sizes L = 1) (logstds : Wt L sizes → ℝ) (data : Arrays n (Fin (sizes 0) → ℝ) ℝ)
    (perms : List (Equiv.Perm (Fin n))) (b t : ℕ) (hb : 0 < b) (ht : t < itersUp n b) (w : Wt L sizes → ℝ) :
    ∫ σ, logJoint hL n logstds (((data.epochs perms).permute σ).feed b t) w ∂uniform n =
      logPrior logstds w + ∑ i, logLik hL (data.x i, data.y i) w :=
  C92_unbiased data perms b t hb ht (logPrior logstds) (logLik hL) w

/-- **C112.** The prediction averages the particles; its squared error is at most the average squared error of the particles, and the difference is
their variance. -/
theorem C112_prediction (hL : sizes L = 1) (hK : 0 < K) (w : Lat (Idx K (L := L) sizes)) (x : Fin (sizes 0) → ℝ) (y : ℝ) :
    (yPred hL w x - y) ^ 2 + (∑ k, (yMean hL (particle w k) x - yPred hL w x) ^ 2) / K = (∑ k, (yMean hL (particle w k) x - y) ^ 2) / K := by
  have hK' : (K : ℝ) ≠ 0 := by positivity
  set p := yPred hL w x with hp
  have hs : ∑ k, yMean hL (particle w k) x = K * p := by rw [hp]; unfold yPred; field_simp
  have e (k : Fin K) : (yMean hL (particle w k) x - y) ^ 2 =
      (yMean hL (particle w k) x - p) ^ 2 + (2 * (p - y) * yMean hL (particle w k) x + (y ^ 2 - p ^ 2)) := by ring
  simp only [fun k => e k, Finset.sum_add_distrib, ← Finset.mul_sum, hs, Finset.sum_const, Finset.card_univ, Fintype.card_fin, nsmul_eq_mul]
  field_simp
  ring

/-- **C112.** With `epochs_ave_pred = m ≥ 1`, the prediction after an epoch is the mean of the predictions of the last `m` epochs, or of all epochs
so far if there are fewer. -/
theorem C112_average (m : ℕ) (hm : 0 < m) (before last : List ℝ) (h : last.length = m ∨ before = [] ∧ last.length ≤ m) :
    avePred m (before ++ last) = last.sum / last.length := by
  unfold avePred lastPreds Minibatch.mean
  rw [if_neg hm.ne']
  have e : (before ++ last).drop ((before ++ last).length - m) = last := by
    rcases h with h | ⟨rfl, h⟩
    · rw [List.length_append, h, Nat.add_sub_cancel]
      exact List.drop_left
    · rw [List.nil_append, Nat.sub_eq_zero_of_le h, List.drop_zero]
  rw [e]

/-- **C112.** With `epochs_ave_pred = 0` the predictions of all epochs would be averaged. -/
theorem C112_average_zero (preds : List ℝ) : avePred 0 preds = preds.sum / preds.length := rfl

/-- **C112.** The error that is printed is the root mean squared error in the units of the data: of the predictions scaled back, against the
original test targets. -/
theorem C112_rmse {n m : ℕ} (yTrain : Fin n → ℝ) (yTest : Fin m → ℝ) (pred : Fin m → ℝ) :
    let r := ExUtils.standardize (d := 1) (fun i _ => yTrain i) fun i _ => yTest i
    testRmse yTrain yTest pred = Real.sqrt ((∑ i, ((pred i * r.std 0 + r.mean 0) - yTest i) ^ 2) / m) := by
  intro r
  have hs : 0 < r.std 0 := ExUtils.fixedStd_pos _ 0
  have ht (i : Fin m) : r.test i 0 = (yTest i - r.mean 0) / r.std 0 := rfl
  show Real.sqrt ((∑ i, (pred i - r.test i 0) ^ 2) / m) * r.std 0 = _
  rw [← Real.sqrt_sq hs.le, ← Real.sqrt_mul' _ (sq_nonneg _), Real.sqrt_sq hs.le]
  congr 1
  rw [div_mul_eq_mul_div, Finset.sum_mul]
  congr 1
  refine Finset.sum_congr rfl fun i _ => ?_
  rw [ht, ← mul_pow, sub_mul, div_mul_cancel₀ _ hs.ne']
  ring

/-- A concrete case: one layer with one input and one output, two particles. -/
example : ∃ w : Lat (Idx 2 (L := 1) fun _ => 1), (∀ j, ∃ k, particle w k j ≠ 0) ∧ (∀ m c, ∃ k, particle w k ⟨0, m, c⟩ ≠ 0) :=
  ⟨fun _ i => if i.1 = 0 then 0 else 3, fun _ => ⟨1, by simp [particle]⟩, fun _ _ => ⟨1, by simp [particle]⟩⟩

end ZhuSuan.BnnSg

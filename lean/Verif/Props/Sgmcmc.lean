import Mathlib.Probability.Distributions.Gaussian.Real
import Mathlib.MeasureTheory.Constructions.Pi
import Verif.Model.Sgmcmc
import Verif.Props.HmcApi

/-!
# C58–C62  Stochastic gradient MCMC
-/

set_option autoImplicit false

open MeasureTheory ProbabilityTheory

namespace ZhuSuan.Sgmcmc

variable {V : Type} {I : V → Type}

/-! ## C58 -/

theorem normal_law (m s : ℝ) (v : NNReal) (hs : (v : ℝ) = s ^ 2) :
    (gaussianReal 0 1).map (fun z => m + s * z) = gaussianReal m v := by
  have h1 := gaussianReal_map_const_mul (μ := 0) (v := 1) s
  have h2 := gaussianReal_map_const_add (μ := s * 0) (v := NNReal.mk (s ^ 2) (sq_nonneg _) * 1) m
  have e : (fun z : ℝ => m + s * z) = (fun y => m + y) ∘ fun z => s * z := rfl
  rw [e, ← Measure.map_map (by fun_prop) (by fun_prop), h1, h2]
  congr 1
  · ring
  · ext
    simp [hs]

/-- C58.  SGLD: given the state, the components of the new value of variable `v` are independent normals,
with mean the old value plus half the learning rate times the gradient, and variance the learning rate. -/
theorem C58_sgld_law (lr : NNReal) (grad : Lat I → Lat I) (q : Lat I) (v : V) [Fintype (I v)]
    (new : (I v → ℝ) → I v → ℝ) (hnew : ∀ z : Lat I, new (z v) = sgld lr grad z v q) :
    (Measure.pi fun _ : I v => gaussianReal 0 1).map new =
      Measure.pi fun i => gaussianReal (q v i + lr / 2 * grad q v i) lr := by
  classical
  have e : new = fun z i => (q v i + lr / 2 * grad q v i) + Real.sqrt lr * z i := by
    funext z i
    have := hnew (Function.update 0 v z)
    simp only [Function.update_self] at this
    rw [this]
    simp only [sgld, Function.update_self]
    ring
  have h1 : ∀ i, (gaussianReal 0 1).map (fun z => (q v i + lr / 2 * grad q v i) + Real.sqrt lr * z) =
      gaussianReal (q v i + lr / 2 * grad q v i) lr := fun i =>
    normal_law _ _ _ (Real.sq_sqrt lr.2).symm
  have hs : ∀ i, SigmaFinite ((gaussianReal 0 1).map
      (fun z => (q v i + lr / 2 * grad q v i) + Real.sqrt lr * z)) := fun i => by
    rw [h1]; infer_instance
  rw [e, Measure.pi_map_pi (μ := fun _ : I v => gaussianReal 0 1)
    (f := fun i z => (q v i + lr / 2 * grad q v i) + Real.sqrt lr * z) (fun i => by fun_prop)]
  simp only [h1]

example (lr : NNReal) (grad : Lat I → Lat I) (q : Lat I) (v : V) [DecidableEq V] :
    ∃ new : (I v → ℝ) → I v → ℝ, ∀ z : Lat I, new (z v) = sgld lr grad z v q :=
  ⟨fun y i => q v i + 0.5 * lr * grad q v i + Real.sqrt lr * y i, fun _ => rfl⟩

/-- C58.  With zero noise the fixed points of SGLD are the stationary points. -/
theorem C58_sgld_fixed (lr : ℝ) (hlr : 0 < lr) (grad : Lat I → Lat I) (q : Lat I) :
    (∀ v, sgld lr grad (fun _ _ => 0) v q = q v) ↔ grad q = 0 := by
  constructor
  · intro h
    funext v i
    have := congrFun (h v) i
    simp only [sgld, mul_zero, add_zero, add_eq_left, mul_eq_zero] at this
    rcases this with h | h
    · norm_num at h; linarith
    · exact h
  · intro h v
    funext i
    simp [sgld, h]

/-- The exponentially weighted average of squared gradients, newest last. -/
noncomputable def sqAverage (decay : ℝ) (g : ℕ → ℝ) (n : ℕ) : ℝ :=
  ∑ k ∈ Finset.range n, (1 - decay) * decay ^ (n - 1 - k) * g k ^ 2

/-- C58.  PSGLD: in any run from the initial variables, the preconditioner is
`1 / (epsilon + sqrt (average of squared gradients))`, the average over all gradients so far including the
present one; and the update is that of SGLD with learning rate multiplied by it. -/
theorem C58_psgld (lr decay epsilon : ℝ) (grad : ℕ → Lat I → Lat I) (z : ℕ → Lat I)
    (s : ℕ → (v : V) → PState (I v)) (h0 : ∀ v i, (s 0 v).aux i = 0)
    (hs : ∀ n v, s (n + 1) v = psgld lr decay epsilon (grad n) (z n) v (s n)) (n : ℕ) (v : V) (i : I v) :
    let g := fun k => grad k (fun w => (s k w).q) v i
    let G := 1 / (epsilon + Real.sqrt (sqAverage decay g (n + 1)))
    (s (n + 1) v).q i = (s n v).q i + 0.5 * (lr * G) * g n + Real.sqrt (lr * G) * z n v i := by
  intro g G
  have haux : ∀ n, (s n v).aux i = sqAverage decay g n := by
    intro n
    induction n with
    | zero => simp [h0, sqAverage]
    | succ n ih =>
      rw [hs n v]
      simp only [psgld, rmsAux, ih]
      rw [sqAverage, sqAverage, Finset.sum_range_succ, Finset.mul_sum]
      congr 1
      · refine Finset.sum_congr rfl fun k hk => ?_
        have : n + 1 - 1 - k = n - 1 - k + 1 := by
          have := Finset.mem_range.1 hk
          omega
        rw [this, pow_succ]
        ring
      · simp [g]
  have e := haux (n + 1)
  rw [hs n v] at e ⊢
  simp only [psgld] at e ⊢
  rw [e]
  simp only [rmsPreconditioner, G, g]
  ring

/-- Every start is that of a run. -/
example (lr decay epsilon : ℝ) (grad : ℕ → Lat I → Lat I) (z : ℕ → Lat I) (q : Lat I) :
    ∃ s : ℕ → (v : V) → PState (I v), (∀ v, (s 0 v).q = q v) ∧ (∀ v i, (s 0 v).aux i = 0) ∧
      ∀ n v, s (n + 1) v = psgld lr decay epsilon (grad n) (z n) v (s n) :=
  ⟨fun n => Nat.rec (fun v => ⟨q v, fun _ => 0⟩)
    (fun n s v => psgld lr decay epsilon (grad n) (z n) v s) n, fun _ => rfl, fun _ _ => rfl, fun _ _ => rfl⟩

/-- C58.  The preconditioner is positive and bounded. -/
theorem C58_preconditioner (epsilon : ℝ) (h : 0 < epsilon) (decay : ℝ) (g : ℕ → ℝ) (n : ℕ) :
    0 < 1 / (epsilon + Real.sqrt (sqAverage decay g n)) ∧
    1 / (epsilon + Real.sqrt (sqAverage decay g n)) ≤ 1 / epsilon := by
  have := Real.sqrt_nonneg (sqAverage decay g n)
  refine ⟨by positivity, ?_⟩
  gcongr
  linarith

/-- C58.  With zero noise the fixed points of PSGLD are the stationary points. -/
theorem C58_psgld_fixed (lr decay epsilon : ℝ) (hlr : 0 < lr) (he : 0 < epsilon) (grad : Lat I → Lat I)
    (s : (v : V) → PState (I v)) :
    (∀ v, (psgld lr decay epsilon grad (fun _ _ => 0) v s).q = (s v).q) ↔ grad (fun v => (s v).q) = 0 := by
  have hp : ∀ x, rmsPreconditioner epsilon x ≠ 0 := by
    intro x
    have := Real.sqrt_nonneg x
    exact (show 0 < 1 / (epsilon + Real.sqrt x) by positivity).ne'
  constructor
  · intro h
    funext v i
    have := congrFun (h v) i
    simp only [psgld, mul_zero, add_zero, add_eq_left, mul_eq_zero] at this
    rcases this with (h | h) | h
    · norm_num at h; linarith
    · exact absurd h (hp _)
    · exact h
  · intro h v
    funext i
    simp [psgld, h]

/-! ## C59 -/

/-- C59.  First order: given state and resampled momentum `old`, the new momentum is normal with mean
`(1 - friction) old + lr grad` and variance `2 (friction - variance_estimate) lr`, independently per
component, and is added to the position. -/
theorem C59_first_order (lr alpha beta : ℝ) (hlr : 0 ≤ lr) (hab : beta ≤ alpha) (grad : Lat I → Lat I)
    (now : V → Bool) (r : Lat I) (v : V) (s : (v : V) → HState (I v)) (i : I v) :
    (∀ z, (sghmc1 lr alpha beta grad now r z v s).q i =
      (s v).q i + (sghmc1 lr alpha beta grad now r z v s).v i) ∧
    ∃ m : ℝ → ℝ, (∀ z, (sghmc1 lr alpha beta grad now r z v s).v i = m (z v i)) ∧
      (gaussianReal 0 1).map m =
        gaussianReal ((1 - alpha) * (if now v then Real.sqrt lr * r v i else (s v).v i) +
          lr * grad (fun v => (s v).q) v i) (NNReal.mk (2 * (alpha - beta) * lr) (by
            have := sub_nonneg.2 hab; positivity)) := by
  refine ⟨fun z => rfl, fun z => ((1 - alpha) * (if now v then Real.sqrt lr * r v i else (s v).v i) +
    lr * grad (fun v => (s v).q) v i) + Real.sqrt (2 * (alpha - beta) * lr) * z, fun z => rfl,
    normal_law _ _ _ ?_⟩
  have : 0 ≤ 2 * (alpha - beta) * lr := by have := sub_nonneg.2 hab; positivity
  exact (Real.sq_sqrt this).symm

/-- C59.  Second order: the position moves half the momentum, the momentum decays by `exp (-friction / 2)`,
receives the gradient at the midpoint and the noise, decays again, and the position moves half the new
momentum. -/
theorem C59_second_order (lr alpha beta : ℝ) (grad : Lat I → Lat I)
    (now : V → Bool) (r z : Lat I) (v : V) (s : (v : V) → HState (I v)) (i : I v) :
    let old : Lat I := fun v i => if now v then Real.sqrt lr * r v i else (s v).v i
    let mid : Lat I := fun v i => (s v).q i + old v i / 2
    let new := (sghmc2 lr alpha beta grad now r z v s).v i
    new = Real.exp (-alpha) * old v i +
      Real.exp (-alpha / 2) * (lr * grad mid v i + Real.sqrt (2 * (alpha - beta) * lr) * z v i) ∧
    (sghmc2 lr alpha beta grad now r z v s).q i = (s v).q i + old v i / 2 + new / 2 := by
  intro old mid new
  have e1 : Real.exp (-alpha) = Real.exp (-0.5 * alpha) * Real.exp (-0.5 * alpha) := by
    rw [← Real.exp_add]
    congr 1
    ring
  have e2 : Real.exp (-alpha / 2) = Real.exp (-0.5 * alpha) := by
    congr 1
    ring
  have hmid : mid = fun v i => (s v).q i + 0.5 * oldV lr now r (fun v => (s v).v) v i := by
    funext v i
    simp only [mid, old, oldV]
    ring
  refine ⟨?_, ?_⟩
  · simp only [new, sghmc2, e1, e2, hmid]
    simp only [old, oldV]
    ring
  · simp only [new, sghmc2, old, oldV]
    ring

/-- C59.  The noise of the second order scheme. -/
theorem C59_second_order_law (lr alpha beta : ℝ) (hlr : 0 ≤ lr) (hab : beta ≤ alpha) (grad : Lat I → Lat I)
    (now : V → Bool) (r : Lat I) (v : V) (s : (v : V) → HState (I v)) (i : I v) :
    ∃ (m : ℝ → ℝ) (c : ℝ), (∀ z, (sghmc2 lr alpha beta grad now r z v s).v i = m (z v i)) ∧
      (gaussianReal 0 1).map m = gaussianReal c (NNReal.mk (Real.exp (-alpha) * (2 * (alpha - beta) * lr)) (by
        have := sub_nonneg.2 hab; positivity)) ∧
      c = (sghmc2 lr alpha beta grad now r (fun _ _ => 0) v s).v i := by
  have hnn : 0 ≤ 2 * (alpha - beta) * lr := by have := sub_nonneg.2 hab; positivity
  have e2 : ∀ z, (sghmc2 lr alpha beta grad now r z v s).v i =
      (sghmc2 lr alpha beta grad now r (fun _ _ => 0) v s).v i +
        (Real.exp (-0.5 * alpha) * Real.sqrt (2 * (alpha - beta) * lr)) * z v i := by
    intro z
    simp only [sghmc2]
    ring
  refine ⟨fun y => (sghmc2 lr alpha beta grad now r (fun _ _ => 0) v s).v i +
    (Real.exp (-0.5 * alpha) * Real.sqrt (2 * (alpha - beta) * lr)) * y, _, fun z => e2 z,
    normal_law _ _ _ ?_, rfl⟩
  rw [mul_pow, Real.sq_sqrt hnn, ← Real.exp_nat_mul]
  rw [NNReal.coe_mk]
  congr 2
  push_cast
  ring

/-- Reverse the momentum. -/
def flip (s : (v : V) → HState (I v)) : (v : V) → HState (I v) := fun v => ⟨(s v).q, fun i => -(s v).v i⟩

/-- C59.  Without friction, variance estimate and resampling the second order scheme is time reversible, for
every force field (and the noise has no effect). -/
theorem C59_reversible (lr : ℝ) (grad : Lat I → Lat I) (r z z' : Lat I) (s : (v : V) → HState (I v)) :
    let step := fun z s v => sghmc2 lr 0 0 grad (fun _ => false) r z v s
    flip (step z' (flip (step z s))) = s := by
  intro step
  have e : ∀ z s v, step z s v =
      ⟨fun i => (s v).q i + 0.5 * (s v).v i + 0.5 * ((s v).v i + lr * grad (fun v i => (s v).q i + 0.5 * (s v).v i) v i),
        fun i => (s v).v i + lr * grad (fun v i => (s v).q i + 0.5 * (s v).v i) v i⟩ := by
    intro z s v
    simp [step, sghmc2, oldV]
  have hm : (fun v i => (flip (step z s) v).q i + 0.5 * (flip (step z s) v).v i : Lat I) =
      fun v i => (s v).q i + 0.5 * (s v).v i := by
    funext v i
    simp only [flip, e]
    ring
  funext v
  simp only [flip, e] at hm ⊢
  rw [hm]
  cases h : s v with
  | mk q p =>
    simp only [HState.mk.injEq]
    refine ⟨funext fun i => ?_, funext fun i => ?_⟩ <;> ring

/-- Position and momentum as a pair. -/
def pair (s : (v : V) → HState (I v)) : Lat I × Lat I := (fun v => (s v).q, fun v => (s v).v)

/-- The state from the pair. -/
def unpair (x : Lat I × Lat I) : (v : V) → HState (I v) := fun v => ⟨x.1 v, x.2 v⟩

/-- C59.  Under the same conditions it preserves volume in phase space. -/
theorem C59_volume [Fintype V] [∀ v, Fintype (I v)] (lr : ℝ) (grad : Lat I → Lat I) (hg : Measurable grad)
    (r z : Lat I) :
    MeasurePreserving
      (fun x : Lat I × Lat I => pair fun v => sghmc2 lr 0 0 grad (fun _ => false) r z v (unpair x))
      (volume.prod volume) (volume.prod volume) := by
  have hdrift : MeasurePreserving (fun x : Lat I × Lat I => ((fun v i => x.1 v i + 0.5 * x.2 v i : Lat I), x.2))
      (volume.prod volume) (volume.prod volume) := by
    have h : MeasurePreserving (fun x : Lat I × Lat I => (x.1, (fun v i => x.2 v i + 0.5 * x.1 v i : Lat I)))
        (volume.prod volume) (volume.prod volume) := by
      refine MeasurePreserving.skew_product (g := fun (p q : Lat I) => fun v i => q v i + 0.5 * p v i)
        (MeasurePreserving.id _) ?_ (Filter.Eventually.of_forall fun p => ?_)
      · simp only [Function.uncurry_def]
        fun_prop
      · exact map_add_right_eq_self volume fun v i => 0.5 * p v i
    exact (Measure.measurePreserving_swap.comp h).comp Measure.measurePreserving_swap
  have hkick : MeasurePreserving (fun x : Lat I × Lat I => (x.1, (fun v i => x.2 v i + lr * grad x.1 v i : Lat I)))
      (volume.prod volume) (volume.prod volume) := by
    refine MeasurePreserving.skew_product (g := fun (q p : Lat I) => fun v i => p v i + lr * grad q v i)
      (MeasurePreserving.id _) ?_ (Filter.Eventually.of_forall fun q => ?_)
    · refine measurable_pi_lambda _ fun v => measurable_pi_lambda _ fun i => ?_
      have h1 : Measurable fun a : Lat I × Lat I => grad a.1 v i :=
        (measurable_pi_apply i).comp ((measurable_pi_apply v).comp (hg.comp measurable_fst))
      have h2 : Measurable fun a : Lat I × Lat I => a.2 v i :=
        (measurable_pi_apply i).comp ((measurable_pi_apply v).comp measurable_snd)
      exact h2.add (measurable_const.mul h1)
    · exact map_add_right_eq_self volume fun v i => lr * grad q v i
  have h := hdrift.comp (hkick.comp hdrift)
  refine cast (congrArg (fun f => MeasurePreserving f _ _) (funext fun x => ?_)) h
  simp only [Function.comp, pair, unpair, sghmc2, oldV]
  simp

/-- C59.  A resampled momentum is drawn from its stationary law: independent normals of variance `lr`. -/
theorem C59_resample_law (lr : ℝ) (hlr : 0 ≤ lr) (now : V → Bool) (v : V) (hnow : now v = true) (vs : Lat I)
    (i : I v) : ∃ m : ℝ → ℝ, (∀ r, oldV lr now r vs v i = m (r v i)) ∧
      (gaussianReal 0 1).map m = gaussianReal 0 (NNReal.mk lr hlr) := by
  refine ⟨fun y => 0 + Real.sqrt lr * y, fun r => by simp [oldV, hnow], normal_law _ _ _ ?_⟩
  exact (Real.sq_sqrt hlr).symm

/-! ## C60 -/

section
variable [∀ v, Fintype (I v)]

/-- C60.  The friction of SGNHT, first order: it changes by `tune_rate * (mean squared momentum - lr)`. -/
theorem C60_alpha_first (lr a tuneRate : ℝ) (vector : Bool) (grad : Lat I → Lat I) (now : V → Bool)
    (r z : Lat I) (v : V) (s : (v : V) → NState (I v)) (i : I v) :
    let new := sgnht1 lr a tuneRate vector grad now r z v s
    let k := if vector then new.v i ^ 2 else (∑ j, new.v j ^ 2) / Fintype.card (I v)
    new.alpha i = (s v).alpha i + tuneRate * (k - lr) := by
  simp only [sgnht1, maybeMeanSq, meanK]
  cases vector <;> simp

/-- C60.  Second order: half of the change before, with the old momentum, and half after, with the new. -/
theorem C60_alpha_second (lr a tuneRate : ℝ) (vector : Bool) (grad : Lat I → Lat I) (now : V → Bool)
    (r z : Lat I) (v : V) (s : (v : V) → NState (I v)) (i : I v) :
    let new := sgnht2 lr a tuneRate vector grad now r z v s
    let old : I v → ℝ := fun i => if now v then Real.sqrt lr * r v i else (s v).v i
    let k := fun p : I v → ℝ => if vector then p i ^ 2 else (∑ j, p j ^ 2) / Fintype.card (I v)
    new.alpha i = (s v).alpha i + tuneRate * ((k old + k new.v) / 2 - lr) := by
  simp only [sgnht2, maybeMeanSq, meanK, oldV]
  cases vector <;> simp <;> ring

/-- C60.  So the friction rises if and only if the momentum is hotter than the learning rate. -/
theorem C60_direction (lr a tuneRate : ℝ) (ht : 0 < tuneRate) (vector : Bool) (grad : Lat I → Lat I)
    (now : V → Bool) (r z : Lat I) (v : V) (s : (v : V) → NState (I v)) (i : I v) :
    let new := sgnht1 lr a tuneRate vector grad now r z v s
    let k := if vector then new.v i ^ 2 else (∑ j, new.v j ^ 2) / Fintype.card (I v)
    (s v).alpha i < new.alpha i ↔ lr < k := by
  intro new k
  have h := C60_alpha_first lr a tuneRate vector grad now r z v s i
  simp only at h
  show (s v).alpha i < (sgnht1 lr a tuneRate vector grad now r z v s).alpha i ↔ _
  rw [h]
  constructor
  · intro h1
    have : 0 < tuneRate * (k - lr) := by
      show 0 < tuneRate * ((if vector then new.v i ^ 2 else (∑ j, new.v j ^ 2) / Fintype.card (I v)) - lr)
      linarith
    have := (pos_iff_pos_of_mul_pos this).1 ht
    linarith
  · intro h1
    have : 0 < tuneRate * (k - lr) := mul_pos ht (by linarith)
    show _ < (s v).alpha i + tuneRate * (k - lr)
    linarith

/-- C60.  With `tune_rate = 0` the friction is constant and SGNHT is SGHMC: friction `alpha` (the initial
friction is `a`), variance estimate `alpha - a`. -/
theorem C60_sghmc (lr a alpha : ℝ) (vector : Bool) (grad : Lat I → Lat I) (now : V → Bool)
    (r z : Lat I) (v : V) (s : (v : V) → NState (I v)) (h : ∀ v i, (s v).alpha i = alpha) :
    let s' : (v : V) → HState (I v) := fun v => ⟨(s v).q, (s v).v⟩
    let n1 := sgnht1 lr a 0 vector grad now r z v s
    let n2 := sgnht2 lr a 0 vector grad now r z v s
    (⟨n1.q, n1.v⟩ : HState (I v)) = sghmc1 lr alpha (alpha - a) grad now r z v s' ∧
    (⟨n2.q, n2.v⟩ : HState (I v)) = sghmc2 lr alpha (alpha - a) grad now r z v s' ∧
    (∀ i, n1.alpha i = alpha) ∧ ∀ i, n2.alpha i = alpha := by
  refine ⟨?_, ?_, ?_, ?_⟩
  · simp [sgnht1, sghmc1, h]
  · simp [sgnht2, sghmc2, h]
  · intro i; simp [sgnht1, h]
  · intro i; simp [sgnht2, h]

end

/-! ## C61 -/

/-- The iterations among the first `N` at which the momentum is resampled.  `late k` says that in iteration `k`
the counter is read after its increment; before iteration `k` it has the value `k`. -/
def resamples (n : ℕ) (late : ℕ → Bool) (k : ℕ) : Bool := resampleNow n (if late k then k + 1 else k)

/-- C61.  If the counter is always read before its increment, the momentum is resampled exactly at the
iterations whose index is a multiple of `n`. -/
theorem C61_early_partial (n : ℕ) (hn : n ≠ 0) (late : ℕ → Bool) (h : ∀ k, late k = false) (k : ℕ) :
    resamples n late k = true ↔ n ∣ k := by
  simp [resamples, h, resampleNow, hn, Nat.dvd_iff_mod_eq_zero]

/-- C61.  If it is always read after its increment, exactly at those whose successor is a multiple. -/
theorem C61_late_partial (n : ℕ) (hn : n ≠ 0) (late : ℕ → Bool) (h : ∀ k, late k = true) (k : ℕ) :
    resamples n late k = true ↔ n ∣ k + 1 := by
  simp [resamples, h, resampleNow, hn, Nat.dvd_iff_mod_eq_zero]

/-- Among any `n` consecutive numbers there is one multiple of `n`. -/
theorem card_dvd_window (n : ℕ) (hn : n ≠ 0) (m : ℕ) :
    ((Finset.range n).filter fun j => n ∣ m + j).card = 1 := by
  have hpos : 0 < n := Nat.pos_of_ne_zero hn
  rw [Finset.card_eq_one]
  refine ⟨(n - m % n) % n, ?_⟩
  ext j
  simp only [Finset.mem_filter, Finset.mem_range, Finset.mem_singleton]
  have hm := Nat.mod_lt m hpos
  constructor
  · rintro ⟨hj, hd⟩
    rw [Nat.dvd_iff_mod_eq_zero, Nat.add_mod, Nat.mod_eq_of_lt hj] at hd
    rcases Nat.lt_or_ge (m % n + j) n with h | h
    · rw [Nat.mod_eq_of_lt h] at hd
      have : m % n = 0 := by omega
      rw [this, Nat.sub_zero, Nat.mod_self]; omega
    · have h2 : m % n + j - n < n := by omega
      rw [Nat.mod_eq_sub_mod h, Nat.mod_eq_of_lt h2] at hd
      rw [Nat.mod_eq_of_lt (by omega)]
      omega
  · rintro rfl
    refine ⟨Nat.mod_lt _ hpos, ?_⟩
    rw [Nat.dvd_iff_mod_eq_zero, Nat.add_mod, Nat.mod_mod, ← Nat.add_mod]
    have : m + (n - m % n) = n * (m / n) + n := by
      have := Nat.div_add_mod m n
      omega
    rw [this, Nat.mul_add_mod, Nat.mod_self]

/-- C61, partial: once in every `n` consecutive iterations, if the read is always on the same side of the
increment.  Missing: the graph does not order them (see `C61_twice`, `C61_skipped`). -/
theorem C61_once_partial (n : ℕ) (hn : n ≠ 0) (late : ℕ → Bool) (h : ∀ k, late k = late 0) (m : ℕ) :
    ((Finset.range n).filter fun j => resamples n late (m + j) = true).card = 1 := by
  cases hl : late 0 with
  | false =>
    simp only [C61_early_partial n hn late fun k => (h k).trans hl]
    exact card_dvd_window n hn m
  | true =>
    simp only [C61_late_partial n hn late fun k => (h k).trans hl]
    have := card_dvd_window n hn (m + 1)
    simpa only [Nat.add_right_comm m 1] using this

/-- C61.  With `n_iter_resample_v = 1` every iteration resamples, and with 0 or `None` none does, whatever the
order. -/
theorem C61_trivial (late : ℕ → Bool) (k : ℕ) :
    resamples 1 late k = true ∧ resamples 0 late k = false := by
  simp [resamples, resampleNow, Nat.mod_one]

/-- C61, finding.  The increment (sgmcmc.py 107) and the read (sgmcmc.py 335, 475) are not ordered, so the momentum may be
resampled twice in a row ... -/
theorem C61_twice (n : ℕ) (hn : 2 ≤ n) : ∃ late : ℕ → Bool,
    resamples n late (n - 1) = true ∧ resamples n late n = true := by
  refine ⟨fun k => k == n - 1, ?_, ?_⟩
  · simp [resamples, resampleNow, show n ≠ 0 by omega, show n - 1 + 1 = n by omega]
  · simp [resamples, resampleNow, show n ≠ 0 by omega, show n ≠ n - 1 by omega]

/-- ... or never in an arbitrarily long run. -/
theorem C61_skipped (n : ℕ) (hn : 2 ≤ n) : ∃ late : ℕ → Bool, ∀ k, resamples n late k = false := by
  refine ⟨fun k => k % n == 0, fun k => ?_⟩
  simp only [resamples, resampleNow, show n ≠ 0 by omega, if_false]
  by_cases h : k % n = 0
  · have h1 : (k + 1) % n = 1 := by
      rw [Nat.add_mod, h, Nat.mod_eq_of_lt (show 1 < n by omega), Nat.mod_eq_of_lt (by omega)]
    simp [h, h1]
  · simp [h]

/-- C61, finding.  Each latent variable has its own read of the counter (sgmcmc.py 335), so that in one iteration some
momenta may be resampled and others not. -/
theorem C61_disagree (n : ℕ) (hn : 2 ≤ n) : ∃ lateA lateB : ℕ → Bool, ∀ k, n ∣ k →
    resamples n lateA k = true ∧ resamples n lateB k = false := by
  refine ⟨fun _ => false, fun _ => true, fun k hk => ⟨?_, ?_⟩⟩
  · exact (C61_early_partial n (by omega) _ (fun _ => rfl) k).2 hk
  · rw [← Bool.not_eq_true, C61_late_partial n (by omega) _ (fun _ => rfl) k]
    intro h
    have := (Nat.dvd_add_right hk).1 h
    have := Nat.le_of_dvd (by omega) this
    omega

/-! ## C62 -/

section
variable {A : V → Type} [DecidableEq V]

/-- Invariant of a run in which no value is computed after an assignment. -/
theorem exec_barrier (upd : (v : V) → ((w : V) → A w) → A v) (s0 : (v : V) → A v) :
    ∀ (l : List (Ev V)) (s : (v : V) → A v) (p : (v : V) → Option (A v)), l.Nodup →
      (l.Pairwise fun a b => ∀ v w, ¬(a = .assign v ∧ b = .compute w)) →
      (∀ v, .assign v ∈ l → s v = s0 v) → (∀ v, .assign v ∉ l → s v = upd v s0) →
      (∀ v, .compute v ∉ l → p v = some (upd v s0)) →
      (∀ v, .compute v ∈ l → ∀ w, .assign w ∈ l) →
      exec upd l s p = some fun v => upd v s0 := by
  intro l
  induction l with
  | nil =>
    intro s p _ _ _ h2 _ _
    rw [exec, Option.some.injEq]
    funext v
    exact h2 v (by simp)
  | cons e l ih =>
    intro s p hnd hpw h1 h2 h3 h4
    rw [List.nodup_cons] at hnd
    rw [List.pairwise_cons] at hpw
    cases e with
    | compute v =>
      have hall : ∀ w, .assign w ∈ l := fun w => by
        have := h4 v (by simp) w
        simpa using this
      have hs : s = s0 := funext fun w => h1 w (h4 v (by simp) w)
      rw [exec]
      refine ih _ _ hnd.2 hpw.2 (fun w hw => h1 w (by simp [hw])) (fun w hw => absurd (hall w) hw) ?_
        (fun w _ => hall)
      intro w hw
      by_cases hwv : w = v
      · subst hwv
        rw [Function.update_self, hs]
      · rw [Function.update_of_ne hwv]
        exact h3 w (by simp [hw, hwv])
    | assign v =>
      have hnc : ∀ w, .compute w ∉ l := fun w hw => hpw.1 _ hw v w ⟨rfl, rfl⟩
      have hp : p v = some (upd v s0) := h3 v (by simp [hnc])
      rw [exec, hp]
      refine ih _ _ hnd.2 hpw.2 ?_ ?_ (fun w _ => h3 w (by simp [hnc])) (fun w hw => absurd hw (hnc w))
      · intro w hw
        have hwv : w ≠ v := fun h => hnd.1 (h ▸ hw)
        rw [Function.update_of_ne hwv]
        exact h1 w (by simp [hw])
      · intro w hw
        by_cases hwv : w = v
        · subst hwv
          rw [Function.update_self]
        · rw [Function.update_of_ne hwv]
          exact h2 w (by simp [hw, hwv])

/-- C62.  SGHMC and SGNHT: in every order that the graph allows, each variable is updated exactly once, from
the values all variables had at the start. -/
theorem C62_simultaneous (upd : (v : V) → ((w : V) → A w) → A v) (sched : List (Ev V)) (h : Barrier sched)
    (s : (v : V) → A v) : exec upd sched s (fun _ => none) = some fun v => upd v s := by
  obtain ⟨⟨hnd, hmem⟩, hpw⟩ := h
  exact exec_barrier upd s sched s _ hnd hpw (fun _ _ => rfl) (fun v hv => absurd (hmem _) hv)
    (fun v hv => absurd (hmem _) hv) (fun _ _ w => hmem _)

/-- C62, partial: the same for SGLD and PSGLD with one latent variable.  Missing: several latent variables, where
it is false (`C62_race`). -/
theorem C62_single_partial [Subsingleton V] (upd : (v : V) → ((w : V) → A w) → A v) (sched : List (Ev V))
    (h : DataDeps sched) (s : (v : V) → A v) : exec upd sched s (fun _ => none) = some fun v => upd v s := by
  refine C62_simultaneous upd sched ⟨h.1, ?_⟩ s
  refine h.2.imp fun {a b} hab v w hvw => ?_
  rw [Subsingleton.elim w v] at hvw
  exact hab v hvw

/-- C62, finding.  With two latent variables the graph of SGLD allows an order in which the second gradient is
computed after the first assignment: for log joint `x y`, start `(1, 1)`, `lr = 2` and zero noise the
simultaneous update gives `(2, 2)`, the other order `(2, 3)`. -/
theorem C62_race :
    let grad : Lat (fun _ : Bool => Unit) → Lat (fun _ : Bool => Unit) := fun q v _ => q (!v) ()
    let upd := fun v => sgld 2 grad (fun _ _ => 0) v
    let start : Lat (fun _ : Bool => Unit) := fun _ _ => 1
    ∃ sched sched' : List (Ev Bool), DataDeps sched ∧ DataDeps sched' ∧
      exec upd sched start (fun _ => none) = some (fun _ _ => 2) ∧
      exec upd sched' start (fun _ => none) = some (fun v _ => if v then 3 else 2) := by
  intro grad upd start
  have hmem : ∀ l : List (Ev Bool), (.compute true ∈ l ∧ .compute false ∈ l ∧ .assign true ∈ l ∧ .assign false ∈ l) →
      ∀ e, e ∈ l := by
    rintro l ⟨h1, h2, h3, h4⟩ (v | v) <;> cases v <;> assumption
  refine ⟨[.compute false, .compute true, .assign false, .assign true],
    [.compute false, .assign false, .compute true, .assign true], ⟨⟨by decide, hmem _ (by decide)⟩, by simp⟩,
    ⟨⟨by decide, hmem _ (by decide)⟩, by simp⟩, ?_, ?_⟩
  · simp only [exec, Function.update_apply, if_true, if_false, Bool.true_eq_false, Bool.false_eq_true]
    congr 1
    funext v i
    cases v <;> norm_num [upd, sgld, grad, start, Function.update_apply]
  · simp only [exec, Function.update_apply, if_true, if_false, Bool.true_eq_false, Bool.false_eq_true]
    congr 1
    funext v i
    cases v <;> norm_num [upd, sgld, grad, start, Function.update_apply]

/-- Orders as in `C62_simultaneous` exist. -/
example : Barrier [Ev.compute false, .compute true, .assign true, .assign false] := by
  refine ⟨⟨by decide, ?_⟩, by simp⟩
  rintro (v | v) <;> cases v <;> decide

end

/-- C62.  The latent values that are not variables are refused; otherwise the log joint gets the observed values
and, for the other latent names, the values of the variables. -/
theorem C62_joint {K T : Type} [DecidableEq K] (latent : Dict K (Hmc.Latent T)) (hl : latent.WF)
    (observed : Dict K T) (ho : observed.WF) :
    ((∃ k, (k, Hmc.Latent.other) ∈ latent) → makeGrad latent observed = .error .typeError) ∧
    ∀ d, makeGrad latent observed = .ok d → ∀ k,
      d.get? k = match observed.get? k, latent.get? k with
        | some v, _ => some v
        | none, some (.var v) => some v
        | none, _ => none := by
  constructor
  · rintro ⟨k, hk⟩
    have h1 : Hmc.latentValues latent = .error .typeError := (Hmc.latentValues_error latent _).2 ⟨rfl, k, hk⟩
    cases latent with
    | nil => exact absurd hk (by simp)
    | cons a l => simp [makeGrad, h1]
  · intro d hd k
    simp only [makeGrad] at hd
    split at hd
    · exact absurd hd (by simp)
    split at hd
    · exact absurd hd (by simp)
    rename_i vs hvs
    rw [Except.ok.injEq] at hd
    subst hd
    rw [Hmc.C57_joint _ hl _ _ ho]
    have hv := (Hmc.latentValues_ok _ _).1 hvs
    have hz : Dict.get? (latent.keys.zip vs) k = match latent.get? k with
        | some (.var v) => some v
        | _ => none := by
      clear hvs hl ‹¬_›
      induction latent generalizing vs with
      | nil => simp [Dict.keys, Dict.get?]
      | cons a l ih =>
        obtain ⟨k', x⟩ := a
        cases vs with
        | nil => simp at hv
        | cons w vs =>
          simp only [List.map_cons, List.cons.injEq] at hv
          have hx : x = .var w := hv.1
          subst hx
          have := ih vs hv.2
          simp only [Dict.keys, List.map_cons, List.zip_cons_cons, Dict.get?] at this ⊢
          split
          · rfl
          · exact this
    rw [hz]
    cases observed.get? k <;> rcases latent.get? k with _ | (_ | _) <;> rfl

/-- Transposing a table. -/
theorem zipStar_table {K B X : Type} (names : List K) (hne : names ≠ []) (attrs : List B) (val : K → B → X) :
    zipStar (names.map fun k => attrs.map fun a => val k a) =
      attrs.map fun a => names.map fun k => val k a := by
  have hlen : ∀ l : List K, ((l.map fun k => attrs.map fun a => val k a).map List.length).foldr min attrs.length =
      attrs.length := by
    intro l
    induction l with
    | nil => rfl
    | cons k l ih => simp only [List.map_cons, List.foldr_cons, ih, List.length_map, min_self]
  cases names with
  | nil => exact absurd rfl hne
  | cons k0 l =>
    have h1 : (((((k0 :: l).map fun k => attrs.map fun a => val k a)).map List.length).foldr min
        ((((k0 :: l).map fun k => attrs.map fun a => val k a)).headD []).length) = attrs.length := by
      have h := hlen (k0 :: l)
      have e : ((((k0 :: l).map fun k => attrs.map fun a => val k a)).headD []).length = attrs.length := by simp
      rw [e, h]
    rw [zipStar, h1]
    · apply List.ext_getElem
      · simp
      · intro j h2 h3
        have hj : j < attrs.length := by simpa using h2
        have e : ∀ k : K, (attrs.map fun a => val k a)[j]? = some (val k attrs[j]) := fun k => by
          simp [hj]
        simp only [List.getElem_map, List.getElem_range, List.filterMap_map, Function.comp_def, e]
        simp
    · simp

/-- C62.  The statistics of a run: for every attribute, a dictionary from the name of each latent variable to
the attribute of that variable. -/
theorem C62_info {K X : Type} (names : List K) (hne : names ≠ []) (attrs : List String) (val : K → String → X) :
    sgmcmcInfo names (names.map fun k => attrs.map fun a => (a, val k a)) =
      attrs.map fun a => (a, names.map fun k => (k, val k a)) := by
  have h := zipStar_table names hne attrs val
  have hh : ((names.map fun k => attrs.map fun a => (a, val k a)).headD []).map Prod.fst = attrs := by
    cases names with
    | nil => exact absurd rfl hne
    | cons k l => simp [Function.comp_def]
  have hz : ∀ (l : List K) (f : K → X), l.zip (l.map f) = l.map fun k => (k, f k) := by
    intro l f
    induction l with
    | nil => rfl
    | cons a l ih => simp [ih]
  have hz2 : ∀ (l : List String) (f : String → List (K × X)), l.zip (l.map f) = l.map fun k => (k, f k) := by
    intro l f
    induction l with
    | nil => rfl
    | cons a l ih => simp [ih]
  simp only [sgmcmcInfo, hh]
  simp only [List.map_map, Function.comp_def] at h ⊢
  rw [h]
  simp only [List.map_map, Function.comp_def, hz, hz2]

example : sgmcmcInfo ["w", "b"] [[("q", 1), ("mean_k", 2)], [("q", 3), ("mean_k", 4)]] =
    [("q", [("w", 1), ("b", 3)]), ("mean_k", [("w", 2), ("b", 4)])] := by decide

/-- C62.  For SGHMC: after one run of the sample operation, in any order the graph allows, every latent
variable and its momentum have the values of one simultaneous step. -/
theorem C62_sghmc [DecidableEq V] (second : Bool) (lr alpha beta : ℝ) (grad : Lat I → Lat I) (now : V → Bool)
    (r z : Lat I) (sched : List (Ev V)) (h : Barrier sched) (s : (v : V) → HState (I v)) :
    exec (fun v => (if second then sghmc2 else sghmc1) lr alpha beta grad now r z v) sched s (fun _ => none) =
      some fun v => (if second then sghmc2 else sghmc1) lr alpha beta grad now r z v s :=
  C62_simultaneous _ sched h s

end ZhuSuan.Sgmcmc

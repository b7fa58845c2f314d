import Verif.Model.Resume
import Mathlib.Tactic.Linarith

/-!
# C120  Resuming a sampler from saved variables
-/

set_option autoImplicit false

namespace ZhuSuan.Resume
open Sgmcmc

variable {V : Type} {I : V → Type} [∀ v, Fintype (I v)]

/-- C120.  With all variables saved, the run goes on as if it had not been interrupted, wherever it was. -/
theorem C120_all (m : Method) (ws ws' : List (Input I)) (s fresh : Vars I) :
    run m ws' (restore .all (run m ws s) fresh) = run m (ws ++ ws') s := by
  simp only [run, restore, List.foldl_append]

/-- The counter counts the iterations. -/
theorem run_t (m : Method) (ws : List (Input I)) (s : Vars I) : (run m ws s).t = s.t + ws.length := by
  induction ws generalizing s with
  | nil => rfl
  | cons w ws ih =>
    have h : (step m s w).t = s.t + 1 := by cases m <;> rfl
    simp only [run, List.foldl_cons, List.length_cons] at ih ⊢
    rw [ih, h]
    omega

/-- The number of calls after which the momenta are resampled, 0 if they never are. -/
def Method.period : Method → ℕ
  | .sghmc _ _ _ n _ => n
  | .sgnht _ _ _ n _ _ => n
  | _ => 0

/-- Whether the two counters are at the same place in the period. -/
theorem resample_congr (n a b : ℕ) (h : a % n = b % n) : resampleNow n a = resampleNow n b := by
  simp only [resampleNow, h]

/-- The variables other than the counter depend on the counter only modulo the period. -/
theorem run_mod (m : Method) (ws : List (Input I)) (s : Vars I) (t : ℕ) (h : m.period = 0 ∨ s.t % m.period = t % m.period) :
    (run m ws { s with t := t }) = { run m ws s with t := t + ws.length } := by
  induction ws generalizing s t with
  | nil => rfl
  | cons w ws ih =>
    have e : step m { s with t := t } w = { step m s w with t := t + 1 } := by
      cases m with
      | sgld => rfl
      | psgld => rfl
      | sghmc lr alpha beta n second =>
        have : resampleNow n t = resampleNow n s.t := by
          rcases h with h | h
          · have h : n = 0 := h
            simp [resampleNow, h]
          · exact resample_congr _ _ _ h.symm
        simp only [step, this]
      | sgnht lr a tuneRate n second vector =>
        have : resampleNow n t = resampleNow n s.t := by
          rcases h with h | h
          · have h : n = 0 := h
            simp [resampleNow, h]
          · exact resample_congr _ _ _ h.symm
        simp only [step, this]
    have ht : (step m s w).t = s.t + 1 := by cases m <;> rfl
    have ih' := ih (step m s w) (t + 1) (h.imp_right fun h => by rw [ht]; exact Nat.ModEq.add_right 1 h)
    simp only [run, List.foldl_cons, List.length_cons] at ih' ⊢
    rw [e, ih']
    congr 1
    omega

/-- C120.  With only the trainable variables saved, the latent variables go on as if there had been no interruption if the momenta
are never resampled, which is so for SGLD and PSGLD, or if the number of iterations before it is a multiple of the resampling
period. -/
theorem C120_trainable (m : Method) (ws ws' : List (Input I)) (s fresh : Vars I) (hs : s.t = 0) (hf : fresh.t = 0)
    (h : m.period ∣ ws.length ∨ m.period = 0) :
    (run m ws' (restore .trainable (run m ws s) fresh)).q = (run m (ws ++ ws') s).q := by
  have e : run m (ws ++ ws') s = run m ws' (run m ws s) := by simp only [run, List.foldl_append]
  have := run_mod m ws' (run m ws s) 0 (h.symm.imp_right fun h => by
    rw [run_t, hs, Nat.zero_add, Nat.zero_mod]; exact Nat.mod_eq_zero_of_dvd h)
  simp only [restore, hf]
  rw [this, e]

/-- The hypotheses are met: SGHMC with the default period 20, interrupted after 60 iterations; and PSGLD after any number. -/
example (ws : List (Input I)) (h : ws.length = 60) (k : ℕ) :
    (Method.period (.sghmc 0.01 0.25 0 20 true) ∣ ws.length ∨ Method.period (.sghmc 0.01 0.25 0 20 true) = 0) ∧
    (Method.period (.psgld 0.01 0.9 0.001) ∣ k ∨ Method.period (.psgld 0.01 0.9 0.001) = 0) :=
  ⟨.inl ⟨3, h⟩, .inr rfl⟩

/-- C120.  The latent variables alone are enough for SGLD, and for SGHMC if the interruption is where the momenta are resampled. -/
theorem C120_latent (m : Method) (ws ws' : List (Input I)) (s fresh : Vars I) (hs : s.t = 0) (hf : fresh.t = 0)
    (h : (∃ lr, m = .sgld lr) ∨
      ∃ lr alpha beta n second, m = .sghmc lr alpha beta n second ∧ 0 < n ∧ n ∣ ws.length) :
    (run m ws' (restore .latent (run m ws s) fresh)).q = (run m (ws ++ ws') s).q := by
  have e : run m (ws ++ ws') s = run m ws' (run m ws s) := by simp only [run, List.foldl_append]
  rw [e]
  rcases h with ⟨lr, rfl⟩ | ⟨lr, alpha, beta, n, second, rfl, hn, hd⟩
  · have key : ∀ (ws' : List (Input I)) (s s' : Vars I), s.q = s'.q → (run (.sgld lr) ws' s).q = (run (.sgld lr) ws' s').q := by
      intro ws'
      induction ws' with
      | nil => exact fun s s' h => h
      | cons w ws' ih =>
        intro s s' h
        simp only [run, List.foldl_cons] at ih ⊢
        exact ih _ _ (by simp only [step, h])
    exact key _ _ _ rfl
  · cases ws' with
    | nil => rfl
    | cons w ws' =>
      have ht := run_t (.sghmc lr alpha beta n second) ws s
      generalize run (.sghmc lr alpha beta n second) ws s = x at ht ⊢
      rw [hs, Nat.zero_add] at ht
      have h0 : resampleNow n fresh.t = true := by
        simp only [resampleNow, hf, Nat.zero_mod]
        rw [if_neg (by omega)]
        rfl
      have h1 : resampleNow n x.t = true := by
        simp only [resampleNow, ht, Nat.mod_eq_zero_of_dvd hd]
        rw [if_neg (by omega)]
        rfl
      have e1 : ∃ t, t % n = (x.t + 1) % n ∧ ∃ aux alpha',
          step (.sghmc lr alpha beta n second) (restore .latent x fresh) w =
          { step (.sghmc lr alpha beta n second) x w with t := t, aux := aux, alpha := alpha' } := by
        refine ⟨fresh.t + 1, ?_, fresh.aux, fresh.alpha, ?_⟩
        · rw [hf, ht]
          have : (ws.length + 1) % n = (0 + 1) % n := Nat.ModEq.add_right 1 ((Nat.modEq_zero_iff_dvd).2 hd)
          exact this.symm
        · simp only [step, restore, h0, h1]
          cases second <;> simp [sghmc1, sghmc2, oldV]
      obtain ⟨t, ht', aux, alpha', e1⟩ := e1
      have key : ∀ (ws' : List (Input I)) (y : Vars I) (aux alpha' : Lat I) (t : ℕ), t % n = y.t % n →
          (run (.sghmc lr alpha beta n second) ws' { y with t := t, aux := aux, alpha := alpha' }).q =
          (run (.sghmc lr alpha beta n second) ws' y).q := by
        intro ws'
        induction ws' with
        | nil => intros; rfl
        | cons w ws' ih =>
          intro y aux alpha' t h
          have e2 : step (.sghmc lr alpha beta n second) { y with t := t, aux := aux, alpha := alpha' } w =
              { step (.sghmc lr alpha beta n second) y w with t := t + 1, aux := aux, alpha := alpha' } := by
            simp only [step, resample_congr _ _ _ h]
          have := ih (step (.sghmc lr alpha beta n second) y w) aux alpha' (t + 1) (Nat.ModEq.add_right 1 h)
          simp only [run, List.foldl_cons] at this ⊢
          rw [e2, this]
      show (run (.sghmc lr alpha beta n second) ws' (step _ _ w)).q = (run (.sghmc lr alpha beta n second) ws' (step _ x w)).q
      rw [e1]
      exact key ws' _ aux alpha' t ht'

/-- The hypotheses are met: SGHMC with the default arguments, interrupted after 60 iterations. -/
example (ws : List (Input I)) (h : ws.length = 60) : ∃ lr alpha beta n second,
    Method.sghmc 0.01 0.25 0 20 true = .sghmc lr alpha beta n second ∧ 0 < n ∧ n ∣ ws.length :=
  ⟨_, _, _, _, _, rfl, by norm_num, 3, h⟩

/-! ## When it is not enough -/

/-- The input without gradient and noise. -/
def quiet (r : ℝ) : Input (fun _ : Unit => Unit) := ⟨fun _ _ _ => 0, fun _ _ => r, fun _ _ => 0⟩

/-- The variables with everything at zero, except the momentum and the counter. -/
def at0 (v : ℝ) (t : ℕ) : Vars (fun _ : Unit => Unit) := ⟨fun _ _ => 0, fun _ _ => 0, fun _ _ => v, fun _ _ => 0, t⟩

theorem quiet_sghmc (lr alpha beta : ℝ) (n : ℕ) (second : Bool) (k : ℕ) (t : ℕ) :
    run (.sghmc lr alpha beta n second) (List.replicate k (quiet 0)) (at0 0 t) = at0 0 (t + k) := by
  induction k generalizing t with
  | zero => rfl
  | succ k ih =>
    have e : step (.sghmc lr alpha beta n second) (at0 0 t) (quiet 0) = at0 0 (t + 1) := by
      cases second <;> simp [step, at0, quiet, sghmc1, sghmc2, oldV]
    simp only [run, List.replicate_succ, List.foldl_cons] at ih ⊢
    rw [e, ih]
    congr 1
    omega

/-- C120, finding.  For SGHMC the condition of `C120_trainable` is needed: the counter is not trainable while the momenta are, so
after any number of iterations that is not a multiple of the resampling period there are runs that go on differently.  Here with
the second order integrator, the default. -/
theorem C120_trainable_needed (lr alpha beta : ℝ) (hl : 0 < lr) (n k : ℕ) (hn : n ≠ 0) (hk : ¬n ∣ k) :
    ∃ (ws ws' : List (Input fun _ : Unit => Unit)) (s fresh : Vars fun _ : Unit => Unit), ws.length = k ∧ s.t = 0 ∧ fresh.t = 0 ∧
      (run (.sghmc lr alpha beta n true) ws' (restore .trainable (run (.sghmc lr alpha beta n true) ws s) fresh)).q ≠
        (run (.sghmc lr alpha beta n true) (ws ++ ws') s).q := by
  refine ⟨List.replicate k (quiet 0), [quiet 1], at0 0 0, at0 0 0, by simp, rfl, rfl, fun h => ?_⟩
  have e : run (.sghmc lr alpha beta n true) (List.replicate k (quiet 0) ++ [quiet 1]) (at0 0 0) =
      run (.sghmc lr alpha beta n true) [quiet 1] (run (.sghmc lr alpha beta n true) (List.replicate k (quiet 0)) (at0 0 0)) := by
    simp only [run, List.foldl_append]
  rw [e, quiet_sghmc, Nat.zero_add] at h
  have h0 : resampleNow n 0 = true := by simp [resampleNow, hn]
  have h1 : resampleNow n k = false := by
    simp only [resampleNow, if_neg hn, beq_eq_false_iff_ne]
    exact fun h => hk (Nat.dvd_of_mod_eq_zero h)
  have h := congrFun (congrFun h ()) ()
  simp [run, step, restore, at0, quiet, sghmc2, oldV, h0, h1] at h
  have hs : 0 < Real.sqrt lr := Real.sqrt_pos.2 hl
  have he := Real.exp_pos (-(0.5 * alpha))
  have : 0 < 0.5 * Real.sqrt lr + 0.5 * (Real.exp (-(0.5 * alpha)) * (Real.exp (-(0.5 * alpha)) * Real.sqrt lr)) := by positivity
  linarith

/-- The hypotheses are met: 30 iterations with the default period 20. -/
example : (20 : ℕ) ≠ 0 ∧ ¬20 ∣ 30 := by decide

/-- C120, finding.  The latent variables alone are not enough for SGHMC between two times of resampling: the momenta of the new
program are drawn anew, or resampled at its first iteration. -/
theorem C120_latent_sghmc_needed (lr alpha beta : ℝ) (hl : 0 < lr) (n k : ℕ) (hk : n = 0 ∨ ¬n ∣ k) :
    ∃ (ws ws' : List (Input fun _ : Unit => Unit)) (s fresh : Vars fun _ : Unit => Unit), ws.length = k ∧ s.t = 0 ∧ fresh.t = 0 ∧
      (run (.sghmc lr alpha beta n true) ws' (restore .latent (run (.sghmc lr alpha beta n true) ws s) fresh)).q ≠
        (run (.sghmc lr alpha beta n true) (ws ++ ws') s).q := by
  refine ⟨List.replicate k (quiet 0), [quiet 1], at0 0 0, at0 (Real.sqrt lr) 0, by simp, rfl, rfl, fun h => ?_⟩
  have e : run (.sghmc lr alpha beta n true) (List.replicate k (quiet 0) ++ [quiet 1]) (at0 0 0) =
      run (.sghmc lr alpha beta n true) [quiet 1] (run (.sghmc lr alpha beta n true) (List.replicate k (quiet 0)) (at0 0 0)) := by
    simp only [run, List.foldl_append]
  rw [e, quiet_sghmc, Nat.zero_add] at h
  have h1 : resampleNow n k = false := by
    rcases hk with rfl | hk
    · rfl
    · by_cases hn : n = 0
      · simp [resampleNow, hn]
      · simp only [resampleNow, if_neg hn, beq_eq_false_iff_ne]
        exact fun h => hk (Nat.dvd_of_mod_eq_zero h)
  have h := congrFun (congrFun h ()) ()
  simp [run, step, restore, at0, quiet, sghmc2, oldV, h1] at h
  have hs : 0 < Real.sqrt lr := Real.sqrt_pos.2 hl
  have he := Real.exp_pos (-(0.5 * alpha))
  have : 0 < 0.5 * Real.sqrt lr + 0.5 * (Real.exp (-(0.5 * alpha)) * (Real.exp (-(0.5 * alpha)) * Real.sqrt lr)) := by positivity
  linarith

/-- The input with gradient 1 everywhere and no noise. -/
def push : Input (fun _ : Unit => Unit) := ⟨fun _ _ _ => 1, fun _ _ => 0, fun _ _ => 0⟩

theorem push_psgld (lr decay epsilon : ℝ) (k : ℕ) (s : Vars fun _ : Unit => Unit) :
    (run (.psgld lr decay epsilon) (List.replicate k push) s).aux () () = 1 - decay ^ k * (1 - s.aux () ()) := by
  induction k generalizing s with
  | zero => simp [run]
  | succ k ih =>
    have := ih (step (.psgld lr decay epsilon) s push)
    simp only [run, List.replicate_succ, List.foldl_cons] at this ⊢
    rw [this]
    simp [step, psgld, rmsAux, push]
    ring

/-- C120, finding.  The latent variables alone are not enough for PSGLD after any iteration: the averages of the squared gradients
start again from zero, and the next step is too long. -/
theorem C120_latent_psgld_needed (lr decay epsilon : ℝ) (hl : 0 < lr) (hd : 0 < decay) (hd1 : decay < 1) (he : 0 < epsilon)
    (k : ℕ) (hk : k ≠ 0) :
    ∃ (ws ws' : List (Input fun _ : Unit => Unit)) (s fresh : Vars fun _ : Unit => Unit), ws.length = k ∧
      s.t = 0 ∧ (∀ v i, s.aux v i = 0) ∧ fresh.t = 0 ∧ (∀ v i, fresh.aux v i = 0) ∧
      (run (.psgld lr decay epsilon) (ws ++ ws') s).q () () <
        (run (.psgld lr decay epsilon) ws' (restore .latent (run (.psgld lr decay epsilon) ws s) fresh)).q () () := by
  refine ⟨List.replicate k push, [push], at0 0 0, at0 0 0, by simp, rfl, fun _ _ => rfl, rfl, fun _ _ => rfl, ?_⟩
  have e : run (.psgld lr decay epsilon) (List.replicate k push ++ [push]) (at0 0 0) =
      run (.psgld lr decay epsilon) [push] (run (.psgld lr decay epsilon) (List.replicate k push) (at0 0 0)) := by
    simp only [run, List.foldl_append]
  have ha := push_psgld lr decay epsilon k (at0 0 0)
  rw [e]
  generalize run (.psgld lr decay epsilon) (List.replicate k push) (at0 0 0) = x at ha ⊢
  have ha : x.aux () () = 1 - decay ^ k := by rw [ha]; simp [at0]
  have hpow : decay ^ k < 1 := pow_lt_one₀ hd.le hd1 hk
  simp only [run, List.foldl_cons, List.foldl_nil, step, restore, psgld, rmsAux, rmsPreconditioner, push, at0, ha]
  simp only [mul_zero, add_zero, zero_add, mul_one, one_pow]
  have hlt : 1 - decay < decay * (1 - decay ^ k) + (1 - decay) := by
    have := mul_pos hd (sub_pos.2 hpow)
    linarith
  have hs := Real.sqrt_lt_sqrt (sub_pos.2 hd1).le hlt
  have h0 := Real.sqrt_nonneg (1 - decay)
  have : 1 / (epsilon + Real.sqrt (decay * (1 - decay ^ k) + (1 - decay))) < 1 / (epsilon + Real.sqrt (1 - decay)) :=
    one_div_lt_one_div_of_lt (by linarith) (by linarith)
  have := mul_lt_mul_of_pos_left this (show 0 < 0.5 * lr by linarith)
  linarith

theorem quiet_sgnht (lr tuneRate : ℝ) (n : ℕ) (vector : Bool) (k : ℕ) (al : ℝ) (t : ℕ) :
    run (.sgnht lr 0 tuneRate n true vector) (List.replicate k (quiet 0))
      { at0 0 t with alpha := fun _ _ => al } =
      { at0 0 (t + k) with alpha := fun _ _ => al - k * (tuneRate * lr) } := by
  induction k generalizing al t with
  | zero => simp [run]
  | succ k ih =>
    have e : step (.sgnht lr 0 tuneRate n true vector) { at0 0 t with alpha := fun _ _ => al } (quiet 0) =
        { at0 0 (t + 1) with alpha := fun _ _ => al - tuneRate * lr } := by
      cases vector <;> simp [step, at0, quiet, sgnht2, oldV, maybeMeanSq, meanK] <;> (funext _ _; ring)
    simp only [run, List.replicate_succ, List.foldl_cons] at ih ⊢
    rw [e, ih]
    congr 1
    · funext _ _
      push_cast
      ring
    · show t + 1 + k = t + (k + 1)
      omega

/-- C120, finding.  The latent variables alone are not enough for SGNHT after any iteration, even one before which the momenta are
resampled: the frictions start again. -/
theorem C120_latent_sgnht_needed (lr tuneRate : ℝ) (hl : 0 < lr) (ht : tuneRate ≠ 0) (n : ℕ) (vector : Bool) (k : ℕ) (hk : k ≠ 0) :
    ∃ (ws ws' : List (Input fun _ : Unit => Unit)) (s fresh : Vars fun _ : Unit => Unit), ws.length = k ∧
      s.t = 0 ∧ (∀ v i, s.alpha v i = 0) ∧ fresh.t = 0 ∧ (∀ v i, fresh.alpha v i = 0) ∧
      (run (.sgnht lr 0 tuneRate n true vector) ws' (restore .latent (run (.sgnht lr 0 tuneRate n true vector) ws s) fresh)).q ≠
        (run (.sgnht lr 0 tuneRate n true vector) (ws ++ ws') s).q := by
  refine ⟨List.replicate k (quiet 0), [quiet 1], { at0 0 0 with alpha := fun _ _ => 0 }, at0 (Real.sqrt lr) 0, by simp, rfl,
    fun _ _ => rfl, rfl, fun _ _ => rfl, fun h => ?_⟩
  have e : run (.sgnht lr 0 tuneRate n true vector) (List.replicate k (quiet 0) ++ [quiet 1]) { at0 0 0 with alpha := fun _ _ => 0 } =
      run (.sgnht lr 0 tuneRate n true vector) [quiet 1]
        (run (.sgnht lr 0 tuneRate n true vector) (List.replicate k (quiet 0)) { at0 0 0 with alpha := fun _ _ => 0 }) := by
    simp only [run, List.foldl_append]
  rw [e, quiet_sgnht, Nat.zero_add] at h
  have h := congrFun (congrFun h ()) ()
  have hs : 0 < Real.sqrt lr := Real.sqrt_pos.2 hl
  have hm : ∀ x : Unit → ℝ, maybeMeanSq vector x () = x () ^ 2 := by
    intro x
    cases vector <;> simp [maybeMeanSq, meanK]
  have hk' : (k : ℝ) * (tuneRate * lr) ≠ 0 := mul_ne_zero (by exact_mod_cast hk) (mul_ne_zero ht hl.ne')
  cases h1 : resampleNow n k with
  | false =>
    simp [run, step, restore, at0, quiet, sgnht2, oldV, h1, hm] at h
    have hp : 0 < Real.exp (-(0.5 * (0.5 * tuneRate * (Real.sqrt lr ^ 2 - lr)))) *
        (Real.exp (-(0.5 * (0.5 * tuneRate * (Real.sqrt lr ^ 2 - lr)))) * Real.sqrt lr) :=
      mul_pos (Real.exp_pos _) (mul_pos (Real.exp_pos _) hs)
    linarith
  | true =>
    simp [run, step, restore, at0, quiet, sgnht2, oldV, h1, hm] at h
    rcases h with h | h
    · generalize Real.sqrt lr ^ 2 - lr = d at h
      simp only [← mul_assoc _ _ (Real.sqrt lr), ← Real.exp_add] at h
      have h := Real.exp_injective (mul_right_cancel₀ hs.ne' h)
      apply hk'
      linarith
    · norm_num at h

/-- The hypotheses of the three findings are met: the default arguments after 30 iterations. -/
example : (0 : ℝ) < 0.01 ∧ ((20 : ℕ) = 0 ∨ ¬20 ∣ 30) ∧ (0 : ℝ) < 0.9 ∧ (0.9 : ℝ) < 1 ∧ (0 : ℝ) < 0.001 ∧ (30 : ℕ) ≠ 0 ∧ (1 : ℝ) ≠ 0 := by
  norm_num

end ZhuSuan.Resume

/-! ## HMC -/

namespace ZhuSuan.Hmc

variable {α : Type} [Add α] [Sub α] [Neg α] [Mul α] [Div α] [Flt α]
variable {C ι : Type} [Fintype C] [Fintype ι]

/-- C120.  HMC with all variables saved goes on as if it had not been interrupted, wherever it was, and whatever it adapts. -/
theorem C120_hmc_all (cfg : Cfg α) (logPost : (C → ι → α) → C → α) (grad : (C → ι → α) → C → ι → α)
    (ws ws' : List (Call α C ι)) (s : State α C ι) :
    (runCalls cfg logPost grad ws s).bind (runCalls cfg logPost grad ws') = runCalls cfg logPost grad (ws ++ ws') s := by
  induction ws generalizing s with
  | nil => rfl
  | cons w ws ih =>
    simp only [List.cons_append, runCalls]
    cases sampleWith w.fetches cfg logPost grad w.feed w.z w.u s with
    | ok s1 _ => exact ih s1
    | numericError => rfl
    | diverges => rfl

/-- Without adaptation an iteration uses the latent variables and the step size, and changes only the former. -/
theorem sampleWith_fixed (f : Fetches) (cfg : Cfg α) (h1 : cfg.adaptsStep = false) (h2 : cfg.adaptsMass = false)
    (logPost : (C → ι → α) → C → α) (grad : (C → ι → α) → C → ι → α) (feed : Feed) (z : C → ι → α) (u : C → α)
    (s x : State α C ι) (hq : s.q = x.q) (he : s.stepSize = x.stepSize) :
    (∃ q info, sampleWith f cfg logPost grad feed z u s = .ok { s with q := q } info ∧
      sampleWith f cfg logPost grad feed z u x = .ok { x with q := q } info) ∨
    (sampleWith f cfg logPost grad feed z u s = .numericError ∧ sampleWith f cfg logPost grad feed z u x = .numericError) := by
  simp only [sampleWith, iteration, usedStepSize, adaptMass, h1, h2, Bool.false_eq_true, if_false, Option.map_some, Bool.or_false, hq, he]
  by_cases hc : f.checked = true ∧ ∃ c, ¬Flt.isFinite ((transition cfg.nLeapfrogs logPost grad (fun _ => Flt.ofReal 1)
      x.stepSize x.q (randomMomentum z fun _ => Flt.ofReal 1) u).mh c).oldLogProb
  · right
    rw [if_pos hc, if_pos hc]
    exact ⟨rfl, rfl⟩
  · left
    rw [if_neg hc, if_neg hc]
    refine ⟨_, _, ?_, rfl⟩
    rw [← he]

/-- C120.  HMC without adaptation needs only the latent variables, if the new program is given the same step size. -/
theorem C120_hmc_latent (cfg : Cfg α) (h1 : cfg.adaptsStep = false) (h2 : cfg.adaptsMass = false)
    (logPost : (C → ι → α) → C → α) (grad : (C → ι → α) → C → ι → α)
    (ws ws' : List (Call α C ι)) (s fresh : State α C ι) (he : fresh.stepSize = s.stepSize) :
    ((runCalls cfg logPost grad ws s).bind fun x => (runCalls cfg logPost grad ws' { fresh with q := x.q }).map State.q) =
      (runCalls cfg logPost grad (ws ++ ws') s).map State.q := by
  have key : ∀ (ws : List (Call α C ι)) (s x : State α C ι), s.q = x.q → s.stepSize = x.stepSize →
      (runCalls cfg logPost grad ws s).map State.q = (runCalls cfg logPost grad ws x).map State.q := by
    intro ws
    induction ws with
    | nil => intro s x hq _; simp [runCalls, hq]
    | cons w ws ih =>
      intro s x hq he
      simp only [runCalls]
      rcases sampleWith_fixed w.fetches cfg h1 h2 logPost grad w.feed w.z w.u s x hq he with ⟨q, info, e1, e2⟩ | ⟨e1, e2⟩
      · rw [e1, e2]
        exact ih _ _ rfl he
      · rw [e1, e2]
  have hstep : ∀ (ws : List (Call α C ι)) (s x : State α C ι), runCalls cfg logPost grad ws s = some x → x.stepSize = s.stepSize := by
    intro ws
    induction ws with
    | nil => intro s x h; simp only [runCalls, Option.some.injEq] at h; rw [h]
    | cons w ws ih =>
      intro s x h
      simp only [runCalls] at h
      rcases sampleWith_fixed w.fetches cfg h1 h2 logPost grad w.feed w.z w.u s s rfl rfl with ⟨q, info, e1, -⟩ | ⟨e1, -⟩
      · rw [e1] at h
        exact ih { s with q := q } x h
      · rw [e1] at h
        exact absurd h (by simp)
  rw [← C120_hmc_all]
  cases hx : runCalls cfg logPost grad ws s with
  | none => rfl
  | some x => exact key ws' { fresh with q := x.q } x rfl (he.trans (hstep ws s x hx).symm)

/-- The hypotheses are met by `HMC(step_size=0.1, n_leapfrogs=5)`. -/
example (t : TunerCfg ℝ) : let cfg : Cfg ℝ := ⟨5, 0.8, t, false, false, 0, 0.99⟩
    cfg.adaptsStep = false ∧ cfg.adaptsMass = false := ⟨rfl, rfl⟩

end ZhuSuan.Hmc

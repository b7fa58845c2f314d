import Mathlib.MeasureTheory.Constructions.Pi
import Mathlib.MeasureTheory.Measure.Lebesgue.EqHaar
import Mathlib.MeasureTheory.Measure.Haar.Unique
import Verif.Model.Hmc

/-!
# Lemmas about the leapfrog integrator and the Metropolis test, over the reals
-/

set_option autoImplicit false

open MeasureTheory Set
open scoped ENNReal

namespace ZhuSuan.Hmc

@[simp] theorem flt_ofReal (x : ℝ) : (Flt.ofReal x : ℝ) = x := rfl
@[simp] theorem flt_exp (x : ℝ) : Flt.exp x = Real.exp x := rfl
@[simp] theorem flt_sqrt (x : ℝ) : Flt.sqrt x = Real.sqrt x := rfl
@[simp] theorem flt_pow (x y : ℝ) : Flt.pow x y = x ^ y := rfl
@[simp] theorem flt_minimum (x y : ℝ) : Flt.minimum x y = min x y := rfl
@[simp] theorem flt_isFinite (x : ℝ) : Flt.isFinite x ↔ True := Iff.rfl
@[simp] theorem flt_lt (x y : ℝ) : Flt.lt x y ↔ x < y := Iff.rfl
@[simp] theorem flt_sum {ι : Type} [Fintype ι] (f : ι → ℝ) : Flt.sum f = ∑ i, f i := rfl

variable {C ι : Type} [Fintype C] [Fintype ι]
variable (mass : ι → ℝ) (grad : (C → ι → ℝ) → C → ι → ℝ)

/-- Moving the position. -/
noncomputable def drift (s : ℝ) (x : (C → ι → ℝ) × (C → ι → ℝ)) : (C → ι → ℝ) × (C → ι → ℝ) :=
  (fun c i => x.1 c i + s * (x.2 c i / mass i), x.2)

/-- Moving the momentum. -/
def kick (s : ℝ) (x : (C → ι → ℝ) × (C → ι → ℝ)) : (C → ι → ℝ) × (C → ι → ℝ) :=
  (x.1, fun c i => x.2 c i + s * grad x.1 c i)

/-- Reversing the momentum. -/
def neg (x : (C → ι → ℝ) × (C → ι → ℝ)) : (C → ι → ℝ) × (C → ι → ℝ) := (x.1, fun c i => -x.2 c i)

omit [Fintype C] [Fintype ι] in
theorem integrator_eq (s1 s2 : ℝ) (x : (C → ι → ℝ) × (C → ι → ℝ)) :
    leapfrogIntegrator mass grad s1 s2 x = kick grad s2 (drift mass s1 x) := rfl

omit [Fintype C] [Fintype ι] in
theorem drift_zero (x : (C → ι → ℝ) × (C → ι → ℝ)) : drift mass 0 x = x := by
  simp [drift]

omit [Fintype C] [Fintype ι] in
theorem drift_neg (s : ℝ) (x : (C → ι → ℝ) × (C → ι → ℝ)) :
    drift mass s (neg (drift mass s x)) = neg x := by
  simp only [drift, neg, Prod.mk.injEq, and_true]
  funext c i
  ring

omit [Fintype C] [Fintype ι] in
theorem kick_neg (s : ℝ) (x : (C → ι → ℝ) × (C → ι → ℝ)) :
    kick grad s (neg (kick grad s x)) = neg x := by
  simp only [kick, neg, Prod.mk.injEq, true_and]
  funext c i
  ring

omit [Fintype C] [Fintype ι] in
theorem neg_neg' (x : (C → ι → ℝ) × (C → ι → ℝ)) : neg (neg x) = x := by
  simp [neg]

omit [Fintype C] [Fintype ι] in
/-- The loop for no leapfrog step. -/
theorem leapfrog_zero (eps : ℝ) (x : (C → ι → ℝ) × (C → ι → ℝ)) :
    leapfrog mass grad 0 eps x = kick grad (eps / 2) x := by
  simp only [leapfrog, List.range_succ, List.range_zero]
  simp [integrator_eq, drift_zero]

omit [Fintype C] [Fintype ι] in
theorem leapfrog_prefix (n : ℕ) (eps : ℝ) (x : (C → ι → ℝ) × (C → ι → ℝ)) :
    ∀ k, k < n → (List.range (k + 1)).foldl (fun x i =>
      let s1 : ℝ := if 0 < i then eps else Flt.ofReal 0
      let s2 : ℝ := if i < n ∧ 0 < i then eps else eps / Flt.ofReal 2
      leapfrogIntegrator mass grad s1 s2 x) x =
      (fun y => kick grad eps (drift mass eps y))^[k] (kick grad (eps / 2) x) := by
  intro k
  induction k with
  | zero =>
    intro hk
    simp [List.range_succ, integrator_eq, drift_zero]
  | succ k ih =>
    intro hk
    rw [List.range_succ, List.foldl_append, ih (by omega), Function.iterate_succ_apply']
    simp only [List.foldl_cons, List.foldl_nil, integrator_eq]
    rw [if_pos (show k + 1 < n ∧ 0 < k + 1 from ⟨hk, by omega⟩), if_pos (show 0 < k + 1 by omega)]

omit [Fintype C] [Fintype ι] in
/-- The loop for at least one leapfrog step: half a kick, whole steps, half a kick. -/
theorem leapfrog_succ (n : ℕ) (eps : ℝ) (x : (C → ι → ℝ) × (C → ι → ℝ)) :
    leapfrog mass grad (n + 1) eps x = kick grad (eps / 2) (drift mass eps
      ((fun y => kick grad eps (drift mass eps y))^[n] (kick grad (eps / 2) x))) := by
  have h := leapfrog_prefix mass grad (n + 1) eps x n (by omega)
  simp only [leapfrog]
  rw [List.range_succ, List.foldl_append]
  rw [h]
  simp only [List.foldl_cons, List.foldl_nil, integrator_eq]
  rw [if_neg (show ¬(n + 1 < n + 1 ∧ 0 < n + 1) by omega), if_pos (show 0 < n + 1 by omega)]
  rfl

omit [Fintype C] [Fintype ι] in
/-- The middle part undoes itself under reversal. -/
theorem middle_neg (eps : ℝ) (n : ℕ) : ∀ x : (C → ι → ℝ) × (C → ι → ℝ),
    drift mass eps ((fun y => kick grad eps (drift mass eps y))^[n]
      (neg (drift mass eps ((fun y => kick grad eps (drift mass eps y))^[n] x)))) = neg x := by
  induction n with
  | zero => intro x; exact drift_neg mass eps x
  | succ n ih =>
    intro x
    set F : (C → ι → ℝ) × (C → ι → ℝ) → (C → ι → ℝ) × (C → ι → ℝ) :=
      fun y => kick grad eps (drift mass eps y) with hF
    -- outer: D F^(n+1), inner: D F^(n+1) = D K D F^n
    rw [Function.iterate_succ_apply, Function.iterate_succ_apply' F n x]
    have e : F (neg (drift mass eps (F (F^[n] x)))) = neg (drift mass eps (F^[n] x)) := by
      simp only [hF]
      rw [drift_neg, kick_neg]
    rw [e, ih x]

omit [Fintype C] [Fintype ι] in
theorem leapfrog_neg (n : ℕ) (eps : ℝ) (x : (C → ι → ℝ) × (C → ι → ℝ)) :
    leapfrog mass grad n eps (neg (leapfrog mass grad n eps x)) = neg x := by
  cases n with
  | zero => rw [leapfrog_zero, leapfrog_zero, kick_neg]
  | succ n =>
    rw [leapfrog_succ mass grad n eps x, leapfrog_succ, kick_neg, middle_neg, kick_neg]

/-! ## Volume -/

theorem measurePreserving_kick (hg : Measurable grad) (s : ℝ) :
    MeasurePreserving (kick grad s) (volume.prod volume) (volume.prod volume) := by
  refine MeasurePreserving.skew_product (g := fun (q p : C → ι → ℝ) => fun c i => p c i + s * grad q c i)
    (MeasurePreserving.id _) ?_ (Filter.Eventually.of_forall fun q => ?_)
  · refine measurable_pi_lambda _ fun c => measurable_pi_lambda _ fun i => ?_
    have h1 : Measurable fun a : (C → ι → ℝ) × (C → ι → ℝ) => grad a.1 c i :=
      (measurable_pi_apply i).comp ((measurable_pi_apply c).comp (hg.comp measurable_fst))
    have h2 : Measurable fun a : (C → ι → ℝ) × (C → ι → ℝ) => a.2 c i :=
      (measurable_pi_apply i).comp ((measurable_pi_apply c).comp measurable_snd)
    exact h2.add (measurable_const.mul h1)
  · exact map_add_right_eq_self volume fun c i => s * grad q c i

theorem measurePreserving_drift (s : ℝ) :
    MeasurePreserving (drift (C := C) mass s) (volume.prod volume) (volume.prod volume) := by
  have h : MeasurePreserving (fun x : (C → ι → ℝ) × (C → ι → ℝ) =>
      (x.1, fun c i => x.2 c i + s * (x.1 c i / mass i))) (volume.prod volume) (volume.prod volume) := by
    refine MeasurePreserving.skew_product (g := fun (p q : C → ι → ℝ) => fun c i => q c i + s * (p c i / mass i))
      (MeasurePreserving.id _) ?_ (Filter.Eventually.of_forall fun q => ?_)
    · refine measurable_pi_lambda _ fun c => measurable_pi_lambda _ fun i => ?_
      have h1 : Measurable fun a : (C → ι → ℝ) × (C → ι → ℝ) => a.1 c i :=
        (measurable_pi_apply i).comp ((measurable_pi_apply c).comp measurable_fst)
      have h2 : Measurable fun a : (C → ι → ℝ) × (C → ι → ℝ) => a.2 c i :=
        (measurable_pi_apply i).comp ((measurable_pi_apply c).comp measurable_snd)
      exact h2.add (measurable_const.mul (h1.div_const _))
    · exact map_add_right_eq_self volume fun c i => s * (q c i / mass i)
  exact (Measure.measurePreserving_swap.comp h).comp Measure.measurePreserving_swap

theorem measurePreserving_neg :
    MeasurePreserving (neg (C := C) (ι := ι)) (volume.prod volume) (volume.prod volume) :=
  (MeasurePreserving.id _).prod (Measure.measurePreserving_neg (volume : Measure (C → ι → ℝ)))

theorem measurePreserving_leapfrog (hg : Measurable grad) (n : ℕ) (eps : ℝ) :
    MeasurePreserving (leapfrog mass grad n eps) (volume.prod volume) (volume.prod volume) := by
  cases n with
  | zero =>
    rw [funext (leapfrog_zero mass grad eps)]
    exact measurePreserving_kick grad hg _
  | succ n =>
    rw [funext (leapfrog_succ mass grad n eps)]
    have hk := measurePreserving_kick grad hg (eps / 2)
    have hF : MeasurePreserving (fun y => kick grad eps (drift mass eps y)) (volume.prod volume)
        (volume.prod volume) :=
      (measurePreserving_kick grad hg eps).comp (measurePreserving_drift mass eps)
    exact hk.comp ((measurePreserving_drift mass eps).comp ((hF.iterate n).comp hk))

/-! ## One chain -/

omit [Fintype C] [Fintype ι] in
/-- If the gradient of a chain depends on that chain only, so does its trajectory. -/
theorem leapfrog_chain {D : Type} (n : ℕ) (eps : ℝ) (c : C) (d : D)
    (grad' : (D → ι → ℝ) → D → ι → ℝ) (g : (ι → ℝ) → ι → ℝ) (h : ∀ q, grad q c = g (q c))
    (h' : ∀ q, grad' q d = g (q d)) (x : (C → ι → ℝ) × (C → ι → ℝ)) (y : (D → ι → ℝ) × (D → ι → ℝ))
    (h1 : x.1 c = y.1 d) (h2 : x.2 c = y.2 d) :
    (leapfrog mass grad n eps x).1 c = (leapfrog mass grad' n eps y).1 d ∧
    (leapfrog mass grad n eps x).2 c = (leapfrog mass grad' n eps y).2 d := by
  simp only [leapfrog]
  generalize List.range (n + 1) = l
  induction l generalizing x y with
  | nil => exact ⟨h1, h2⟩
  | cons i l ih =>
    simp only [List.foldl_cons]
    have e1 : ∀ s1 s2 : ℝ, (leapfrogIntegrator mass grad s1 s2 x).1 c =
        (leapfrogIntegrator mass grad' s1 s2 y).1 d := fun s1 s2 => by
      simp only [leapfrogIntegrator, velocity, h1, h2]
    have e2 : ∀ s1 s2 : ℝ, (leapfrogIntegrator mass grad s1 s2 x).2 c =
        (leapfrogIntegrator mass grad' s1 s2 y).2 d := fun s1 s2 => by
      simp only [leapfrogIntegrator, velocity, h1, h2, h, h']
    exact ih _ _ (e1 _ _) (e2 _ _)

end ZhuSuan.Hmc

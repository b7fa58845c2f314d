import Mathlib.MeasureTheory.Constructions.Pi
import Mathlib.MeasureTheory.Measure.WithDensity
import Mathlib.MeasureTheory.Function.SpecialFunctions.Basic
import Verif.Model.Ais

/-!
# Annealing along invariant kernels
-/

set_option autoImplicit false

open MeasureTheory
open scoped ENNReal

namespace ZhuSuan.Ais

variable {X N : Type}

/-- The state after `k` transitions. -/
def path (step : ℕ → N → X → X) (x : X) : (k : ℕ) → (Fin k → N) → X
  | 0, _ => x
  | k + 1, w => step (k + 1) (w (Fin.last k)) (path step x k fun i => w i.castSucc)

/-- The log weight after `k` complete rounds. -/
def wt (l : ℕ → X → ℝ) (step : ℕ → N → X → X) (x : X) : (k : ℕ) → (Fin k → N) → ℝ
  | 0, _ => -l 0 x
  | k + 1, w => wt l step x k (fun i => w i.castSucc) +
      (l (k + 1) (path step x k fun i => w i.castSucc) - l (k + 1) (path step x (k + 1) w))

variable [MeasurableSpace X] [MeasurableSpace N]

theorem measurable_init (k : ℕ) : Measurable fun p : X × (Fin (k + 1) → N) =>
    (p.1, (fun i => p.2 i.castSucc : Fin k → N)) := by
  refine measurable_fst.prodMk (measurable_pi_lambda _ fun i => ?_)
  exact (measurable_pi_apply _).comp measurable_snd

theorem measurable_path (step : ℕ → N → X → X) (hs : ∀ k, Measurable fun p : N × X => step k p.1 p.2) (k : ℕ) :
    Measurable fun p : X × (Fin k → N) => path step p.1 k p.2 := by
  induction k with
  | zero => exact measurable_fst
  | succ k ih =>
    have h2 : Measurable fun p : X × (Fin (k + 1) → N) => p.2 (Fin.last k) :=
      (measurable_pi_apply _).comp measurable_snd
    exact (hs (k + 1)).comp (h2.prodMk (ih.comp (measurable_init k)))

theorem measurable_wt (l : ℕ → X → ℝ) (hl : ∀ k, Measurable (l k)) (step : ℕ → N → X → X)
    (hs : ∀ k, Measurable fun p : N × X => step k p.1 p.2) (k : ℕ) :
    Measurable fun p : X × (Fin k → N) => wt l step p.1 k p.2 := by
  induction k with
  | zero => exact ((hl 0).comp measurable_fst).neg
  | succ k ih =>
    have h1 := ih.comp (measurable_init (X := X) (N := N) k)
    have h2 := (hl (k + 1)).comp ((measurable_path step hs k).comp (measurable_init k))
    have h3 := (hl (k + 1)).comp (measurable_path step hs (k + 1))
    exact h1.add (h2.sub h3)

theorem measurable_expOf {l : X → ℝ} (hl : Measurable l) : Measurable fun x => ENNReal.ofReal (Real.exp (l x)) :=
  (Real.measurable_exp.comp hl).ennreal_ofReal

theorem exp_sub_mul (a b : ℝ) : ENNReal.ofReal (Real.exp (a + b)) =
    ENNReal.ofReal (Real.exp a) * ENNReal.ofReal (Real.exp b) := by
  rw [Real.exp_add, ENNReal.ofReal_mul (Real.exp_pos _).le]

/-- Weighted by `exp wt`, the state after `k` transitions has law `base`. -/
theorem lintegral_wt (base : Measure X) [SFinite base] (ν : Measure N) [IsProbabilityMeasure ν]
    (l : ℕ → X → ℝ) (hl : ∀ k, Measurable (l k)) (step : ℕ → N → X → X)
    (hs : ∀ k, Measurable fun p : N × X => step k p.1 p.2)
    (hinv : ∀ k {F : X → ℝ≥0∞}, Measurable F →
      ∫⁻ x, ENNReal.ofReal (Real.exp (l k x)) * ∫⁻ n, F (step k n x) ∂ν ∂base =
        ∫⁻ x, ENNReal.ofReal (Real.exp (l k x)) * F x ∂base) (k : ℕ) :
    ∀ {F : X → ℝ≥0∞}, Measurable F →
    ∫⁻ x, ENNReal.ofReal (Real.exp (l 0 x)) *
      ∫⁻ w, ENNReal.ofReal (Real.exp (wt l step x k w)) * F (path step x k w) ∂(Measure.pi fun _ : Fin k => ν)
        ∂base = ∫⁻ x, F x ∂base := by
  induction k with
  | zero =>
    intro F hF
    refine lintegral_congr fun x => ?_
    simp only [wt, path, lintegral_const, measure_univ, mul_one]
    rw [← mul_assoc, ← exp_sub_mul]
    simp
  | succ k ih =>
    intro F hF
    -- the integral over the last draw
    set G : X → ℝ≥0∞ := fun y => ENNReal.ofReal (Real.exp (l (k + 1) y)) *
      ∫⁻ n, ENNReal.ofReal (Real.exp (-l (k + 1) (step (k + 1) n y))) * F (step (k + 1) n y) ∂ν with hG
    have mE : Measurable fun y => ENNReal.ofReal (Real.exp (-l (k + 1) y)) * F y :=
      (measurable_expOf (hl (k + 1)).neg).mul hF
    have mE2 : Measurable fun p : X × N => ENNReal.ofReal (Real.exp (-l (k + 1) (step (k + 1) p.2 p.1))) *
        F (step (k + 1) p.2 p.1) := mE.comp ((hs (k + 1)).comp measurable_swap)
    have mG : Measurable G := (measurable_expOf (hl (k + 1))).mul mE2.lintegral_prod_right
    have key : ∀ x, ∫⁻ w, ENNReal.ofReal (Real.exp (wt l step x (k + 1) w)) * F (path step x (k + 1) w)
        ∂(Measure.pi fun _ : Fin (k + 1) => ν) =
        ∫⁻ w, ENNReal.ofReal (Real.exp (wt l step x k w)) * G (path step x k w)
          ∂(Measure.pi fun _ : Fin k => ν) := by
      intro x
      have hmp := measurePreserving_piFinSuccAbove (fun _ : Fin (k + 1) => ν) (Fin.last k)
      set H : N × (Fin k → N) → ℝ≥0∞ := fun p =>
        ENNReal.ofReal (Real.exp (wt l step x k p.2)) *
          (ENNReal.ofReal (Real.exp (l (k + 1) (path step x k p.2))) *
          (ENNReal.ofReal (Real.exp (-l (k + 1) (step (k + 1) p.1 (path step x k p.2)))) *
            F (step (k + 1) p.1 (path step x k p.2)))) with hH
      have mw : Measurable fun w : Fin k → N => wt l step x k w :=
        (measurable_wt l hl step hs k).comp measurable_prodMk_left
      have mp : Measurable fun w : Fin k → N => path step x k w :=
        (measurable_path step hs k).comp measurable_prodMk_left
      have mH : Measurable H := by
        refine (measurable_expOf (mw.comp measurable_snd)).mul
          ((measurable_expOf ((hl (k + 1)).comp (mp.comp measurable_snd))).mul ?_)
        exact mE2.comp ((mp.comp measurable_snd).prodMk measurable_fst)
      have e : ∀ w : Fin (k + 1) → N,
          ENNReal.ofReal (Real.exp (wt l step x (k + 1) w)) * F (path step x (k + 1) w) =
          H (MeasurableEquiv.piFinSuccAbove (fun _ => N) (Fin.last k) w) := by
        intro w
        have e1 : MeasurableEquiv.piFinSuccAbove (fun _ => N) (Fin.last k) w =
            (w (Fin.last k), fun i => w i.castSucc) := by
          refine Prod.ext rfl (funext fun i => ?_)
          show w ((Fin.last k).succAbove i) = w i.castSucc
          rw [Fin.succAbove_last]
        rw [e1]
        simp only [hH, wt, path]
        rw [exp_sub_mul, sub_eq_add_neg, exp_sub_mul]
        ring
      simp only [e]
      rw [hmp.lintegral_comp mH, lintegral_prod_symm _ mH.aemeasurable]
      refine lintegral_congr fun w => ?_
      have mE3 : Measurable fun n => ENNReal.ofReal (Real.exp (-l (k + 1) (step (k + 1) n (path step x k w)))) *
          F (step (k + 1) n (path step x k w)) := mE2.comp measurable_prodMk_left
      simp only [hH, hG]
      rw [← lintegral_const_mul _ mE3]
      exact lintegral_const_mul _ (measurable_const.mul mE3)
    rw [lintegral_congr fun x => by rw [key x], ih mG]
    simp only [hG]
    rw [hinv (k + 1) mE]
    refine lintegral_congr fun x => ?_
    rw [← mul_assoc, ← exp_sub_mul]
    simp

omit [MeasurableSpace X] [MeasurableSpace N] in
/-- What the main loop computes for chain `c`, if the state and noise of that chain can be separated. -/
theorem annealLoop_chain {S M C : Type} (op : SampleOp S M C) (n : ℕ) (c : C) (pr : S → X) (pn : M → N)
    (step : ℕ → N → X → X) (l : ℕ → X → ℝ) (inv : S → Prop)
    (hop : ∀ k s w, inv s → ∃ s' o o', op (scheduleT n ((k : ℕ) : ℝ)) w s = some (s', o, o') ∧ inv s' ∧
      pr s' = step k (pn w) (pr s) ∧ o c = l k (pr s) ∧ o' c = l k (pr s'))
    (s : S) (hs : inv s) (lw : C → ℝ) (h0 : lw c = -l 0 (pr s)) (k : ℕ) (hk : k < n) (w : Fin (k + 1) → M) :
    ∃ y lw' lw'', annealLoop op n (s, lw) k (fun i => w i.castSucc) = some (y, lw') ∧ inv y ∧
      pr y = path step (pr s) k (fun i => pn (w i.castSucc)) ∧
      lw' c = wt l step (pr s) k (fun i => pn (w i.castSucc)) ∧
      (annealLoop op n (s, lw) (k + 1) w).map Prod.snd = some lw'' ∧
      (k + 1 = n → lw'' c = lw' c + l (k + 1) (pr y)) := by
  have first : ∀ (k : ℕ) (hk : k < n) (w : Fin k → M), ∃ y lw', annealLoop op n (s, lw) k w = some (y, lw') ∧
      inv y ∧ pr y = path step (pr s) k (fun i => pn (w i)) ∧
      lw' c = wt l step (pr s) k (fun i => pn (w i)) := by
    intro k
    induction k with
    | zero => intro _ w; exact ⟨s, lw, rfl, hs, rfl, h0⟩
    | succ k ih =>
      intro hk w
      obtain ⟨y, lw', h1, h2, h3, h4⟩ := ih (by omega) fun i => w i.castSucc
      obtain ⟨s', o, o', g1, g2, g3, g4, g5⟩ := hop (k + 1) y (w (Fin.last k)) h2
      refine ⟨s', fun c => lw' c + (o c - o' c), ?_, g2, ?_, ?_⟩
      · simp only [annealLoop, h1, annealStep, g1, if_pos hk]
      · rw [g3, h3]; rfl
      · simp only
        rw [g4, g5, h4, g3, h3]; rfl
  obtain ⟨y, lw', h1, h2, h3, h4⟩ := first k hk fun i => w i.castSucc
  obtain ⟨s', o, o', g1, g2, g3, g4, g5⟩ := hop (k + 1) y (w (Fin.last k)) h2
  refine ⟨y, lw', if k + 1 < n then (fun c => lw' c + (o c - o' c)) else fun c => lw' c + o c, h1, h2, h3, h4,
    ?_, ?_⟩
  · simp only [annealLoop, h1, annealStep, g1]
    split <;> rfl
  · intro h
    rw [if_neg (by omega), g4]

end ZhuSuan.Ais

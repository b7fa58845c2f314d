import Verif.Lemmas.BatchLaw
import Verif.Props.MvNormal
import Verif.Props.Concrete
import Verif.Props.Discrete1
import Verif.Props.Discrete2

/-! # The laws of one vector, on the space of all vectors -/

set_option autoImplicit false

open MeasureTheory ProbabilityTheory Set
open scoped ENNReal

namespace ZhuSuan.Batch
open Shape Num Meas
open Uni (Idx)

variable {n : ℕ}

theorem simplexMeasure_eq : simplexMeasure n = (volume.restrict (openSimplex n)).map simplexPoint := rfl

theorem logSimplexMeasure_eq : logSimplexMeasure n = ((volume.restrict (logSimplex n)).withDensity fun y =>
    ENNReal.ofReal (1 / (1 - ∑ i, Real.exp (y i)))).map logPoint := rfl

theorem measurable_simplexPoint : Measurable (simplexPoint : (Fin n → ℝ) → Fin (n + 1) → ℝ) := by
  refine measurable_pi_lambda _ fun i => ?_
  refine Fin.lastCases ?_ (fun j => ?_) i
  · simp only [simplexPoint, Fin.snoc_last]; fun_prop
  · simp only [simplexPoint, Fin.snoc_castSucc]; fun_prop

theorem measurable_logPoint : Measurable (logPoint : (Fin n → ℝ) → Fin (n + 1) → ℝ) := by
  refine measurable_pi_lambda _ fun i => ?_
  refine Fin.lastCases ?_ (fun j => ?_) i
  · simp only [logPoint, Fin.snoc_last]; fun_prop
  · simp only [logPoint, Fin.snoc_castSucc]; fun_prop

/-- A measure carried by a map with an inverse. -/
theorem sigmaFinite_map_of_inverse {D E : Type} [MeasurableSpace D] [MeasurableSpace E] (μ : Measure D) [SigmaFinite μ]
    (φ : D → E) (hφ : Measurable φ) (g : E → D) (hg : Measurable g) (h : ∀ x, g (φ x) = x) : SigmaFinite (μ.map φ) := by
  refine SigmaFinite.of_map _ hg.aemeasurable ?_
  rw [Measure.map_map hg hφ, show g ∘ φ = id from funext h, Measure.map_id]
  infer_instance

/-- The first entries. -/
def firsts (x : Fin (n + 1) → ℝ) : Fin n → ℝ := fun j => x j.castSucc

theorem measurable_firsts : Measurable (firsts : (Fin (n + 1) → ℝ) → Fin n → ℝ) := by unfold firsts; fun_prop

instance : SigmaFinite (simplexMeasure n) :=
  sigmaFinite_map_of_inverse _ _ measurable_simplexPoint firsts measurable_firsts fun x => by
    funext j; simp [firsts, simplexPoint]

instance (N : ℕ) : SigmaFinite (countMeasure n N) := by unfold countMeasure; infer_instance

instance : SigmaFinite (logSimplexMeasure n) := by
  have : SigmaFinite ((volume.restrict (logSimplex n)).withDensity fun y =>
      ENNReal.ofReal (1 / (1 - ∑ i, Real.exp (y i)))) := SigmaFinite.withDensity_ofReal _
  exact sigmaFinite_map_of_inverse _ _ measurable_logPoint firsts measurable_firsts fun x => by
    funext j; simp [firsts, logPoint]

/-! ### Dirichlet, Concrete, ExpConcrete -/

theorem measurable_dirichletLogProb (f : Flags) (a : Fin (n + 1) → ℝ) : Measurable (dirichletLogProb f a) := by
  simp only [funext fun x => dirichletLogProb.eq_1 f a x, Fn.sum, Fn.log, Fn.ofReal]
  fun_prop

theorem measurable_dirichletSample (a : Fin (n + 1) → ℝ) : Measurable fun g => dirichletSample a g 0 := by
  refine measurable_pi_lambda _ fun i => ?_
  simp only [dirichletSample, GammaDraw.draw, Fn.ofReal, Fn.sum]
  fun_prop

theorem dirichlet_law (f : Flags) (a : Fin (n + 1) → ℝ) (ha : ∀ i, 0 < a i) :
    (Measure.pi fun i => gammaMeasure (a i) 1).map (fun g => dirichletSample a g 0) =
      (simplexMeasure n).withDensity fun x => ENNReal.ofReal (Real.exp (dirichletLogProb f a x)) := by
  have hp : ∀ i, IsProbabilityMeasure (gammaMeasure (a i) 1) := fun i => isProbabilityMeasure_gammaMeasure (ha i) one_pos
  have hpos : ∀ᵐ g ∂(Measure.pi fun i => gammaMeasure (a i) 1), ∀ i, 0 < g i := by
    rw [ae_all_iff]
    intro i
    have h1 : ∀ᵐ x ∂(gammaMeasure (a i) 1), 0 < x := by
      rw [Uni.gammaMeasure_restrict (a i) 1 (ha i) one_pos]
      exact (withDensity_absolutelyContinuous _ _).ae_le (ae_restrict_mem measurableSet_Ioi)
    exact (measurePreserving_eval _ i).quasiMeasurePreserving.ae h1
  have hae : (fun g => dirichletSample a g 0) =ᵐ[Measure.pi fun i => gammaMeasure (a i) 1]
      fun g => simplexPoint (fun j : Fin n => dirichletSample a g 0 j.castSucc) := by
    filter_upwards [hpos] with g hg
    have hs := (C32_sample_simplex a g 0 hg).2
    funext i
    refine Fin.lastCases ?_ (fun j => ?_) i
    · rw [Fin.sum_univ_castSucc] at hs
      simp only [simplexPoint, Fin.snoc_last]
      linarith
    · simp only [simplexPoint, Fin.snoc_castSucc]
  have hm : Measurable fun (g : Fin (n + 1) → ℝ) (j : Fin n) => dirichletSample a g 0 j.castSucc :=
    measurable_firsts.comp (measurable_dirichletSample a)
  rw [Measure.map_congr hae, show (fun g => simplexPoint (fun j : Fin n => dirichletSample a g 0 j.castSucc)) =
    simplexPoint ∘ fun g (j : Fin n) => dirichletSample a g 0 j.castSucc from rfl,
    ← Measure.map_map measurable_simplexPoint hm,
    C32_sampler f a ha 0]
  exact map_withDensity_comp _ _ measurable_simplexPoint
    (fun x => ENNReal.ofReal (Real.exp (dirichletLogProb f a x)))
    (Real.measurable_exp.comp (measurable_dirichletLogProb f a)).ennreal_ofReal

theorem measurable_concreteLogProb (f : Flags) (l : Fin (n + 1) → ℝ) (t : ℝ) : Measurable (concreteLogProb f l t) := by
  simp only [funext fun x => concreteLogProb.eq_1 f l t x, real_pathParam, Fn.sum, Fn.log, Fn.ofReal, logSumExp_real]
  fun_prop

theorem measurable_expConcreteLogProb (f : Flags) (l : Fin (n + 1) → ℝ) (t : ℝ) :
    Measurable (expConcreteLogProb f l t) := by
  simp only [funext fun x => expConcreteLogProb.eq_1 f l t x, real_pathParam, Fn.sum, Fn.log, Fn.ofReal,
    logSumExp_real]
  fun_prop

theorem concrete_law (f : Flags) (l : Fin (n + 1) → ℝ) (t : ℝ) (ht : 0 < t) :
    (uniforms n).map (concreteSample f l t) =
      (simplexMeasure n).withDensity fun x => ENNReal.ofReal (Real.exp (concreteLogProb f l t x)) := by
  have e : concreteSample f l t = simplexPoint ∘ fun u (j : Fin n) => concreteSample f l t u j.castSucc := by
    funext u i
    have hs := (C33_sample_simplex f l t u).2
    refine Fin.lastCases ?_ (fun j => ?_) i
    · rw [Fin.sum_univ_castSucc] at hs
      simp only [Function.comp, simplexPoint, Fin.snoc_last]
      linarith
    · simp only [Function.comp, simplexPoint, Fin.snoc_castSucc]
  have hm : Measurable fun u (j : Fin n) => concreteSample f l t u j.castSucc :=
    measurable_firsts.comp (measurable_concreteSample f l t)
  rw [e, ← Measure.map_map measurable_simplexPoint hm, C33_sampler f l t ht]
  exact map_withDensity_comp _ _ measurable_simplexPoint
    (fun x => ENNReal.ofReal (Real.exp (concreteLogProb f l t x)))
    (Real.measurable_exp.comp (measurable_concreteLogProb f l t)).ennreal_ofReal

theorem measurable_expConcreteSample (f : Flags) (l : Fin (n + 1) → ℝ) (t : ℝ) :
    Measurable (expConcreteSample f l t) := by
  refine measurable_pi_lambda _ fun i => ?_
  simp only [C33_sample_log]
  exact Real.measurable_log.comp ((measurable_pi_apply i).comp (measurable_concreteSample f l t))

theorem expConcrete_law (f : Flags) (l : Fin (n + 1) → ℝ) (t : ℝ) (ht : 0 < t) :
    (uniforms n).map (expConcreteSample f l t) =
      (logSimplexMeasure n).withDensity fun x => ENNReal.ofReal (Real.exp (expConcreteLogProb f l t x)) := by
  have e : expConcreteSample f l t = logPoint ∘ fun u (j : Fin n) => expConcreteSample f l t u j.castSucc := by
    funext u i
    obtain ⟨hp, hs⟩ := C33_sample_simplex f l t u
    refine Fin.lastCases ?_ (fun j => ?_) i
    · rw [Fin.sum_univ_castSucc] at hs
      simp only [Function.comp, logPoint, Fin.snoc_last, C33_sample_log, Real.exp_log (hp _)]
      congr 1
      linarith
    · simp only [Function.comp, logPoint, Fin.snoc_castSucc]
  have hm : Measurable fun u (j : Fin n) => expConcreteSample f l t u j.castSucc :=
    measurable_firsts.comp (measurable_expConcreteSample f l t)
  have hr : Measurable fun x => ENNReal.ofReal (Real.exp (expConcreteLogProb f l t x)) :=
    (Real.measurable_exp.comp (measurable_expConcreteLogProb f l t)).ennreal_ofReal
  have hr' : Measurable fun y : Fin n → ℝ => ENNReal.ofReal (Real.exp (expConcreteLogProb f l t (logPoint y))) :=
    hr.comp measurable_logPoint
  rw [e, ← Measure.map_map measurable_logPoint hm, C33_exp_sampler f l t ht, logSimplexMeasure_eq,
    ← map_withDensity_comp _ _ measurable_logPoint _ hr, ← withDensity_mul _ (by fun_prop) hr']
  congr 1
  refine withDensity_congr_ae ?_
  filter_upwards [ae_restrict_mem measurableSet_logSimplex] with y hy
  have hy : ∑ i, Real.exp (y i) < 1 := hy
  simp only [Pi.mul_apply, Function.comp]
  rw [← ENNReal.ofReal_mul (by apply div_nonneg <;> linarith)]
  congr 1
  ring

/-! ### Normal -/

theorem measurable_mvnLogProb (f : Flags) (m : Fin n → ℝ) {L : Fin n → Fin n → ℝ} (h : Cholesky L) :
    Measurable (mvnLogProb f m L) := by
  simp only [funext fun x => mvnLogProb_eq f m L h x, Matrix.mulVec, dotProduct, Pi.sub_apply]
  fun_prop

theorem measurable_mvnSample (f : Flags) (m : Fin n → ℝ) (L : Fin n → Fin n → ℝ) : Measurable (mvnSample f m L) := by
  simp only [funext fun x => mvnSample_eq f m L x]
  refine measurable_pi_lambda _ fun i => ?_
  simp only [Matrix.mulVec, dotProduct, Pi.add_apply]
  fun_prop

open scoped Kronecker in
theorem measurable_matNormalLogProb {r c : ℕ} (f : Flags) (m : Fin r → Fin c → ℝ) {U : Fin r → Fin r → ℝ}
    {V : Fin c → Fin c → ℝ} (hU : Cholesky U) (hV : Cholesky V) :
    Measurable fun x : Fin r × Fin c → ℝ => matNormalLogProb f m U V fun i j => x (i, j) := by
  simp only [matNormalLogProb_eq f m U V hU hV, Matrix.mulVec, dotProduct, Pi.sub_apply]
  fun_prop

theorem measurable_matNormalSample {r c : ℕ} (f : Flags) (m : Fin r → Fin c → ℝ) (U : Fin r → Fin r → ℝ)
    (V : Fin c → Fin c → ℝ) : Measurable fun (z : Fin r × Fin c → ℝ) (p : Fin r × Fin c) =>
      matNormalSample f m U V (fun i j => z (i, j)) p.1 p.2 := by
  rw [funext (matNormalSample_eq f m U V)]
  refine measurable_pi_lambda _ fun i => ?_
  simp only [Matrix.mulVec, dotProduct, Pi.add_apply]
  fun_prop

/-! ### Discrete -/

theorem pi_unit_apply {D : Type} [MeasurableSpace D] (μ : Measure D) [IsProbabilityMeasure μ] (s : Set D)
    (hs : MeasurableSet s) : (Measure.pi fun _ : Unit => μ) {w | w () ∈ s} = μ s :=
  (measurePreserving_eval (fun _ : Unit => μ) ()).measure_preimage hs.nullMeasurableSet

theorem categorical_law (l : Fin (n + 1) → ℝ) :
    (Measure.pi fun _ : Unit => categoricalLaw l).map (fun w => ((w ()).val : ℤ)) =
      (∑ k : Fin (n + 1), Measure.dirac ((k.val : ℕ) : ℤ)).withDensity fun x =>
        ENNReal.ofReal (Real.exp (categoricalLogProb l (Fin.ofNat (n + 1) x.toNat))) := by
  refine discrete_law _ _ (measurable_of_countable _) (fun k : Fin (n + 1) => ((k.val : ℕ) : ℤ)) (fun a b h => ?_)
    (fun d : Unit → Fin (n + 1) => ⟨d (), rfl⟩) _ (fun k => ?_)
  · exact Fin.ext (Int.ofNat_inj.1 h)
  · have e : {w : Unit → Fin (n + 1) | ((w ()).val : ℤ) = (k.val : ℤ)} = {w | w () ∈ ({k} : Set (Fin (n + 1)))} := by
      ext w; simp [Fin.ext_iff]
    rw [e, pi_unit_apply _ _ (measurableSet_singleton k), (C21_mass l k).2]
    simp

theorem onehot_law (l : Fin (n + 1) → ℝ) :
    (Measure.pi fun _ : Unit => categoricalLaw l).map (fun w => oneHot (w ())) =
      (∑ k : Fin (n + 1), Measure.dirac (oneHot k)).withDensity fun x =>
        ENNReal.ofReal (Real.exp (onehotLogProb l x)) := by
  refine discrete_law _ _ (measurable_of_countable _) oneHot oneHot_injective
    (fun d : Unit → Fin (n + 1) => ⟨d (), rfl⟩) _ (fun k => ?_)
  have e : {w : Unit → Fin (n + 1) | oneHot (w ()) = (oneHot k : Fin (n + 1) → ℝ)} =
      {w | w () ∈ ({k} : Set (Fin (n + 1)))} := by
    ext w; simp [oneHot_injective.eq_iff]
  rw [e, pi_unit_apply _ _ (measurableSet_singleton k), (C21_mass l k).2, C21_onehot]

theorem multinomial_law {b : Bool} {l : Fin (n + 1) → ℝ} (h : Proper b l) (N : ℕ) :
    (Measure.pi fun _ : Fin N => categoricalLaw l).map multinomialCount =
      (countMeasure n N).withDensity fun x => ENNReal.ofReal (Real.exp (multinomialLogProb b (some N) l x)) := by
  refine discrete_law _ _ (measurable_of_countable _)
    (fun (c : ↥(Finset.univ.piAntidiag N : Finset (Fin (n + 1) → ℕ))) i => ((c.1 i : ℕ) : ℝ)) (fun a b h => ?_)
    (fun d => ?_) _ (fun c => ?_)
  · exact Subtype.ext (funext fun i => Nat.cast_injective (R := ℝ) (congrFun h i))
  · refine ⟨⟨count d, ?_⟩, funext fun i => multinomialCount_eq d i⟩
    rw [Finset.mem_piAntidiag]
    have := C31_sample_total d
    simp only [multinomialCount_eq] at this
    exact ⟨by exact_mod_cast this, by simp⟩
  · exact C31_sampler h N c.1 (Finset.mem_piAntidiag.1 c.2).1

/-- The logits of the draws of Binomial. -/
noncomputable def stacked (l : ℝ) (c : Fin 2) : ℝ :=
  if c.val = 0 then (Uni.Binomial.stackedLogits l).1 else (Uni.Binomial.stackedLogits l).2

theorem softmax_stacked (l : ℝ) (c : Fin 2) : softmax (n := 1) (stacked l) c = Real.exp (stacked l c) := by
  have hs : ∑ j : Fin 2, Real.exp (stacked l j) = 1 := by
    rw [Fin.sum_univ_two]
    obtain ⟨h1, h0⟩ := Uni.C26_draw l
    simp only [stacked, Fin.val_zero, Fin.val_one, if_true, one_ne_zero, if_false, h1, h0]
    ring
  unfold softmax
  rw [show (∑ j : Fin (1 + 1), Real.exp (stacked l j)) = 1 from hs, div_one]

theorem binomial_law (l : ℝ) (m : ℕ) :
    (Measure.pi fun _ : Fin m => categoricalLaw (n := 1) (stacked l)).map
        (fun d => ((∑ e, ((d e).val : ℤ) : ℤ) : ℝ)) =
      (∑ k : Fin (m + 1), Measure.dirac ((k.val : ℕ) : ℝ)).withDensity fun x =>
        ENNReal.ofReal (Real.exp (Uni.Binomial.logProb m l x)) := by
  let toBool : (Fin m → Fin 2) → (Fin m → Bool) := fun d e => decide (d e = 1)
  have hc : ∀ d : Fin m → Fin 2, (∑ e, ((d e).val : ℤ)) = (Uni.Binomial.count (toBool d) : ℤ) := by
    intro d
    unfold Uni.Binomial.count
    rw [Finset.card_filter]
    push_cast
    refine Finset.sum_congr rfl fun e _ => ?_
    have : d e = 0 ∨ d e = 1 := by omega
    rcases this with h | h <;> simp [toBool, h]
  refine discrete_law _ _ (measurable_of_countable _) (fun k : Fin (m + 1) => ((k.val : ℕ) : ℝ)) (fun a b h => ?_)
    (fun d => ?_) _ (fun k => ?_)
  · exact Fin.ext (Nat.cast_injective (R := ℝ) h)
  · refine ⟨⟨Uni.Binomial.count (toBool d), Nat.lt_succ_of_le ?_⟩, ?_⟩
    · have := Finset.card_filter_le (Finset.univ : Finset (Fin m)) (fun i => toBool d i = true)
      simpa [Uni.Binomial.count] using this
    · rw [hc]; simp
  · rw [← Uni.C26_sampler m l k.val (Nat.le_of_lt_succ k.isLt)]
    have hset : {d : Fin m → Fin 2 | ((∑ e, ((d e).val : ℤ) : ℤ) : ℝ) = ((k.val : ℕ) : ℝ)} =
        ((Finset.univ.filter fun d => Uni.Binomial.count (toBool d) = k.val : Finset (Fin m → Fin 2)) : Set _) := by
      ext d
      rw [mem_ofPred_eq, hc]
      simp
    rw [hset, ← sum_measure_singleton]
    have each : ∀ d : Fin m → Fin 2, (Measure.pi fun _ : Fin m => categoricalLaw (n := 1) (stacked l)) {d} =
        ENNReal.ofReal (Uni.Binomial.outcomeProb l (toBool d)) := by
      intro d
      rw [Measure.pi_singleton]
      unfold Uni.Binomial.outcomeProb
      rw [ENNReal.ofReal_prod_of_nonneg fun i _ => by split_ifs <;> positivity]
      refine Finset.prod_congr rfl fun i _ => ?_
      rw [categoricalLaw_singleton, softmax_stacked]
      have : d i = 0 ∨ d i = 1 := by omega
      rcases this with h | h <;> simp [toBool, stacked, h]
    rw [Finset.sum_congr rfl fun d _ => each d, ← ENNReal.ofReal_sum_of_nonneg fun d _ => by
      unfold Uni.Binomial.outcomeProb
      exact Finset.prod_nonneg fun i _ => by split_ifs <;> positivity]
    congr 1
    refine Finset.sum_bij' (fun d _ => toBool d) (fun w _ e => if w e then 1 else 0) ?_ ?_ ?_ ?_ ?_
    · intro d hd; simpa using hd
    · intro w hw
      have : toBool (fun e => if w e then 1 else 0) = w := by
        funext e; cases h : w e <;> simp [toBool, h]
      simpa [this] using hw
    · intro d _
      funext e
      have : d e = 0 ∨ d e = 1 := by omega
      rcases this with h | h <;> simp [toBool, h]
    · intro w _
      funext e; cases h : w e <;> simp [toBool, h]
    · intro d _; rfl

end ZhuSuan.Batch

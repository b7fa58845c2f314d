import Verif.Lemmas.HmcSpread
import Verif.Lemmas.MarkovPath
import Verif.Props.HmcRuns

/-!
# Many iterations of many chains
-/

set_option autoImplicit false

open MeasureTheory Set ProbabilityTheory
open scoped ENNReal

namespace ZhuSuan.Hmc

open MarkovConv

variable {C ι : Type} [Fintype C] [Fintype ι]

instance unif_prob : IsProbabilityMeasure (volume.restrict (Ico (0 : ℝ) 1)) := ⟨by simp⟩

instance draws_prob : IsProbabilityMeasure (draws C ι) := by unfold draws; infer_instance

theorem step_iter_prob {X N : Type} [MeasurableSpace X] [MeasurableSpace N] {T : X → N → X}
    (hT : Measurable fun w : X × N => T w.1 w.2) (ν : Measure N) [IsProbabilityMeasure ν] (n : ℕ)
    (μ : Measure X) [IsProbabilityMeasure μ] : IsProbabilityMeasure ((step T ν)^[n] μ) :=
  ⟨by rw [step_iter_univ hT]; exact measure_univ⟩

variable (n : ℕ) (mass : ι → ℝ) (l : C → (ι → ℝ) → ℝ) (g : C → (ι → ℝ) → ι → ℝ)

omit [Fintype C] in
theorem multi_chain (eps : ℝ) (q : C → ι → ℝ) (w : (C → ι → ℝ) × (C → ℝ)) (c : C) :
    multiStep n mass eps l g q w c = drawStep mass (g c) (l c) n eps (q c) (w.1 c, w.2 c) := by
  rw [multiStep, transition_chain]
  rfl

theorem measurable_multi (eps : ℝ) (hl : ∀ c, Measurable (l c)) (hg : ∀ c, Measurable (g c)) :
    Measurable fun p : (C → ι → ℝ) × ((C → ι → ℝ) × (C → ℝ)) => multiStep n mass eps l g p.1 p.2 :=
  measurable_transition n mass eps l hl g hg

/-- Independent chains stay independent. -/
theorem step_multi (eps : ℝ) (hl : ∀ c, Measurable (l c)) (hg : ∀ c, Measurable (g c))
    (μ : C → Measure (ι → ℝ)) [∀ c, IsProbabilityMeasure (μ c)] :
    step (multiStep n mass eps l g) (draws C ι) (Measure.pi μ) =
      Measure.pi fun c => step (drawStep mass (g c) (l c) n eps) (noise1 ι) (μ c) := by
  have h1 := measurePreserving_arrowProdEquivProdArrow (ι → ℝ) ℝ C
    (fun _ => Measure.pi fun _ : ι => gaussianReal 0 1) (fun _ => unif)
  have h2 := measurePreserving_arrowProdEquivProdArrow (ι → ℝ) ((ι → ℝ) × ℝ) C μ (fun _ => noise1 ι)
  have h3 := ((MeasurePreserving.id (Measure.pi μ)).prod h1).comp h2
  have md : ∀ c, Measurable fun w : (ι → ℝ) × ((ι → ℝ) × ℝ) => drawStep mass (g c) (l c) n eps w.1 w.2 := fun c =>
    measurable_drawStep mass (g c) (l c) n eps (hg c) (hl c)
  have p1 := Measure.pi_map_pi (μ := fun c => (μ c).prod (noise1 ι))
    (f := fun c w => drawStep mass (g c) (l c) n eps w.1 w.2) (fun c => (md c).aemeasurable)
  have e : (Measure.pi μ).prod (draws C ι) = _ := h3.map_eq.symm
  rw [step, e, Measure.map_map (measurable_multi n mass l g eps hl hg) h3.measurable]
  refine Eq.trans ?_ p1
  congr 1
  funext x
  funext c
  exact multi_chain n mass l g eps _ _ c

omit [Fintype ι] in
theorem pi_dirac' (q : C → ι → ℝ) : Measure.dirac q = Measure.pi fun c => Measure.dirac (q c) := by
  classical
  refine (Measure.pi_eq fun s hs => ?_).symm
  rw [Measure.dirac_apply' _ (MeasurableSet.univ_pi hs)]
  simp only [Measure.dirac_apply' _ (hs _)]
  by_cases h : q ∈ univ.pi s
  · rw [indicator_of_mem h, Pi.one_apply]
    refine (Finset.prod_eq_one fun c _ => ?_).symm
    rw [indicator_of_mem (h c (mem_univ c)), Pi.one_apply]
  · rw [indicator_of_notMem h]
    simp only [mem_pi, mem_univ, forall_const, not_forall] at h
    obtain ⟨c, hc⟩ := h
    exact (Finset.prod_eq_zero (Finset.mem_univ c) (indicator_of_notMem hc _)).symm

theorem step_iter_multi (eps : ℝ) (hl : ∀ c, Measurable (l c)) (hg : ∀ c, Measurable (g c))
    (μ : C → Measure (ι → ℝ)) [∀ c, IsProbabilityMeasure (μ c)] (k : ℕ) :
    (step (multiStep n mass eps l g) (draws C ι))^[k] (Measure.pi μ) =
      Measure.pi fun c => (step (drawStep mass (g c) (l c) n eps) (noise1 ι))^[k] (μ c) := by
  induction k with
  | zero => rfl
  | succ k ih =>
    have : ∀ c, IsProbabilityMeasure ((step (drawStep mass (g c) (l c) n eps) (noise1 ι))^[k] (μ c)) := fun c =>
      step_iter_prob (measurable_drawStep mass (g c) (l c) n eps (hg c) (hl c)) _ k _
    rw [Function.iterate_succ_apply', ih, step_multi n mass l g eps hl hg]
    congr 1
    funext c
    rw [Function.iterate_succ_apply']

/-! ## A first iteration that may differ from the others -/

section First

variable {X N : Type} [MeasurableSpace X] [MeasurableSpace N]

omit [MeasurableSpace X] [MeasurableSpace N] in
theorem iter_first (T : ℕ → X → N → X) (T1 : X → N → X) (hT : ∀ k, 1 ≤ k → T k = T1) (q : X) (m : ℕ)
    (w : Fin (1 + m) → N) :
    Meas.iter T q (1 + m) w = pos T1 (T 0 q (w (Fin.castAdd m 0))) m fun i => w (Fin.natAdd 1 i) := by
  induction m with
  | zero => rfl
  | succ m ih =>
    have h := ih fun i => w i.castSucc
    show T (1 + m) (Meas.iter T q (1 + m) fun i => w i.castSucc) (w (Fin.last (1 + m))) = _
    rw [h, hT _ (by omega)]
    rfl

/-- The law after the first and `m` further iterations. -/
theorem iter_first_law {ν : Measure N} [IsProbabilityMeasure ν] (T : ℕ → X → N → X) (T1 : X → N → X)
    (hT : ∀ k, 1 ≤ k → T k = T1) (m0 : Measurable fun w : X × N => T 0 w.1 w.2)
    (m1 : Measurable fun w : X × N => T1 w.1 w.2) (q : X) (m : ℕ) :
    (Measure.pi fun _ : Fin (1 + m) => ν).map (Meas.iter T q (1 + m)) =
      (step T1 ν)^[m] (step (T 0) ν (Measure.dirac q)) := by
  have h1 := split_add (ν := ν) 1 m
  have h2 : MeasurePreserving (fun w : Fin 1 → N => w 0) (Measure.pi fun _ : Fin 1 => ν) ν :=
    measurePreserving_eval (fun _ : Fin 1 => ν) 0
  have mq : Measurable (T 0 q) := m0.comp measurable_prodMk_left
  have h3 : MeasurePreserving (T 0 q) ν (step (T 0) ν (Measure.dirac q)) := ⟨mq, (step_dirac m0 q).symm⟩
  have h4 := ((h3.comp h2).prod (MeasurePreserving.id (Measure.pi fun _ : Fin m => ν))).comp h1
  rw [← pos_law m1, ← h4.map_eq, Measure.map_map (measurable_pos m1 m) h4.measurable]
  congr 1
  funext w
  exact iter_first T T1 hT q m w

/-- If the chain converges from every start, it leaves only one probability as it is. -/
theorem invariant_unique {T : X → N → X} (hT : Measurable fun w : X × N => T w.1 w.2) {ν : Measure N}
    [IsProbabilityMeasure ν] {π : Measure X} [IsProbabilityMeasure π] {μ : Measure X} [IsProbabilityMeasure μ]
    (hμ : step T ν μ = μ) (h : ∀ q, ∀ δ > 0, ∃ k0, ∀ k ≥ k0, ∀ A, MeasurableSet A →
      |((step T ν)^[k] (Measure.dirac q)).real A - π.real A| ≤ δ) : μ = π := by
  refine Measure.ext fun A hA => ?_
  have hit : ∀ k, (step T ν)^[k] μ = μ := fun k => Function.iterate_fixed hμ k
  have hpt : ∀ k, (fun q => ((step T ν)^[k] (Measure.dirac q)) A) = fun q =>
      (Measure.pi fun _ : Fin k => ν) (Prod.mk q ⁻¹' ((fun p : X × (Fin k → N) => pos T p.1 k p.2) ⁻¹' A)) := by
    intro k
    funext q
    have mq : Measurable fun w => pos T q k w := (measurable_pos hT k).comp measurable_prodMk_left
    rw [← pos_law_point hT q k, Measure.map_apply mq hA]
    rfl
  have hint : ∀ k, ∫⁻ q, ((step T ν)^[k] (Measure.dirac q)) A ∂μ = μ A := by
    intro k
    conv_rhs => rw [← hit k, ← pos_law hT μ k]
    rw [Measure.map_apply (measurable_pos hT k) hA, Measure.prod_apply (measurable_pos hT k hA), hpt k]
  have hm : ∀ k, Measurable fun q => ((step T ν)^[k] (Measure.dirac q)) A := by
    intro k
    rw [hpt k]
    exact measurable_measure_prodMk_left (measurable_pos hT k hA)
  have hlim : Filter.Tendsto (fun k => ∫⁻ q, ((step T ν)^[k] (Measure.dirac q)) A ∂μ) Filter.atTop
      (nhds (∫⁻ _, π A ∂μ)) := by
    refine tendsto_lintegral_of_dominated_convergence (fun _ => 1) hm (fun k => .of_forall fun q => ?_) (by simp)
      (.of_forall fun q => ?_)
    · have := step_iter_prob hT ν k (Measure.dirac q)
      exact prob_le_one
    · have hf : ∀ k, ((step T ν)^[k] (Measure.dirac q)) A ≠ ∞ := fun k => by
        have := step_iter_prob hT ν k (Measure.dirac q)
        exact measure_ne_top _ _
      rw [← ENNReal.tendsto_toReal_iff hf (measure_ne_top _ _), Metric.tendsto_atTop]
      intro ε hε
      obtain ⟨k0, hk0⟩ := h q (ε / 2) (half_pos hε)
      exact ⟨k0, fun k hk => lt_of_le_of_lt (hk0 k hk A hA) (half_lt_self hε)⟩
  rw [funext hint, lintegral_const, measure_univ, mul_one] at hlim
  exact tendsto_nhds_unique tendsto_const_nhds hlim

end First

/-! ## Convergence -/

section Conv

variable (eps : ℕ → ℝ) (heps : ∀ k, 1 ≤ k → eps k = eps 1) (hm : ∀ i, 0 < mass i)
  (h0 : ShortPath mass g n (eps 0)) (h1 : ShortPath mass g n (eps 1)) (hl : ∀ c, Measurable (l c))
  (hfin : ∀ c, ∫⁻ q, ENNReal.ofReal (Real.exp (l c q)) ≠ ∞) (hg : ∀ c, Measurable (g c))

omit [Fintype C] in
include hm h0 h1 hl hfin hg in
/-- One chain after a first iteration. -/
theorem first_converges (c : C) (q : ι → ℝ) : ∀ δ > 0, ∃ k0, ∀ k ≥ k0, ∀ A, MeasurableSet A →
    |((step (drawStep mass (g c) (l c) n (eps 1)) (noise1 ι))^[k]
      (step (drawStep mass (g c) (l c) n (eps 0)) (noise1 ι) (Measure.dirac q))).real A - (posterior (l c)).real A|
      ≤ δ := by
  obtain ⟨n0, e0, K0, k0, k0', L0⟩ := h0
  obtain ⟨_, e1, K1, k1, k1', L1⟩ := h1
  have := posterior_prob (l c) (hl c) (hfin c)
  have hs0 := spreads mass (g c) (l c) n (eps 0) hm k0 e0 (L0 c) n0 k0' (hg c) (hl c) (hfin c) q
  have hs1 := spreads mass (g c) (l c) n (eps 1) hm k1 e1 (L1 c) n0 k1' (hg c) (hl c) (hfin c) q
  have md0 := measurable_drawStep mass (g c) (l c) n (eps 0) (hg c) (hl c)
  have md1 := measurable_drawStep mass (g c) (l c) n (eps 1) (hg c) (hl c)
  obtain ⟨r, κ, _, hκ, hK⟩ := hs0
  rw [step_dirac md0]
  have : IsProbabilityMeasure ((noise1 ι).map (drawStep mass (g c) (l c) n (eps 0) q)) :=
    Measure.isProbabilityMeasure_map (md0.comp measurable_prodMk_left).aemeasurable
  exact tv_mix md1 (balanced mass (g c) (l c) n (eps 1) (hg c) (hl c) hm)
    (reaches mass (g c) (l c) n (eps 1) hm k1 e1 (L1 c) n0 k1' (hg c) (hl c) (hfin c)) q hs1 _ r κ hκ hK

include heps hm h0 h1 hl hfin hg in
/-- All chains. -/
theorem multi_converges (q : C → ι → ℝ) : ∀ δ > 0, ∃ k0, ∀ k ≥ k0, ∀ A, MeasurableSet A →
    |((Measure.pi fun _ : Fin k => draws C ι).map
        (Meas.iter (fun j => multiStep n mass (eps j) l g) q k)).real A -
      (Measure.pi fun c => posterior (l c)).real A| ≤ δ := by
  intro δ hδ
  have hpp : ∀ c, IsProbabilityMeasure (posterior (l c)) := fun c => posterior_prob (l c) (hl c) (hfin c)
  set δ' : ℝ := δ / (Fintype.card C + 1) with hδ'
  have hδ'pos : 0 < δ' := by positivity
  choose k0 hk0 using fun c => first_converges n mass l g eps hm h0 h1 hl hfin hg c (q c) δ' hδ'pos
  refine ⟨1 + ∑ c, k0 c, fun k hk A hA => ?_⟩
  obtain ⟨m, rfl⟩ : ∃ m, k = 1 + m := ⟨k - 1, by omega⟩
  have m0 := measurable_multi n mass l g (eps 0) hl hg
  have m1 := measurable_multi n mass l g (eps 1) hl hg
  have mT : ∀ j, Measurable fun p : (C → ι → ℝ) × ((C → ι → ℝ) × (C → ℝ)) =>
      multiStep n mass (eps j) l g p.1 p.2 := fun j => measurable_multi n mass l g (eps j) hl hg
  have hlaw := iter_first_law (ν := draws C ι) (fun j => multiStep n mass (eps j) l g) (multiStep n mass (eps 1) l g)
    (fun k hk => by rw [heps k hk]) m0 m1 q m
  have hd0 : ∀ c, IsProbabilityMeasure
      (step (drawStep mass (g c) (l c) n (eps 0)) (noise1 ι) (Measure.dirac (q c))) := fun c =>
    Measure.isProbabilityMeasure_map (measurable_drawStep mass (g c) (l c) n (eps 0) (hg c) (hl c)).aemeasurable
  have hd1 : ∀ c, IsProbabilityMeasure ((step (drawStep mass (g c) (l c) n (eps 1)) (noise1 ι))^[m]
      (step (drawStep mass (g c) (l c) n (eps 0)) (noise1 ι) (Measure.dirac (q c)))) := fun c =>
    step_iter_prob (measurable_drawStep mass (g c) (l c) n (eps 1) (hg c) (hl c)) _ m _
  rw [hlaw, pi_dirac' q, step_multi n mass l g (eps 0) hl hg, step_iter_multi n mass l g (eps 1) hl hg]
  have hw := Within.pi (e := fun _ => ENNReal.ofReal δ') (fun c => within_of_abs (hk0 c m (by
    have := Finset.single_le_sum (f := k0) (fun _ _ => Nat.zero_le _) (Finset.mem_univ c)
    omega)))
  refine abs_of_within hδ.le (fun A hA => (hw A hA).trans (add_le_add le_rfl ?_)) A hA
  rw [Finset.sum_const, Finset.card_univ, nsmul_eq_mul, ← ENNReal.ofReal_natCast,
    ← ENNReal.ofReal_mul (Nat.cast_nonneg _)]
  refine ENNReal.ofReal_le_ofReal ?_
  rw [hδ', mul_div_assoc', div_le_iff₀ (by positivity)]
  nlinarith [Nat.cast_nonneg (α := ℝ) (Fintype.card C)]

include hm h1 hl hfin hg in
/-- Only one probability is left as it is. -/
theorem multi_unique (μ : Measure (C → ι → ℝ)) [IsProbabilityMeasure μ]
    (hμ : (μ.prod (draws C ι)).map (fun w => multiStep n mass (eps 1) l g w.1 w.2) = μ) :
    μ = Measure.pi fun c => posterior (l c) := by
  have hpp : ∀ c, IsProbabilityMeasure (posterior (l c)) := fun c => posterior_prob (l c) (hl c) (hfin c)
  have m1 := measurable_multi n mass l g (eps 1) hl hg
  refine invariant_unique m1 hμ fun q δ hδ => ?_
  obtain ⟨k0, hk0⟩ := multi_converges n mass l g (fun _ => eps 1) (fun _ _ => rfl) hm h1 h1 hl hfin hg q δ hδ
  refine ⟨k0, fun k hk A hA => ?_⟩
  rw [← pos_law_point m1 q k]
  exact hk0 k hk A hA

omit [Fintype C] in
theorem iter_multi_chain (q : C → ι → ℝ) (c : C) (k : ℕ) (w : Fin k → (C → ι → ℝ) × (C → ℝ)) :
    Meas.iter (fun j => multiStep n mass (eps j) l g) q k w c =
      Meas.iter (fun j => drawStep mass (g c) (l c) n (eps j)) (q c) k fun i => ((w i).1 c, (w i).2 c) := by
  induction k with
  | zero => rfl
  | succ k ih =>
    simp only [Meas.iter]
    rw [multi_chain, ih]

/-- The draws of one chain. -/
theorem draws_chain (c : C) (k : ℕ) :
    MeasurePreserving (fun (w : Fin k → (C → ι → ℝ) × (C → ℝ)) (i : Fin k) => ((w i).1 c, (w i).2 c))
      (Measure.pi fun _ => draws C ι) (Measure.pi fun _ => noise1 ι) := by
  have h1 : MeasurePreserving (fun w : (C → ι → ℝ) × (C → ℝ) => (w.1 c, w.2 c)) (draws C ι) (noise1 ι) :=
    (measurePreserving_eval (fun _ : C => Measure.pi fun _ : ι => gaussianReal 0 1) c).prod
      (measurePreserving_eval (fun _ : C => volume.restrict (Ico (0 : ℝ) 1)) c)
  exact measurePreserving_pi (fun _ : Fin k => draws C ι) (fun _ => noise1 ι) fun _ => h1

include heps hm h0 h1 hl hfin hg in
/-- Averages along one chain. -/
theorem multi_average (q : C → ι → ℝ) (c : C) (f : (ι → ℝ) → ℝ) (hf : Measurable f)
    (hi : Integrable f (posterior (l c))) : ∀ δ > 0, ∀ ε > 0, ∃ k0, ∀ k ≥ k0,
      (Measure.pi fun _ : Fin k => draws C ι)
        {w | δ < |(∑ j : Fin k, f (Meas.iter (fun j => multiStep n mass (eps j) l g) q (j + 1)
            (fun i => w (Fin.castLE j.2 i)) c)) / k - ∫ x, f x ∂(posterior (l c))|} ≤ ENNReal.ofReal ε := by
  intro δ hδ ε hε
  obtain ⟨n0, e1, K1, k1, k1', L1⟩ := h1
  have hpp := posterior_prob (l c) (hl c) (hfin c)
  set T : ℕ → (ι → ℝ) → (ι → ℝ) × ℝ → ι → ℝ := fun j => drawStep mass (g c) (l c) n (eps j) with hT
  have mT : ∀ j, Measurable fun w : (ι → ℝ) × ((ι → ℝ) × ℝ) => T j w.1 w.2 := fun j =>
    measurable_drawStep mass (g c) (l c) n (eps j) (hg c) (hl c)
  set a := ∫ x, f x ∂(posterior (l c)) with ha
  have hconv := first_converges n mass l g eps hm h0 ⟨n0, e1, K1, k1, k1', L1⟩ hl hfin hg c (q c)
  have hd0 : IsProbabilityMeasure (step (T 0) (noise1 ι) (Measure.dirac (q c))) :=
    Measure.isProbabilityMeasure_map (mT 0).aemeasurable
  have htv : ∀ ε > 0, ∃ j, Within (ENNReal.ofReal ε)
      ((step (T 1) (noise1 ι))^[j] (step (T 0) (noise1 ι) (Measure.dirac (q c)))) (posterior (l c)) := by
    intro ε hε
    obtain ⟨j, hj⟩ := hconv ε hε
    have := step_iter_prob (mT 1) (noise1 ι) j (step (T 0) (noise1 ι) (Measure.dirac (q c)))
    exact ⟨j, within_of_abs (hj j le_rfl)⟩
  obtain ⟨m0, hm0⟩ := avg_start (mT 1) (balanced mass (g c) (l c) n (eps 1) (hg c) (hl c) hm)
    (reaches mass (g c) (l c) n (eps 1) hm k1 e1 (L1 c) n0 k1' (hg c) (hl c) (hfin c))
    (step (T 0) (noise1 ι) (Measure.dirac (q c))) htv hf hi (H := fun x => f x - a) (hf.sub measurable_const)
    δ hδ ε hε
  refine ⟨1 + m0, fun k hk => ?_⟩
  obtain ⟨m, rfl⟩ : ∃ m, k = 1 + m := ⟨k - 1, by omega⟩
  have hm1 := hm0 m (by omega)
  -- the draws of this chain
  have hd := draws_chain (ι := ι) c (1 + m)
  have h2 : MeasurePreserving (fun w : Fin 1 → (ι → ℝ) × ℝ => w 0) (Measure.pi fun _ : Fin 1 => noise1 ι)
      (noise1 ι) := measurePreserving_eval (fun _ : Fin 1 => noise1 ι) 0
  have mq : Measurable (T 0 (q c)) := (mT 0).comp measurable_prodMk_left
  have h3 : MeasurePreserving (T 0 (q c)) (noise1 ι) (step (T 0) (noise1 ι) (Measure.dirac (q c))) :=
    ⟨mq, (step_dirac (mT 0) (q c)).symm⟩
  have h4 := (((h3.comp h2).prod (MeasurePreserving.id (Measure.pi fun _ : Fin m => noise1 ι))).comp
    (split_add (ν := noise1 ι) 1 m)).comp hd
  have mE : MeasurableSet {p : (ι → ℝ) × (Fin m → (ι → ℝ) × ℝ) |
      m * δ < |f p.1 - a + pathSum (T 1) f p.1 m p.2 - m * a|} :=
    measurableSet_lt measurable_const (((((hf.comp measurable_fst).sub measurable_const).add
      (measurable_pathSum (mT 1) hf m)).sub measurable_const).abs)
  rw [← h4.measure_preimage mE.nullMeasurableSet] at hm1
  refine (measure_mono fun w hw => ?_).trans hm1
  simp only [mem_ofPred_eq, mem_preimage, Function.comp_apply, Prod.map_apply, id_eq] at hw ⊢
  set v : Fin (1 + m) → (ι → ℝ) × ℝ := fun i => ((w i).1 c, (w i).2 c) with hv
  have hsum : ∑ j : Fin (1 + m), f (Meas.iter (fun j => multiStep n mass (eps j) l g) q (j + 1)
      (fun i => w (Fin.castLE j.2 i)) c) =
      f (T 0 (q c) (v (Fin.castAdd m 0))) + pathSum (T 1) f (T 0 (q c) (v (Fin.castAdd m 0))) m
        (fun i => v (Fin.natAdd 1 i)) := by
    rw [pathSum_eq]
    rw [Fin.sum_univ_add]
    refine congrArg₂ (· + ·) ?_ ?_
    · rw [Fin.sum_univ_one, iter_multi_chain]
      rfl
    refine Finset.sum_congr rfl fun j _ => ?_
    congr 1
    rw [iter_multi_chain]
    have e := iter_first T (T 1) (fun k hk => by simp only [hT]; rw [heps k hk]) (q c) (j + 1)
      (fun i => v (Fin.castLE (by omega) i))
    have hcast : ∀ (N : ℕ) (hN : N = 1 + ((j : ℕ) + 1)) (u : Fin N → (ι → ℝ) × ℝ),
        Meas.iter T (q c) N u = Meas.iter T (q c) (1 + ((j : ℕ) + 1)) fun i => u (Fin.cast hN.symm i) := by
      rintro N rfl u; rfl
    rw [hcast _ (by simp; omega)]
    exact e
  rw [hsum] at hw
  have hpos : (0 : ℝ) < ((1 + m : ℕ) : ℝ) := by positivity
  rw [div_sub' hpos.ne', abs_div, abs_of_pos hpos, lt_div_iff₀ hpos] at hw
  have e5 : f (T 0 (q c) (v (Fin.castAdd m 0))) - a + pathSum (T 1) f (T 0 (q c) (v (Fin.castAdd m 0))) m
        (fun i => v (Fin.natAdd 1 i)) - m * a =
      f (T 0 (q c) (v (Fin.castAdd m 0))) + pathSum (T 1) f (T 0 (q c) (v (Fin.castAdd m 0))) m
        (fun i => v (Fin.natAdd 1 i)) - ((1 + m : ℕ) : ℝ) * a := by push_cast; ring
  show m * δ < |f (T 0 (q c) (v (Fin.castAdd m 0))) - a + pathSum (T 1) f (T 0 (q c) (v (Fin.castAdd m 0))) m
        (fun i => v (Fin.natAdd 1 i)) - m * a|
  rw [e5]
  refine lt_of_le_of_lt ?_ hw
  push_cast
  nlinarith [Nat.cast_nonneg (α := ℝ) m]

end Conv

end ZhuSuan.Hmc

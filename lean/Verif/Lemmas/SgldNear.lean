import Verif.Lemmas.SgldChain

/-!
# What closeness of distributions gives, and SGLD over many epochs
-/

set_option autoImplicit false

open MeasureTheory ProbabilityTheory Filter Topology Set
open ZhuSuan.Sgmcmc ZhuSuan.SgldLoop

namespace ZhuSuan.SgWeak

variable {V : Type} {I : V → Type} [Fintype V] [∀ v, Fintype (I v)] {Ω : Type} [MeasurableSpace Ω]
  {l : Lat I → ℝ} {m L : ℝ} {G : ℕ → Ω → Lat I → Lat I} {P : Measure Ω} {T : ℕ}

theorem Near.mono {μ ν : Measure (Lat I)} {δ δ' : ℝ} (h : Near μ ν δ) (hd : δ ≤ δ') : Near μ ν δ' := by
  obtain ⟨W, h1, h2, h3, h4⟩ := h
  exact ⟨W, h1, h2, h3, h4.trans hd⟩

theorem Quadratic.bound {f : Lat I → ℝ} (hf : Quadratic f) :
    ∃ C ≥ 0, (∀ x y, |f x - f y| ≤ C * (1 + ‖x‖ + ‖y‖) * ‖x - y‖) := by
  obtain ⟨C, hC⟩ := hf
  refine ⟨|C|, abs_nonneg _, fun x y => (hC x y).trans ?_⟩
  gcongr
  exact le_abs_self C

theorem Quadratic.cont {f : Lat I → ℝ} (hf : Quadratic f) : Continuous f := by
  obtain ⟨C, -, hC⟩ := hf.bound
  refine continuous_iff_continuousAt.2 fun x => ?_
  rw [ContinuousAt, tendsto_iff_norm_sub_tendsto_zero]
  refine squeeze_zero (fun y => norm_nonneg _) (fun y => hC y x) ?_
  have h : Continuous fun y : Lat I => C * (1 + ‖y‖ + ‖x‖) * ‖y - x‖ := by fun_prop
  have := h.tendsto x
  simpa using this

theorem Quadratic.int {f : Lat I → ℝ} (hf : Quadratic f) {S : Type*} [MeasurableSpace S] {W : Measure S} [IsFiniteMeasure W]
    {X : S → Lat I} (hX : MemLp X 2 W) : Integrable (fun s => f (X s)) W := by
  obtain ⟨C, h0, hC⟩ := hf.bound
  have h1 : Integrable (fun s => |f 0| + C * (1 + 2 * ‖X s‖ ^ 2)) W :=
    (integrable_const _).add (((integrable_const (1 : ℝ)).add ((hX.integrable_norm_pow (by norm_num)).const_mul 2)).const_mul C)
  refine h1.mono' (hf.cont.comp_aestronglyMeasurable hX.1) (Eventually.of_forall fun s => ?_)
  have h2 := hC (X s) 0
  rw [norm_zero, sub_zero, add_zero] at h2
  have h3 : |f (X s)| ≤ |f 0| + |f (X s) - f 0| := by
    have := abs_add_le (f 0) (f (X s) - f 0)
    rwa [add_sub_cancel] at this
  rw [Real.norm_eq_abs]
  refine h3.trans (add_le_add le_rfl (h2.trans ?_))
  rw [mul_assoc]
  refine mul_le_mul_of_nonneg_left ?_ h0
  nlinarith [sq_nonneg (‖X s‖ - 1)]

theorem split_le {η x y d a b : ℝ} (hη : 0 < η) (hd : 0 ≤ d) (hy : 0 ≤ y) (hx : x ≤ y + d) (ha : y ^ 2 ≤ a) (hb : d ^ 2 ≤ b) :
    (1 + x + y) * d ≤ η * (1 + 4 * a) + (η⁻¹ + 1) * b := by
  have hηi : 0 < η⁻¹ := by positivity
  have k5 : (1 + 2 * y) * d ≤ η * (1 + 4 * y ^ 2) + η⁻¹ * d ^ 2 := by
    have e : η * η⁻¹ = 1 := mul_inv_cancel₀ hη.ne'
    have q1 : 0 ≤ η * (1 + 2 * y - η⁻¹ * d) ^ 2 := by positivity
    have q2 : η * (1 + 2 * y - η⁻¹ * d) ^ 2 =
        η * (1 + 2 * y) ^ 2 - 2 * ((1 + 2 * y) * d) * (η * η⁻¹) + (η * η⁻¹) * (η⁻¹ * d ^ 2) := by ring
    rw [q2, e] at q1
    have q3 : η * (1 + 2 * y) ^ 2 ≤ η * (2 * (1 + 4 * y ^ 2)) := by
      refine mul_le_mul_of_nonneg_left ?_ hη.le
      nlinarith [sq_nonneg (1 - 2 * y)]
    have q4 : 0 ≤ η⁻¹ * d ^ 2 := by positivity
    linarith
  have q1 : (1 + x + y) * d ≤ (1 + 2 * y + d) * d := mul_le_mul_of_nonneg_right (by linarith) hd
  have q2 : η * (1 + 4 * y ^ 2) ≤ η * (1 + 4 * a) := mul_le_mul_of_nonneg_left (by linarith) hη.le
  have q3 : (η⁻¹ + 1) * d ^ 2 ≤ (η⁻¹ + 1) * b := mul_le_mul_of_nonneg_left hb (by positivity)
  have q5 : (1 + 2 * y + d) * d = (1 + 2 * y) * d + d ^ 2 := by ring
  have q6 : (η⁻¹ + 1) * d ^ 2 = η⁻¹ * d ^ 2 + d ^ 2 := by ring
  linarith

/-- Distributions that are close have nearly the same means. -/
theorem Quadratic.near {f : Lat I → ℝ} (hf : Quadratic f) {ν : Measure (Lat I)} [IsProbabilityMeasure ν] (hν : MemLp id 2 ν) {ε : ℝ}
    (hε : 0 < ε) : ∃ δ > 0, ∀ μ : Measure (Lat I), Near μ ν δ → |∫ x, f x ∂μ - ∫ x, f x ∂ν| ≤ ε := by
  obtain ⟨C, h0, hC⟩ := hf.bound
  set M := ∫ y, nsq y ∂ν with hM
  have hM0 : 0 ≤ M := integral_nonneg fun _ => nsq_nonneg _
  set η := ε / (2 * (C + 1) * (1 + 4 * M)) with hη
  have hη0 : 0 < η := by positivity
  set δ := ε / (2 * (C + 1) * (η⁻¹ + 1)) with hδ
  have hδ0 : 0 < δ := by positivity
  refine ⟨δ, hδ0, fun μ ⟨W, h1, h2, h3, h4⟩ => ?_⟩
  have py : MeasurePreserving (Prod.snd : Lat I × Lat I → Lat I) W ν := ⟨measurable_snd, h2⟩
  have px : MeasurePreserving (Prod.fst : Lat I × Lat I → Lat I) W μ := ⟨measurable_fst, h1⟩
  have _ : IsProbabilityMeasure W := by
    refine ⟨?_⟩
    have := py.measure_preimage (s := univ) MeasurableSet.univ.nullMeasurableSet
    rw [preimage_univ] at this
    rw [this]
    exact measure_univ
  have my : MemLp (fun a : Lat I × Lat I => a.2) 2 W := hν.comp_measurePreserving py
  have md : MemLp (fun a : Lat I × Lat I => a.1 - a.2) 2 W :=
    memLp_of_nsq (measurable_fst.sub measurable_snd).aestronglyMeasurable h3 fun a => le_rfl
  have mx : MemLp (fun a : Lat I × Lat I => a.1) 2 W := by
    have h : MemLp (fun a : Lat I × Lat I => a.2 + (a.1 - a.2)) 2 W := my.add md
    simpa only [add_sub_cancel] using h
  have ex := mp_int (f := f) px hf.cont.aestronglyMeasurable
  have ey := mp_int (f := f) py hf.cont.aestronglyMeasurable
  have eM := mp_int (f := fun y : Lat I => nsq y) py continuous_nsq.aestronglyMeasurable
  rw [← ex, ← ey, ← integral_sub (hf.int mx) (hf.int my)]
  have i1 : Integrable (fun a : Lat I × Lat I => nsq a.2) W := nsq_int my
  have i2 : Integrable (fun a : Lat I × Lat I => C * η * (1 + 4 * nsq a.2)) W :=
    ((integrable_const (1 : ℝ)).add (i1.const_mul 4)).const_mul _
  have i3 : Integrable (fun a : Lat I × Lat I => C * (η⁻¹ + 1) * nsq (a.1 - a.2)) W := h3.const_mul _
  have key : ∀ a : Lat I × Lat I, |f a.1 - f a.2| ≤ C * η * (1 + 4 * nsq a.2) + C * (η⁻¹ + 1) * nsq (a.1 - a.2) := by
    intro a
    have k1 := hC a.1 a.2
    have k2 : ‖a.1‖ ≤ ‖a.2‖ + ‖a.1 - a.2‖ := by
      have := norm_add_le a.2 (a.1 - a.2)
      rwa [add_sub_cancel] at this
    have k3 := norm_sq_le (a.1 - a.2)
    have k4 := norm_sq_le a.2
    have k6 := split_le hη0 (norm_nonneg _) (norm_nonneg _) k2 k4 k3
    refine k1.trans ?_
    have := mul_le_mul_of_nonneg_left k6 h0
    linarith
  refine (abs_integral_le_integral_abs (f := fun a : Lat I × Lat I => f a.1 - f a.2)).trans ?_
  refine (integral_mono ((hf.int mx).sub (hf.int my)).abs (i2.add i3) key).trans ?_
  have e1 : ∫ a : Lat I × Lat I, (C * η * (1 + 4 * nsq a.2) + C * (η⁻¹ + 1) * nsq (a.1 - a.2)) ∂W =
      C * η * (1 + 4 * M) + C * (η⁻¹ + 1) * ∫ a, nsq (a.1 - a.2) ∂W := by
    rw [integral_add i2 i3, integral_const_mul, integral_const_mul, integral_add (integrable_const _) (i1.const_mul 4),
      integral_const_mul, eM, integral_const, probReal_univ, one_smul]
  refine e1.le.trans ?_
  have half : ∀ a b : ℝ, 0 < a → 0 < b → a * b * (ε / (2 * a * b)) = ε / 2 := by
    intro a b ha hb
    field_simp
  have f1 : C * η * (1 + 4 * M) ≤ ε / 2 := by
    have e : (C + 1) * η * (1 + 4 * M) = ε / 2 := by
      have := half (C + 1) (1 + 4 * M) (by positivity) (by positivity)
      rw [hη]
      linarith
    rw [← e]
    gcongr
    linarith
  have f2 : C * (η⁻¹ + 1) * (∫ a, nsq (a.1 - a.2) ∂W) ≤ ε / 2 := by
    have e : (C + 1) * (η⁻¹ + 1) * δ = ε / 2 := by
      have := half (C + 1) (η⁻¹ + 1) (by positivity) (by positivity)
      rw [hδ]
      linarith
    rw [← e]
    have : 0 ≤ ∫ a, nsq (a.1 - a.2) ∂W := integral_nonneg fun _ => nsq_nonneg _
    gcongr
    linarith
  linarith

theorem lipschitz_quadratic {f : Lat I → ℝ} {K : NNReal} (hf : LipschitzWith K f) : Quadratic f := by
  refine ⟨K, fun x y => ?_⟩
  have h := hf.dist_le_mul x y
  rw [Real.dist_eq, dist_eq_norm] at h
  refine h.trans ?_
  have h1 : (K : ℝ) * 1 ≤ K * (1 + ‖x‖ + ‖y‖) := by
    gcongr
    linarith [norm_nonneg x, norm_nonneg y]
  rw [mul_one] at h1
  exact mul_le_mul_of_nonneg_right h1 (norm_nonneg _)

theorem near_quadratic {μ : ℕ → Measure (Lat I)} {ν : Measure (Lat I)} [IsProbabilityMeasure ν] (hν : MemLp id 2 ν)
    (h : ∀ δ > 0, ∀ᶠ e in atTop, Near (μ e) ν δ) {f : Lat I → ℝ} (hf : Quadratic f) :
    Tendsto (fun e => ∫ x, f x ∂μ e) atTop (𝓝 (∫ x, f x ∂ν)) := by
  rw [Metric.tendsto_nhds]
  intro ε hε
  obtain ⟨δ, hδ, k⟩ := hf.near hν (half_pos hε)
  filter_upwards [h δ hδ] with e he
  rw [Real.dist_eq]
  have := k (μ e) he
  linarith

theorem near_weak {μ : ℕ → Measure (Lat I)} {ν : Measure (Lat I)} [hp : ∀ e, IsProbabilityMeasure (μ e)] [IsProbabilityMeasure ν]
    (hν : MemLp id 2 ν) (h : ∀ δ > 0, ∀ᶠ e in atTop, Near (μ e) ν δ) {f : Lat I → ℝ} (hf : Continuous f) {B : ℝ}
    (hB : ∀ x, |f x| ≤ B) : Tendsto (fun e => ∫ x, f x ∂μ e) atTop (𝓝 (∫ x, f x ∂ν)) := by
  set μs : ℕ → ProbabilityMeasure (Lat I) := fun e => ⟨μ e, hp e⟩ with hμs
  set ν' : ProbabilityMeasure (Lat I) := ⟨ν, inferInstance⟩ with hν'
  have k : Tendsto μs atTop (𝓝 ν') := by
    rw [tendsto_iff_forall_lipschitz_integral_tendsto]
    rintro g - ⟨K, hg⟩
    exact near_quadratic hν h (lipschitz_quadratic hg)
  rw [ProbabilityMeasure.tendsto_iff_forall_integral_tendsto] at k
  exact k (BoundedContinuousFunction.ofNormedAddCommGroup f hf B hB)

variable [IsProbabilityMeasure P]

/-- SGLD with learning rates that decrease to zero slowly enough gets as close to the posterior as one likes. -/
theorem near_decay (hl : StrongConcave l m L) (hE : Estimates P G T l L) (hT : 0 < T) {μ : Measure (Lat I)} [IsProbabilityMeasure μ]
    (hμ : MemLp id 2 μ) {lr : ℕ → ℝ} (h0 : ∀ e, 0 < lr e) (hz : Tendsto lr atTop (𝓝 0)) (hs : ¬ Summable lr) {δ : ℝ} (hδ : 0 < δ) :
    ∀ᶠ e in atTop, ∀ t ≤ T, Near ((steps (lr e) G (P.prod (starts lr G P T μ e)) t).map Prod.snd) (posterior l) δ := by
  have hm := hl.pos
  have hT' : (0 : ℝ) < T := by exact_mod_cast hT
  have _ := hl.dens.prob
  have hΓ := prod_start hl hμ
  have hfst : (μ.prod (posterior l)).map Prod.fst = μ := measurePreserving_fst.map_eq
  have hz' : Tendsto lr atTop (𝓝[>] 0) := tendsto_nhdsWithin_iff.2 ⟨hz, Eventually.of_forall h0⟩
  have hep := hz'.eventually (epoch hl hE)
  set Γ := pairs lr l G P T (μ.prod (posterior l)) with hΓd
  set D : ℕ → ℝ := fun e => gap (lr e) l G P (Γ e) 0 with hD
  set er : ℕ → ℝ := fun e => err l m L (noise G P T) T (lr e) with her
  have her0 : Tendsto er atTop (𝓝 0) := (err_small hl (noise G P T) T).comp hz'
  have hα0 : ∀ e, 0 ≤ T * (m * lr e / 16) := fun e => by have := h0 e; positivity
  have hαs : ¬ Summable fun e => T * (m * lr e / 16) := by
    intro h
    apply hs
    have := h.mul_left (16 / (T * m))
    refine this.congr fun e => ?_
    field_simp
  have hrec : ∀ c > 0, ∀ᶠ e in atTop, D e ≤ 2 * c := by
    intro c hc
    refine recursion hc hα0 (hep.mono fun e h => h.2.1) hαs ?_
    filter_upwards [hep, her0.eventually_lt_const (by positivity : 0 < m / 16 * c)] with e h1 h2
    have h3 := (h1.2.2 (Γ e) (pairs_start hl hE hΓ lr e)).1
    have h4 : D (e + 1) = gap (lr e) l G P (Γ e) T := gap_succ hl hE hΓ lr e
    rw [h4]
    refine h3.trans ?_
    have h5 := mul_le_mul_of_nonneg_left h2.le (by have := h0 e; positivity : 0 ≤ T * lr e)
    have h6 : T * lr e * (m / 16 * c) = T * (m * lr e / 16) * c := by ring
    rw [h6] at h5
    exact add_le_add le_rfl h5
  have hlim : Tendsto (fun e => 2 * (δ / 4) + T * lr e * (m / 16 * (2 * (δ / 4)) + er e)) atTop (𝓝 (2 * (δ / 4))) := by
    have k1 := (hz.const_mul (T : ℝ)).mul (her0.const_add (m / 16 * (2 * (δ / 4))))
    have k2 := k1.const_add (2 * (δ / 4))
    simpa using k2
  filter_upwards [hep, hrec (δ / 4) (by positivity), hlim.eventually_lt_const (by linarith : 2 * (δ / 4) < δ)] with e h1 h2 h3 t ht
  have hst := pairs_start hl hE hΓ lr e
  have k := gap_near (lr := lr e) hl hE hst ht
  rw [pairs_starts hl hE hΓ lr e, hfst] at k
  refine k.mono (((h1.2.2 (Γ e) hst).2 t ht).trans ?_)
  refine le_trans ?_ h3.le
  have hl0 := h0 e
  have h2' : gap (lr e) l G P (Γ e) 0 ≤ 2 * (δ / 4) := h2
  gcongr

/-- SGLD with a small constant learning rate gets and stays close to the posterior. -/
theorem near_const (hl : StrongConcave l m L) (hE : Estimates P G T l L) (hT : 0 < T) {δ : ℝ} (hδ : 0 < δ) :
    ∀ᶠ lr in 𝓝[>] (0 : ℝ), ∀ μ : Measure (Lat I), IsProbabilityMeasure μ → MemLp id 2 μ →
      ∀ᶠ e in atTop, ∀ t ≤ T, Near ((steps lr G (P.prod (starts (fun _ => lr) G P T μ e)) t).map Prod.snd) (posterior l) δ := by
  have hm := hl.pos
  have hT' : (0 : ℝ) < T := by exact_mod_cast hT
  have _ := hl.dens.prob
  have hz : Tendsto (fun lr : ℝ => lr) (𝓝[>] 0) (𝓝 0) := tendsto_id.mono_left nhdsWithin_le_nhds
  have her0 := err_small hl (noise G P T) T
  have hlim : Tendsto (fun lr => 2 * (δ / 4) + T * lr * (m / 16 * (2 * (δ / 4)) + err l m L (noise G P T) T lr)) (𝓝[>] 0)
      (𝓝 (2 * (δ / 4))) := by
    have k1 := (hz.const_mul (T : ℝ)).mul (her0.const_add (m / 16 * (2 * (δ / 4))))
    have k2 := k1.const_add (2 * (δ / 4))
    simpa using k2
  filter_upwards [epoch hl hE, self_mem_nhdsWithin, her0.eventually_lt_const (by positivity : 0 < m / 16 * (δ / 4)),
    hlim.eventually_lt_const (by linarith : 2 * (δ / 4) < δ)] with lr h1 h0 h2 h3 μ _ hμ
  have h0 : 0 < lr := h0
  have hΓ := prod_start hl hμ
  have hfst : (μ.prod (posterior l)).map Prod.fst = μ := measurePreserving_fst.map_eq
  set Γ := pairs (fun _ => lr) l G P T (μ.prod (posterior l)) with hΓd
  have hα0 : 0 < T * (m * lr / 16) := by positivity
  have hrec : ∀ᶠ e in atTop, gap lr l G P (Γ e) 0 ≤ 2 * (δ / 4) := by
    refine recursion (α := fun _ => T * (m * lr / 16)) (by positivity) (fun _ => hα0.le) (Eventually.of_forall fun _ => h1.2.1)
      (fun h => hα0.ne' ?_) (Eventually.of_forall fun e => ?_)
    · exact tendsto_nhds_unique tendsto_const_nhds h.tendsto_atTop_zero
    · have k3 := (h1.2.2 (Γ e) (pairs_start hl hE hΓ _ e)).1
      have k4 : gap lr l G P (Γ (e + 1)) 0 = gap lr l G P (Γ e) T := gap_succ hl hE hΓ _ e
      rw [k4]
      refine k3.trans ?_
      have h5 := mul_le_mul_of_nonneg_left h2.le (by positivity : 0 ≤ T * lr)
      have h6 : T * lr * (m / 16 * (δ / 4)) = T * (m * lr / 16) * (δ / 4) := by ring
      rw [h6] at h5
      exact add_le_add le_rfl h5
  filter_upwards [hrec] with e h4 t ht
  have hst := pairs_start hl hE hΓ (fun _ => lr) e
  have k := gap_near (lr := lr) hl hE hst ht
  rw [pairs_starts hl hE hΓ _ e, hfst] at k
  refine k.mono (((h1.2.2 (Γ e) hst).2 t ht).trans ?_)
  refine le_trans ?_ h3.le
  gcongr

end ZhuSuan.SgWeak

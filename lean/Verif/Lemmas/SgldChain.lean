import Verif.Lemmas.SgldEpoch
import Verif.Model.SgldLoop
import Mathlib.MeasureTheory.Measure.Portmanteau
import Mathlib.Topology.Algebra.InfiniteSum.Real

/-!
# SGLD over many epochs, and what closeness of distributions gives
-/

set_option autoImplicit false

open MeasureTheory ProbabilityTheory Filter Topology Set
open ZhuSuan.Sgmcmc ZhuSuan.SgldLoop

namespace ZhuSuan.SgWeak

variable {V : Type} {I : V → Type} [Fintype V] [∀ v, Fintype (I v)] {Ω : Type} [MeasurableSpace Ω]
  {l : Lat I → ℝ} {m L : ℝ} {G : ℕ → Ω → Lat I → Lat I} {P : Measure Ω} {T : ℕ} {Γ : Measure (Lat I × Lat I)} {lr : ℝ}

theorem sgld_meas {g : Ω → Lat I → Lat I} (hg : Measurable fun a : Ω × Lat I => g a.1 a.2) (lr : ℝ) :
    Measurable fun s : (Ω × Lat I) × Lat I => ((s.1.1, fun v => sgld lr (g s.1.1) s.2 v s.1.2) : Ω × Lat I) := by
  have h1 : Measurable fun s : (Ω × Lat I) × Lat I => g s.1.1 s.1.2 := hg.comp measurable_fst
  have h2 : Measurable fun s : (Ω × Lat I) × Lat I => s.1.2 := by fun_prop
  have h3 : Measurable fun s : (Ω × Lat I) × Lat I => s.2 := by fun_prop
  have h4 : Measurable fun s : (Ω × Lat I) × Lat I => s.1.1 := by fun_prop
  simp only [sgld_move]
  have h5 : Measurable fun s : (Ω × Lat I) × Lat I => move lr s.1.2 (g s.1.1 s.1.2) s.2 :=
    h2.add ((h1.const_smul (lr / 2)).add (h3.const_smul (√lr)))
  exact h4.prodMk h5

/-- The first of the two chains is SGLD. -/
theorem cpl_steps (hl : StrongConcave l m L) [IsProbabilityMeasure P] (hE : Estimates P G T l L) (hΓ : Start l Γ) {t : ℕ}
    (ht : t ≤ T) : MeasurePreserving (fun s : Pair I Ω => (s.1.2, s.2.1)) (cpl lr l G P Γ t)
      (steps lr G (P.prod (Γ.map Prod.fst)) t) := by
  have _ := hΓ.prob
  induction t with
  | zero =>
    have hm : Measurable fun a : (Lat I × Lat I) × Ω => ((a, a.1) : Pair I Ω) := by fun_prop
    refine ⟨by fun_prop, ?_⟩
    have p1 : MeasurePreserving (Prod.fst : Lat I × Lat I → Lat I) Γ (Γ.map Prod.fst) := ⟨measurable_fst, rfl⟩
    have _ : IsProbabilityMeasure (Γ.map Prod.fst) := Measure.isProbabilityMeasure_map measurable_fst.aemeasurable
    have p2 : MeasurePreserving (Prod.map (Prod.fst : Lat I × Lat I → Lat I) (id : Ω → Ω)) (Γ.prod P) ((Γ.map Prod.fst).prod P) :=
      p1.prod (MeasurePreserving.id P)
    have p3 : MeasurePreserving (Prod.swap : Lat I × Ω → Ω × Lat I) ((Γ.map Prod.fst).prod P) (P.prod (Γ.map Prod.fst)) :=
      Measure.measurePreserving_swap
    rw [cpl, Measure.map_map (by fun_prop) hm, steps]
    exact (p3.comp p2).map_eq
  | succ t ih =>
    have hi := inv_all hl hE hΓ lr (by omega : t ≤ T)
    have _ := hi.prob
    have k := ih (by omega)
    have _ : IsProbabilityMeasure (steps lr G (P.prod (Γ.map Prod.fst)) t) := by
      rw [← k.map_eq]
      exact Measure.isProbabilityMeasure_map k.measurable.aemeasurable
    have p1 : MeasurePreserving (Prod.fst : Lat I × ℝ → Lat I) ((normals I).prod Hmc.unif) (normals I) := measurePreserving_fst
    have p2 := k.prod p1
    have p3 : MeasurePreserving (fun s : (Ω × Lat I) × Lat I => ((s.1.1, fun v => sgld lr (G t s.1.1) s.2 v s.1.2) : Ω × Lat I))
        ((steps lr G (P.prod (Γ.map Prod.fst)) t).prod (normals I)) (steps lr G (P.prod (Γ.map Prod.fst)) (t + 1)) :=
      ⟨sgld_meas (hE.meas t ht) lr, rfl⟩
    have p4 := p3.comp p2
    refine ⟨by fun_prop, ?_⟩
    rw [cpl, Measure.map_map (by fun_prop) (both_meas hl (hE.meas t ht) lr), ← p4.map_eq]
    congr 1
    ext s : 1
    simp only [Function.comp_apply, both, Prod.map, sgld_move]

/-- The joint distribution of the two chains at the start of every epoch. -/
noncomputable def pairs (lr : ℕ → ℝ) (l : Lat I → ℝ) (G : ℕ → Ω → Lat I → Lat I) (P : Measure Ω) (T : ℕ) (Γ : Measure (Lat I × Lat I)) :
    ℕ → Measure (Lat I × Lat I)
  | 0 => Γ
  | e + 1 => (cpl (lr e) l G P (pairs lr l G P T Γ e) T).map Prod.snd

theorem Inv.next {t : ℕ} (h : Inv lr l G P Γ t) : Start l ((cpl lr l G P Γ t).map Prod.snd) := by
  have _ := h.prob
  have mp : MeasurePreserving (Prod.snd : Pair I Ω → Lat I × Lat I) (cpl lr l G P Γ t) ((cpl lr l G P Γ t).map Prod.snd) :=
    ⟨measurable_snd, rfl⟩
  refine ⟨Measure.isProbabilityMeasure_map measurable_snd.aemeasurable, ?_, measurable_snd, ?_⟩
  · exact (memLp_map_measure_iff measurable_fst.aestronglyMeasurable measurable_snd.aemeasurable).2 h.mem
  · rw [Measure.map_map measurable_snd measurable_snd]
    exact h.post.map_eq

theorem pairs_start (hl : StrongConcave l m L) [IsProbabilityMeasure P] (hE : Estimates P G T l L) (hΓ : Start l Γ) (lr : ℕ → ℝ)
    (e : ℕ) : Start l (pairs lr l G P T Γ e) := by
  induction e with
  | zero => exact hΓ
  | succ e ih => exact (inv_all hl hE ih (lr e) le_rfl).next

theorem pairs_starts (hl : StrongConcave l m L) [IsProbabilityMeasure P] (hE : Estimates P G T l L) (hΓ : Start l Γ) (lr : ℕ → ℝ)
    (e : ℕ) : (pairs lr l G P T Γ e).map Prod.fst = starts lr G P T (Γ.map Prod.fst) e := by
  induction e with
  | zero => rfl
  | succ e ih =>
    have h := (cpl_steps (lr := lr e) hl hE (pairs_start hl hE hΓ lr e) le_rfl).map_eq
    rw [ih] at h
    rw [starts, ← h, pairs, Measure.map_map measurable_fst measurable_snd, Measure.map_map measurable_snd (by fun_prop)]
    rfl

theorem gap_near (hl : StrongConcave l m L) [IsProbabilityMeasure P] (hE : Estimates P G T l L) (hΓ : Start l Γ) {t : ℕ}
    (ht : t ≤ T) : Near ((steps lr G (P.prod (Γ.map Prod.fst)) t).map Prod.snd) (posterior l) (gap lr l G P Γ t) := by
  have hi := inv_all hl hE hΓ lr ht
  have hs := hi.next
  have mp : MeasurePreserving (Prod.snd : Pair I Ω → Lat I × Lat I) (cpl lr l G P Γ t) ((cpl lr l G P Γ t).map Prod.snd) :=
    ⟨measurable_snd, rfl⟩
  refine ⟨(cpl lr l G P Γ t).map Prod.snd, ?_, hs.post.map_eq, ?_, ?_⟩
  · rw [← (cpl_steps hl hE hΓ ht).map_eq, Measure.map_map measurable_fst measurable_snd, Measure.map_map measurable_snd (by fun_prop)]
    rfl
  · exact nsq_int (hs.mem.sub (hl.memLp_post.comp_measurePreserving hs.post))
  · exact (mp_int (f := fun a : Lat I × Lat I => nsq (a.1 - a.2)) mp (meas_nsq (by fun_prop))).symm.le

theorem gap_succ (hl : StrongConcave l m L) [IsProbabilityMeasure P] (hE : Estimates P G T l L) (hΓ : Start l Γ) (lr : ℕ → ℝ) (e : ℕ) :
    gap (lr (e + 1)) l G P (pairs lr l G P T Γ (e + 1)) 0 = gap (lr e) l G P (pairs lr l G P T Γ e) T := by
  rw [gap_zero (pairs_start hl hE hΓ lr (e + 1))]
  have mp : MeasurePreserving (Prod.snd : Pair I Ω → Lat I × Lat I) (cpl (lr e) l G P (pairs lr l G P T Γ e) T)
      (pairs lr l G P T Γ (e + 1)) := ⟨measurable_snd, rfl⟩
  exact (mp_int (f := fun a : Lat I × Lat I => nsq (a.1 - a.2)) mp (meas_nsq (by fun_prop))).symm

theorem prod_start (hl : StrongConcave l m L) {μ : Measure (Lat I)} [IsProbabilityMeasure μ] (hμ : MemLp id 2 μ) :
    Start l (μ.prod (posterior l)) := by
  have _ := hl.dens.prob
  exact ⟨inferInstance, hμ.comp_measurePreserving measurePreserving_fst, measurePreserving_snd⟩

/-- A recursion with a contraction whose rates add up to infinity. -/
theorem recursion {D α : ℕ → ℝ} {δ : ℝ} (hδ : 0 < δ) (hα : ∀ e, 0 ≤ α e) (hα1 : ∀ᶠ e in atTop, α e ≤ 1) (hs : ¬ Summable α)
    (h : ∀ᶠ e in atTop, D (e + 1) ≤ (1 - α e) * D e + α e * δ) : ∀ᶠ e in atTop, D e ≤ 2 * δ := by
  obtain ⟨K, hK⟩ := eventually_atTop.1 (hα1.and h)
  have hs' : ¬ Summable fun n => α (n + K) := fun h => hs ((summable_nat_add_iff K).1 h)
  have ht := (not_summable_iff_tendsto_nat_atTop_of_nonneg fun n => hα (n + K)).1 hs'
  have key : ∀ n, D (n + K) - δ ≤ Real.exp (-∑ i ∈ Finset.range n, α (i + K)) * |D K - δ| := by
    intro n
    induction n with
    | zero => simpa using le_abs_self (D K - δ)
    | succ n ih =>
      obtain ⟨h1, h2⟩ := hK (n + K) (by omega)
      have h3 : n + 1 + K = n + K + 1 := by omega
      rw [h3, Finset.sum_range_succ, neg_add, Real.exp_add]
      have h4 := mul_le_mul_of_nonneg_left ih (by linarith : 0 ≤ 1 - α (n + K))
      have h5 := Real.add_one_le_exp (-α (n + K))
      have h6 : 0 ≤ Real.exp (-∑ i ∈ Finset.range n, α (i + K)) * |D K - δ| := by positivity
      have h7 := mul_le_mul_of_nonneg_right h5 h6
      nlinarith
  have h0 : Tendsto (fun n => Real.exp (-∑ i ∈ Finset.range n, α (i + K)) * |D K - δ|) atTop (𝓝 0) := by
    have := (Real.tendsto_exp_neg_atTop_nhds_zero.comp ht).mul_const |D K - δ|
    rwa [zero_mul] at this
  have h1 := h0.eventually_lt_const hδ
  obtain ⟨N, hN⟩ := eventually_atTop.1 h1
  refine eventually_atTop.2 ⟨N + K, fun e he => ?_⟩
  have k1 := key (e - K)
  have k2 := hN (e - K) (by omega)
  rw [show e - K + K = e by omega] at k1
  linarith

end ZhuSuan.SgWeak

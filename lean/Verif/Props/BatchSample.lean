import Mathlib.Probability.Independence.Basic
import Verif.Lemmas.PiBlocks
import Verif.Lemmas.LogExp
import Verif.Spec.BatchSample
import Verif.Props.LogProbShape
import Verif.Props.Normal
import Verif.Props.Simplex

/-!
# C75: sampling a batch and `log_prob` with `group_ndims` agree
-/

set_option autoImplicit false

open MeasureTheory ProbabilityTheory Set
open scoped ENNReal

namespace ZhuSuan.Uni

open Shape

namespace BDist

/-! ## One entry -/

/-- The sampler on numbers. -/
noncomputable def sampleAt (d : BDist) (p : ℝ × ℝ) (u w : ℝ) : ℝ :=
  d.sampleE.scalar (fun | .u => u | .w => w | .a => p.1 | .b => p.2)

/-- The log probability of a number under the parameters of the sampler. -/
noncomputable def logAt : BDist → ℝ × ℝ → ℝ → EReal
  | normal .., p, x => Normal.logProb p.1 (Real.log p.2) x
  | d, p, x => d.toU.entry x p.1 p.2

theorem map_fst_dirac {f : ℝ → ℝ} (hf : Measurable f) (μ : Measure ℝ) [SFinite μ] :
    (μ.prod (Measure.dirac 0)).map (fun z : ℝ × ℝ => f z.1) = μ.map f := by
  have : (fun z : ℝ × ℝ => f z.1) = f ∘ Prod.fst := rfl
  rw [this, ← Measure.map_map hf measurable_fst, Measure.map_fst_prod]
  simp

theorem bernoulli_measurable (logits : ℝ) : Measurable (Bernoulli.sample logits) := by
  unfold Bernoulli.sample ind
  exact Measurable.ite measurableSet_Iio measurable_const measurable_const

theorem laplace_measurable (loc scale : ℝ) : Measurable (Laplace.sample loc scale) := by
  unfold Laplace.sample
  have h : Measurable (fun u : ℝ => (SignType.sign u : ℝ)) := by
    have : (fun u : ℝ => (SignType.sign u : ℝ)) = fun u => if 0 < u then 1 else if u < 0 then -1 else 0 := by
      funext u
      rw [sign_apply]
      split_ifs <;> simp
    rw [this]
    exact Measurable.ite measurableSet_Ioi measurable_const
      (Measurable.ite measurableSet_Iio measurable_const measurable_const)
  exact measurable_const.sub ((measurable_const.mul h).mul
    (Real.measurable_log.comp (measurable_const.add measurable_id.abs.neg)))

theorem bernoulli_law (logits : ℝ) :
    (volume.restrict (Ico (0 : ℝ) 1)).map (Bernoulli.sample logits) =
      (Measure.dirac (0 : ℝ) + Measure.dirac (1 : ℝ)).withDensity
        (fun x => ENNReal.ofReal (Real.exp (Bernoulli.logProb logits x))) := by
  obtain ⟨h1, h0, hr⟩ := C20_sampler logits
  have hm := bernoulli_measurable logits
  ext s hs
  rw [Measure.map_apply hm hs, withDensity_apply _ hs, ← lintegral_indicator hs, lintegral_add_measure,
    lintegral_dirac, lintegral_dirac]
  have e : Bernoulli.sample logits ⁻¹' s =
      {u | Bernoulli.sample logits u = 0 ∧ (0 : ℝ) ∈ s} ∪ {u | Bernoulli.sample logits u = 1 ∧ (1 : ℝ) ∈ s} := by
    ext u
    simp only [mem_preimage, mem_union, mem_setOf_eq]
    rcases hr u with h | h <;> simp [h]
  have hd : Disjoint {u | Bernoulli.sample logits u = 0 ∧ (0 : ℝ) ∈ s}
      {u | Bernoulli.sample logits u = 1 ∧ (1 : ℝ) ∈ s} := by
    rw [Set.disjoint_left]
    rintro u ⟨ha, _⟩ ⟨hb, _⟩
    rw [ha] at hb; norm_num at hb
  have hm1 : MeasurableSet {u | Bernoulli.sample logits u = 1 ∧ (1 : ℝ) ∈ s} :=
    (hm (measurableSet_singleton 1)).inter (MeasurableSet.const _)
  rw [e, measure_union hd hm1]
  congr 1
  · by_cases h : (0 : ℝ) ∈ s
    · simp only [h, and_true, indicator_of_mem]; exact h0
    · simp [h]
  · by_cases h : (1 : ℝ) ∈ s
    · simp only [h, and_true, indicator_of_mem]; exact h1
    · simp [h]

theorem poisson_law (rate : ℝ) (hr : 0 < rate) :
    (poissonMeasure rate.toNNReal).map (fun k : ℕ => (k : ℝ)) =
      (Measure.count.map (fun k : ℕ => (k : ℝ))).withDensity
        (fun x => ENNReal.ofReal (Real.exp (Poisson.logProb rate x))) := by
  have hm : Measurable (fun k : ℕ => (k : ℝ)) := measurable_from_top
  have he : MeasurableEmbedding (fun k : ℕ => (k : ℝ)) := Nat.isClosedEmbedding_coe_real.measurableEmbedding
  ext s hs
  have hx : rate.toNNReal = NNReal.mk rate hr.le := Real.toNNReal_of_nonneg hr.le
  rw [Measure.map_apply hm hs, withDensity_apply _ hs, he.restrict_map, he.lintegral_map, hx,
    ← lintegral_indicator (hm hs), lintegral_count, ← Measure.tsum_indicator_apply_singleton _ _ (hm hs)]
  refine tsum_congr fun k => ?_
  simp only [indicator]
  split_ifs
  · exact (C25_total rate hr).2 k
  · rfl

theorem entry_law (d : BDist) (p : ℝ × ℝ) (hv : d.ValidAt p) :
    ((d.sourceU p).prod (d.sourceW p)).map (fun z : ℝ × ℝ => d.sampleAt p z.1 z.2) =
      d.base.withDensity (fun x => EReal.exp (d.logAt p x)) := by
  cases d with
  | normal m s =>
    simp only [sourceU, sourceW, base, logAt, EReal.exp_coe]
    rw [show (fun z : ℝ × ℝ => sampleAt (normal m s) p z.1 z.2) =
      fun z => Normal.sample p.1 p.2 z.1 from rfl, map_fst_dirac (by unfold Normal.sample; fun_prop)]
    exact C18_sampler p.1 (.std p.2) hv
  | bernoulli l =>
    simp only [sourceU, sourceW, base, logAt, toU, UDist.entry, EReal.exp_coe]
    rw [show (fun z : ℝ × ℝ => sampleAt (bernoulli l) p z.1 z.2) =
      fun z => Bernoulli.sample p.1 z.1 from rfl, map_fst_dirac (bernoulli_measurable _)]
    exact bernoulli_law p.1
  | uniform a b =>
    simp only [sourceU, sourceW, base, logAt, toU, UDist.entry, C22_prob]
    rw [show (fun z : ℝ × ℝ => sampleAt (uniform a b) p z.1 z.2) =
      fun z => Uniform.sample p.1 p.2 z.1 from rfl, map_fst_dirac (by unfold Uniform.sample; fun_prop)]
    exact (C22_sampler p.1 p.2 hv).2.1
  | gamma a b =>
    have := isProbabilityMeasure_gammaMeasure hv.1 one_pos
    simp only [sourceU, sourceW, base, logAt, toU, UDist.entry, EReal.exp_coe]
    rw [show (fun z : ℝ × ℝ => sampleAt (gamma a b) p z.1 z.2) =
      fun z => z.1 / p.2 from rfl, map_fst_dirac (f := fun x => x / p.2) (by fun_prop)]
    exact C23_sampler p.1 p.2 hv.1 hv.2
  | beta a b =>
    simp only [sourceU, sourceW, base, logAt, toU, UDist.entry, EReal.exp_coe]
    exact C24_sampler p.1 p.2 hv.1 hv.2
  | poisson r =>
    simp only [sourceU, sourceW, base, logAt, toU, UDist.entry, EReal.exp_coe]
    rw [show (fun z : ℝ × ℝ => sampleAt (poisson r) p z.1 z.2) = fun z => z.1 from rfl,
      map_fst_dirac (f := fun x => x) (by fun_prop), Measure.map_id']
    exact poisson_law p.1 hv
  | inverseGamma a b =>
    have := isProbabilityMeasure_gammaMeasure hv.1 one_pos
    simp only [sourceU, sourceW, base, logAt, toU, UDist.entry, EReal.exp_coe]
    rw [show (fun z : ℝ × ℝ => sampleAt (inverseGamma a b) p z.1 z.2) =
      fun z => InverseGamma.sample (z.1 / p.2) from rfl,
      map_fst_dirac (f := fun x => InverseGamma.sample (x / p.2)) (by unfold InverseGamma.sample; fun_prop),
      ← C27_sampler p.1 p.2 hv.1 hv.2, gammaMeasure_restrict p.1 p.2 hv.1 hv.2, ← C23_sampler p.1 p.2 hv.1 hv.2,
      Measure.map_map (by unfold InverseGamma.sample; fun_prop) (by fun_prop)]
    rfl
  | laplace a b =>
    simp only [sourceU, sourceW, base, logAt, toU, UDist.entry, EReal.exp_coe]
    rw [show (fun z : ℝ × ℝ => sampleAt (laplace a b) p z.1 z.2) =
      fun z => Laplace.sample p.1 p.2 z.1 from rfl, map_fst_dirac (laplace_measurable _ _)]
    exact C28_sampler p.1 p.2 hv
  | binConcrete t l =>
    simp only [sourceU, sourceW, base, logAt, toU, UDist.entry, EReal.exp_coe]
    rw [show (fun z : ℝ × ℝ => sampleAt (binConcrete t l) p z.1 z.2) =
      fun z => BinConcrete.sample p.1 p.2 z.1 from rfl,
      map_fst_dirac (by unfold BinConcrete.sample sigmoid; fun_prop)]
    exact C29_sampler p.1 p.2 hv

theorem measurable_sampleAt (d : BDist) (p : ℝ × ℝ) : Measurable (fun z : ℝ × ℝ => d.sampleAt p z.1 z.2) := by
  cases d with
  | normal =>
    have : Measurable (Normal.sample p.1 p.2) := by unfold Normal.sample; fun_prop
    exact this.comp measurable_fst
  | bernoulli => exact (bernoulli_measurable p.1).comp measurable_fst
  | uniform =>
    have : Measurable (Uniform.sample p.1 p.2) := by unfold Uniform.sample; fun_prop
    exact this.comp measurable_fst
  | gamma => exact measurable_fst.div_const _
  | beta => exact measurable_fst.div (measurable_fst.add measurable_snd)
  | poisson => exact measurable_fst
  | inverseGamma => exact measurable_const.div (measurable_fst.div_const _)
  | laplace => exact (laplace_measurable p.1 p.2).comp measurable_fst
  | binConcrete =>
    have : Measurable (BinConcrete.sample p.1 p.2) := by unfold BinConcrete.sample sigmoid; fun_prop
    exact this.comp measurable_fst

theorem prob_sourceU (d : BDist) (p : ℝ × ℝ) (hv : d.ValidAt p) : IsProbabilityMeasure (d.sourceU p) := by
  cases d with
  | normal => simp only [sourceU]; infer_instance
  | bernoulli | uniform | binConcrete => exact ⟨by simp [sourceU]⟩
  | gamma | beta | inverseGamma => exact isProbabilityMeasure_gammaMeasure hv.1 one_pos
  | poisson =>
    exact Measure.isProbabilityMeasure_map (measurable_from_top (f := fun k : ℕ => (k : ℝ))).aemeasurable
  | laplace =>
    refine ⟨?_⟩
    simp only [sourceU]
    rw [withDensity_apply _ MeasurableSet.univ]
    simp
    rw [show (1 + 1 : ℝ) = 2 by norm_num, ENNReal.ofReal_ofNat]
    exact ENNReal.inv_mul_cancel (by norm_num) (by norm_num)

theorem prob_sourceW (d : BDist) (p : ℝ × ℝ) (hv : d.ValidAt p) : IsProbabilityMeasure (d.sourceW p) := by
  cases d with
  | beta => exact isProbabilityMeasure_gammaMeasure hv.2 one_pos
  | _ => simp only [sourceW]; infer_instance

instance (d : BDist) : SigmaFinite d.base := by
  cases d with
  | poisson => exact Nat.isClosedEmbedding_coe_real.measurableEmbedding.sigmaFinite_map
  | _ => simp only [base]; infer_instance

/-- The law of an entry with parameters `p`. -/
noncomputable def law (d : BDist) (p : ℝ × ℝ) : Measure ℝ := d.base.withDensity (fun x => EReal.exp (d.logAt p x))

theorem prob_law (d : BDist) (p : ℝ × ℝ) (hv : d.ValidAt p) : IsProbabilityMeasure (d.law p) := by
  have := prob_sourceU d p hv
  have := prob_sourceW d p hv
  rw [law, ← entry_law d p hv]
  exact Measure.isProbabilityMeasure_map (measurable_sampleAt d p).aemeasurable

theorem aemeasurable_logAt (d : BDist) (p : ℝ × ℝ) :
    AEMeasurable (fun x => EReal.exp (d.logAt p x)) d.base := by
  cases d with
  | bernoulli l =>
    refine Meas.aemeasurable_of_countable (s := {0, 1}) (by simp) ?_ _
    simp [base]
  | poisson r =>
    refine Meas.aemeasurable_of_countable (s := range (fun k : ℕ => (k : ℝ))) (countable_range _) ?_ _
    simp only [base]
    rw [Nat.isClosedEmbedding_coe_real.measurableEmbedding.map_apply]
    simp
  | uniform a b =>
    simp only [logAt, toU, UDist.entry, C22_prob]
    refine (Measurable.ennreal_ofReal ?_).aemeasurable
    unfold Uniform.prob ind
    exact measurable_const.mul (Measurable.ite (measurableSet_Ici.inter measurableSet_Iio) measurable_const
      measurable_const)
  | normal m s =>
    simp only [logAt, EReal.exp_coe]; unfold Normal.logProb; fun_prop
  | gamma a b =>
    simp only [logAt, toU, UDist.entry, EReal.exp_coe]; unfold Gamma.logProb; fun_prop
  | beta a b =>
    simp only [logAt, toU, UDist.entry, EReal.exp_coe]; unfold Beta.logProb; fun_prop
  | inverseGamma a b =>
    simp only [logAt, toU, UDist.entry, EReal.exp_coe]; unfold InverseGamma.logProb; fun_prop
  | laplace a b =>
    simp only [logAt, toU, UDist.entry, EReal.exp_coe]; unfold Laplace.logProb
    have h : Measurable (fun x : ℝ => |x - p.1|) := (measurable_id.sub_const _).abs
    fun_prop
  | binConcrete a b =>
    simp only [logAt, toU, UDist.entry, EReal.exp_coe]; unfold BinConcrete.logProb softplus; fun_prop

/-! ## The batch -/

theorem hasBatch_batch (d : BDist) (B : List ℕ) (hB : d.HasBatch B) : d.batch = some B := by
  cases d with
  | normal m s => cases s <;> exact (C12_least_upper_bound _ _ _).2 hB
  | uniform | gamma | beta | inverseGamma | laplace => exact (C12_least_upper_bound _ _ _).2 hB
  | bernoulli | poisson => exact congrArg some hB.symm
  | binConcrete => exact congrArg some hB.2.symm

theorem expands_sparams (d : BDist) (B : List ℕ) (hB : d.HasBatch B) :
    Expands d.sparams.1.shape B ∧ Expands d.sparams.2.shape B := by
  cases d with
  | normal m s => cases s <;> exact ⟨hB.1, hB.2.1⟩
  | uniform | gamma | beta | inverseGamma | laplace => exact ⟨hB.1, hB.2.1⟩
  | bernoulli l | poisson l =>
    have : B = l.shape := hB
    subst this
    exact ⟨expands_refl _, expands_refl _⟩
  | binConcrete t l =>
    obtain ⟨h1, rfl⟩ := hB
    refine ⟨?_, expands_refl _⟩
    show Expands t.shape _
    rw [h1]; exact expands_nil _

theorem sample_spec (d : BDist) (B : List ℕ) (hB : d.HasBatch B) (n : ℕ) (u w : List ℕ → ℝ) :
    ∃ t, d.sample n u w = some t ∧ t.shape = n :: B ∧
      ∀ idx, InBounds idx (n :: B) → t.val idx = d.sampleAt (d.par idx) (u idx) (w idx) := by
  have hE : ∀ i, Expands (d.senv (n :: B) u w i).shape (n :: B) := by
    obtain ⟨h1, h2⟩ := expands_sparams d B hB
    intro i
    cases i
    · exact expands_refl _
    · exact expands_refl _
    · exact h1.cons n
    · exact h2.cons n
  have hu : SV.u ∈ d.sampleE.vars := by cases d <;> exact List.elem_iff.1 rfl
  unfold sample
  rw [hasBatch_batch d B hB]
  simp only [Option.bind_some]
  cases he : d.sampleE.eval (d.senv (n :: B) u w) with
  | none => exact absurd ⟨n :: B, fun i _ => hE i⟩ (Expr.eval_none _ _ he)
  | some t =>
    obtain ⟨h1, h2, h3⟩ := Expr.eval_spec _ _ _ he
    have hs : t.shape = n :: B := expands_antisymm (h2 _ fun i _ => hE i) (h1 _ hu)
    refine ⟨t, rfl, hs, fun idx hi => ?_⟩
    rw [h3 idx (by rw [hs]; exact hi)]
    unfold sampleAt
    congr 1
    funext i
    cases i
    · exact congrArg u (projIdx_self hi)
    · exact congrArg w (projIdx_self hi)
    · rfl
    · rfl

theorem projIdx_cons (a : List ℕ) (i : ℕ) (idx : List ℕ) (h : a.length ≤ idx.length) :
    projIdx a (i :: idx) = projIdx a idx := by
  unfold projIdx
  have : (i :: idx).length - a.length = (idx.length - a.length) + 1 := by simp only [List.length_cons]; omega
  rw [this, List.drop_succ_cons]

theorem par_cons (d : BDist) (B : List ℕ) (hB : d.HasBatch B) (i : ℕ) (idx : List ℕ) (hi : InBounds idx B) :
    d.par (i :: idx) = d.par idx := by
  obtain ⟨h1, h2⟩ := expands_sparams d B hB
  unfold par
  rw [projIdx_cons _ _ _ (by rw [hi.length]; exact h1.1), projIdx_cons _ _ _ (by rw [hi.length]; exact h2.1)]

theorem valid_cons (d : BDist) (B : List ℕ) (hB : d.HasBatch B) (hv : d.Valid B) (n : ℕ) : d.Valid (n :: B) := by
  intro idx hi
  cases hi with
  | cons h1 h2 =>
    rw [par_cons d B hB _ _ h2]
    exact hv _ h2

theorem tensorOf_val {s : List ℕ} (x : Idx s → ℝ) (i : Idx s) : (tensorOf s x).val i.1 = x i := by
  unfold tensorOf
  simp only [i.2, dite_true]

theorem drawn_eq (d : BDist) (B : List ℕ) (hB : d.HasBatch B) (n : ℕ) (w : Idx (n :: B) → ℝ × ℝ)
    (i : Idx (n :: B)) : d.drawn n B w i = d.sampleAt (d.par i.1) (w i).1 (w i).2 := by
  obtain ⟨t, h1, h2, h3⟩ := sample_spec d B hB n (tensorOf (n :: B) fun i => (w i).1).val
    (tensorOf (n :: B) fun i => (w i).2).val
  unfold drawn
  rw [h1]
  simp only
  rw [h3 i.1 (mem_allIndices.1 i.2), tensorOf_val, tensorOf_val]

theorem law_drawn (d : BDist) (B : List ℕ) (hB : d.HasBatch B) (hv : d.Valid B) (n : ℕ) :
    (d.noise (n :: B)).map (d.drawn n B) = Measure.pi fun i : Idx (n :: B) => d.law (d.par i.1) := by
  have hv' := valid_cons d B hB hv n
  have hva : ∀ i : Idx (n :: B), d.ValidAt (d.par i.1) := fun i => hv' _ (mem_allIndices.1 i.2)
  have e : d.drawn n B = fun w i => d.sampleAt (d.par i.1) (w i).1 (w i).2 := by
    funext w i
    exact drawn_eq d B hB n w i
  have hl : ∀ i : Idx (n :: B), ((d.sourceU (d.par i.1)).prod (d.sourceW (d.par i.1))).map
      (fun z : ℝ × ℝ => d.sampleAt (d.par i.1) z.1 z.2) = d.law (d.par i.1) := fun i => entry_law d _ (hva i)
  have : ∀ i : Idx (n :: B), SigmaFinite (((d.sourceU (d.par i.1)).prod (d.sourceW (d.par i.1))).map
      (fun z : ℝ × ℝ => d.sampleAt (d.par i.1) z.1 z.2)) := fun i => by
    rw [hl]
    have := prob_law d _ (hva i)
    infer_instance
  rw [e]
  unfold noise
  rw [Measure.pi_map_pi (f := fun (i : Idx (n :: B)) (z : ℝ × ℝ) => d.sampleAt (d.par i.1) z.1 z.2)
    (fun i => (measurable_sampleAt d _).aemeasurable)]
  simp_rw [hl]

theorem measurable_drawn (d : BDist) (B : List ℕ) (hB : d.HasBatch B) (n : ℕ) : Measurable (d.drawn n B) := by
  refine measurable_pi_lambda _ fun i => ?_
  simp_rw [drawn_eq d B hB]
  exact (measurable_sampleAt d (d.par i.1)).comp (measurable_pi_apply i)

/-- Concatenation of indices. -/
def appendEquiv {s outer inner : List ℕ} (h : s = outer ++ inner) : Idx outer × Idx inner ≃ Idx s where
  toFun q := ⟨q.1.1 ++ q.2.1, by
    rw [h, mem_allIndices]
    exact List.rel_append (mem_allIndices.1 q.1.2) (mem_allIndices.1 q.2.2)⟩
  invFun i := (⟨i.1.take outer.length, by
      have hi : InBounds i.1 (outer ++ inner) := h ▸ mem_allIndices.1 i.2
      rw [mem_allIndices]
      have := List.forall₂_take outer.length hi
      rwa [List.take_left] at this⟩,
    ⟨i.1.drop outer.length, by
      have hi : InBounds i.1 (outer ++ inner) := h ▸ mem_allIndices.1 i.2
      rw [mem_allIndices]
      have := List.forall₂_drop outer.length hi
      rwa [List.drop_left] at this⟩)
  left_inv q := by
    have hl : q.1.1.length = outer.length := (mem_allIndices.1 q.1.2).length
    ext1 <;> apply Subtype.ext
    · simp [← hl]
    · simp [← hl]
  right_inv i := Subtype.ext (List.take_append_drop _ _)

theorem block_eq {s outer inner : List ℕ} (h : s = outer ++ inner) (o : Idx outer) (x : Idx s → ℝ) :
    (block o x : Idx inner → ℝ) = fun j => x (appendEquiv h (o, j)) := by
  funext j
  exact tensorOf_val x (appendEquiv h (o, j))

theorem exp_list_sum (l : List EReal) : EReal.exp l.sum = (l.map EReal.exp).prod := by
  induction l with
  | nil => simp
  | cons x l ih => simp [EReal.exp_add, ih]

theorem prod_idx (s : List ℕ) (f : List ℕ → ℝ≥0∞) : ((allIndices s).map f).prod = ∏ j : Idx s, f j.1 := by
  rw [← List.prod_toFinset _ (LogExp.allIndices_nodup s), Finset.prod_subtype (p := fun i => i ∈ allIndices s) _
    (fun i => by simp)]

/-- The log probability of an entry, in terms of the parameters of the sampler. -/
theorem entry_logAt (d : BDist) (idx : List ℕ) (x : ℝ) :
    d.toU.entry x (d.toU.params.1.val (projIdx d.toU.params.1.shape idx))
      (d.toU.params.2.val (projIdx d.toU.params.2.shape idx)) = d.logAt (d.par idx) x := by
  cases d with
  | normal m s =>
    cases s with
    | std t => rfl
    | logstd t =>
      simp only [logAt, par, sparams, StdT.getStd, Real.log_exp]
      rfl
  | _ => rfl

/-- The density of the group `o`. -/
noncomputable def dens (d : BDist) {outer inner : List ℕ} (o : Idx outer) (y : Idx inner → ℝ) : ℝ≥0∞ :=
  ∏ j : Idx inner, EReal.exp (d.logAt (d.par (o.1 ++ j.1)) (y j))

theorem logProb_dens (d : BDist) (B s outer inner : List ℕ) (hB : d.HasBatch B) (hs : s = outer ++ inner)
    (he : Expands B s) (x : Idx s → ℝ) :
    ∃ r, d.toU.logProb (tensorOf s x) inner.length = some r ∧ r.shape = outer ∧
      ∀ o : Idx outer, EReal.exp (r.val o.1) = d.dens o (block o x : Idx inner → ℝ) := by
  have hS : IsBroadcast (tensorOf s x).shape B s := ⟨expands_refl _, he, fun c h1 _ => h1⟩
  obtain ⟨t, h1, h2, h3⟩ := UDist.eval_logProbE d.toU (tensorOf s x) B s hB hS
  have hl : s.length - inner.length = outer.length := by rw [hs]; simp
  obtain ⟨r, g1, g2, g3⟩ := groupReduce_spec List.sum t inner.length (by rw [h2, hs]; simp)
  have hr : r.shape = outer := by rw [g2, h2, hl, hs, List.take_left]
  refine ⟨r, ?_, hr, fun o => ?_⟩
  · unfold UDist.logProb; rw [h1]; exact g1
  · rw [g3 o.1 (by rw [hr]; exact mem_allIndices.1 o.2), exp_list_sum, List.map_map, h2, hl]
    have hd : s.drop outer.length = inner := by rw [hs, List.drop_left]
    rw [hd, prod_idx]
    refine Finset.prod_congr rfl fun j _ => ?_
    have hin : InBounds (o.1 ++ j.1) s := mem_allIndices.1 (appendEquiv hs (o, j)).2
    simp only [Function.comp]
    rw [h3 _ hin, entry_logAt]
    congr 2
    exact congrArg _ (projIdx_self hin)

/-- Groups of independent entries with the laws of the batch. -/
theorem groups (d : BDist) (s outer inner : List ℕ) (hv : d.Valid s) (hs : s = outer ++ inner)
    {Ω : Type} [MeasurableSpace Ω] (P : Measure Ω) [IsProbabilityMeasure P] (X : Ω → Idx s → ℝ) (hX : Measurable X)
    (hlaw : P.map X = Measure.pi fun i : Idx s => d.law (d.par i.1)) :
    (∀ o : Idx outer, P.map (fun w => (block o (X w) : Idx inner → ℝ)) =
      (Measure.pi fun _ => d.base).withDensity (d.dens o)) ∧
    iIndepFun (fun (o : Idx outer) w => (block o (X w) : Idx inner → ℝ)) P := by
  have hva : ∀ i : Idx s, d.ValidAt (d.par i.1) := fun i => hv _ (mem_allIndices.1 i.2)
  have hp : ∀ i : Idx s, IsProbabilityMeasure (d.law (d.par i.1)) := fun i => prob_law d _ (hva i)
  have hpe : ∀ (o : Idx outer) (j : Idx inner), IsProbabilityMeasure (d.law (d.par (o.1 ++ j.1))) :=
    fun o j => hp (appendEquiv hs (o, j))
  have hb : Measurable fun (x : Idx s → ℝ) (o : Idx outer) => (block o x : Idx inner → ℝ) := by
    simp_rw [block_eq hs]
    fun_prop
  have hjoint : P.map (fun w (o : Idx outer) => (block o (X w) : Idx inner → ℝ)) =
      Measure.pi fun o : Idx outer => Measure.pi fun j : Idx inner => d.law (d.par (o.1 ++ j.1)) := by
    have : (fun w (o : Idx outer) => (block o (X w) : Idx inner → ℝ)) =
        (fun (x : Idx s → ℝ) (o : Idx outer) => (block o x : Idx inner → ℝ)) ∘ X := rfl
    rw [this, ← Measure.map_map hb hX, hlaw]
    simp_rw [block_eq hs]
    exact Meas.pi_blocks (appendEquiv hs) (fun i : Idx s => d.law (d.par i.1))
  have hm : ∀ o : Idx outer, Measurable fun w => (block o (X w) : Idx inner → ℝ) := fun o =>
    (measurable_pi_apply o).comp (hb.comp hX)
  have hone : ∀ o : Idx outer, P.map (fun w => (block o (X w) : Idx inner → ℝ)) =
      Measure.pi fun j : Idx inner => d.law (d.par (o.1 ++ j.1)) := by
    intro o
    have : (fun w => (block o (X w) : Idx inner → ℝ)) =
        (fun y : Idx outer → Idx inner → ℝ => y o) ∘ fun w (o : Idx outer) => (block o (X w) : Idx inner → ℝ) := rfl
    have hc : Measurable fun w (o : Idx outer) => (block o (X w) : Idx inner → ℝ) := hb.comp hX
    rw [this, ← Measure.map_map (measurable_pi_apply o) hc, hjoint]
    exact (measurePreserving_eval _ o).map_eq
  refine ⟨fun o => ?_, ?_⟩
  · rw [hone]
    unfold law dens
    have : ∀ j : Idx inner, SigmaFinite (d.base.withDensity fun x => EReal.exp (d.logAt (d.par (o.1 ++ j.1)) x)) :=
      fun j => by
        have := hpe o j
        unfold law at this
        infer_instance
    exact Meas.pi_withDensity_ae _ _ fun j => aemeasurable_logAt d _
  · rw [iIndepFun_iff_map_fun_eq_pi_map fun o => (hm o).aemeasurable, hjoint]
    congr 1
    funext o
    exact (hone o).symm

theorem prob_noise (d : BDist) (s : List ℕ) (hv : d.Valid s) : IsProbabilityMeasure (d.noise s) := by
  have h : ∀ i : Idx s, IsProbabilityMeasure ((d.sourceU (d.par i.1)).prod (d.sourceW (d.par i.1))) := fun i => by
    have := prob_sourceU d _ (hv _ (mem_allIndices.1 i.2))
    have := prob_sourceW d _ (hv _ (mem_allIndices.1 i.2))
    infer_instance
  unfold noise
  infer_instance

/-! ## The theorems -/

/-- `sample(n)` returns a tensor of shape `[n] + batch_shape`, `sample()` one of shape `batch_shape`. -/
theorem C75_shape (d : BDist) (B : List ℕ) (hB : d.HasBatch B) (u w : List ℕ → ℝ) :
    (∀ n, ∃ t, d.sample n u w = some t ∧ t.shape = n :: B) ∧ ∃ t, d.sampleOne u w = some t ∧ t.shape = B := by
  refine ⟨fun n => ?_, ?_⟩
  · obtain ⟨t, h1, h2, _⟩ := sample_spec d B hB n u w
    exact ⟨t, h1, h2⟩
  · obtain ⟨t, h1, h2, _⟩ := sample_spec d B hB 1 u w
    exact ⟨_, by unfold sampleOne; rw [h1]; rfl, by simp [h2]⟩

/-- `sample(n)` and `log_prob` with `group_ndims = g` describe the same distribution.  Write the shape of the sample
as `outer ++ inner` with `g` axes in `inner`.  Then `log_prob` of a value has shape `outer`; the groups of the sample
are independent; and the law of group `o` has density `exp (log_prob(x)[o])`, a function of the entries of `x` in the
group. -/
theorem C75_groups (d : BDist) (B : List ℕ) (hB : d.HasBatch B) (hv : d.Valid B) (n : ℕ) (outer inner : List ℕ)
    (hs : n :: B = outer ++ inner) :
    ∃ ρ : Idx outer → (Idx inner → ℝ) → ℝ≥0∞,
      (∀ x : Idx (n :: B) → ℝ, ∃ r, d.toU.logProb (tensorOf (n :: B) x) inner.length = some r ∧ r.shape = outer ∧
        ∀ o : Idx outer, EReal.exp (r.val o.1) = ρ o (block o x)) ∧
      (∀ o : Idx outer, (d.noise (n :: B)).map (fun w => (block o (d.drawn n B w) : Idx inner → ℝ)) =
        (Measure.pi fun _ => d.base).withDensity (ρ o)) ∧
      iIndepFun (fun (o : Idx outer) w => (block o (d.drawn n B w) : Idx inner → ℝ)) (d.noise (n :: B)) := by
  have := prob_noise d _ (valid_cons d B hB hv n)
  exact ⟨fun o => d.dens o, logProb_dens d B _ outer inner hB hs ((expands_refl B).cons n),
    groups d _ outer inner (valid_cons d B hB hv n) hs _ _ (measurable_drawn d B hB n) (law_drawn d B hB hv n)⟩

theorem drawnOne_eq (d : BDist) (B : List ℕ) (hB : d.HasBatch B) (w : Idx (1 :: B) → ℝ × ℝ) (i : Idx B)
    (hi : 0 :: i.1 ∈ allIndices (1 :: B)) : d.drawnOne B w i = d.drawn 1 B w ⟨0 :: i.1, hi⟩ := by
  obtain ⟨t, h1, h2, h3⟩ := sample_spec d B hB 1 (tensorOf (1 :: B) fun i => (w i).1).val
    (tensorOf (1 :: B) fun i => (w i).2).val
  unfold drawnOne drawn sampleOne
  rw [h1]
  rfl

theorem zero_mem {B : List ℕ} (i : Idx B) : 0 :: i.1 ∈ allIndices (1 :: B) :=
  mem_allIndices.2 (List.Forall₂.cons Nat.one_pos (mem_allIndices.1 i.2))

/-- The same for `sample()`, whose result has shape `batch_shape`. -/
theorem C75_one (d : BDist) (B : List ℕ) (hB : d.HasBatch B) (hv : d.Valid B) (outer inner : List ℕ)
    (hs : B = outer ++ inner) :
    ∃ ρ : Idx outer → (Idx inner → ℝ) → ℝ≥0∞,
      (∀ x : Idx B → ℝ, ∃ r, d.toU.logProb (tensorOf B x) inner.length = some r ∧ r.shape = outer ∧
        ∀ o : Idx outer, EReal.exp (r.val o.1) = ρ o (block o x)) ∧
      (∀ o : Idx outer, (d.noise (1 :: B)).map (fun w => (block o (d.drawnOne B w) : Idx inner → ℝ)) =
        (Measure.pi fun _ => d.base).withDensity (ρ o)) ∧
      iIndepFun (fun (o : Idx outer) w => (block o (d.drawnOne B w) : Idx inner → ℝ)) (d.noise (1 :: B)) := by
  have hv1 := valid_cons d B hB hv 1
  have := prob_noise d _ hv1
  have e : d.drawnOne B = (fun (x : Idx (1 :: B) → ℝ) (i : Idx B) => x ⟨0 :: i.1, zero_mem i⟩) ∘ d.drawn 1 B := by
    funext w i
    exact drawnOne_eq d B hB w i (zero_mem i)
  have hr : Measurable (fun (x : Idx (1 :: B) → ℝ) (i : Idx B) => x ⟨0 :: i.1, zero_mem i⟩) := by fun_prop
  have hp : ∀ i : Idx (1 :: B), IsProbabilityMeasure (d.law (d.par i.1)) := fun i =>
    prob_law d _ (hv1 _ (mem_allIndices.1 i.2))
  have hm : Measurable (d.drawnOne B) := by rw [e]; exact hr.comp (measurable_drawn d B hB 1)
  have hlaw : (d.noise (1 :: B)).map (d.drawnOne B) = Measure.pi fun i : Idx B => d.law (d.par i.1) := by
    rw [e, ← Measure.map_map hr (measurable_drawn d B hB 1), law_drawn d B hB hv 1]
    let e1 : Unit × Idx B ≃ Idx (1 :: B) :=
      { toFun := fun q => ⟨0 :: q.2.1, zero_mem q.2⟩
        invFun := fun i => ((), ⟨i.1.tail, by
          have hi := mem_allIndices.1 i.2
          obtain ⟨i, hi'⟩ := i
          cases hi with
          | cons h1 h2 => exact mem_allIndices.2 h2⟩)
        left_inv := fun q => rfl
        right_inv := fun i => by
          have hi := mem_allIndices.1 i.2
          obtain ⟨i, hi'⟩ := i
          apply Subtype.ext
          cases hi with
          | cons h1 h2 =>
            have := Nat.lt_one_iff.1 h1
            subst this
            rfl }
    have hb := Meas.pi_blocks e1 (fun i : Idx (1 :: B) => d.law (d.par i.1))
    have hpp : ∀ i : Idx B, IsProbabilityMeasure (d.law (d.par (e1 ((), i)).1)) := fun i => hp _
    have h2 := congrArg (fun μ : Measure (Unit → Idx B → ℝ) => μ.map (fun y => y ())) hb
    rw [Measure.map_map (by fun_prop) (by fun_prop)] at h2
    rw [(measurePreserving_eval (fun _ : Unit => Measure.pi fun i : Idx B => d.law (d.par (e1 ((), i)).1)) ()).map_eq]
      at h2
    refine Eq.trans h2 ?_
    congr 1
    funext i
    exact congrArg d.law (par_cons d B hB 0 i.1 (mem_allIndices.1 i.2))
  exact ⟨fun o => d.dens o, logProb_dens d B _ outer inner hB hs (expands_refl B),
    groups d _ outer inner hv hs _ _ hm hlaw⟩

/-- Non-trivial instance: Gamma with alpha of shape `[2, 1]` and beta of shape `[3]`, five samples, the last axis
grouped. -/
example : ∃ d : BDist, ∃ B outer inner : List ℕ, d.HasBatch B ∧ d.Valid B ∧ 5 :: B = outer ++ inner ∧
    outer = [5, 2] ∧ inner = [3] ∧ d.par [1, 2] = (2, 3) := by
  refine ⟨.gamma ⟨[2, 1], fun i => (i.headD 0 : ℝ) + 1⟩ ⟨[3], fun i => (i.headD 0 : ℝ) + 1⟩, [2, 3], [5, 2], [3],
    Dist.isBroadcast_iff.2 rfl, ?_, rfl, rfl, rfl, ?_⟩
  · intro idx _
    constructor <;> simp only [par, sparams] <;> positivity
  · norm_num [par, sparams, projIdx]

end BDist
end ZhuSuan.Uni

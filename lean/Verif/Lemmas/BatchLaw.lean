import Verif.Spec.BatchSampleMv
import Verif.Props.BatchSample

/-! # From the law of one value to the agreement of sampling and `log_prob` for a batch -/

set_option autoImplicit false

open MeasureTheory ProbabilityTheory Set
open scoped ENNReal

namespace ZhuSuan.Batch
open Shape
open Uni (Idx)
open Uni.BDist (appendEquiv prod_idx exp_list_sum)

theorem blockOf_eq {E : Type} {s outer inner : List ℕ} (hs : s = outer ++ inner) (o : Idx outer) (x : Idx s → E) :
    blockOf hs o x = fun j => x (appendEquiv hs (o, j)) := rfl

/-- Independent values with densities, and a `log_prob` that is the sum of the logarithms of these. -/
theorem agree_of {Ω E : Type} [MeasurableSpace Ω] [MeasurableSpace E] {s : List ℕ} (P : Measure Ω)
    [IsProbabilityMeasure P] (X : Ω → Idx s → E) (hX : Measurable X) (base : Measure E) [SigmaFinite base]
    (supp : Set E) (hsupp : base suppᶜ = 0) (dens : Idx s → E → ℝ≥0∞) (hd : ∀ i, AEMeasurable (dens i) base)
    (hp : ∀ i, IsProbabilityMeasure (base.withDensity (dens i)))
    (hlaw : P.map X = Measure.pi fun i => base.withDensity (dens i))
    (logProb : (Idx s → E) → ℕ → Option (Tensor EReal))
    (hlp : ∀ x : Idx s → E, (∀ i, x i ∈ supp) → ∃ t : Tensor EReal, t.shape = s ∧
      (∀ i : Idx s, EReal.exp (t.val i.1) = dens i (x i)) ∧ ∀ g, logProb x g = groupSum t g) :
    Agree s P X base supp logProb := by
  refine ⟨hsupp, fun outer inner hs => ⟨fun o y => ∏ j, dens (appendEquiv hs (o, j)) (y j), fun x hx => ?_, ?_⟩⟩
  · obtain ⟨t, h1, h2, h3⟩ := hlp x hx
    have hl : s.length - inner.length = outer.length := by rw [hs]; simp
    obtain ⟨r, g1, g2, g3⟩ := groupReduce_spec List.sum t inner.length (by rw [h1, hs]; simp)
    have hr : r.shape = outer := by rw [g2, h1, hl, hs, List.take_left]
    refine ⟨r, (h3 _).trans g1, hr, fun o => ?_⟩
    rw [g3 o.1 (by rw [hr]; exact mem_allIndices.1 o.2), exp_list_sum, List.map_map, h1, hl]
    have hdr : s.drop outer.length = inner := by rw [hs, List.drop_left]
    rw [hdr, prod_idx]
    exact Finset.prod_congr rfl fun j _ => h2 (appendEquiv hs (o, j))
  have hb : Measurable fun (x : Idx s → E) (o : Idx outer) => blockOf hs o x := by
    simp_rw [blockOf_eq]
    fun_prop
  have hjoint : P.map (fun w (o : Idx outer) => blockOf hs o (X w)) =
      Measure.pi fun o : Idx outer => Measure.pi fun j : Idx inner =>
        base.withDensity (dens (appendEquiv hs (o, j))) := by
    have : (fun w (o : Idx outer) => blockOf hs o (X w)) =
        (fun (x : Idx s → E) (o : Idx outer) => blockOf hs o x) ∘ X := rfl
    rw [this, ← Measure.map_map hb hX, hlaw]
    simp_rw [blockOf_eq]
    exact Meas.pi_blocks (appendEquiv hs) (fun i : Idx s => base.withDensity (dens i))
  have hm : ∀ o : Idx outer, Measurable fun w => blockOf hs o (X w) := fun o =>
    (measurable_pi_apply o).comp (hb.comp hX)
  have hone : ∀ o : Idx outer, P.map (fun w => blockOf hs o (X w)) =
      Measure.pi fun j : Idx inner => base.withDensity (dens (appendEquiv hs (o, j))) := by
    intro o
    have : (fun w => blockOf hs o (X w)) =
        (fun y : Idx outer → Idx inner → E => y o) ∘ fun w (o : Idx outer) => blockOf hs o (X w) := rfl
    have hc : Measurable fun w (o : Idx outer) => blockOf hs o (X w) := hb.comp hX
    rw [this, ← Measure.map_map (measurable_pi_apply o) hc, hjoint]
    exact (measurePreserving_eval _ o).map_eq
  refine ⟨fun o => ?_, ?_⟩
  · rw [hone]
    exact Meas.pi_withDensity_ae _ _ fun j => hd _
  · rw [iIndepFun_iff_map_fun_eq_pi_map fun o => (hm o).aemeasurable, hjoint]
    congr 1
    funext o
    exact (hone o).symm

/-- The sources are laid out so that every value has its own. -/
theorem law_of_layout {ι J S F E : Type} [Fintype ι] [Fintype J] [Fintype S] [MeasurableSpace F] [MeasurableSpace E]
    (e : S × J ≃ ι) (ν : ι → Measure F) [∀ i, IsProbabilityMeasure (ν i)] (G : S → (J → F) → E)
    (hG : ∀ s, Measurable (G s)) (law : S → Measure E)
    (hl : ∀ s, (Measure.pi fun j => ν (e (s, j))).map (G s) = law s) :
    (Measure.pi ν).map (fun w s => G s fun j => w (e (s, j))) = Measure.pi law := by
  have h : (fun (w : ι → F) s => G s fun j => w (e (s, j))) =
      (fun (y : S → J → F) s => G s (y s)) ∘ fun w s j => w (e (s, j)) := rfl
  have : ∀ s, SigmaFinite ((Measure.pi fun j => ν (e (s, j))).map (G s)) := fun s => by
    have := Measure.isProbabilityMeasure_map (μ := Measure.pi fun j => ν (e (s, j))) (hG s).aemeasurable
    infer_instance
  have hm : Measurable fun (y : S → J → F) s => G s (y s) :=
    measurable_pi_lambda _ fun s => (hG s).comp (measurable_pi_apply s)
  rw [h, ← Measure.map_map hm (by fun_prop),
    Meas.pi_blocks e ν, Measure.pi_map_pi (f := G) (fun s => (hG s).aemeasurable)]
  simp_rw [hl]

/-- Both together. -/
theorem agree_layout {ι J F E : Type} [Fintype ι] [Fintype J] [MeasurableSpace F] [MeasurableSpace E] {s : List ℕ}
    (e : Idx s × J ≃ ι) (ν : ι → Measure F) (hν : ∀ i, IsProbabilityMeasure (ν i)) (G : Idx s → (J → F) → E)
    (hG : ∀ i, Measurable (G i)) (X : (ι → F) → Idx s → E) (hX : ∀ w i, X w i = G i fun j => w (e (i, j)))
    (base : Measure E) [SigmaFinite base] (supp : Set E) (hsupp : base suppᶜ = 0) (dens : Idx s → E → ℝ≥0∞)
    (hd : ∀ i, AEMeasurable (dens i) base)
    (hl : ∀ i, (Measure.pi fun j => ν (e (i, j))).map (G i) = base.withDensity (dens i))
    (logProb : (Idx s → E) → ℕ → Option (Tensor EReal))
    (hlp : ∀ x : Idx s → E, (∀ i, x i ∈ supp) → ∃ t : Tensor EReal, t.shape = s ∧
      (∀ i : Idx s, EReal.exp (t.val i.1) = dens i (x i)) ∧ ∀ g, logProb x g = groupSum t g) :
    Agree s (Measure.pi ν) X base supp logProb := by
  obtain rfl : X = fun w i => G i fun j => w (e (i, j)) := by funext w i; exact hX w i
  refine agree_of _ _ ?_ base supp hsupp dens hd (fun i => ?_) (law_of_layout e ν G hG _ hl) logProb hlp
  · exact measurable_pi_lambda _ fun i => (hG i).comp (by fun_prop)
  · rw [← hl i]
    exact Measure.isProbabilityMeasure_map (hG i).aemeasurable

/-! ### Layouts -/

/-- A last axis. -/
noncomputable def snocEquiv (s : List ℕ) (k : ℕ) : Idx s × Fin k ≃ Idx (s ++ [k]) :=
  Equiv.ofBijective (fun q => ⟨q.1.1 ++ [q.2.val], mem_allIndices.2
      (List.rel_append (mem_allIndices.1 q.1.2) (.cons q.2.isLt .nil))⟩) (by
    constructor
    · rintro ⟨a, i⟩ ⟨b, j⟩ h
      obtain ⟨h1, h2⟩ := List.append_inj' (Subtype.ext_iff.1 h) rfl
      ext1
      · exact Subtype.ext h1
      · exact Fin.ext (by simpa using h2)
    · intro i
      obtain ⟨q, hq⟩ := (appendEquiv (rfl : s ++ [k] = s ++ [k])).surjective i
      obtain ⟨a, ⟨j, hj⟩⟩ := q
      cases mem_allIndices.1 hj with
      | cons hlt h =>
        cases h
        exact ⟨(a, ⟨_, hlt⟩), by rw [← hq]; rfl⟩)

@[simp] theorem snocEquiv_val (s : List ℕ) (k : ℕ) (i : Idx s) (j : Fin k) :
    (snocEquiv s k (i, j)).1 = i.1 ++ [j.val] := rfl

/-- Two last axes. -/
noncomputable def snoc2Equiv (s : List ℕ) (r c : ℕ) : Idx s × (Fin r × Fin c) ≃ Idx (s ++ [r, c]) :=
  Equiv.ofBijective (fun q => ⟨q.1.1 ++ [q.2.1.val, q.2.2.val], mem_allIndices.2
      (List.rel_append (mem_allIndices.1 q.1.2) (.cons q.2.1.isLt (.cons q.2.2.isLt .nil)))⟩) (by
    constructor
    · rintro ⟨a, i, i'⟩ ⟨b, j, j'⟩ h
      obtain ⟨h1, h2⟩ := List.append_inj' (Subtype.ext_iff.1 h) rfl
      simp only [List.cons.injEq, and_true] at h2
      ext1
      · exact Subtype.ext h1
      · exact Prod.ext (Fin.ext h2.1) (Fin.ext h2.2)
    · intro i
      obtain ⟨q, hq⟩ := (appendEquiv (rfl : s ++ [r, c] = s ++ [r, c])).surjective i
      obtain ⟨a, ⟨j, hj⟩⟩ := q
      cases mem_allIndices.1 hj with
      | cons hlt h =>
        cases h with
        | cons hlt' h =>
          cases h
          exact ⟨(a, ⟨_, hlt⟩, ⟨_, hlt'⟩), by rw [← hq]; rfl⟩)

@[simp] theorem snoc2Equiv_val (s : List ℕ) (r c : ℕ) (i : Idx s) (j : Fin r × Fin c) :
    (snoc2Equiv s r c (i, j)).1 = i.1 ++ [j.1.val, j.2.val] := rfl

/-- The index of the entry in the tensor returned by `_sample`. -/
def leadIdx (ns : Option ℕ) (i : List ℕ) : List ℕ :=
  match ns with
  | none => 0 :: i
  | some _ => i

/-- Its batch index. -/
def batchIdx (ns : Option ℕ) (i : List ℕ) : List ℕ := (leadIdx ns i).tail

theorem leadIdx_inBounds {ns : Option ℕ} {B i : List ℕ} (h : InBounds i (sampleShape ns B)) :
    InBounds (leadIdx ns i) (ns.getD 1 :: B) := by
  cases ns with
  | none => exact .cons Nat.one_pos h
  | some n => exact h

theorem batchIdx_inBounds {ns : Option ℕ} {B i : List ℕ} (h : InBounds i (sampleShape ns B)) :
    InBounds (batchIdx ns i) B := by
  have := leadIdx_inBounds h
  unfold batchIdx
  generalize leadIdx ns i = l at this
  cases this with
  | cons _ h => exact h

/-- The indices of the returned tensor. -/
noncomputable def leadEquiv (ns : Option ℕ) (B : List ℕ) : Idx (sampleShape ns B) ≃ Idx (ns.getD 1 :: B) :=
  Equiv.ofBijective (fun i => ⟨leadIdx ns i.1, mem_allIndices.2 (leadIdx_inBounds (mem_allIndices.1 i.2))⟩) (by
    cases ns with
    | some n => exact ⟨fun a b h => h, fun i => ⟨i, rfl⟩⟩
    | none =>
      constructor
      · intro a b h
        exact Subtype.ext (by simpa [leadIdx] using h)
      · rintro ⟨i, hi⟩
        have hi' := mem_allIndices.1 hi
        match i, hi' with
        | j :: i, .cons h1 h2 =>
          refine ⟨⟨i, mem_allIndices.2 h2⟩, Subtype.ext ?_⟩
          have : j = 0 := Nat.lt_one_iff.1 h1
          simp [leadIdx, this])

@[simp] theorem leadEquiv_val (ns : Option ℕ) (B : List ℕ) (i : Idx (sampleShape ns B)) :
    (leadEquiv ns B i).1 = leadIdx ns i.1 := rfl

theorem sampleShape_append (ns : Option ℕ) (B v : List ℕ) : sampleShape ns (B ++ v) = sampleShape ns B ++ v := by
  cases ns <;> rfl

theorem leadIdx_append (ns : Option ℕ) (i v : List ℕ) : leadIdx ns (i ++ v) = leadIdx ns i ++ v := by
  cases ns <;> rfl

theorem leadIdx_eq {ns : Option ℕ} {B i : List ℕ} (h : InBounds i (sampleShape ns B)) :
    ∃ m, leadIdx ns i = m :: batchIdx ns i := by
  have := leadIdx_inBounds h
  unfold batchIdx
  generalize leadIdx ns i = l at this
  cases this with
  | cons _ h => exact ⟨_, rfl⟩

/-! ### Discrete laws -/

/-- A law on finitely many points. -/
theorem discrete_law {D E κ : Type} [MeasurableSpace D] [MeasurableSpace E] [MeasurableSingletonClass E] [Fintype κ]
    (μ : Measure D) (f : D → E) (hf : Measurable f) (p : κ → E) (hp : Function.Injective p)
    (hr : ∀ d, ∃ k, f d = p k) (ρ : E → ℝ≥0∞) (h : ∀ k, μ {d | f d = p k} = ρ (p k)) :
    μ.map f = (∑ k, Measure.dirac (p k)).withDensity ρ := by
  classical
  ext s hs
  rw [Measure.map_apply hf hs, withDensity_apply _ hs, ← lintegral_indicator hs, lintegral_finsetSum_measure]
  simp only [lintegral_dirac]
  have e : f ⁻¹' s = ⋃ k ∈ Finset.univ.filter fun k => p k ∈ s, {d | f d = p k} := by
    ext d
    simp only [mem_preimage, mem_iUnion, Finset.mem_filter, Finset.mem_univ, true_and, mem_ofPred_eq]
    obtain ⟨k, hk⟩ := hr d
    exact ⟨fun hd => ⟨k, hk ▸ hd, hk⟩, fun ⟨k', h1, h2⟩ => h2 ▸ h1⟩
  rw [e, measure_biUnion_finset]
  · rw [Finset.sum_filter]
    refine Finset.sum_congr rfl fun k _ => ?_
    simp only [indicator, h]
  · intro a _ b _ hab
    rw [Function.onFun, Set.disjoint_left]
    intro d h1 h2
    exact hab (hp (h1.symm.trans h2))
  · intro k _
    exact hf (measurableSet_singleton (p k))

theorem aemeasurable_diracs {E κ : Type} [MeasurableSpace E] [MeasurableSingletonClass E] [Fintype κ] (p : κ → E)
    (ρ : E → ℝ≥0∞) : AEMeasurable ρ (∑ k, Measure.dirac (p k)) := by
  refine Meas.aemeasurable_of_countable (s := range p) (Set.finite_range p).countable ?_ ρ
  rw [Measure.finsetSum_apply, Finset.sum_eq_zero]
  intro k _
  rw [Measure.dirac_apply, indicator_of_notMem]
  simp

/-- Densities carried along. -/
theorem map_withDensity_comp {D E : Type} [MeasurableSpace D] [MeasurableSpace E] (μ : Measure D) (φ : D → E)
    (hφ : Measurable φ) (ρ : E → ℝ≥0∞) (hρ : Measurable ρ) :
    (μ.withDensity fun x => ρ (φ x)).map φ = (μ.map φ).withDensity ρ := by
  ext s hs
  rw [Measure.map_apply hφ hs, withDensity_apply _ (hφ hs), withDensity_apply _ hs, setLIntegral_map hs hρ hφ]

end ZhuSuan.Batch

import Verif.Model.BatchSampleMv
import Verif.Lemmas.EntryLaw
import Verif.Props.BatchLogProb

/-!
# C77: sampling a batch of vectors, matrices or categories and `log_prob` with `group_ndims` agree
-/

set_option autoImplicit false

open MeasureTheory ProbabilityTheory Set
open scoped ENNReal

namespace ZhuSuan.Batch
open Shape LogExp Num
open Uni (Idx)

/-! ## `sample` from `_sample` -/

theorem is_sampleArg {α : Type} {f : ℕ → Option (Tensor α)} {ns : Option ℕ} {S : List ℕ} {t : Tensor α}
    {val : List ℕ → α} (h : f (ns.getD 1) = some t) (ht : Is t (ns.getD 1 :: S) val) :
    ∃ t', sampleArg f ns = some t' ∧ Is t' (sampleShape ns S) (fun i => val (leadIdx ns i)) := by
  cases ns with
  | some n => exact ⟨t, h, ht⟩
  | none =>
    have h : f 1 = some t := h
    have hs : t.shape = 1 :: S := ht.1
    refine ⟨⟨S, fun idx => t.val (0 :: idx)⟩, ?_, rfl, fun idx hi => ht.2 _ (.cons Nat.one_pos hi)⟩
    simp only [sampleArg, h, Option.bind_some, squeezeFirst, hs]

/-- Vectors. -/
theorem rows_sampleArg {f : ℕ → Option (Tensor ℝ)} {ns : Option ℕ} {B : List ℕ} {K : ℕ} {t : Tensor ℝ}
    {val : List ℕ → Fin K → ℝ} (h : f (ns.getD 1) = some t) (hs : t.shape = (ns.getD 1 :: B) ++ [K])
    (hv : ∀ b, InBounds b (ns.getD 1 :: B) → ∀ k : Fin K, t.val (b ++ [k.val]) = val b k) :
    (∃ t', sampleArg f ns = some t' ∧ t'.shape = sampleShape ns B ++ [K]) ∧
    ∀ i : Idx (sampleShape ns B), rowsOf _ K (sampleArg f ns) i = val (leadIdx ns i.1) := by
  obtain ⟨t', h1, h2⟩ := is_sampleArg h (⟨hs, fun _ _ => rfl⟩ : Is t (ns.getD 1 :: (B ++ [K])) t.val)
  refine ⟨⟨t', h1, by rw [h2.1, sampleShape_append]⟩, fun i => funext fun k => ?_⟩
  have hi := mem_allIndices.1 i.2
  rw [h1]
  show t'.val (i.1 ++ [k.val]) = _
  rw [h2.2 _ (by rw [sampleShape_append]; exact inBounds_snoc hi k.isLt)]
  simp only [leadIdx_append]
  exact hv _ (leadIdx_inBounds hi) k

/-- Matrices. -/
theorem mats_sampleArg {f : ℕ → Option (Tensor ℝ)} {ns : Option ℕ} {B : List ℕ} {r c : ℕ} {t : Tensor ℝ}
    {val : List ℕ → Fin r × Fin c → ℝ} (h : f (ns.getD 1) = some t) (hs : t.shape = (ns.getD 1 :: B) ++ [r, c])
    (hv : ∀ b, InBounds b (ns.getD 1 :: B) → ∀ p : Fin r × Fin c, t.val (b ++ [p.1.val, p.2.val]) = val b p) :
    (∃ t', sampleArg f ns = some t' ∧ t'.shape = sampleShape ns B ++ [r, c]) ∧
    ∀ i : Idx (sampleShape ns B), matsOf _ r c (sampleArg f ns) i = val (leadIdx ns i.1) := by
  obtain ⟨t', h1, h2⟩ := is_sampleArg h (⟨hs, fun _ _ => rfl⟩ : Is t (ns.getD 1 :: (B ++ [r, c])) t.val)
  refine ⟨⟨t', h1, by rw [h2.1, sampleShape_append]⟩, fun i => funext fun p => ?_⟩
  have hi := mem_allIndices.1 i.2
  rw [h1]
  show t'.val (i.1 ++ [p.1.val, p.2.val]) = _
  rw [h2.2 _ (by rw [sampleShape_append]; exact inBounds_snoc2 hi p.1.isLt p.2.isLt)]
  simp only [leadIdx_append]
  exact hv _ (leadIdx_inBounds hi) p

/-! ## Values and parameters at an index -/

theorem expands_sampleShape (ns : Option ℕ) (B : List ℕ) : Expands B (sampleShape ns B) := by
  cases ns with
  | none => exact expands_refl B
  | some n => exact (expands_refl B).cons n

theorem projIdx_batchIdx {ns : Option ℕ} {B i : List ℕ} (h : InBounds i (sampleShape ns B)) :
    projIdx B i = batchIdx ns i := by
  cases ns with
  | none => exact projIdx_self h
  | some n =>
    have h : InBounds i (n :: B) := h
    cases h with
    | cons h1 h2 => rw [Uni.BDist.projIdx_cons _ _ _ (Nat.le_of_eq (List.Forall₂.length_eq h2).symm), projIdx_self h2]; rfl

theorem isBroadcast_sampleShape (ns : Option ℕ) (B v : List ℕ) :
    IsBroadcast (sampleShape ns B ++ v) (B ++ v) (sampleShape ns B ++ v) :=
  ⟨expands_refl _, (expands_sampleShape ns B).append v, fun _ h _ => h⟩

theorem comesFrom_param {ns : Option ℕ} {B v i j : List ℕ} (h : InBounds i (sampleShape ns B)) (hj : InBounds j v) :
    ComesFrom (B ++ v) (i ++ j) (batchIdx ns i ++ j) := by
  have := comesFrom_projIdx ((expands_sampleShape ns B).append v) (inBounds_append h hj)
  rwa [projIdx_tail (expands_sampleShape ns B) h hj, projIdx_batchIdx h] at this

theorem rowAt_param {ns : Option ℕ} {B i : List ℕ} {K : ℕ} {t : Tensor ℝ} (ht : t.shape = B ++ [K])
    (h : InBounds i (sampleShape ns B)) : RowAt t i (fun k : Fin K => t.val (batchIdx ns i ++ [k.val])) :=
  fun k => ⟨_, by rw [ht]; exact comesFrom_param h (.cons k.isLt .nil), rfl⟩

theorem matAt_param {ns : Option ℕ} {B i : List ℕ} {r c : ℕ} {t : Tensor ℝ} (ht : t.shape = B ++ [r, c])
    (h : InBounds i (sampleShape ns B)) :
    MatAt t i (fun (k : Fin r) (l : Fin c) => t.val (batchIdx ns i ++ [k.val, l.val])) :=
  fun k l => ⟨_, by rw [ht]; exact comesFrom_param h (.cons k.isLt (.cons l.isLt .nil)), rfl⟩

theorem comesFrom_self {s i : List ℕ} (h : InBounds i s) : ComesFrom s i i := by
  have := comesFrom_projIdx (expands_refl s) h
  rwa [projIdx_self h] at this

theorem rowAt_rowsT {s : List ℕ} {K : ℕ} (x : Idx s → Fin K → ℝ) (i : Idx s) : RowAt (rowsT s x) i.1 (x i) := by
  intro k
  refine ⟨_, comesFrom_self (inBounds_snoc (mem_allIndices.1 i.2) k.isLt), ?_⟩
  simp [rowsT, i.2]

theorem matAt_matsT {s : List ℕ} {r c : ℕ} (x : Idx s → Fin r × Fin c → ℝ) (i : Idx s) :
    MatAt (matsT s x) i.1 (fun k l => x i (k, l)) := by
  intro k l
  refine ⟨_, comesFrom_self (inBounds_snoc2 (mem_allIndices.1 i.2) k.isLt l.isLt), ?_⟩
  simp [matsT, i.2]

theorem scalarsT_val {α : Type} [Zero α] {s : List ℕ} (x : Idx s → α) (i : Idx s) : (scalarsT s x).val i.1 = x i := by
  simp [scalarsT, i.2]

theorem coe_list_sum (l : List ℝ) : ((l.sum : ℝ) : EReal) = (l.map fun x : ℝ => (x : EReal)).sum := by
  induction l with
  | nil => simp
  | cons x l ih => simp only [List.sum_cons, List.map_cons, EReal.coe_add, ih]

/-- Real log probabilities. -/
theorem toE_grouped {p : Option (Tensor ℝ)} {r : Tensor ℝ} (h : p = some r) (g : ℕ) :
    toE (grouped p g) = groupSum (⟨r.shape, fun i => (r.val i : EReal)⟩ : Tensor EReal) g := by
  subst h
  simp only [grouped, Option.bind_some, groupSum, reduceWith, toE, Option.map_map]
  congr 1
  funext ax
  simp only [Function.comp, Tensor.mk.injEq, true_and]
  funext idx
  rw [coe_list_sum, List.map_map]
  rfl

/-- From `log_prob` of every value to the densities. -/
theorem agree_lp {E : Type} {s : List ℕ} {dens : Idx s → E → ℝ} {lp : (Idx s → E) → Option (Tensor ℝ)} {supp : Set E}
    (h : ∀ x : Idx s → E, (∀ i, x i ∈ supp) → ∃ r, lp x = some r ∧ r.shape = s ∧
      ∀ i : Idx s, r.val i.1 = dens i (x i)) (x : Idx s → E) (hx : ∀ i, x i ∈ supp) :
    ∃ t : Tensor EReal, t.shape = s ∧ (∀ i : Idx s, EReal.exp (t.val i.1) = ENNReal.ofReal (Real.exp (dens i (x i)))) ∧
      ∀ g, toE (grouped (lp x) g) = groupSum t g := by
  obtain ⟨r, h1, h2, h3⟩ := h x hx
  refine ⟨⟨r.shape, fun i => (r.val i : EReal)⟩, h2, fun i => ?_, fun g => toE_grouped h1 g⟩
  simp only [h3, EReal.exp_coe]

theorem projIdx_keep {S b : List ℕ} (hb : InBounds b S) (i : ℕ) : projIdx (S ++ [1]) (b ++ [i]) = b ++ [0] := by
  rw [projIdx_append (v := [1]) (w := [i]) (Nat.le_of_eq hb.length.symm) rfl, projIdx_self hb]
  simp [projIdx]

theorem expands_keep (S : List ℕ) (k : ℕ) : Expands (S ++ [1]) (S ++ [k]) :=
  (isBroadcast_of_bcast (bcast_append (b := S) (c := S) (u := [1]) (v := [k]) (w := [k]) rfl
    (bcast_self _) (by simp [bcast, zipLongest, zipRest, dim_one_left]))).1

/-! ## Dirichlet -/

theorem dirichletSampleT_spec (alpha : Tensor ℝ) (B : List ℕ) (k : ℕ) (hs : alpha.shape = B ++ [k]) (u : List ℕ → ℝ)
    (n : ℕ) : ∃ t, dirichletSampleT alpha u n = some t ∧ t.shape = (n :: B) ++ [k] ∧
      ∀ b, InBounds b (n :: B) → ∀ i : Fin k, t.val (b ++ [i.val]) =
        dirichletSample (fun j : Fin k => alpha.val (b.tail ++ [j.val])) (fun j => u (b ++ [j.val])) 0 i := by
  have i1 : Is (⟨n :: alpha.shape, fun idx => u idx / 1⟩ : Tensor ℝ) ((n :: B) ++ [k]) (fun idx => u idx / 1) :=
    ⟨by simp [hs], fun _ _ => rfl⟩
  obtain ⟨s, e2, i2⟩ := is_reduceRow sumRow i1
  have he := expands_keep (n :: B) k
  obtain ⟨t, e3, i3⟩ := is_map2_right (· / ·) i1 (is_expandLast i2) he
  refine ⟨t, ?_, i3.1, fun b hb i => ?_⟩
  · simp only [dirichletSampleT, e2, e3, Option.bind_eq_bind, Option.bind_some]
  · rw [i3.2 _ (inBounds_snoc hb i.isLt)]
    simp only
    rw [projIdx_keep hb, List.dropLast_concat]
    rfl

/-- The layout of sources with one per entry of the vectors. -/
noncomputable def rowLayout (ns : Option ℕ) (B : List ℕ) (k : ℕ) :
    Idx (sampleShape ns B) × Fin k ≃ Idx ((ns.getD 1 :: B) ++ [k]) :=
  ((leadEquiv ns B).prodCongr (Equiv.refl _)).trans (snocEquiv _ k)

theorem rowLayout_val (ns : Option ℕ) (B : List ℕ) (k : ℕ) (i : Idx (sampleShape ns B)) (j : Fin k) :
    (rowLayout ns B k (i, j)).1 = leadIdx ns i.1 ++ [j.val] := rfl

/-- Dirichlet. -/
theorem C77_dirichlet (alpha : STensor ℝ) (ha : Admits alpha.static alpha.rt.shape) (B : List ℕ) (n : ℕ)
    (hs : alpha.rt.shape = B ++ [n + 1]) (hpos : ∀ idx, InBounds idx alpha.rt.shape → 0 < alpha.rt.val idx)
    (ns : Option ℕ) (gs : Static) (hgs : Admits gs (sampleShape ns B ++ [n + 1])) :
    (∀ u, ∃ t, sampleArg (dirichletSampleT alpha.rt u) ns = some t ∧ t.shape = sampleShape ns B ++ [n + 1]) ∧
    Agree (sampleShape ns B) (sources (ns.getD 1 :: B ++ [n + 1]) fun idx => gammaMeasure (alpha.rt.val idx.tail) 1)
      (fun w => rowsOf _ (n + 1) (sampleArg (dirichletSampleT alpha.rt (scalarsT _ w).val) ns))
      (simplexMeasure n) univ
      (fun x g => toE (grouped (dirichletLogProbT alpha ⟨gs, rowsT _ x⟩) g)) := by
  have hsp := fun u => dirichletSampleT_spec alpha.rt B (n + 1) hs u (ns.getD 1)
  refine ⟨fun u => ?_, ?_⟩
  · obtain ⟨t, h1, h2, h3⟩ := hsp u
    exact (rows_sampleArg h1 h2 h3).1
  let f : Flags := ⟨true, true⟩
  let par : Idx (sampleShape ns B) → Fin (n + 1) → ℝ := fun i k => alpha.rt.val (batchIdx ns i.1 ++ [k.val])
  have hb : ∀ i : Idx (sampleShape ns B), InBounds (batchIdx ns i.1) B := fun i =>
    batchIdx_inBounds (mem_allIndices.1 i.2)
  have hpar : ∀ i k, 0 < par i k := fun i k => hpos _ (by rw [hs]; exact inBounds_snoc (hb i) k.isLt)
  have htail : ∀ i k, (rowLayout ns B (n + 1) (i, k)).1.tail = batchIdx ns i.1 ++ [k.val] := fun i k => by
    obtain ⟨m, hm⟩ := leadIdx_eq (mem_allIndices.1 i.2)
    rw [rowLayout_val, hm]; rfl
  refine agree_layout (rowLayout ns B (n + 1)) _ (fun i => isProbabilityMeasure_gammaMeasure (hpos _ ?_) one_pos)
    (fun i g => dirichletSample (par i) g 0) (fun i => measurable_dirichletSample _) _ (fun w i => ?_)
    (simplexMeasure n) univ (by simp) (fun i x => ENNReal.ofReal (Real.exp (dirichletLogProb f (par i) x)))
    (fun i => (Real.measurable_exp.comp (measurable_dirichletLogProb f (par i))).ennreal_ofReal.aemeasurable)
    (fun i => ?_) _ (agree_lp fun x _ => ?_)
  · have hi := mem_allIndices.1 i.2
    rw [hs]
    generalize i.1 = j at hi
    cases hi with
    | cons _ h => exact h
  · obtain ⟨t, h1, h2, h3⟩ := hsp (scalarsT _ w).val
    rw [(rows_sampleArg h1 h2 h3).2 i]
    funext k
    have : ∀ j, (scalarsT _ w).val (leadIdx ns i.1 ++ [j.val]) = w (rowLayout ns B (n + 1) (i, j)) := fun j =>
      scalarsT_val w (rowLayout ns B (n + 1) (i, j))
    simp only [this]
    rfl
  · simp only [htail]
    exact dirichlet_law f (par i) (hpar i)
  · obtain ⟨r, h1, h2, h3⟩ := C76_dirichlet f alpha ⟨gs, rowsT _ x⟩ ha hgs (sampleShape ns B) (n + 1)
      (by rw [hs]; exact isBroadcast_sampleShape ns B [n + 1])
    exact ⟨r, h1, h2, fun i => h3 i.1 (mem_allIndices.1 i.2) _ _ (rowAt_param hs (mem_allIndices.1 i.2))
      (rowAt_rowsT x i)⟩

/-! ## Concrete and ExpConcrete -/

theorem gumbelLogits_spec (temperature logits : Tensor ℝ) (hT : temperature.shape = []) (B : List ℕ) (k : ℕ)
    (hs : logits.shape = B ++ [k]) (u : List ℕ → ℝ) (n : ℕ) :
    ∃ t, gumbelLogits temperature logits u n = some t ∧ Is t ((n :: B) ++ [k])
      (fun idx => (logits.val (projIdx logits.shape idx) + gumbel (u idx)) / temperature.val []) := by
  have i1 : Is (mapT gumbel ⟨n :: logits.shape, u⟩) ((n :: B) ++ [k]) (fun idx => gumbel (u idx)) :=
    ⟨by simp [mapT, hs], fun _ _ => rfl⟩
  obtain ⟨a, e2, i2⟩ := is_map2_left (· + ·) (is_self logits) i1 (by
    rw [hs]; exact ((expands_refl B).cons n).append [k])
  obtain ⟨t, e3, i3⟩ := is_map2_right (· / ·) i2 (⟨hT, fun _ _ => rfl⟩ : Is temperature [] temperature.val)
    (expands_nil _)
  exact ⟨t, by simp only [gumbelLogits, e2, e3, Option.bind_eq_bind, Option.bind_some], i3⟩

theorem projIdx_row {B b : List ℕ} {n k : ℕ} (hb : InBounds b (n :: B)) (j : Fin k) :
    projIdx (B ++ [k]) (b ++ [j.val]) = b.tail ++ [j.val] := by
  rw [projIdx_tail ((expands_refl B).cons n) hb (.cons j.isLt .nil)]
  congr 1
  exact projIdx_batchIdx (ns := some n) hb

theorem expConcreteSampleT_spec (f : Flags) (temperature logits : Tensor ℝ) (hT : temperature.shape = []) (B : List ℕ)
    (k : ℕ) (hs : logits.shape = B ++ [k + 1]) (u : List ℕ → ℝ) (n : ℕ) :
    ∃ t, expConcreteSampleT temperature logits u n = some t ∧ t.shape = (n :: B) ++ [k + 1] ∧
      ∀ b, InBounds b (n :: B) → ∀ i : Fin (k + 1), t.val (b ++ [i.val]) =
        expConcreteSample f (fun j : Fin (k + 1) => logits.val (b.tail ++ [j.val])) (temperature.val [])
          (fun j => u (b ++ [j.val])) i := by
  obtain ⟨x, e1, i1⟩ := gumbelLogits_spec temperature logits hT B (k + 1) hs u n
  obtain ⟨z, e2, i2⟩ := is_reduceRow lseRow i1
  obtain ⟨t, e3, i3⟩ := is_map2_right (· - ·) i1 (is_expandLast i2) (expands_keep _ _)
  refine ⟨t, ?_, i3.1, fun b hb i => ?_⟩
  · simp only [expConcreteSampleT, e1, e2, e3, Option.bind_eq_bind, Option.bind_some]
  · rw [i3.2 _ (inBounds_snoc hb i.isLt)]
    simp only
    rw [projIdx_keep hb, List.dropLast_concat]
    simp only [hs, projIdx_row hb, expConcreteSample, real_sampleParam]
    rfl

theorem concreteSampleT_spec (f : Flags) (temperature logits : Tensor ℝ) (hT : temperature.shape = []) (B : List ℕ)
    (k : ℕ) (hs : logits.shape = B ++ [k + 1]) (u : List ℕ → ℝ) (n : ℕ) :
    ∃ t, concreteSampleT temperature logits u n = some t ∧ t.shape = (n :: B) ++ [k + 1] ∧
      ∀ b, InBounds b (n :: B) → ∀ i : Fin (k + 1), t.val (b ++ [i.val]) =
        concreteSample f (fun j : Fin (k + 1) => logits.val (b.tail ++ [j.val])) (temperature.val [])
          (fun j => u (b ++ [j.val])) i := by
  obtain ⟨x, e1, i1⟩ := gumbelLogits_spec temperature logits hT B (k + 1) hs u n
  have ie := is_mapT Fn.exp i1
  obtain ⟨z, e2, i2⟩ := is_reduceRow sumRow ie
  obtain ⟨t, e3, i3⟩ := is_map2_right (· / ·) ie (is_expandLast i2) (expands_keep _ _)
  refine ⟨t, ?_, i3.1, fun b hb i => ?_⟩
  · simp only [concreteSampleT, e1, e2, e3, Option.bind_eq_bind, Option.bind_some]
  · rw [i3.2 _ (inBounds_snoc hb i.isLt)]
    simp only
    rw [projIdx_keep hb, List.dropLast_concat]
    simp only [hs, projIdx_row hb, concreteSample, real_sampleParam]
    rfl

/-- Concrete. -/
theorem C77_concrete (temperature logits : Tensor ℝ) (hT : temperature.shape = []) (ht : 0 < temperature.val [])
    (B : List ℕ) (n : ℕ) (hs : logits.shape = B ++ [n + 1]) (ns : Option ℕ) :
    (∀ u, ∃ t, sampleArg (concreteSampleT temperature logits u) ns = some t ∧
      t.shape = sampleShape ns B ++ [n + 1]) ∧
    Agree (sampleShape ns B) (sources (ns.getD 1 :: B ++ [n + 1]) fun _ => volume.restrict (Ioo 0 1))
      (fun w => rowsOf _ (n + 1) (sampleArg (concreteSampleT temperature logits (scalarsT _ w).val) ns))
      (simplexMeasure n) univ
      (fun x g => toE (grouped (concreteLogProbT temperature logits (rowsT _ x)) g)) := by
  let f : Flags := ⟨true, true⟩
  have hsp := fun u => concreteSampleT_spec f temperature logits hT B n hs u (ns.getD 1)
  refine ⟨fun u => ?_, ?_⟩
  · obtain ⟨t, h1, h2, h3⟩ := hsp u
    exact (rows_sampleArg h1 h2 h3).1
  let par : Idx (sampleShape ns B) → Fin (n + 1) → ℝ := fun i k => logits.val (batchIdx ns i.1 ++ [k.val])
  refine agree_layout (rowLayout ns B (n + 1)) _ (fun i => by infer_instance)
    (fun i u => concreteSample f (par i) (temperature.val []) u) (fun i => measurable_concreteSample f _ _) _
    (fun w i => ?_) (simplexMeasure n) univ (by simp)
    (fun i x => ENNReal.ofReal (Real.exp (concreteLogProb f (par i) (temperature.val []) x)))
    (fun i => (Real.measurable_exp.comp (measurable_concreteLogProb f (par i) _)).ennreal_ofReal.aemeasurable)
    (fun i => ?_) _ (agree_lp fun x _ => ?_)
  rotate_left
  · exact concrete_law f (par i) _ ht
  rotate_right
  · obtain ⟨t, h1, h2, h3⟩ := hsp (scalarsT _ w).val
    rw [(rows_sampleArg h1 h2 h3).2 i]
    funext k
    have : ∀ j, (scalarsT _ w).val (leadIdx ns i.1 ++ [j.val]) = w (rowLayout ns B (n + 1) (i, j)) := fun j =>
      scalarsT_val w (rowLayout ns B (n + 1) (i, j))
    simp only [this]
    rfl
  · obtain ⟨r, h1, h2, h3⟩ := C76_concrete f temperature logits (rowsT _ x) hT B (sampleShape ns B) n hs
      (by rw [hs]; exact isBroadcast_sampleShape ns B [n + 1])
    exact ⟨r, h1, h2, fun i => h3 i.1 (mem_allIndices.1 i.2) _ _ (rowAt_param hs (mem_allIndices.1 i.2))
      (rowAt_rowsT x i)⟩

/-- ExpConcrete. -/
theorem C77_exp_concrete (temperature logits : Tensor ℝ) (hT : temperature.shape = []) (ht : 0 < temperature.val [])
    (B : List ℕ) (n : ℕ) (hs : logits.shape = B ++ [n + 1]) (ns : Option ℕ) :
    (∀ u, ∃ t, sampleArg (expConcreteSampleT temperature logits u) ns = some t ∧
      t.shape = sampleShape ns B ++ [n + 1]) ∧
    Agree (sampleShape ns B) (sources (ns.getD 1 :: B ++ [n + 1]) fun _ => volume.restrict (Ioo 0 1))
      (fun w => rowsOf _ (n + 1) (sampleArg (expConcreteSampleT temperature logits (scalarsT _ w).val) ns))
      (logSimplexMeasure n) univ
      (fun x g => toE (grouped (expConcreteLogProbT temperature logits (rowsT _ x)) g)) := by
  let f : Flags := ⟨true, true⟩
  have hsp := fun u => expConcreteSampleT_spec f temperature logits hT B n hs u (ns.getD 1)
  refine ⟨fun u => ?_, ?_⟩
  · obtain ⟨t, h1, h2, h3⟩ := hsp u
    exact (rows_sampleArg h1 h2 h3).1
  let par : Idx (sampleShape ns B) → Fin (n + 1) → ℝ := fun i k => logits.val (batchIdx ns i.1 ++ [k.val])
  refine agree_layout (rowLayout ns B (n + 1)) _ (fun i => by infer_instance)
    (fun i u => expConcreteSample f (par i) (temperature.val []) u) (fun i => measurable_expConcreteSample f _ _) _
    (fun w i => ?_) (logSimplexMeasure n) univ (by simp)
    (fun i x => ENNReal.ofReal (Real.exp (expConcreteLogProb f (par i) (temperature.val []) x)))
    (fun i => (Real.measurable_exp.comp (measurable_expConcreteLogProb f (par i) _)).ennreal_ofReal.aemeasurable)
    (fun i => ?_) _ (agree_lp fun x _ => ?_)
  rotate_left
  · exact expConcrete_law f (par i) _ ht
  rotate_right
  · obtain ⟨t, h1, h2, h3⟩ := hsp (scalarsT _ w).val
    rw [(rows_sampleArg h1 h2 h3).2 i]
    funext k
    have : ∀ j, (scalarsT _ w).val (leadIdx ns i.1 ++ [j.val]) = w (rowLayout ns B (n + 1) (i, j)) := fun j =>
      scalarsT_val w (rowLayout ns B (n + 1) (i, j))
    simp only [this]
    rfl
  · obtain ⟨r, h1, h2, h3⟩ := C76_exp_concrete f temperature logits (rowsT _ x) hT B (sampleShape ns B) n hs
      (by rw [hs]; exact isBroadcast_sampleShape ns B [n + 1])
    exact ⟨r, h1, h2, fun i => h3 i.1 (mem_allIndices.1 i.2) _ _ (rowAt_param hs (mem_allIndices.1 i.2))
      (rowAt_rowsT x i)⟩

/-! ## The normal distributions -/

theorem is_tile {α : Type} {t : Tensor α} {S : List ℕ} {f : List ℕ → α} (h : Is t S f) (n : ℕ) :
    Is (tile n t) (n :: S) (fun idx => f idx.tail) := by
  refine ⟨by simp [tile, h.1], fun idx hi => ?_⟩
  cases hi with
  | cons _ h2 => exact h.2 _ h2

theorem is_matmulT {x y : Tensor ℝ} {b : List ℕ} {r c c' : ℕ} {f g : List ℕ → ℝ} (hx : Is x (b ++ [r, c]) f)
    (hy : Is y (b ++ [c, c']) g) :
    ∃ t, matmulT x y = some t ∧ t.shape = b ++ [r, c'] ∧ ∀ a, InBounds a b → ∀ (i : Fin r) (j : Fin c'),
      t.val (a ++ [i.val, j.val]) = Fn.sum fun k : Fin c => f (a ++ [i.val, k.val]) * g (a ++ [k.val, j.val]) := by
  unfold matmulT
  rw [hx.1, hy.1, split2_append, split2_append]
  simp only [Option.bind_eq_bind, Option.bind_some, and_self, if_true]
  refine ⟨_, rfl, rfl, fun a ha i j => ?_⟩
  simp only [dropLast_snoc2, getLastD_snoc2, List.dropLast_concat, List.getLastD_concat]
  congr 1
  funext k
  rw [hx.2 _ (inBounds_snoc2 ha i.isLt k.isLt), hy.2 _ (inBounds_snoc2 ha k.isLt j.isLt)]

theorem mvnSampleT_spec (f : Flags) (mean covTril : Tensor ℝ) (B : List ℕ) (k : ℕ) (hm : mean.shape = B ++ [k])
    (hc : covTril.shape = B ++ [k, k]) (u : List ℕ → ℝ) (n : ℕ) :
    ∃ t, mvnSampleT mean covTril u n = some t ∧ t.shape = (n :: B) ++ [k] ∧
      ∀ b, InBounds b (n :: B) → ∀ i : Fin k, t.val (b ++ [i.val]) =
        mvnSample f (fun j : Fin k => mean.val (b.tail ++ [j.val]))
          (fun j l : Fin k => covTril.val (b.tail ++ [j.val, l.val])) (fun j => u (b ++ [j.val, 0])) i := by
  have im := is_expandLast (is_tile (⟨hm, fun _ _ => rfl⟩ : Is mean (B ++ [k]) mean.val) n)
  have im' : Is (expandLast (tile n mean)) ((n :: B) ++ [k, 1]) (fun idx => mean.val idx.dropLast.tail) := by
    simpa using im
  have ic : Is (tile n covTril) ((n :: B) ++ [k, k]) (fun idx => covTril.val idx.tail) :=
    is_tile (⟨hc, fun _ _ => rfl⟩ : Is covTril (B ++ [k, k]) covTril.val) n
  have iu : Is (⟨(expandLast (tile n mean)).shape, u⟩ : Tensor ℝ) ((n :: B) ++ [k, 1]) u := ⟨im'.1, fun _ _ => rfl⟩
  obtain ⟨p, e1, s1, v1⟩ := is_matmulT ic iu
  obtain ⟨a, e2, i2⟩ := is_map2_same (· + ·) (⟨s1, fun _ _ => rfl⟩ : Is p ((n :: B) ++ [k, 1]) p.val) im'
  obtain ⟨t, e3, i3⟩ := is_squeezeLast (S := (n :: B) ++ [k]) (by simpa using i2)
  refine ⟨t, ?_, i3.1, fun b hb i => ?_⟩
  · simp only [mvnSampleT, e1, e2, e3, Option.bind_eq_bind, Option.bind_some]
  · rw [i3.2 _ (inBounds_snoc hb i.isLt)]
    have hv := v1 b hb i 0
    have ea : b ++ [i.val] ++ [0] = b ++ [i.val, ((0 : Fin 1) : ℕ)] := by simp
    simp only [ea, hv, dropLast_snoc2]
    obtain ⟨m, b', rfl⟩ : ∃ m b', b = m :: b' := by cases hb; exact ⟨_, _, rfl⟩
    simp only [mvnSample, matVec, real_sampleParam, List.cons_append, List.tail_cons]
    rfl

theorem matNormalSampleT_spec (f : Flags) (mean uTril vTril : Tensor ℝ) (B : List ℕ) (r c : ℕ)
    (hm : mean.shape = B ++ [r, c]) (hu : uTril.shape = B ++ [r, r]) (hv : vTril.shape = B ++ [c, c]) (u : List ℕ → ℝ)
    (n : ℕ) :
    ∃ t, matNormalSampleT mean uTril vTril u n = some t ∧ t.shape = (n :: B) ++ [r, c] ∧
      ∀ b, InBounds b (n :: B) → ∀ p : Fin r × Fin c, t.val (b ++ [p.1.val, p.2.val]) =
        matNormalSample f (fun (j : Fin r) (l : Fin c) => mean.val (b.tail ++ [j.val, l.val]))
          (fun j l : Fin r => uTril.val (b.tail ++ [j.val, l.val]))
          (fun j l : Fin c => vTril.val (b.tail ++ [j.val, l.val])) (fun j l => u (b ++ [j.val, l.val])) p.1 p.2 := by
  have im : Is mean (B ++ [r, c]) mean.val := ⟨hm, fun _ _ => rfl⟩
  have iU : Is (tile n uTril) ((n :: B) ++ [r, r]) (fun idx => uTril.val idx.tail) :=
    is_tile (⟨hu, fun _ _ => rfl⟩ : Is uTril (B ++ [r, r]) uTril.val) n
  have iV : Is (tile n vTril) ((n :: B) ++ [c, c]) (fun idx => vTril.val idx.tail) :=
    is_tile (⟨hv, fun _ _ => rfl⟩ : Is vTril (B ++ [c, c]) vTril.val) n
  have iu : Is (⟨n :: mean.shape, u⟩ : Tensor ℝ) ((n :: B) ++ [r, c]) u := ⟨by simp [hm], fun _ _ => rfl⟩
  obtain ⟨un, e1, s1, v1⟩ := is_matmulT iU iu
  obtain ⟨vt, e2, i2⟩ := is_transposeLast iV
  obtain ⟨p, e3, s3, v3⟩ := is_matmulT (⟨s1, fun _ _ => rfl⟩ : Is un ((n :: B) ++ [r, c]) un.val) i2
  obtain ⟨t, e4, i4⟩ := is_map2_left (· + ·) im (⟨s3, fun _ _ => rfl⟩ : Is p ((n :: B) ++ [r, c]) p.val)
    (((expands_refl B).cons n).append [r, c])
  refine ⟨t, ?_, i4.1, fun b hb q => ?_⟩
  · simp only [matNormalSampleT, e1, e2, e3, e4, Option.bind_eq_bind, Option.bind_some]
  · rw [i4.2 _ (inBounds_snoc2 hb q.1.isLt q.2.isLt)]
    have ep : projIdx (B ++ [r, c]) (b ++ [q.1.val, q.2.val]) = b.tail ++ [q.1.val, q.2.val] := by
      rw [projIdx_tail ((expands_refl B).cons n) hb (.cons q.1.isLt (.cons q.2.isLt .nil))]
      congr 1
      exact projIdx_batchIdx (ns := some n) hb
    simp only [ep, v3 b hb, v1 b hb, dropLast_snoc2, getLastD_snoc2, List.dropLast_concat, List.getLastD_concat]
    obtain ⟨m, b', rfl⟩ : ∃ m b', b = m :: b' := by cases hb; exact ⟨_, _, rfl⟩
    simp only [matNormalSample, real_sampleParam, List.cons_append, List.tail_cons]
    rfl

/-- The layout of sources in a column. -/
noncomputable def colLayout (ns : Option ℕ) (B : List ℕ) (k : ℕ) :
    Idx (sampleShape ns B) × Fin k ≃ Idx ((ns.getD 1 :: B) ++ [k, 1]) :=
  ((leadEquiv ns B).prodCongr (Equiv.prodUnique (Fin k) (Fin 1)).symm).trans (snoc2Equiv _ k 1)

/-- The layout of sources in a matrix. -/
noncomputable def matLayout (ns : Option ℕ) (B : List ℕ) (r c : ℕ) :
    Idx (sampleShape ns B) × (Fin r × Fin c) ≃ Idx ((ns.getD 1 :: B) ++ [r, c]) :=
  ((leadEquiv ns B).prodCongr (Equiv.refl _)).trans (snoc2Equiv _ r c)

/-- MultivariateNormalCholesky. -/
theorem C77_mvn (mean covTril : STensor ℝ) (hm : Admits mean.static mean.rt.shape)
    (hc : Admits covTril.static covTril.rt.shape) (B : List ℕ) (n : ℕ) (hms : mean.rt.shape = B ++ [n])
    (hcs : covTril.rt.shape = B ++ [n, n])
    (hL : ∀ b, InBounds b B → Cholesky fun i j : Fin n => covTril.rt.val (b ++ [i.val, j.val]))
    (ns : Option ℕ) (gs : Static) (hgs : Admits gs (sampleShape ns B ++ [n])) :
    (∀ u, ∃ t, sampleArg (mvnSampleT mean.rt covTril.rt u) ns = some t ∧ t.shape = sampleShape ns B ++ [n]) ∧
    Agree (sampleShape ns B) (sources (ns.getD 1 :: B ++ [n, 1]) fun _ => gaussianReal 0 1)
      (fun w => rowsOf _ n (sampleArg (mvnSampleT mean.rt covTril.rt (scalarsT _ w).val) ns))
      volume univ (fun x g => toE (grouped (mvnLogProbT mean covTril ⟨gs, rowsT _ x⟩) g)) := by
  let f : Flags := ⟨true, true⟩
  have hsp := fun u => mvnSampleT_spec f mean.rt covTril.rt B n hms hcs u (ns.getD 1)
  refine ⟨fun u => ?_, ?_⟩
  · obtain ⟨t, h1, h2, h3⟩ := hsp u
    exact (rows_sampleArg h1 h2 h3).1
  let pm : Idx (sampleShape ns B) → Fin n → ℝ := fun i k => mean.rt.val (batchIdx ns i.1 ++ [k.val])
  let pL : Idx (sampleShape ns B) → Fin n → Fin n → ℝ := fun i k l =>
    covTril.rt.val (batchIdx ns i.1 ++ [k.val, l.val])
  have hch : ∀ i, Cholesky (pL i) := fun i => hL _ (batchIdx_inBounds (mem_allIndices.1 i.2))
  refine agree_layout (colLayout ns B n) _ (fun i => by infer_instance)
    (fun i u => mvnSample f (pm i) (pL i) u) (fun i => measurable_mvnSample f _ _) _
    (fun w i => ?_) volume univ (by simp)
    (fun i x => ENNReal.ofReal (Real.exp (mvnLogProb f (pm i) (pL i) x)))
    (fun i => (Real.measurable_exp.comp (measurable_mvnLogProb f (pm i) (hch i))).ennreal_ofReal.aemeasurable)
    (fun i => C30_sampler f (pm i) (pL i) (hch i)) _ (agree_lp fun x _ => ?_)
  · obtain ⟨t, h1, h2, h3⟩ := hsp (scalarsT _ w).val
    rw [(rows_sampleArg h1 h2 h3).2 i]
    funext k
    have : ∀ j : Fin n, (scalarsT _ w).val (leadIdx ns i.1 ++ [j.val, 0]) = w (colLayout ns B n (i, j)) := fun j =>
      scalarsT_val w (colLayout ns B n (i, j))
    simp only [this]
    rfl
  · obtain ⟨r, h1, h2, h3⟩ := C76_mvn f mean covTril ⟨gs, rowsT _ x⟩ hm hc hgs B (sampleShape ns B) n hms hcs
      (by rw [hms]; exact isBroadcast_sampleShape ns B [n])
    exact ⟨r, h1, h2, fun i => h3 i.1 (mem_allIndices.1 i.2) _ _ _ (rowAt_param hms (mem_allIndices.1 i.2))
      (matAt_param hcs (mem_allIndices.1 i.2)) (rowAt_rowsT x i)⟩

attribute [local irreducible] matNormalLogProb matNormalSample

theorem matNormal_lp (f : Flags) (su sv : Static) (mean uTril vTril : STensor ℝ)
    (hu : Admits uTril.static uTril.rt.shape) (hv : Admits vTril.static vTril.rt.shape) (B : List ℕ) (n p : ℕ)
    (hms : mean.rt.shape = B ++ [n, p]) (hus : uTril.rt.shape = B ++ [n, n]) (hvs : vTril.rt.shape = B ++ [p, p])
    (ns : Option ℕ) (gs : Static) (hsu : Admits su (sampleShape ns B ++ [n, 1]))
    (hsv : Admits sv (sampleShape ns B ++ [p, 1])) (x : Idx (sampleShape ns B) → Fin n × Fin p → ℝ) :
    ∃ r, matNormalLogProbT su sv mean uTril vTril ⟨gs, matsT _ x⟩ = some r ∧ r.shape = sampleShape ns B ∧
      ∀ i : Idx (sampleShape ns B), r.val i.1 =
        matNormalLogProb f (fun k l => mean.rt.val (batchIdx ns i.1 ++ [k.val, l.val]))
          (fun k l => uTril.rt.val (batchIdx ns i.1 ++ [k.val, l.val]))
          (fun k l => vTril.rt.val (batchIdx ns i.1 ++ [k.val, l.val])) (fun k l => x i (k, l)) := by
  obtain ⟨r, h1, h2, h3⟩ := C76_matrix_normal f su sv mean uTril vTril ⟨gs, matsT _ x⟩ hu hv B (sampleShape ns B) n p
    hms hus hvs hsu hsv (by rw [hms]; exact isBroadcast_sampleShape ns B [n, p])
  refine ⟨r, h1, h2, fun i => ?_⟩
  have hi := mem_allIndices.1 i.2
  exact h3 i.1 hi _ _ _ _ (matAt_param hms hi) (matAt_param hus hi) (matAt_param hvs hi) (matAt_matsT x i)

/-- MatrixVariateNormalCholesky. -/
theorem C77_matrix_normal (su sv : Static) (mean uTril vTril : STensor ℝ) (hu : Admits uTril.static uTril.rt.shape)
    (hv : Admits vTril.static vTril.rt.shape) (B : List ℕ) (n p : ℕ) (hms : mean.rt.shape = B ++ [n, p])
    (hus : uTril.rt.shape = B ++ [n, n]) (hvs : vTril.rt.shape = B ++ [p, p])
    (hU : ∀ b, InBounds b B → Cholesky fun i j : Fin n => uTril.rt.val (b ++ [i.val, j.val]))
    (hV : ∀ b, InBounds b B → Cholesky fun i j : Fin p => vTril.rt.val (b ++ [i.val, j.val]))
    (ns : Option ℕ) (gs : Static) (hsu : Admits su (sampleShape ns B ++ [n, 1]))
    (hsv : Admits sv (sampleShape ns B ++ [p, 1])) :
    (∀ u, ∃ t, sampleArg (matNormalSampleT mean.rt uTril.rt vTril.rt u) ns = some t ∧
      t.shape = sampleShape ns B ++ [n, p]) ∧
    Agree (sampleShape ns B) (sources (ns.getD 1 :: B ++ [n, p]) fun _ => gaussianReal 0 1)
      (fun w => matsOf _ n p (sampleArg (matNormalSampleT mean.rt uTril.rt vTril.rt (scalarsT _ w).val) ns))
      volume univ (fun x g => toE (grouped (matNormalLogProbT su sv mean uTril vTril ⟨gs, matsT _ x⟩) g)) := by
  let f : Flags := ⟨true, true⟩
  have hsp := fun u => matNormalSampleT_spec f mean.rt uTril.rt vTril.rt B n p hms hus hvs u (ns.getD 1)
  refine ⟨fun u => ?_, ?_⟩
  · obtain ⟨t, h1, h2, h3⟩ := hsp u
    exact (mats_sampleArg h1 h2 h3).1
  let pm : Idx (sampleShape ns B) → Fin n → Fin p → ℝ := fun i k l => mean.rt.val (batchIdx ns i.1 ++ [k.val, l.val])
  let pU : Idx (sampleShape ns B) → Fin n → Fin n → ℝ := fun i k l => uTril.rt.val (batchIdx ns i.1 ++ [k.val, l.val])
  let pV : Idx (sampleShape ns B) → Fin p → Fin p → ℝ := fun i k l => vTril.rt.val (batchIdx ns i.1 ++ [k.val, l.val])
  have hcU : ∀ i, Cholesky (pU i) := fun i => hU _ (batchIdx_inBounds (mem_allIndices.1 i.2))
  have hcV : ∀ i, Cholesky (pV i) := fun i => hV _ (batchIdx_inBounds (mem_allIndices.1 i.2))
  refine agree_layout (matLayout ns B n p) _ ?_
    (fun i z q => matNormalSample f (pm i) (pU i) (pV i) (fun k l => z (k, l)) q.1 q.2)
    ?_ _ ?_ volume univ ?_
    (fun i x => ENNReal.ofReal (Real.exp (matNormalLogProb f (pm i) (pU i) (pV i) fun k l => x (k, l))))
    ?_ ?_ _ ?_
  · intro i; infer_instance
  · exact fun i => measurable_matNormalSample f _ _ _
  · intro w i
    obtain ⟨t, h1, h2, h3⟩ := hsp (scalarsT _ w).val
    rw [(mats_sampleArg h1 h2 h3).2 i]
    funext k
    have : ∀ (j : Fin n) (l : Fin p), (scalarsT _ w).val (leadIdx ns i.1 ++ [j.val, l.val]) =
      w (matLayout ns B n p (i, (j, l))) := fun j l => scalarsT_val w (matLayout ns B n p (i, (j, l)))
    simp only [this]
    rfl
  · simp
  · exact fun i => (Real.measurable_exp.comp
      (measurable_matNormalLogProb f (pm i) (hcU i) (hcV i))).ennreal_ofReal.aemeasurable
  · exact fun i => C34_sampler f (pm i) (pU i) (pV i) (hcU i) (hcV i)
  exact agree_lp (dens := fun i x => matNormalLogProb f (pm i) (pU i) (pV i) fun k l => x (k, l)) fun x _ =>
    matNormal_lp f su sv mean uTril vTril hu hv B n p hms hus hvs ns gs hsu hsv x

/-! ## Cases that meet the hypotheses -/

/-- Five draws from a batch of two three-dimensional normals with different means and scales; one `log_prob` per draw
(`group_ndims = 1`). -/
example : ∃ ρ : Idx [5] → (Idx [2] → Fin 3 → ℝ) → ℝ≥0∞,
    let mean : STensor ℝ := ⟨none, ⟨[2, 3], fun idx => (idx.headD 0 : ℝ)⟩⟩
    let cov : STensor ℝ := ⟨none, ⟨[2, 3, 3], fun idx =>
      if idx.getD 1 0 = idx.getD 2 0 then 1 + (idx.headD 0 : ℝ) else 0⟩⟩
    ∀ x : Idx [5, 2] → Fin 3 → ℝ, ∃ r, toE (grouped (mvnLogProbT mean cov ⟨none, rowsT [5, 2] x⟩) 1) = some r ∧
      r.shape = [5] ∧ ∀ o : Idx [5], EReal.exp (r.val o.1) = ρ o (blockOf (s := [5, 2]) rfl o x) := by
  have h := (C77_mvn ⟨none, ⟨[2, 3], fun idx => (idx.headD 0 : ℝ)⟩⟩ ⟨none, ⟨[2, 3, 3], fun idx =>
    if idx.getD 1 0 = idx.getD 2 0 then 1 + (idx.headD 0 : ℝ) else 0⟩⟩ trivial trivial [2] 3 rfl rfl (by
      intro b hb
      cases hb with
      | cons _ h =>
        cases h
        refine ⟨fun i j hij => ?_, fun i => ?_⟩
        · simp [Fin.val_inj, ne_of_lt hij]
        · simp; positivity) (some 5) none trivial).2.2 [5] [2] rfl
  obtain ⟨ρ, h1, -, -⟩ := h
  exact ⟨ρ, fun x => h1 x fun _ => mem_univ _⟩

end ZhuSuan.Batch

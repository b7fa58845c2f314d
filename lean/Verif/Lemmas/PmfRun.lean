import Verif.Lemmas.PmfStep

/-!
# Steps, epochs and training as transitions of the vectors
-/

set_option autoImplicit false

open MeasureTheory Set ProbabilityTheory Function
open scoped ENNReal

namespace ZhuSuan.Pmf

open Gibbs

variable {C : Type} [Fintype C] {a b c D : ℕ}

/-- The ratings that are fed with block `k`. -/
def fedOf (c : ℕ) (train : List Rating) : Fin a ⊕ Fin b → List Rating
  | .inl i => chunk (·.1) train (i.val * c) ((i.val + 1) * c - i.val * c)
  | .inr i => chunk (·.2.1) train (i.val * c) ((i.val + 1) * c - i.val * c)

/-- The terms of the log joint that do not depend on the block. -/
noncomputable def restOf (set : List ℕ → List ℕ) (s : Stds) (train : List Rating) : Fin a ⊕ Fin b → Lat a b c D → ℝ
  | .inl i, x => logRows s.v ((set ((fedOf (a := a) (b := b) c train (.inl i)).map (·.2.1))).map (movie x))
  | .inr i, x => logRows s.u ((set ((fedOf (a := a) (b := b) c train (.inr i)).map (·.1))).map (user x))

/-- The log joint that is evaluated when block `k` is sampled. -/
noncomputable def logOf (set : List ℕ → List ℕ) (s : Stds) (train : List Rating) (k : Fin a ⊕ Fin b) :
    Lat a b c D → (Fin c × Fin D → ℝ) → ℝ :=
  logChunk s k (restOf set s train k) (fedOf c train k)

/-- The transition of one particle when block `k` is sampled. -/
noncomputable def blockStep (set : List ℕ → List ℕ) (s : Stds) (train : List Rating) (k : Fin a ⊕ Fin b) (n : ℕ) (eps : ℝ)
    (w : Lat a b c D × (Fin c × Fin D → ℝ) × ℝ) : Lat a b c D :=
  update w.1 k (Hmc.chainStep (fun _ => 1) (gradient (logOf set s train k w.1)) (logOf set s train k w.1) n eps (w.1 k) w.2.1 w.2.2)

theorem mem_fedOf (train : List Rating) (k : Fin a ⊕ Fin b) (t : Rating) (h : t ∈ fedOf c train k) :
    t ∈ train ∧ match k with
      | .inl i => i.val * c ≤ t.1 ∧ t.1 < (i.val + 1) * c
      | .inr i => i.val * c ≤ t.2.1 ∧ t.2.1 < (i.val + 1) * c := by
  have e : ∀ i : ℕ, i * c + ((i + 1) * c - i * c) = (i + 1) * c := fun i => by
    have : i * c ≤ (i + 1) * c := Nat.mul_le_mul_right _ (Nat.le_succ _)
    omega
  cases k with
  | inl i => rw [fedOf, mem_chunk, e] at h; exact h
  | inr i => rw [fedOf, mem_chunk, e] at h; exact h

theorem fedOf_perm (train : List Rating) (k : Fin a ⊕ Fin b) : (fedOf c train k).Perm (train.filter fun t => match k with
      | .inl i => i.val * c ≤ t.1 ∧ t.1 < (i.val + 1) * c
      | .inr i => i.val * c ≤ t.2.1 ∧ t.2.1 < (i.val + 1) * c) := by
  have e : ∀ i : ℕ, i * c + ((i + 1) * c - i * c) = (i + 1) * c := fun i => by
    have : i * c ≤ (i + 1) * c := Nat.mul_le_mul_right _ (Nat.le_succ _)
    omega
  cases k with
  | inl i =>
    have h := chunk_perm (fun t => t.1) train (i.val * c) ((i.val + 1) * c - i.val * c)
    rw [e] at h
    exact h
  | inr i =>
    have h := chunk_perm (fun t => t.2.1) train (i.val * c) ((i.val + 1) * c - i.val * c)
    rw [e] at h
    exact h

theorem logRating_outside (s : Stds) (k : Fin a ⊕ Fin b) (t : Rating) (h : ¬match k with
      | .inl i => i.val * c ≤ t.1 ∧ t.1 < (i.val + 1) * c
      | .inr i => i.val * c ≤ t.2.1 ∧ t.2.1 < (i.val + 1) * c) (x : Lat a b c D) (q : Fin c × Fin D → ℝ) :
    logRating s (update x k q) t = logRating s x t := by
  cases k with
  | inl i =>
    rcases row_update (fun k => x (.inl k)) i q t.1 with ⟨h', _⟩ | ⟨_, e⟩
    · exact absurd h' h
    · rw [logRating, logRating, movie_inl, user, inl_update, e, ← user]
  | inr i =>
    rcases row_update (fun k => x (.inr k)) i q t.2.1 with ⟨h', _⟩ | ⟨_, e⟩
    · exact absurd h' h
    · rw [logRating, logRating, user_inr, movie, inr_update, e, ← movie]

theorem continuous_restOf (set : List ℕ → List ℕ) (s : Stds) (train : List Rating) (k : Fin a ⊕ Fin b) :
    Continuous (restOf (c := c) (D := D) set s train k) := by
  cases k with
  | inl i => exact continuous_logRows_map _ _ continuous_movie _
  | inr i => exact continuous_logRows_map _ _ continuous_user _

theorem restOf_update (set : List ℕ → List ℕ) (s : Stds) (train : List Rating) (k : Fin a ⊕ Fin b) (x : Lat a b c D)
    (q : Fin c × Fin D → ℝ) : restOf set s train k (update x k q) = restOf set s train k x := by
  cases k with
  | inl i =>
    simp only [restOf]
    rw [show movie (update x (.inl i) q) = movie x from funext (movie_inl x i q)]
  | inr i =>
    simp only [restOf]
    rw [show user (update x (.inr i) q) = user x from funext (user_inr x i q)]

theorem logOf_update (set : List ℕ → List ℕ) (s : Stds) (train : List Rating) (k : Fin a ⊕ Fin b) (x : Lat a b c D)
    (q : Fin c × Fin D → ℝ) : logOf set s train k (update x k q) = logOf set s train k x := by
  funext q'
  simp only [logOf, logChunk, restOf_update, update_idem]

theorem logOf_diff (set : List ℕ → List ℕ) (s : Stds) (train : List Rating) (k : Fin a ⊕ Fin b) (x : Lat a b c D)
    (q q' : Fin c × Fin D → ℝ) :
    logJ s train (update x k q) - logJ s train (update x k q') = logOf set s train k x q - logOf set s train k x q' := by
  refine logJ_diff s k _ train _ _ (fedOf_perm train k) (fun t _ ht x q => logRating_outside s k t ?_ x q) x q q'
  cases k <;> simpa using ht

theorem continuous_logOf (set : List ℕ → List ℕ) (s : Stds) (train : List Rating) (k : Fin a ⊕ Fin b) :
    Continuous fun w : Lat a b c D × (Fin c × Fin D → ℝ) => logOf set s train k w.1 w.2 :=
  continuous_logChunk s k _ (continuous_restOf set s train k) _

theorem measurable_blockStep (set : List ℕ → List ℕ) (s : Stds) (train : List Rating) (k : Fin a ⊕ Fin b) (n : ℕ) (eps : ℝ) :
    Measurable (blockStep (c := c) (D := D) set s train k n eps) := by
  have h := measurable_chainStep_param (fun _ => 1) (fun x : Lat a b c D => gradient (logOf set s train k x))
    (logOf set s train k) n eps (measurable_gradient _ (continuous_logOf set s train k)) (continuous_logOf set s train k).measurable
  have m1 : Measurable fun w : Lat a b c D × (Fin c × Fin D → ℝ) × ℝ => (w.1, (w.1 k, w.2)) := by fun_prop
  exact (measurable_update' k).comp (measurable_fst.prodMk (h.comp m1))

theorem smul_law {X N : Type} [MeasurableSpace X] [MeasurableSpace N] (μ : Measure X) [SFinite μ] (ν : Measure N) [SFinite ν]
    (z : ℝ≥0∞) (T : X × N → X) (h : (μ.prod ν).map T = μ) : ((z • μ).prod ν).map T = z • μ := by
  rw [Measure.prod_smul_left, Measure.map_smul, h]

/-- Sampling a block of one particle leaves the posterior invariant. -/
theorem blockStep_law (set : List ℕ → List ℕ) (s : Stds) (train : List Rating) (k : Fin a ⊕ Fin b) (n : ℕ) (eps : ℝ) :
    ((posterior a b c D s train).prod ((Measure.pi fun _ : Fin c × Fin D => gaussianReal 0 1).prod Hmc.unif)).map
      (blockStep set s train k n eps) = posterior a b c D s train := by
  rw [posterior_eq]
  exact smul_law _ _ _ _ (hmc_block_law (logJ s train) (continuous_logJ s train).measurable k (logOf set s train k)
    (continuous_logOf set s train k).measurable (logOf_update set s train k) (logOf_diff set s train k)
    (fun x => gradient (logOf set s train k x)) (measurable_gradient _ (continuous_logOf set s train k))
    (fun x q => by rw [logOf_update]) n eps)

/-- The transition of all particles when block `k` is sampled. -/
noncomputable def blockSteps (set : List ℕ → List ℕ) (s : Stds) (train : List Rating) (k : Fin a ⊕ Fin b) (n : ℕ) (eps : ℝ)
    (x : C → Lat a b c D) (w : (C → Fin c × Fin D → ℝ) × (C → ℝ)) : C → Lat a b c D :=
  fun p => blockStep set s train k n eps (x p, w.1 p, w.2 p)

omit [Fintype C] in
theorem measurable_blockSteps (set : List ℕ → List ℕ) (s : Stds) (train : List Rating) (k : Fin a ⊕ Fin b) (n : ℕ) (eps : ℝ) :
    Measurable fun v : (C → Lat a b c D) × ((C → Fin c × Fin D → ℝ) × (C → ℝ)) => blockSteps set s train k n eps v.1 v.2 := by
  refine measurable_pi_lambda _ fun p => (measurable_blockStep set s train k n eps).comp ?_
  exact ((measurable_pi_apply p).comp measurable_fst).prodMk
      (((measurable_pi_apply p).comp (measurable_fst.comp measurable_snd)).prodMk
        ((measurable_pi_apply p).comp (measurable_snd.comp measurable_snd)))

theorem blockSteps_law (set : List ℕ → List ℕ) (s : Stds) (train : List Rating) (k : Fin a ⊕ Fin b) (n : ℕ) (eps : ℝ) :
    ((Measure.pi fun _ : C => posterior a b c D s train).prod (Hmc.draws C (Fin c × Fin D))).map
      (fun v => blockSteps set s train k n eps v.1 v.2) = Measure.pi fun _ : C => posterior a b c D s train :=
  chains_law (C := C) (posterior a b c D s train) _ Hmc.unif (blockStep set s train k n eps)
    (measurable_blockStep set s train k n eps) (blockStep_law set s train k n eps)

/-! ## The steps of the script -/

variable (S : Script) (train : List Rating) (numUsers numMovies : ℕ)

theorem userStep_eq (hset : IsSet S.set) (h1 : S.cfgU.adaptsStep = false) (h2 : S.cfgU.adaptsMass = false)
    (hb : ∀ t ∈ train, t.1 < numUsers ∧ t.2.1 < numMovies) (hM : numMovies ≤ b * c)
    (ht : S.tables = tables numUsers numMovies train) (i : Fin a) (w : (C → Fin c × Fin D → ℝ) × (C → ℝ)) (s : Vars C a b c D) :
    ∃ q, userStep S i w s = some { s with
      hu := { s.hu with q := q }
      x := blockSteps S.set S.stds train (.inl i) S.cfgU.nLeapfrogs s.hu.stepSize s.x w } := by
  have hsel := select_eq S.set hset numUsers (fun t => t.1) (fun t => t.2.1) train (fun t ht => (hb t ht).1) (i.val * c) ((i.val + 1) * c)
  set fed := chunk (fun t => t.1) train (i.val * c) ((i.val + 1) * c - i.val * c) with hfed
  set sv := S.set (fed.map fun t => t.2.1) with hsv
  have hmem : ∀ t ∈ fed, t.2.1 ∈ sv := fun t ht => ((hset _).2 _).2 (List.mem_map.2 ⟨t, ht, rfl⟩)
  have hin : ∀ t ∈ fed, t ∈ train ∧ i.val * c ≤ t.1 ∧ t.1 < (i.val + 1) * c := fun t ht =>
    mem_fedOf (b := b) train (.inl i) t ht
  have hg : ∀ p, gather (concat fun k => s.x p (.inr k)) sv = some (sv.map (movie (s.x p))) := by
    intro p
    refine gather_eq _ _ _ fun j hj => ?_
    obtain ⟨t, ht, rfl⟩ := List.mem_map.1 (((hset _).2 _).1 hj)
    exact concat_get _ _ (lt_of_lt_of_le (hb t (hin t ht).1).2 hM)
  have hlj : ∀ (q : C → Fin c × Fin D → ℝ) p, logJoint S.stds c sv.length (fed.map fun t => t.1 - i.val * c)
      (fed.map fun t => sv.idxOf t.2.1) (fed.map (·.2.2)) (rows (q p)) (sv.map (movie (s.x p))) =
        some (logOf S.set S.stds train (.inl i) (s.x p) (q p)) := fun q p =>
    logJoint_users S.stds i fed sv hmem (fun t ht => (hin t ht).2) (s.x p) (q p)
  have hr := runSampler_eq S.cfgU h1 h2 (fun p => logOf S.set S.stds train (.inl i) (s.x p)) w
    { s.hu with q := fun p => s.x p (.inl i) }
  refine ⟨fun p => Hmc.chainStep (fun _ => 1) (gradient (logOf S.set S.stds train (.inl i) (s.x p)))
    (logOf S.set S.stds train (.inl i) (s.x p)) S.cfgU.nLeapfrogs s.hu.stepSize (s.x p (.inl i)) (w.1 p) (w.2 p), ?_⟩
  rw [userStep, ht]
  simp only [tables, hsel, candidate_eq (fun k => s.x _ (.inl k)) i, particles_some, Option.bind_eq_bind, Option.bind_some]
  simp only [← hsv, hg, particles_some, Option.bind_some, hlj]
  dsimp only at hr
  rw [hr]
  simp only [Option.bind_some, i.isLt, dif_pos]
  rfl

theorem movieStep_eq (hset : IsSet S.set) (h1 : S.cfgV.adaptsStep = false) (h2 : S.cfgV.adaptsMass = false)
    (hb : ∀ t ∈ train, t.1 < numUsers ∧ t.2.1 < numMovies) (hN : numUsers ≤ a * c)
    (ht : S.tables = tables numUsers numMovies train) (i : Fin b) (w : (C → Fin c × Fin D → ℝ) × (C → ℝ)) (s : Vars C a b c D) :
    ∃ q, movieStep S i w s = some { s with
      hv := { s.hv with q := q }
      x := blockSteps S.set S.stds train (.inr i) S.cfgV.nLeapfrogs s.hv.stepSize s.x w } := by
  have hsel := select_eq S.set hset numMovies (fun t => t.2.1) (fun t => t.1) train (fun t ht => (hb t ht).2) (i.val * c) ((i.val + 1) * c)
  set fed := chunk (fun t => t.2.1) train (i.val * c) ((i.val + 1) * c - i.val * c) with hfed
  set sv := S.set (fed.map fun t => t.1) with hsv
  have hmem : ∀ t ∈ fed, t.1 ∈ sv := fun t ht => ((hset _).2 _).2 (List.mem_map.2 ⟨t, ht, rfl⟩)
  have hin : ∀ t ∈ fed, t ∈ train ∧ i.val * c ≤ t.2.1 ∧ t.2.1 < (i.val + 1) * c := fun t ht =>
    mem_fedOf (a := a) train (.inr i) t ht
  have hg : ∀ p, gather (concat fun k => s.x p (.inl k)) sv = some (sv.map (user (s.x p))) := by
    intro p
    refine gather_eq _ _ _ fun j hj => ?_
    obtain ⟨t, ht, rfl⟩ := List.mem_map.1 (((hset _).2 _).1 hj)
    exact concat_get _ _ (lt_of_lt_of_le (hb t (hin t ht).1).1 hN)
  have hlj : ∀ (q : C → Fin c × Fin D → ℝ) p, logJoint S.stds sv.length c (fed.map fun t => sv.idxOf t.1)
      (fed.map fun t => t.2.1 - i.val * c) (fed.map (·.2.2)) (sv.map (user (s.x p))) (rows (q p)) =
        some (logOf S.set S.stds train (.inr i) (s.x p) (q p)) := fun q p =>
    logJoint_movies S.stds i fed sv hmem (fun t ht => (hin t ht).2) (s.x p) (q p)
  have hr := runSampler_eq S.cfgV h1 h2 (fun p => logOf S.set S.stds train (.inr i) (s.x p)) w
    { s.hv with q := fun p => s.x p (.inr i) }
  refine ⟨fun p => Hmc.chainStep (fun _ => 1) (gradient (logOf S.set S.stds train (.inr i) (s.x p)))
    (logOf S.set S.stds train (.inr i) (s.x p)) S.cfgV.nLeapfrogs s.hv.stepSize (s.x p (.inr i)) (w.1 p) (w.2 p), ?_⟩
  rw [movieStep, ht]
  simp only [tables, hsel, candidate_eq (fun k => s.x _ (.inr k)) i, particles_some, Option.bind_eq_bind, Option.bind_some]
  simp only [← hsv, hg, particles_some, Option.bind_some, hlj]
  dsimp only at hr
  rw [hr]
  simp only [Option.bind_some, i.isLt, dif_pos]
  rfl

/-! ## Loops -/

/-- Only the positions of the samplers and the vectors differ. -/
def Same (s0 s : Vars C a b c D) : Prop :=
  (∃ q, s.hu = { s0.hu with q := q }) ∧ ∃ q, s.hv = { s0.hv with q := q }

omit [Fintype C] in
theorem loop_eq {N : Type} (step : ℕ → N → Vars C a b c D → Option (Vars C a b c D)) (T : ℕ → (C → Lat a b c D) → N → C → Lat a b c D)
    (s0 : Vars C a b c D) (k : ℕ)
    (h : ∀ i < k, ∀ w s, Same s0 s → ∃ s', step i w s = some s' ∧ Same s0 s' ∧ s'.x = T i s.x w)
    (s : Vars C a b c D) (hs : Same s0 s) (w : Fin k → N) :
    ∃ s', loop step s k w = some s' ∧ Same s0 s' ∧ s'.x = Meas.iter T s.x k w := by
  induction k with
  | zero => exact ⟨s, rfl, hs, rfl⟩
  | succ k ih =>
    obtain ⟨s', e1, e2, e3⟩ := ih (fun i hi => h i (by omega)) fun i => w i.castSucc
    obtain ⟨s'', f1, f2, f3⟩ := h k (by omega) (w (Fin.last k)) s' e2
    refine ⟨s'', ?_, f2, ?_⟩
    · rw [loop, e1, Option.bind_some, f1]
    · rw [f3, e3]; rfl

/-- The transition of the vectors in one step, for every number of a chunk. -/
noncomputable def stepOf (set : List ℕ → List ℕ) (s : Stds) (n : ℕ) (eps : ℝ) {m : ℕ} (inj : Fin m → Fin a ⊕ Fin b) (i : ℕ)
    (x : C → Lat a b c D) (w : (C → Fin c × Fin D → ℝ) × (C → ℝ)) : C → Lat a b c D :=
  if h : i < m then blockSteps set s train (inj ⟨i, h⟩) n eps x w else x

omit [Fintype C] in
theorem measurable_stepOf (set : List ℕ → List ℕ) (s : Stds) (n : ℕ) (eps : ℝ) {m : ℕ} (inj : Fin m → Fin a ⊕ Fin b) (i : ℕ) :
    Measurable fun v : (C → Lat a b c D) × ((C → Fin c × Fin D → ℝ) × (C → ℝ)) => stepOf train set s n eps inj i v.1 v.2 := by
  unfold stepOf
  by_cases h : i < m
  · simp only [dif_pos h]; exact measurable_blockSteps _ _ _ _ _ _
  · simp only [dif_neg h]; exact measurable_fst

instance draws_prob' {ι : Type} [Fintype ι] : IsProbabilityMeasure (Hmc.draws C ι) := by
  have : IsProbabilityMeasure (volume.restrict (Ico (0 : ℝ) 1)) := ⟨by simp⟩
  unfold Hmc.draws; infer_instance

theorem stepOf_law (set : List ℕ → List ℕ) (s : Stds) (n : ℕ) (eps : ℝ) {m : ℕ} (inj : Fin m → Fin a ⊕ Fin b) (i : ℕ) :
    ((Measure.pi fun _ : C => posterior a b c D s train).prod (Hmc.draws C (Fin c × Fin D))).map
      (fun v => stepOf train set s n eps inj i v.1 v.2) = Measure.pi fun _ : C => posterior a b c D s train := by
  unfold stepOf
  by_cases h : i < m
  · simp only [dif_pos h]; exact blockSteps_law _ _ _ _ _ _
  · simp only [dif_neg h]
    rw [← Measure.fst, Measure.fst_prod]

/-- The transition of the vectors in one epoch. -/
noncomputable def epochOf (set : List ℕ → List ℕ) (s : Stds) (nu nv : ℕ) (eu ev : ℝ) (x : C → Lat a b c D) (w : EpochNoise C a b c D) :
    C → Lat a b c D :=
  Meas.iter (stepOf train set s nv ev .inr) (Meas.iter (stepOf train set s nu eu .inl) x a w.1) b w.2

/-- The law of the random numbers of one epoch. -/
noncomputable def epochDraws (C : Type) [Fintype C] (a b c D : ℕ) : Measure (EpochNoise C a b c D) :=
  (Measure.pi fun _ => Hmc.draws C (Fin c × Fin D)).prod (Measure.pi fun _ => Hmc.draws C (Fin c × Fin D))

instance : IsProbabilityMeasure (epochDraws C a b c D) := by unfold epochDraws; infer_instance

/-- Two transitions, one after the other. -/
theorem comp_law {X N M : Type} [MeasurableSpace X] [MeasurableSpace N] [MeasurableSpace M] (μ : Measure X) [SFinite μ] (ν : Measure N)
    [SFinite ν] (ρ : Measure M) [SFinite ρ] (S : X × N → X) (T : X × M → X) (mS : Measurable S) (mT : Measurable T)
    (hS : (μ.prod ν).map S = μ) (hT : (μ.prod ρ).map T = μ) :
    (μ.prod (ν.prod ρ)).map (fun v => T (S (v.1, v.2.1), v.2.2)) = μ := by
  have h1 : ((μ.prod ν).prod ρ).map (Prod.map S id) = μ.prod ρ := by
    rw [← Measure.map_prod_map _ _ mS measurable_id, hS, Measure.map_id]
  have h2 : ((μ.prod ν).prod ρ).map MeasurableEquiv.prodAssoc = μ.prod (ν.prod ρ) := Measure.prodAssoc_prod
  have m3 : Measurable fun v : X × N × M => T (S (v.1, v.2.1), v.2.2) := by
    have : Measurable fun v : X × N × M => (S (v.1, v.2.1), v.2.2) :=
      (mS.comp (measurable_fst.prodMk (measurable_fst.comp measurable_snd))).prodMk (measurable_snd.comp measurable_snd)
    exact mT.comp this
  rw [← h2, Measure.map_map m3 MeasurableEquiv.prodAssoc.measurable]
  rw [← h1, Measure.map_map mT (mS.prodMap measurable_id)] at hT
  exact hT

omit [Fintype C] in
theorem measurable_epochOf (set : List ℕ → List ℕ) (s : Stds) (nu nv : ℕ) (eu ev : ℝ) :
    Measurable fun v : (C → Lat a b c D) × EpochNoise C a b c D => epochOf train set s nu nv eu ev v.1 v.2 := by
  have h1 := Meas.measurable_iter (measurable_stepOf (C := C) (a := a) (b := b) (c := c) (D := D) train set s nu eu .inl) a
  have h2 := Meas.measurable_iter (measurable_stepOf (C := C) (a := a) (b := b) (c := c) (D := D) train set s nv ev .inr) b
  have m1 : Measurable fun v : (C → Lat a b c D) × EpochNoise C a b c D => (v.1, v.2.1) :=
    measurable_fst.prodMk (measurable_fst.comp measurable_snd)
  exact h2.comp ((h1.comp m1).prodMk (measurable_snd.comp measurable_snd))

theorem epochOf_law (set : List ℕ → List ℕ) (s : Stds) (nu nv : ℕ) (eu ev : ℝ) :
    ((Measure.pi fun _ : C => posterior a b c D s train).prod (epochDraws C a b c D)).map
      (fun v => epochOf train set s nu nv eu ev v.1 v.2) = Measure.pi fun _ : C => posterior a b c D s train := by
  have h1 := Meas.iter_law (measurable_stepOf (C := C) (a := a) (b := b) (c := c) (D := D) train set s nu eu .inl)
    (stepOf_law (C := C) (a := a) (b := b) (c := c) (D := D) train set s nu eu .inl) a
  have h2 := Meas.iter_law (measurable_stepOf (C := C) (a := a) (b := b) (c := c) (D := D) train set s nv ev .inr)
    (stepOf_law (C := C) (a := a) (b := b) (c := c) (D := D) train set s nv ev .inr) b
  exact comp_law _ _ _ _ _
    (Meas.measurable_iter (measurable_stepOf (C := C) (a := a) (b := b) (c := c) (D := D) train set s nu eu .inl) a)
    (Meas.measurable_iter (measurable_stepOf (C := C) (a := a) (b := b) (c := c) (D := D) train set s nv ev .inr) b) h1 h2

end ZhuSuan.Pmf

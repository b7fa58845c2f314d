import Mathlib.Analysis.Calculus.FDeriv.Measurable
import Verif.Lemmas.PmfDensity
import Verif.Props.HmcRuns

/-!
# What a step of the sampler computes
-/

set_option autoImplicit false

open MeasureTheory Set ProbabilityTheory Function
open scoped ENNReal

namespace ZhuSuan.Pmf

open Gibbs

variable {a b c D : ℕ}

/-! ## Lists of rows -/

theorem concat_eq {n : ℕ} (X : Fin n → Fin c × Fin D → ℝ) :
    concat X = List.ofFn fun k : Fin (n * c) => row X k := by
  rw [List.ofFn_mul, concat]
  congr 2
  funext i
  congr 1
  funext j
  have hc : 0 < c := j.pos
  have h1 : (i.val * c + j.val) / c = i.val := by
    rw [Nat.mul_comm, Nat.mul_add_div hc, Nat.div_eq_of_lt j.isLt, Nat.add_zero]
  have h2 : (i.val * c + j.val) % c = j.val := by
    rw [Nat.mul_comm, Nat.mul_add_mod, Nat.mod_eq_of_lt j.isLt]
  funext d
  rw [row, dif_pos (by constructor <;> simp [h1, h2])]
  simp [h1, h2]

theorem concat_get {n : ℕ} (X : Fin n → Fin c × Fin D → ℝ) (i : ℕ) (h : i < n * c) : (concat X)[i]? = some (row X i) := by
  rw [concat_eq, List.getElem?_ofFn, dif_pos h]

theorem gather_eq {α : Type} (x : List α) (idx : List ℕ) (f : ℕ → α) (h : ∀ i ∈ idx, x[i]? = some (f i)) :
    gather x idx = some (idx.map f) := by
  unfold gather
  induction idx with
  | nil => rfl
  | cons i idx ih =>
    rw [List.mapM_cons, h i (by simp), ih fun j hj => h j (by simp [hj])]
    rfl

theorem gather_map {α β : Type} (x : List α) (fed : List β) (k : β → ℕ) (f : β → α)
    (h : ∀ t ∈ fed, x[k t]? = some (f t)) : gather x (fed.map k) = some (fed.map f) := by
  unfold gather
  induction fed with
  | nil => rfl
  | cons i idx ih =>
    rw [List.map_cons, List.mapM_cons, h i (by simp), ih fun j hj => h j (by simp [hj])]
    rfl

theorem candidate_eq {n : ℕ} (X : Fin n → Fin c × Fin D → ℝ) (i : Fin n) : candidate i X = some (X i) := by
  have hr : ∀ j < c, i.val * c + j < n * c := fun j hj =>
    calc i.val * c + j < i.val * c + c := by omega
      _ = (i.val + 1) * c := by ring
      _ ≤ n * c := Nat.mul_le_mul_right _ i.isLt
  have hg : gather (concat X) (List.range' (i.val * c) c) = some ((List.range' (i.val * c) c).map (row X)) := by
    refine gather_eq _ _ _ fun k hk => ?_
    rw [List.mem_range'_1] at hk
    have := hr (k - i.val * c) (by omega)
    exact concat_get X k (by omega)
  have hlen : ((List.range' (i.val * c) c).map (row X)).length = c := by simp
  simp only [candidate, hg, Option.bind_eq_bind, Option.bind_some, ofRows, dif_pos hlen]
  congr 1
  funext k
  obtain ⟨j, d⟩ := k
  have hc : 0 < c := j.pos
  have h1 : (i.val * c + j.val) / c = i.val := by
    rw [Nat.mul_comm, Nat.mul_add_div hc, Nat.div_eq_of_lt j.isLt, Nat.add_zero]
  have h2 : (i.val * c + j.val) % c = j.val := by
    rw [Nat.mul_comm, Nat.mul_add_mod, Nat.mod_eq_of_lt j.isLt]
  simp only [List.get_eq_getElem, Fin.val_cast, List.getElem_map, List.getElem_range', one_mul]
  rw [row, dif_pos (by constructor <;> simp [h1, h2])]
  simp [h1, h2]

theorem particles_some {C α : Type} [Fintype C] (f : C → α) : particles (fun p => some (f p)) = some f := by
  simp [particles]

/-! ## The rows of a chunk and the blocks of the vectors -/

/-- A number in chunk `i`. -/
theorem chunk_div {i j : ℕ} (h1 : i * c ≤ j) (h2 : j < (i + 1) * c) : j / c = i ∧ j % c = j - i * c ∧ j - i * c < c := by
  have h3 : j - i * c < c := by rw [Nat.add_mul, one_mul] at h2; omega
  have e : j = c * i + (j - i * c) := by rw [Nat.mul_comm]; omega
  have hc : 0 < c := by omega
  refine ⟨?_, ?_, h3⟩
  · rw [e, Nat.mul_add_div hc, Nat.div_eq_of_lt h3, Nat.add_zero]
  · conv_lhs => rw [e]
    rw [Nat.mul_add_mod, Nat.mod_eq_of_lt h3]

theorem div_of_outside {i j : ℕ} (h : ¬(i * c ≤ j ∧ j < (i + 1) * c)) (hc : j % c < c) : j / c ≠ i := by
  intro e
  refine h ⟨?_, ?_⟩
  · rw [← e]; exact Nat.div_mul_le_self j c
  · rw [← e]
    exact Nat.lt_succ_mul_of_div_lt_aux j c hc
where
  Nat.lt_succ_mul_of_div_lt_aux (j c : ℕ) (hc : j % c < c) : j < (j / c + 1) * c := by
    have := Nat.div_add_mod j c
    calc j = c * (j / c) + j % c := this.symm
      _ < c * (j / c) + c := by omega
      _ = (j / c + 1) * c := by ring

theorem row_update {n : ℕ} (X : Fin n → Fin c × Fin D → ℝ) (i : Fin n) (q : Fin c × Fin D → ℝ) (j : ℕ) :
    (∃ h : i.val * c ≤ j ∧ j < (i.val + 1) * c, row (update X i q) j = fun d => q (⟨j - i.val * c, (chunk_div h.1 h.2).2.2⟩, d)) ∨
    (¬(i.val * c ≤ j ∧ j < (i.val + 1) * c) ∧ row (update X i q) j = row X j) := by
  by_cases h : i.val * c ≤ j ∧ j < (i.val + 1) * c
  · refine Or.inl ⟨h, ?_⟩
    obtain ⟨h1, h2, h3⟩ := chunk_div h.1 h.2
    funext d
    rw [row, dif_pos ⟨by rw [h1]; exact i.isLt, by rw [h2]; exact h3⟩]
    have e : (⟨j / c, by rw [h1]; exact i.isLt⟩ : Fin n) = i := Fin.ext h1
    simp only [e, update_self]
    congr 2
    exact Fin.ext h2
  · refine Or.inr ⟨h, ?_⟩
    unfold row
    by_cases hj : j / c < n ∧ j % c < c
    · rw [dif_pos hj, dif_pos hj]
      funext d
      rw [update_of_ne]
      intro e
      exact div_of_outside h hj.2 (congrArg Fin.val e)
    · rw [dif_neg hj, dif_neg hj]

theorem inl_update (x : Lat a b c D) (i : Fin a) (q : Fin c × Fin D → ℝ) :
    (fun k => update x (.inl i) q (.inl k)) = update (fun k => x (.inl k)) i q := by
  funext k
  by_cases h : k = i
  · subst h; simp
  · rw [update_of_ne h, update_of_ne (by simpa using h)]

theorem inr_update (x : Lat a b c D) (i : Fin b) (q : Fin c × Fin D → ℝ) :
    (fun k => update x (.inr i) q (.inr k)) = update (fun k => x (.inr k)) i q := by
  funext k
  by_cases h : k = i
  · subst h; simp
  · rw [update_of_ne h, update_of_ne (by simpa using h)]

theorem user_inr (x : Lat a b c D) (i : Fin b) (q : Fin c × Fin D → ℝ) (j : ℕ) : user (update x (.inr i) q) j = user x j := by
  unfold user
  congr 1

theorem movie_inl (x : Lat a b c D) (i : Fin a) (q : Fin c × Fin D → ℝ) (j : ℕ) : movie (update x (.inl i) q) j = movie x j := by
  unfold movie
  congr 1

/-! ## The log joint of a chunk -/

/-- The log joint that is evaluated when block `k` is sampled: `K` are the terms that do not depend on the block, `fed` the
ratings that are fed. -/
noncomputable def logChunk (s : Stds) (k : Fin a ⊕ Fin b) (K : Lat a b c D → ℝ) (fed : List Rating) (x : Lat a b c D)
    (q : Fin c × Fin D → ℝ) : ℝ :=
  logBlock (blockStd s k) q + K x + (fed.map (logRating s (update x k q))).sum

theorem logRows_rows (std : ℝ) (q : Fin c × Fin D → ℝ) : logRows std (rows q) = logBlock std q := by
  simp only [logRows, rows, logBlock, List.map_ofFn, List.sum_ofFn, Function.comp_def]
  rw [Fintype.sum_prod_type]

theorem zipWith_sum {α β γ : Type} (fed : List α) (f : α → β) (g : α → γ) (h : β → γ → ℝ) :
    (List.zipWith h (fed.map f) (fed.map g)) = fed.map fun t => h (f t) (g t) := by
  rw [List.zipWith_map, List.zipWith_self]

theorem logJoint_eq (s : Stds) (n m : ℕ) (u v : List (Fin D → ℝ)) (hu : u.length = n) (hv : v.length = m) (fed : List Rating)
    (iu iv : Rating → ℕ) (fu fv : Rating → Fin D → ℝ) (h1 : ∀ t ∈ fed, u[iu t]? = some (fu t))
    (h2 : ∀ t ∈ fed, v[iv t]? = some (fv t)) :
    logJoint s n m (fed.map iu) (fed.map iv) (fed.map (·.2.2)) u v = some (logRows s.u u + logRows s.v v +
      (fed.map fun t => Uni.Normal.logProb (mean (fu t) (fv t)) (Real.log s.r) ((t.2.2 - 1) / 4)).sum) := by
  simp only [logJoint, hu, hv, gather_map u fed iu fu h1, gather_map v fed iv fv h2, Option.bind_eq_bind, and_self, guard_true,
    List.length_map, Option.pure_def, Option.bind_some, zipWith_sum]
  rfl

/-- The log joint of a chunk of users. -/
theorem logJoint_users (s : Stds) (i : Fin a) (fed : List Rating) (sv : List ℕ) (hmem : ∀ t ∈ fed, t.2.1 ∈ sv)
    (hb : ∀ t ∈ fed, i.val * c ≤ t.1 ∧ t.1 < (i.val + 1) * c) (x : Lat a b c D) (q : Fin c × Fin D → ℝ) :
    logJoint s c sv.length (fed.map fun t => t.1 - i.val * c) (fed.map fun t => sv.idxOf t.2.1) (fed.map (·.2.2)) (rows q)
      (sv.map (movie x)) = some (logChunk s (.inl i) (fun x => logRows s.v (sv.map (movie x))) fed x q) := by
  rw [logJoint_eq s c sv.length (rows q) (sv.map (movie x)) (by simp [rows]) (by simp) fed _ _
    (fun t => user (update x (.inl i) q) t.1) (fun t => movie x t.2.1)]
  · rw [logChunk, logRows_rows]
    congr 2
  · intro t ht
    rcases row_update (fun k => x (.inl k)) i q t.1 with ⟨h, e⟩ | ⟨h, _⟩
    · rw [user, inl_update, e, rows, List.getElem?_ofFn, dif_pos (chunk_div h.1 h.2).2.2]
    · exact absurd (hb t ht) h
  · intro t ht
    rw [List.getElem?_map, List.getElem?_idxOf (hmem t ht), Option.map_some]

/-- The log joint of a chunk of movies. -/
theorem logJoint_movies (s : Stds) (i : Fin b) (fed : List Rating) (sv : List ℕ) (hmem : ∀ t ∈ fed, t.1 ∈ sv)
    (hb : ∀ t ∈ fed, i.val * c ≤ t.2.1 ∧ t.2.1 < (i.val + 1) * c) (x : Lat a b c D) (q : Fin c × Fin D → ℝ) :
    logJoint s sv.length c (fed.map fun t => sv.idxOf t.1) (fed.map fun t => t.2.1 - i.val * c) (fed.map (·.2.2))
      (sv.map (user x)) (rows q) = some (logChunk s (.inr i) (fun x => logRows s.u (sv.map (user x))) fed x q) := by
  rw [logJoint_eq s sv.length c (sv.map (user x)) (rows q) (by simp) (by simp [rows]) fed _ _
    (fun t => user x t.1) (fun t => movie (update x (.inr i) q) t.2.1)]
  · rw [logChunk, logRows_rows, add_comm (logRows s.u _)]
    congr 2
  · intro t ht
    rw [List.getElem?_map, List.getElem?_idxOf (hmem t ht), Option.map_some]
  · intro t ht
    rcases row_update (fun k => x (.inr k)) i q t.2.1 with ⟨h, e⟩ | ⟨h, _⟩
    · rw [movie, inr_update, e, rows, List.getElem?_ofFn, dif_pos (chunk_div h.1 h.2).2.2]
    · exact absurd (hb t ht) h

/-! ## The log joint of a chunk and of all the data -/

theorem logJ_diff (s : Stds) (k : Fin a ⊕ Fin b) (K : Lat a b c D → ℝ) (train fed : List Rating) (p : Rating → Bool)
    (hfed : fed.Perm (train.filter p)) (hp : ∀ t ∈ train, p t = false → ∀ (x : Lat a b c D) q, logRating s (update x k q) t = logRating s x t)
    (x : Lat a b c D) (q q' : Fin c × Fin D → ℝ) :
    logJ s train (update x k q) - logJ s train (update x k q') = logChunk s k K fed x q - logChunk s k K fed x q' := by
  have h1 : ∀ q, (train.map (logRating s (update x k q))).sum =
      (fed.map (logRating s (update x k q))).sum + ((train.filter fun t => !p t).map (logRating s x)).sum := by
    intro q
    rw [((List.filter_append_perm p train).symm.map (logRating s (update x k q))).sum_eq, List.map_append, List.sum_append,
      (hfed.map _).sum_eq]
    congr 1
    refine congrArg List.sum (List.map_congr_left fun t ht => ?_)
    obtain ⟨h1, h2⟩ := List.mem_filter.1 ht
    exact hp t h1 (by simpa using h2) x q
  have h2 : ∀ q, ∑ j, logBlock (blockStd s j) (update x k q j) =
      logBlock (blockStd s k) q + ∑ j ∈ Finset.univ.erase k, logBlock (blockStd s j) (x j) := by
    intro q
    rw [← Finset.add_sum_erase _ _ (Finset.mem_univ k), update_self]
    congr 1
    refine Finset.sum_congr rfl fun j hj => ?_
    rw [update_of_ne (Finset.ne_of_mem_erase hj)]
  simp only [logJ, logChunk, h1, h2]
  ring

/-! ## Measurability -/

theorem continuous_update_block (k : Fin a ⊕ Fin b) :
    Continuous fun w : Lat a b c D × (Fin c × Fin D → ℝ) => update w.1 k w.2 :=
  continuous_fst.update k continuous_snd

theorem continuous_logChunk (s : Stds) (k : Fin a ⊕ Fin b) (K : Lat a b c D → ℝ) (hK : Continuous K) (fed : List Rating) :
    Continuous fun w : Lat a b c D × (Fin c × Fin D → ℝ) => logChunk s k K fed w.1 w.2 := by
  unfold logChunk
  exact (((continuous_logBlock _).comp continuous_snd).add (hK.comp continuous_fst)).add
    ((continuous_logRatings s fed).comp (continuous_update_block k))

theorem continuous_logRows_map (std : ℝ) (f : Lat a b c D → ℕ → Fin D → ℝ) (hf : ∀ i d, Continuous fun x => f x i d) (sv : List ℕ) :
    Continuous fun x => logRows std (sv.map (f x)) := by
  unfold logRows
  simp only [List.map_map, Function.comp_def]
  induction sv with
  | nil => simpa using continuous_const
  | cons i sv ih =>
    simp only [List.map_cons, List.sum_cons]
    refine Continuous.add ?_ ih
    exact continuous_finsetSum _ fun d _ => (continuous_logProb _).comp (continuous_const.prodMk (hf i d))

/-- The gradient of a log density. -/
noncomputable def gradient {κ : Type} [DecidableEq κ] (l : (κ → ℝ) → ℝ) (q : κ → ℝ) (e : κ) : ℝ :=
  deriv (fun y => l (update q e y)) (q e)

theorem measurable_gradient {X κ : Type} [DecidableEq κ] [Fintype κ] [TopologicalSpace X] [MeasurableSpace X] [OpensMeasurableSpace X]
    [SecondCountableTopology X]
    (l : X → (κ → ℝ) → ℝ) (hl : Continuous fun w : X × (κ → ℝ) => l w.1 w.2) :
    Measurable fun w : X × (κ → ℝ) => gradient (l w.1) w.2 := by
  refine measurable_pi_lambda _ fun e => ?_
  have hc : Continuous (Function.uncurry fun (w : X × (κ → ℝ)) (y : ℝ) => l w.1 (update w.2 e y)) := by
    have h1 : Continuous fun z : (X × (κ → ℝ)) × ℝ => (z.1.1, update z.1.2 e z.2) :=
      (continuous_fst.comp continuous_fst).prodMk ((continuous_snd.comp continuous_fst).update e continuous_snd)
    exact hl.comp h1
  have h := measurable_deriv_with_param hc
  have h2 : Measurable fun w : X × (κ → ℝ) => (w, w.2 e) := measurable_id.prodMk ((measurable_pi_apply e).comp measurable_snd)
  exact h.comp h2

theorem gradients_eq {C κ : Type} [Fintype C] (l : C → (κ → ℝ) → ℝ) (q : C → κ → ℝ) (p : C) :
    (open Classical in gradients (fun q p => l p (q p)) q p = gradient (l p) (q p)) := by
  classical
  funext k
  simp only [gradients, gradient]
  have e : (fun y => ∑ p', l p' (update q p (update (q p) k y) p')) =
      fun y => l p (update (q p) k y) + ∑ p' ∈ Finset.univ.erase p, l p' (q p') := by
    funext y
    rw [← Finset.add_sum_erase _ _ (Finset.mem_univ p), update_self]
    congr 1
    refine Finset.sum_congr rfl fun j hj => ?_
    rw [update_of_ne (Finset.ne_of_mem_erase hj)]
  rw [e, deriv_add_const]

/-- A run of the sampler on a chunk. -/
theorem runSampler_eq {C κ : Type} [Fintype C] [Fintype κ] [DecidableEq κ] (cfg : Hmc.Cfg ℝ) (h1 : cfg.adaptsStep = false)
    (h2 : cfg.adaptsMass = false) (l : C → (κ → ℝ) → ℝ) (w : (C → κ → ℝ) × (C → ℝ)) (h : Hmc.State ℝ C κ) :
    runSampler cfg (fun q p => some (l p (q p))) w h = some { h with
      q := fun p => Hmc.chainStep (fun _ => 1) (gradient (l p)) (l p) cfg.nLeapfrogs h.stepSize (h.q p) (w.1 p) (w.2 p) } := by
  have hd : ∀ (q : C → κ → ℝ) (p : C), (some (l p (q p))).isSome := fun _ _ => rfl
  rw [runSampler, dif_pos hd]
  simp only [Option.get_some]
  have hg : gradients (fun q p => l p (q p)) = fun (q : C → κ → ℝ) p => gradient (l p) (q p) := by
    funext q p
    have := gradients_eq l q p
    convert this
  rw [hg]
  obtain ⟨info, e⟩ := Hmc.C53_fixed cfg h1 h2 (fun q p => l p (q p)) (fun q p => gradient (l p) (q p)) ⟨false, false⟩ w.1 w.2 h
  rw [e]
  simp only
  congr 2
  funext p
  exact Hmc.transition_chain _ _ _ _ _ _ _ _ p

end ZhuSuan.Pmf

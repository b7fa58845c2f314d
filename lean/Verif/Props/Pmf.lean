import Verif.Lemmas.PmfRun

/-!
# C94  Matrix factorization with HMC, one chunk of users or movies at a time
-/

set_option autoImplicit false

open MeasureTheory Set ProbabilityTheory Function
open scoped ENNReal

namespace ZhuSuan.Pmf

open Gibbs

variable {C : Type} [Fintype C] {a b c D : ℕ}

/-! ## What is fed -/

/-- **C94.** What `select_from_corpus` returns for the users `l, …, r - 1`: the movies that these users rated, each once, and the
ratings of these users, each once, in some order `fed`; the two lists of indices point to the user, counted from `l`, and to the
movie of each rating.  The order in which Python lists a set is left open. -/
theorem C94_select_users (set : List ℕ → List ℕ) (hset : IsSet set) (numUsers numMovies : ℕ) (train : List Rating)
    (hb : ∀ t ∈ train, t.1 < numUsers ∧ t.2.1 < numMovies) : ∃ T, mapped numUsers numMovies train = some T ∧ ∀ l r,
      let f := selectFromCorpus set l r T.userMovie T.userMovieScore
      f.nv = f.sv.length ∧ f.sv.Nodup ∧ (∀ v, v ∈ f.sv ↔ ∃ t ∈ train, (l ≤ t.1 ∧ t.1 < r) ∧ t.2.1 = v) ∧
      ∃ fed : List Rating, fed.Perm (train.filter fun t => l ≤ t.1 ∧ t.1 < r) ∧ f.tr = fed.map (·.2.2) ∧
        f.ssu.map (l + ·) = fed.map (·.1) ∧ f.ssv.map (f.sv[·]?) = fed.map (some ·.2.1) := by
  refine ⟨_, mapped_eq numUsers numMovies train hb, fun l r => ?_⟩
  have h := select_eq set hset numUsers (fun t => t.1) (fun t => t.2.1) train (fun t ht => (hb t ht).1) l r
  simp only [tables, h]
  have hin : ∀ t, t ∈ chunk (fun t : Rating => t.1) train l (r - l) ↔ t ∈ train ∧ l ≤ t.1 ∧ t.1 < r := by
    intro t
    rw [mem_chunk]
    constructor
    · rintro ⟨h1, h2, h3⟩; exact ⟨h1, h2, by omega⟩
    · rintro ⟨h1, h2, h3⟩; exact ⟨h1, h2, by omega⟩
  refine ⟨trivial, (hset _).1, fun v => ?_, _, ?_, rfl, ?_, ?_⟩
  · rw [(hset _).2, List.mem_map]
    exact ⟨fun ⟨t, h1, h2⟩ => ⟨t, ((hin t).1 h1).1, ((hin t).1 h1).2, h2⟩, fun ⟨t, h1, h2, h3⟩ => ⟨t, (hin t).2 ⟨h1, h2⟩, h3⟩⟩
  · refine (chunk_perm (fun t : Rating => t.1) train l (r - l)).trans (List.Perm.of_eq (List.filter_congr fun t _ => ?_))
    rw [decide_eq_decide]
    omega
  · rw [List.map_map]
    refine List.map_congr_left fun t ht => ?_
    have := ((hin t).1 ht).2.1
    simp only [Function.comp_apply]
    omega
  · rw [List.map_map]
    refine List.map_congr_left fun t ht => ?_
    exact List.getElem?_idxOf (((hset _).2 _).2 (List.mem_map.2 ⟨t, ht, rfl⟩))

/-- **C94.** The same for the movies `l, …, r - 1`. -/
theorem C94_select_movies (set : List ℕ → List ℕ) (hset : IsSet set) (numUsers numMovies : ℕ) (train : List Rating)
    (hb : ∀ t ∈ train, t.1 < numUsers ∧ t.2.1 < numMovies) : ∃ T, mapped numUsers numMovies train = some T ∧ ∀ l r,
      let f := selectFromCorpus set l r T.movieUser T.movieUserScore
      f.nv = f.sv.length ∧ f.sv.Nodup ∧ (∀ v, v ∈ f.sv ↔ ∃ t ∈ train, (l ≤ t.2.1 ∧ t.2.1 < r) ∧ t.1 = v) ∧
      ∃ fed : List Rating, fed.Perm (train.filter fun t => l ≤ t.2.1 ∧ t.2.1 < r) ∧ f.tr = fed.map (·.2.2) ∧
        f.ssu.map (l + ·) = fed.map (·.2.1) ∧ f.ssv.map (f.sv[·]?) = fed.map (some ·.1) := by
  refine ⟨_, mapped_eq numUsers numMovies train hb, fun l r => ?_⟩
  have h := select_eq set hset numMovies (fun t => t.2.1) (fun t => t.1) train (fun t ht => (hb t ht).2) l r
  simp only [tables, h]
  have hin : ∀ t, t ∈ chunk (fun t : Rating => t.2.1) train l (r - l) ↔ t ∈ train ∧ l ≤ t.2.1 ∧ t.2.1 < r := by
    intro t
    rw [mem_chunk]
    constructor
    · rintro ⟨h1, h2, h3⟩; exact ⟨h1, h2, by omega⟩
    · rintro ⟨h1, h2, h3⟩; exact ⟨h1, h2, by omega⟩
  refine ⟨trivial, (hset _).1, fun v => ?_, _, ?_, rfl, ?_, ?_⟩
  · rw [(hset _).2, List.mem_map]
    exact ⟨fun ⟨t, h1, h2⟩ => ⟨t, ((hin t).1 h1).1, ((hin t).1 h1).2, h2⟩, fun ⟨t, h1, h2, h3⟩ => ⟨t, (hin t).2 ⟨h1, h2⟩, h3⟩⟩
  · refine (chunk_perm (fun t : Rating => t.2.1) train l (r - l)).trans (List.Perm.of_eq (List.filter_congr fun t _ => ?_))
    rw [decide_eq_decide]
    omega
  · rw [List.map_map]
    refine List.map_congr_left fun t ht => ?_
    have := ((hin t).1 ht).2.1
    simp only [Function.comp_apply]
    omega
  · rw [List.map_map]
    refine List.map_congr_left fun t ht => ?_
    exact List.getElem?_idxOf (((hset _).2 _).2 (List.mem_map.2 ⟨t, ht, rfl⟩))

/-- `fun l => list(dict.fromkeys(l))`-like orders exist: any function that removes repetitions will do. -/
theorem isSet_dedup : IsSet List.dedup := fun l => ⟨List.nodup_dedup l, fun _ => List.mem_dedup⟩

/-- A table for which the hypotheses hold: three ratings of two movies by two users; and what is fed for the second user. -/
example : ∃ T, mapped 2 2 [(0, 0, 5), (1, 1, 3), (0, 1, 4)] = some T ∧
    (selectFromCorpus List.dedup 1 2 T.userMovie T.userMovieScore).sv = [1] := by
  refine ⟨_, mapped_eq 2 2 _ (by simp), ?_⟩
  have h := select_eq List.dedup isSet_dedup 2 (fun t => t.1) (fun t => t.2.1) [(0, 0, 5), (1, 1, 3), (0, 1, 4)] (by simp) 1 2
  simp only [tables, h]
  simp [chunk]

/-! ## The log joint that is evaluated -/

theorem density_eq (s : Stds) (data : List Rating) (x : Lat a b c D) : density s data x = Real.exp (logJ s data x) := by
  have h1 : ∀ {std : ℝ}, 0 < std → ∀ m y, gaussianPDFReal m (var std) y = Real.exp (Uni.Normal.logProb m (Real.log std) y) :=
    fun h m y => (Uni.C18_density m (.std _) h y).symm
  have h2 : (data.map fun t => gaussianPDFReal (mean (user x t.1) (movie x t.2.1)) (var s.r) ((t.2.2 - 1) / 4)).prod =
      Real.exp (data.map (logRating s x)).sum := by
    induction data with
    | nil => simp
    | cons t data ih =>
      simp only [List.map_cons, List.sum_cons, List.prod_cons]
      rw [ih, Real.exp_add, logRating, h1 s.r_pos]
  rw [density, h2, logJ, Real.exp_add, Fintype.sum_sum_type, Real.exp_add, Real.exp_sum, Real.exp_sum]
  simp only [blockStd, Sum.elim_inl, Sum.elim_inr, logBlock, Real.exp_sum, h1 s.u_pos, h1 s.v_pos]

/-- **C94.** `posterior` has the density `density`, up to a constant. -/
theorem C94_density (s : Stds) (data : List Rating) : ∃ z : ℝ≥0∞, posterior a b c D s data =
    z • volume.withDensity fun x => ENNReal.ofReal (density s data x) := by
  refine ⟨(∫⁻ x, likelihood s data x ∂(prior a b c D s))⁻¹, ?_⟩
  simp only [posterior_eq, joint, ← density_eq]

/-- **C94.** While chunk `i` of the users is sampled given the movies, the evaluation of the log joint succeeds, and its value is
the logarithm of the density of all users, movies and ratings, up to a constant that does not depend on the chunk (though only
the ratings of the chunk and the movies in them are fed). -/
theorem C94_log_joint_users (set : List ℕ → List ℕ) (hset : IsSet set) (s : Stds) (numUsers numMovies : ℕ) (train : List Rating)
    (hb : ∀ t ∈ train, t.1 < numUsers ∧ t.2.1 < numMovies) (hM : numMovies ≤ b * c) (T : Tables)
    (hT : mapped numUsers numMovies train = some T) (x : Lat a b c D) (i : Fin a) :
    let f := selectFromCorpus set (i * c) ((i + 1) * c) T.userMovie T.userMovieScore
    ∃ v, gather (concat fun k => x (.inr k)) f.sv = some v ∧ ∃ rest, ∀ q, ∃ y,
      logJoint s c f.nv f.ssu f.ssv f.tr (rows q) v = some y ∧ Real.log (density s train (update x (.inl i) q)) = y + rest := by
  rw [mapped_eq numUsers numMovies train hb, Option.some.injEq] at hT
  subst hT
  have h := select_eq set hset numUsers (fun t => t.1) (fun t => t.2.1) train (fun t ht => (hb t ht).1) (i.val * c) ((i.val + 1) * c)
  set fed := chunk (fun t => t.1) train (i.val * c) ((i.val + 1) * c - i.val * c) with hfed
  have hin : ∀ t ∈ fed, t ∈ train ∧ i.val * c ≤ t.1 ∧ t.1 < (i.val + 1) * c := fun t ht =>
    mem_fedOf (b := b) train (.inl i) t ht
  simp only [tables, h]
  refine ⟨_, gather_eq _ _ (movie x) fun j hj => ?_, logJ s train x - logOf set s train (.inl i) x (x (.inl i)), fun q =>
    ⟨_, logJoint_users s i fed _ (fun t ht => ((hset _).2 _).2 (List.mem_map.2 ⟨t, ht, rfl⟩)) (fun t ht => (hin t ht).2) x q, ?_⟩⟩
  · obtain ⟨t, ht, rfl⟩ := List.mem_map.1 (((hset _).2 _).1 hj)
    exact concat_get _ _ (lt_of_lt_of_le (hb t (hin t ht).1).2 hM)
  · rw [density_eq, Real.log_exp]
    have := logOf_diff set s train (.inl i) x q (x (.inl i))
    rw [update_eq_self] at this
    have e : logOf set s train (.inl i) x q = logChunk s (.inl i) (fun x => logRows s.v
      ((set (fed.map fun t => t.2.1)).map (movie x))) fed x q := rfl
    rw [← e]
    linarith

/-- **C94.** The same while chunk `i` of the movies is sampled given the users. -/
theorem C94_log_joint_movies (set : List ℕ → List ℕ) (hset : IsSet set) (s : Stds) (numUsers numMovies : ℕ) (train : List Rating)
    (hb : ∀ t ∈ train, t.1 < numUsers ∧ t.2.1 < numMovies) (hN : numUsers ≤ a * c) (T : Tables)
    (hT : mapped numUsers numMovies train = some T) (x : Lat a b c D) (i : Fin b) :
    let f := selectFromCorpus set (i * c) ((i + 1) * c) T.movieUser T.movieUserScore
    ∃ u, gather (concat fun k => x (.inl k)) f.sv = some u ∧ ∃ rest, ∀ q, ∃ y,
      logJoint s f.nv c f.ssv f.ssu f.tr u (rows q) = some y ∧ Real.log (density s train (update x (.inr i) q)) = y + rest := by
  rw [mapped_eq numUsers numMovies train hb, Option.some.injEq] at hT
  subst hT
  have h := select_eq set hset numMovies (fun t => t.2.1) (fun t => t.1) train (fun t ht => (hb t ht).2) (i.val * c) ((i.val + 1) * c)
  set fed := chunk (fun t => t.2.1) train (i.val * c) ((i.val + 1) * c - i.val * c) with hfed
  have hin : ∀ t ∈ fed, t ∈ train ∧ i.val * c ≤ t.2.1 ∧ t.2.1 < (i.val + 1) * c := fun t ht =>
    mem_fedOf (a := a) train (.inr i) t ht
  simp only [tables, h]
  refine ⟨_, gather_eq _ _ (user x) fun j hj => ?_, logJ s train x - logOf set s train (.inr i) x (x (.inr i)), fun q =>
    ⟨_, logJoint_movies s i fed _ (fun t ht => ((hset _).2 _).2 (List.mem_map.2 ⟨t, ht, rfl⟩)) (fun t ht => (hin t ht).2) x q, ?_⟩⟩
  · obtain ⟨t, ht, rfl⟩ := List.mem_map.1 (((hset _).2 _).1 hj)
    exact concat_get _ _ (lt_of_lt_of_le (hb t (hin t ht).1).1 hN)
  · rw [density_eq, Real.log_exp]
    have := logOf_diff set s train (.inr i) x q (x (.inr i))
    rw [update_eq_self] at this
    have e : logOf set s train (.inr i) x q = logChunk s (.inr i) (fun x => logRows s.u
      ((set (fed.map fun t => t.1)).map (user x))) fed x q := rfl
    rw [← e]
    linarith

/-! ## Training -/

/-- **C94.** Training never fails, for any number `k` of epochs and whatever the random numbers.  If the particles are at the start
independent draws from the posterior of all users and movies given all the training ratings, they are so after training, although
each step moves only one chunk and reads only its ratings.  The step sizes, the numbers of leapfrog steps and of particles, and the
sizes of the chunks are arbitrary. -/
theorem C94_invariant (S : Script) (hset : IsSet S.set) (hu : S.cfgU.adaptsStep = false ∧ S.cfgU.adaptsMass = false)
    (hv : S.cfgV.adaptsStep = false ∧ S.cfgV.adaptsMass = false) (data : List Rating) (numUsers numMovies : ℕ)
    (hb : ∀ t ∈ data, t.1 < numUsers ∧ t.2.1 < numMovies) (hN : numUsers ≤ a * c) (hM : numMovies ≤ b * c)
    (hT : mapped numUsers numMovies data = some S.tables) (s0 : Vars C a b c D) (k : ℕ) :
    let target : Measure (C → Lat a b c D) := Measure.pi fun _ => posterior a b c D S.stds data
    let noise : Measure (EpochNoise C a b c D) :=
      (Measure.pi fun _ => Hmc.draws C (Fin c × Fin D)).prod (Measure.pi fun _ => Hmc.draws C (Fin c × Fin D))
    IsProbabilityMeasure (posterior a b c D S.stds data) ∧
    ∃ final : (C → Lat a b c D) × (Fin k → EpochNoise C a b c D) → C → Lat a b c D, Measurable final ∧
      (∀ x w, ∃ s', train S { s0 with x := x } k w = some s' ∧ s'.x = final (x, w)) ∧
      (target.prod (Measure.pi fun _ => noise)).map final = target := by
  intro target noise
  rw [mapped_eq numUsers numMovies data hb, Option.some.injEq] at hT
  set E := epochOf (C := C) (a := a) (b := b) (c := c) (D := D) data S.set S.stds S.cfgU.nLeapfrogs S.cfgV.nLeapfrogs s0.hu.stepSize
    s0.hv.stepSize with hE
  have mE : ∀ _ : ℕ, Measurable fun v : (C → Lat a b c D) × EpochNoise C a b c D => E v.1 v.2 := fun _ => measurable_epochOf data _ _ _ _ _ _
  have lE : ∀ _ : ℕ, (target.prod noise).map (fun v => E v.1 v.2) = target := fun _ =>
    epochOf_law data S.set S.stds S.cfgU.nLeapfrogs S.cfgV.nLeapfrogs s0.hu.stepSize s0.hv.stepSize
  have hn : IsProbabilityMeasure noise := inferInstanceAs (IsProbabilityMeasure (epochDraws C a b c D))
  refine ⟨inferInstance, fun v => Meas.iter (fun _ => E) v.1 k v.2, Meas.measurable_iter mE k, fun x w => ?_, Meas.iter_law mE lE k⟩
  have hU : ∀ i < a, ∀ w s, Same s0 s → ∃ s', userStep S i w s = some s' ∧ Same s0 s' ∧
      s'.x = stepOf data S.set S.stds S.cfgU.nLeapfrogs s0.hu.stepSize .inl i s.x w := by
    intro i hi w s hs
    obtain ⟨q, e⟩ := userStep_eq S data numUsers numMovies hset hu.1 hu.2 hb hM hT.symm ⟨i, hi⟩ w s
    obtain ⟨⟨q1, e1⟩, q2, e2⟩ := hs
    refine ⟨_, e, ⟨⟨q, by rw [e1]⟩, q2, e2⟩, ?_⟩
    rw [stepOf, dif_pos hi, e1]
  have hV : ∀ i < b, ∀ w s, Same s0 s → ∃ s', movieStep S i w s = some s' ∧ Same s0 s' ∧
      s'.x = stepOf data S.set S.stds S.cfgV.nLeapfrogs s0.hv.stepSize .inr i s.x w := by
    intro i hi w s hs
    obtain ⟨q, e⟩ := movieStep_eq S data numUsers numMovies hset hv.1 hv.2 hb hN hT.symm ⟨i, hi⟩ w s
    obtain ⟨⟨q1, e1⟩, q2, e2⟩ := hs
    refine ⟨_, e, ⟨⟨q1, e1⟩, q, by rw [e2]⟩, ?_⟩
    rw [stepOf, dif_pos hi, e2]
  obtain ⟨s', e1, _, e3⟩ := loop_eq (fun _ => epoch S) (fun _ => E) s0 k (fun _ _ w s hs => by
    obtain ⟨s1, f1, f2, f3⟩ := loop_eq _ _ s0 a hU s hs w.1
    obtain ⟨s2, g1, g2, g3⟩ := loop_eq _ _ s0 b hV s1 f2 w.2
    refine ⟨s2, ?_, g2, ?_⟩
    · rw [epoch, f1, Option.bind_some, g1]
    · rw [g3, f3]; rfl) { s0 with x := x } ⟨⟨s0.hu.q, rfl⟩, s0.hv.q, rfl⟩ w
  exact ⟨s', e1, e3⟩

/-- **C94.** The number of chunks in the script is enough for all users. -/
theorem C94_chunks (n c : ℕ) (hc : 0 < c) : n ≤ (n + c - 1) / c * c ∧ (n + c - 1) / c * c < n + c := by
  have h1 := Nat.div_add_mod (n + c - 1) c
  have h2 := Nat.mod_lt (n + c - 1) hc
  rw [Nat.mul_comm] at h1
  omega

/-- The hypotheses of `C94_invariant` hold for the tables and samplers of the script. -/
example (data : List Rating) (numUsers numMovies : ℕ) (hb : ∀ t ∈ data, t.1 < numUsers ∧ t.2.1 < numMovies) :
    ∃ S : Script, IsSet S.set ∧ (S.cfgU.adaptsStep = false ∧ S.cfgU.adaptsMass = false) ∧
      (S.cfgV.adaptsStep = false ∧ S.cfgV.adaptsMass = false) ∧ S.cfgU.nLeapfrogs = 10 ∧
      numUsers ≤ (numUsers + 50 - 1) / 50 * 50 ∧ mapped numUsers numMovies data = some S.tables :=
  let cfg : Hmc.Cfg ℝ := ⟨10, 0.9, ⟨0.05, 100, 0.75, 0.9, 0.001⟩, false, false, 0, 0.99⟩
  ⟨⟨cfg, cfg, ⟨1, 1, 0.05, one_pos, one_pos, by norm_num⟩, _, List.dedup⟩, isSet_dedup, ⟨rfl, rfl⟩, ⟨rfl, rfl⟩, rfl,
    (C94_chunks numUsers 50 (by norm_num)).1, mapped_eq _ _ _ hb⟩

/-! ## The evaluation -/

/-- **C94.** The error that the script reports is not that of the predictions `r_pred`: the node `r` is sampled, and the expected
squared error of a rating is larger by `std² / K`, where `K` is the number of particles. -/
theorem C94_error {K : ℕ} (hK : 0 < K) (std : ℝ) (u v : Fin K → Fin D → ℝ) (r : ℝ) :
    Integrable (fun z => squaredError std u v z r) (Measure.pi fun _ => gaussianReal 0 1) ∧
    ∫ z, squaredError std u v z r ∂(Measure.pi fun _ => gaussianReal 0 1) =
      ((∑ p, mean (u p) (v p)) / K - (r - 1) / 4) ^ 2 + std ^ 2 / K := by
  set μ : Measure (Fin K → ℝ) := Measure.pi fun _ => gaussianReal 0 1 with hμ
  have hK' : (K : ℝ) ≠ 0 := by exact_mod_cast hK.ne'
  have hid : ∀ _ : Fin K, MemLp (id : ℝ → ℝ) 2 (gaussianReal 0 1) := fun _ => memLp_id_gaussianReal' 2 (by simp)
  have hz : ∀ p, MemLp (fun z : Fin K → ℝ => z p) 2 μ := fun p =>
    (hid p).comp_measurePreserving (measurePreserving_eval (fun _ : Fin K => gaussianReal 0 1) p)
  have hS : MemLp (fun z : Fin K → ℝ => ∑ p, z p) 2 μ := memLp_finsetSum _ fun p _ => hz p
  have hzi : ∀ p, ∫ z : Fin K → ℝ, z p ∂μ = 0 := fun p => by
    have h := integral_comp_eval (μ := fun _ : Fin K => gaussianReal 0 1) (i := p) (f := fun y : ℝ => y)
      measurable_id.aestronglyMeasurable
    rw [hμ, h, integral_id_gaussianReal]
  have h0 : ∫ z, (∑ p, z p) ∂μ = 0 := by
    rw [integral_finsetSum _ fun p _ => (hz p).integrable (by norm_num)]
    simp only [hzi, Finset.sum_const_zero]
  have h2 : ∫ z, (∑ p, z p) ^ 2 ∂μ = K := by
    have h := variance_sum_pi hid
    simp only [variance_id_gaussianReal, Finset.sum_const, Finset.card_univ, Fintype.card_fin] at h
    have e : (∑ i : Fin K, fun ω : Fin K → ℝ => id (ω i)) = fun z => ∑ p, z p := by
      funext z; simp
    rw [e, variance_of_integral_eq_zero hS.aemeasurable h0] at h
    simpa using h
  set A := (∑ p, mean (u p) (v p)) / K - (r - 1) / 4 with hA
  have e : (fun z => squaredError std u v z r) = fun z => A ^ 2 + (2 * A * (std / K) * (∑ p, z p) + (std / K) ^ 2 * (∑ p, z p) ^ 2) := by
    funext z
    have e1 : ∀ p, Uni.Normal.sample (Uni.sigmoid (∑ d, u p d * v p d)) std (z p) = mean (u p) (v p) + std * z p := fun p => by
      simp only [Uni.Normal.sample, mean, Uni.sigmoid]
      ring
    simp only [squaredError, e1, Finset.sum_add_distrib, ← Finset.mul_sum, hA]
    ring
  have i1 : Integrable (fun z : Fin K → ℝ => ∑ p, z p) μ := hS.integrable (by norm_num)
  have i2 : Integrable (fun z : Fin K → ℝ => (∑ p, z p) ^ 2) μ := hS.integrable_sq
  have i3 : Integrable (fun z : Fin K → ℝ => 2 * A * (std / K) * (∑ p, z p) + (std / K) ^ 2 * (∑ p, z p) ^ 2) μ :=
    (i1.const_mul _).add (i2.const_mul _)
  rw [e]
  refine ⟨(integrable_const _).add i3, ?_⟩
  rw [integral_add (integrable_const _) i3, integral_add (i1.const_mul _) (i2.const_mul _),
    integral_const_mul, integral_const_mul, h0, h2]
  simp
  field_simp

end ZhuSuan.Pmf

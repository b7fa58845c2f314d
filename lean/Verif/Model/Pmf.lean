import Mathlib.Analysis.Calculus.Deriv.Basic
import Mathlib.Data.List.OfFn
import Verif.Model.Dict
import Verif.Model.Hmc
import Verif.Model.Univariate
import Verif.Spec.Pmf

/-!
# Probabilistic matrix factorization with HMC

`examples/probabilistic_matrix_factorization/pmf_hmc.py` and the tables of `examples/utils/dataset.py` (528–552) that it
reads.  The vectors of the users are in `N // chunk_size` variables `Us[i]` of shape `[K, chunk_size, D]`, those of the
movies in variables `Vs[i]`.  An epoch samples one chunk after the other, given all the others.  `C` indexes the `K`
particles.  Ratings are real numbers.  Not modelled: the download and the random split of the data, and printing.
-/

set_option autoImplicit false

namespace ZhuSuan.Pmf

open Classical

/-! ## The tables of ratings -/

/-- `table[i].append(x)`; `none` for an `IndexError`.  (examples/utils/dataset.py 546–549) -/
def appendAt {α : Type} (table : List (List α)) (i : ℕ) (x : α) : Option (List (List α)) :=
  if i < table.length then some (table.modify i (· ++ [x])) else none

/-- The four tables that `load_movielens1m_mapped` returns.  (examples/utils/dataset.py 551–552) -/
structure Tables where
  userMovie : List (List ℕ)
  userMovieScore : List (List ℝ)
  movieUser : List (List ℕ)
  movieUserScore : List (List ℝ)

/-- One round of the loop of `load_movielens1m_mapped`.  (examples/utils/dataset.py 542–549) -/
def Tables.add (t : Tables) (x : Rating) : Option Tables := do
  let um ← appendAt t.userMovie x.1 x.2.1
  let us ← appendAt t.userMovieScore x.1 x.2.2
  let mu ← appendAt t.movieUser x.2.1 x.1
  let ms ← appendAt t.movieUserScore x.2.1 x.2.2
  some ⟨um, us, mu, ms⟩

/-- `load_movielens1m_mapped` from the training ratings on.  (examples/utils/dataset.py 528–552) -/
def mapped (numUsers numMovies : ℕ) (train : List Rating) : Option Tables :=
  train.foldlM Tables.add ⟨.replicate numUsers [], .replicate numUsers [], .replicate numMovies [], .replicate numMovies []⟩

/-! ## `select_from_corpus` -/

/-- What `select_from_corpus` returns.  (pmf_hmc.py 60) -/
structure Feeds where
  nv : ℕ
  sv : List ℕ
  tr : List ℝ
  ssu : List ℕ
  ssv : List ℕ

/-- The first loop: `sv = sv + u_v[l + i]; tr = tr + u_v_score[l + i]`.  An `IndexError` is caught and ends this round.
(pmf_hmc.py 38–44) -/
def collect (l : ℕ) (uv : List (List ℕ)) (score : List (List ℝ)) (acc : List ℕ × List ℝ) (i : ℕ) : List ℕ × List ℝ :=
  match uv[l + i]? with
  | none => acc
  | some vs =>
    match score[l + i]? with
    | none => (acc.1 ++ vs, acc.2)
    | some rs => (acc.1 ++ vs, acc.2 ++ rs)

/-- `map_uid_idx[sv[i]] = i` for all `i`.  (pmf_hmc.py 47–48) -/
def indexMap (sv : List ℕ) : Dict ℕ ℕ := sv.zipIdx.foldl (fun d p => d.set p.1 p.2) []

/-- The loop `ssv.append(map_uid_idx[lt[j]])`.  A `KeyError` is caught outside of the loop and ends it.  (pmf_hmc.py 56–59) -/
def appendIdx (d : Dict ℕ ℕ) : List ℕ → List ℕ → List ℕ
  | ssv, [] => ssv
  | ssv, v :: lt =>
    match d.get? v with
    | some j => appendIdx d (ssv ++ [j]) lt
    | none => ssv

/-- The third loop.  (pmf_hmc.py 51–59) -/
def select (l : ℕ) (uv : List (List ℕ)) (d : Dict ℕ ℕ) (acc : List ℕ × List ℕ) (i : ℕ) : List ℕ × List ℕ :=
  match uv[l + i]? with
  | none => acc
  | some lt => (acc.1 ++ .replicate lt.length i, appendIdx d acc.2 lt)

/-- `select_from_corpus(l, r, u_v, u_v_score)`; `set` is `fun l => list(set(l))`, whose order Python leaves open.
(pmf_hmc.py 34–60) -/
def selectFromCorpus (set : List ℕ → List ℕ) (l r : ℕ) (uv : List (List ℕ)) (score : List (List ℝ)) : Feeds :=
  let acc := (List.range (r - l)).foldl (collect l uv score) ([], [])
  let sv := set acc.1
  let sel := (List.range (r - l)).foldl (select l uv (indexMap sv)) ([], [])
  ⟨sv.length, sv, acc.2, sel.1, sel.2⟩

/-! ## The log joint -/

/-- `tf.gather(x, idx, axis=1)` of one particle; `none` if an index is out of range, which is an error in TensorFlow.
(pmf_hmc.py 26–27, 126–127, 159–160) -/
def gather {α : Type} (x : List α) (idx : List ℕ) : Option (List α) := idx.mapM fun i => x[i]?

/-- The log probability of rows of a normal with mean zero, summed over `group_ndims=1` and over the rows.
(pmf_hmc.py 22–25, 137, 139–140) -/
noncomputable def logRows {D : ℕ} (std : ℝ) (rows : List (Fin D → ℝ)) : ℝ :=
  (rows.map fun u => ∑ d, Uni.Normal.logProb 0 (Real.log std) (u d)).sum

/-- `log_joint` of one particle, with the fed `select_u`, `select_v` and `true_rating`: `none` if the evaluation fails because the
numbers of rows differ from `n` and `m`, an index is out of range, or the numbers of ratings and indices differ.  (pmf_hmc.py
20–31, 112, 136–143; TensorFlow would broadcast where one of the numbers is one, here that fails) -/
noncomputable def logJoint {D : ℕ} (s : Stds) (n m : ℕ) (selU selV : List ℕ) (trueRating : List ℝ)
    (u v : List (Fin D → ℝ)) : Option ℝ := do
  guard (u.length = n ∧ v.length = m)
  let gu ← gather u selU
  let gv ← gather v selV
  guard (gu.length = gv.length ∧ gu.length = trueRating.length)
  let logits := List.zipWith (fun x y => ∑ d, x d * y d) gu gv
  let logPr := (List.zipWith (fun z r => Uni.Normal.logProb (Uni.sigmoid z) (Real.log s.r) ((r - 1) / 4)) logits trueRating).sum
  some (logRows s.u u + logRows s.v v + logPr)

/-! ## The sampler -/

/-- `tf.concat(Xs, axis=1)` of one particle: the rows of all chunks.  (pmf_hmc.py 106–107) -/
def concat {n c D : ℕ} (X : Fin n → Fin c × Fin D → ℝ) : List (Fin D → ℝ) :=
  (List.ofFn fun i => List.ofFn fun (j : Fin c) (d : Fin D) => X i (j, d)).flatten

/-- The rows of a chunk of one particle.  (pmf_hmc.py 129–134) -/
def rows {c D : ℕ} (q : Fin c × Fin D → ℝ) : List (Fin D → ℝ) := List.ofFn fun (j : Fin c) (d : Fin D) => q (j, d)

/-- A tensor of shape `[chunk_size, D]` from its rows; `none` if the number of rows is another one.  (pmf_hmc.py 162–163) -/
def ofRows {c D : ℕ} (x : List (Fin D → ℝ)) : Option (Fin c × Fin D → ℝ) :=
  if h : x.length = c then some fun k : Fin c × Fin D => (x.get (k.1.cast h.symm)) k.2 else none

/-- `tf.gradients(log_posterior, q)`: the derivative of the sum over all particles.  (hmc.py 430–432) -/
noncomputable def gradients {C κ : Type} [Fintype C] (logPost : (C → κ → ℝ) → C → ℝ) (q : C → κ → ℝ) (p : C) (k : κ) : ℝ :=
  deriv (fun y => ∑ p', logPost (Function.update q p (Function.update (q p) k y)) p') (q p k)

/-- `sess.run(sample_op)` of a sampler without adaptation, when the log joint is `lj`: `none` if an evaluation of the log joint or
the run fails.  (pmf_hmc.py 122–125, 147–154, 187, 203) -/
noncomputable def runSampler {C κ : Type} [Fintype C] [Fintype κ] (cfg : Hmc.Cfg ℝ) (lj : (C → κ → ℝ) → C → Option ℝ)
    (w : (C → κ → ℝ) × (C → ℝ)) (h : Hmc.State ℝ C κ) : Option (Hmc.State ℝ C κ) :=
  if hd : ∀ q p, (lj q p).isSome then
    match Hmc.sample cfg (fun q p => (lj q p).get (hd q p)) (gradients fun q p => (lj q p).get (hd q p)) ⟨false, false⟩
      w.1 w.2 h with
    | .ok h' _ => some h'
    | _ => none
  else none

/-- The variables: those of the two samplers (their positions are `candidate_sample_u` and `candidate_sample_v`), and the chunks.
(pmf_hmc.py 93–105, 122–134) -/
structure Vars (C : Type) (a b c D : ℕ) where
  hu : Hmc.State ℝ C (Fin c × Fin D)
  hv : Hmc.State ℝ C (Fin c × Fin D)
  x : C → Lat a b c D

/-- The constants of the script: the two samplers, the standard deviations, the tables, and the order of `list(set(l))`.
(pmf_hmc.py 34–125) -/
structure Script where
  cfgU : Hmc.Cfg ℝ
  cfgV : Hmc.Cfg ℝ
  stds : Stds
  tables : Tables
  set : List ℕ → List ℕ

variable {C : Type} [Fintype C] {a b c D : ℕ}

/-- The positions that `trans_cand_U` assigns: rows `i * chunk_size, …, (i + 1) * chunk_size - 1`.  (pmf_hmc.py 159, 162, 183–186) -/
def candidate (i : ℕ) (X : Fin a → Fin c × Fin D → ℝ) : Option (Fin c × Fin D → ℝ) := do
  let g ← gather (concat X) (List.range' (i * c) c)
  ofRows g

/-- A tensor with one entry for each particle.  (TensorFlow; pmf_hmc.py 126–163) -/
noncomputable def particles {α : Type} (f : C → Option α) : Option (C → α) :=
  if h : ∀ p, (f p).isSome then some fun p => (f p).get (h p) else none

/-- Sampling chunk `i` of the users.  (pmf_hmc.py 178–193) -/
noncomputable def userStep (S : Script) (i : ℕ) (w : (C → Fin c × Fin D → ℝ) × (C → ℝ)) (s : Vars C a b c D) :
    Option (Vars C a b c D) := do
  let f := selectFromCorpus S.set (i * c) ((i + 1) * c) S.tables.userMovie S.tables.userMovieScore
  let q ← particles fun p => candidate i fun k => s.x p (.inl k)
  let targetV ← particles fun p => gather (concat fun k => s.x p (.inr k)) f.sv
  let hu ← runSampler S.cfgU (fun q p => logJoint S.stds c f.nv f.ssu f.ssv f.tr (rows (q p)) (targetV p)) w { s.hu with q := q }
  if h : i < a then some { s with hu := hu, x := fun p => Function.update (s.x p) (.inl ⟨i, h⟩) (hu.q p) } else none

/-- Sampling chunk `i` of the movies; `nu, su, tr, ssv, ssu = select_from_corpus(…)`.  (pmf_hmc.py 194–209) -/
noncomputable def movieStep (S : Script) (i : ℕ) (w : (C → Fin c × Fin D → ℝ) × (C → ℝ)) (s : Vars C a b c D) :
    Option (Vars C a b c D) := do
  let f := selectFromCorpus S.set (i * c) ((i + 1) * c) S.tables.movieUser S.tables.movieUserScore
  let q ← particles fun p => candidate i fun k => s.x p (.inr k)
  let targetU ← particles fun p => gather (concat fun k => s.x p (.inl k)) f.sv
  let hv ← runSampler S.cfgV (fun q p => logJoint S.stds f.nv c f.ssv f.ssu f.tr (targetU p) (rows (q p))) w { s.hv with q := q }
  if h : i < b then some { s with hv := hv, x := fun p => Function.update (s.x p) (.inr ⟨i, h⟩) (hv.q p) } else none

/-- `for i in range(k): step(i)`, each round with its own random numbers.  (pmf_hmc.py 178, 194) -/
def loop {σ N : Type} (step : ℕ → N → σ → Option σ) (s : σ) : (k : ℕ) → (Fin k → N) → Option σ
  | 0, _ => some s
  | k + 1, w => (loop step s k fun i => w i.castSucc).bind (step k (w (Fin.last k)))

/-- The random numbers of one epoch.  (pmf_hmc.py 178–209) -/
abbrev EpochNoise (C : Type) (a b c D : ℕ) : Type :=
  (Fin a → (C → Fin c × Fin D → ℝ) × (C → ℝ)) × (Fin b → (C → Fin c × Fin D → ℝ) × (C → ℝ))

/-- One epoch: all chunks of the users, then all chunks of the movies.  (pmf_hmc.py 176–209) -/
noncomputable def epoch (S : Script) (w : EpochNoise C a b c D) (s : Vars C a b c D) : Option (Vars C a b c D) :=
  (loop (userStep S) s a w.1).bind fun s => loop (movieStep S) s b w.2

/-- The training loop without the evaluation.  (pmf_hmc.py 176–209) -/
noncomputable def train (S : Script) (s : Vars C a b c D) (k : ℕ) (w : Fin k → EpochNoise C a b c D) : Option (Vars C a b c D) :=
  loop (fun _ => epoch S) s k w

/-! ## The evaluation -/

/-- The squared error of one rating in `rmse`: `pred_rating` is the mean over the particles of the value of the node `r`, which is
not observed and so sampled, with normal draws `z`.  (pmf_hmc.py 115–118; distributions/univariate.py 161–172) -/
noncomputable def squaredError {K : ℕ} (std : ℝ) (u v : Fin K → Fin D → ℝ) (z : Fin K → ℝ) (trueRating : ℝ) : ℝ :=
  ((∑ p, Uni.Normal.sample (Uni.sigmoid (∑ d, u p d * v p d)) std (z p)) / K - (trueRating - 1) / 4) ^ 2

end ZhuSuan.Pmf

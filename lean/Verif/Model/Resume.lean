import Verif.Model.Sgmcmc
import Verif.Model.HmcFetch

/-!
# Interrupting a sampler and resuming it from saved variables

The samplers keep everything they carry from one iteration to the next in TensorFlow variables.  A program saves some of them,
ends, and a new program builds the same graph, runs the initializers and overwrites the variables that were saved.
-/

set_option autoImplicit false

namespace ZhuSuan.Resume
open Sgmcmc

variable {V : Type} {I : V → Type} [∀ v, Fintype (I v)]

/-- The sampler and its arguments; `n` is `n_iter_resample_v`, with `None` as 0.  (zhusuan/sgmcmc.py 183–186, 233–241, 305–318,
431–446) -/
inductive Method where
  | sgld (lr : ℝ)
  | psgld (lr decay epsilon : ℝ)
  | sghmc (lr alpha beta : ℝ) (n : ℕ) (secondOrder : Bool)
  | sgnht (lr a tuneRate : ℝ) (n : ℕ) (secondOrder vector : Bool)

/-- The variables: the latent ones, those a method makes in `_define_variables`, and the counter.  A method leaves those of the other
methods alone.  (sgmcmc.py 73, 224–226, 243–244, 320–324, 448–458) -/
structure Vars (I : V → Type) where
  q : Lat I
  aux : Lat I
  v : Lat I
  alpha : Lat I
  t : ℕ

/-- What one iteration uses besides the variables: the gradient for the data that are fed, and the draws.  (sgmcmc.py 96–100, 196, 253,
328, 338–342, 479–481) -/
structure Input (I : V → Type) where
  grad : Lat I → Lat I
  r : Lat I
  z : Lat I

/-- One run of `sample_op`.  The counter is read before it is incremented (the other order: C61) and all new values are computed from
the old variables (C62).  (sgmcmc.py 102–117, 191–200, 246–257, 326–371, 460–520) -/
noncomputable def step (m : Method) (s : Vars I) (w : Input I) : Vars I :=
  match m with
  | .sgld lr => { s with q := fun v => sgld lr w.grad w.z v s.q, t := s.t + 1 }
  | .psgld lr decay epsilon =>
    let x := fun v => psgld lr decay epsilon w.grad w.z v fun v => ⟨s.q v, s.aux v⟩
    { s with q := fun v => (x v).q, aux := fun v => (x v).aux, t := s.t + 1 }
  | .sghmc lr alpha beta n second =>
    let now : V → Bool := fun _ => resampleNow n s.t
    let x := fun v =>
      if second then sghmc2 lr alpha beta w.grad now w.r w.z v fun v => ⟨s.q v, s.v v⟩
      else sghmc1 lr alpha beta w.grad now w.r w.z v fun v => ⟨s.q v, s.v v⟩
    { s with q := fun v => (x v).q, v := fun v => (x v).v, t := s.t + 1 }
  | .sgnht lr a tuneRate n second vector =>
    let now : V → Bool := fun _ => resampleNow n s.t
    let x := fun v =>
      if second then sgnht2 lr a tuneRate vector w.grad now w.r w.z v fun v => ⟨s.q v, s.v v, s.alpha v⟩
      else sgnht1 lr a tuneRate vector w.grad now w.r w.z v fun v => ⟨s.q v, s.v v, s.alpha v⟩
    { s with q := fun v => (x v).q, v := fun v => (x v).v, alpha := fun v => (x v).alpha, t := s.t + 1 }

/-- Iterations one after the other.  (the loop of the user, sgmcmc.py 61–66) -/
noncomputable def run (m : Method) (ws : List (Input I)) (s : Vars I) : Vars I := ws.foldl (step m) s

/-- Which variables are saved: all (`tf.train.Saver()`), the trainable ones, or the latent variables.  (the user) -/
inductive Saved where
  | all
  | trainable
  | latent

/-- The variables after restoring `saved` into a new program whose variables were initialized to `fresh`.  The counter has
`trainable=False` (sgmcmc.py 73); the others are made by `tf.Variable` without it (226, 323, 451, 455–458), and so are the latent ones
here. -/
def restore (how : Saved) (saved fresh : Vars I) : Vars I :=
  match how with
  | .all => saved
  | .trainable => { saved with t := fresh.t }
  | .latent => { fresh with q := saved.q }

end ZhuSuan.Resume

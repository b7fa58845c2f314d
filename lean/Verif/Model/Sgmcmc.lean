import Mathlib.Analysis.SpecialFunctions.Exp
import Mathlib.Analysis.SpecialFunctions.Pow.Real
import Verif.Model.HmcApi

/-!
# Stochastic gradient MCMC

`zhusuan/sgmcmc.py`.  `V` are the latent variables and `I v` the components of variable `v` (chain and data
axes together); a list of tensors is a dependent function `(v : V) → I v → ℝ`.  `grad` is `grad_func`: it takes
the values of all variables.  Normal draws are given as standard normal values: `tf.random_normal(stddev=s)`
is `s * z`.
-/

set_option autoImplicit false

namespace ZhuSuan.Sgmcmc

variable {V : Type} {I : V → Type}

/-- The values of all latent variables, or any list of tensors of the same shapes.  (sgmcmc.py 90, 103) -/
abbrev Lat (I : V → Type) := (v : V) → I v → ℝ

/-! ## Updates -/

/-- `SGLD._update_single` (195–200) for variable `v`. -/
noncomputable def sgld (lr : ℝ) (grad : Lat I → Lat I) (z : Lat I) (v : V) (q : Lat I) : I v → ℝ := fun i =>
  q v i + 0.5 * lr * grad q v i + Real.sqrt lr * z v i

/-- The variables of PSGLD for one latent variable.  (sgmcmc.py 224–226, 243–244) -/
structure PState (J : Type) where
  q : J → ℝ
  aux : J → ℝ

/-- The new `aux` of `RMSPreconditioner._get_preconditioner` (sgmcmc.py 228–230). -/
noncomputable def rmsAux (decay : ℝ) (grad aux : ℝ) : ℝ := decay * aux + (1 - decay) * grad ^ 2

/-- The preconditioner `_get_preconditioner` returns (sgmcmc.py 231). -/
noncomputable def rmsPreconditioner (epsilon : ℝ) (newAux : ℝ) : ℝ := 1 / (epsilon + Real.sqrt newAux)

/-- `PSGLD._update_single` (250–257) for variable `v`. -/
noncomputable def psgld (lr decay epsilon : ℝ) (grad : Lat I → Lat I) (z : Lat I) (v : V)
    (s : (v : V) → PState (I v)) : PState (I v) :=
  let q : Lat I := fun v => (s v).q
  let aux : I v → ℝ := fun i => rmsAux decay (grad q v i) ((s v).aux i)
  let g : I v → ℝ := fun i => rmsPreconditioner epsilon (aux i)
  ⟨fun i => (s v).q i + 0.5 * lr * g i * grad q v i + Real.sqrt (lr * g i) * z v i, aux⟩

/-- The test for resampling (330–337, 470–478), as a function of the value of `self.t` that was read.  The
argument `None` becomes 0 in the constructor (313–316, 440–443). -/
def resampleNow (n t : ℕ) : Bool := if n = 0 then false else t % n == 0

/-- The variables of SGHMC for one latent variable.  (sgmcmc.py 320–324) -/
structure HState (J : Type) where
  q : J → ℝ
  v : J → ℝ

/-- `old_vs` (330–337): `r` are the draws used for resampling, `now v` says whether variable `v` resamples. -/
noncomputable def oldV (lr : ℝ) (now : V → Bool) (r : Lat I) (vs : Lat I) : Lat I := fun v i =>
  if now v then Real.sqrt lr * r v i else vs v i

/-- The first order branch of `SGHMC._update` (338–348) for variable `v`. -/
noncomputable def sghmc1 (lr alpha beta : ℝ) (grad : Lat I → Lat I) (now : V → Bool) (r z : Lat I) (v : V)
    (s : (v : V) → HState (I v)) : HState (I v) :=
  let q : Lat I := fun v => (s v).q
  let old := oldV lr now r fun v => (s v).v
  let newV : I v → ℝ := fun i =>
    (1 - alpha) * old v i + lr * grad q v i + Real.sqrt (2 * (alpha - beta) * lr) * z v i
  ⟨fun i => q v i + newV i, newV⟩

/-- The second order branch (338–342, 349–357). -/
noncomputable def sghmc2 (lr alpha beta : ℝ) (grad : Lat I → Lat I) (now : V → Bool) (r z : Lat I) (v : V)
    (s : (v : V) → HState (I v)) : HState (I v) :=
  let q : Lat I := fun v => (s v).q
  let old := oldV lr now r fun v => (s v).v
  let decayHalf := Real.exp (-0.5 * alpha)
  let q1 : Lat I := fun v i => q v i + 0.5 * old v i
  let newV : I v → ℝ := fun i => decayHalf *
    (decayHalf * old v i + lr * grad q1 v i + Real.sqrt (2 * (alpha - beta) * lr) * z v i)
  ⟨fun i => q1 v i + 0.5 * newV i, newV⟩

/-- `mean_ks` of SGHMC (359). -/
noncomputable def meanK {J : Type} [Fintype J] (v : J → ℝ) : ℝ := (∑ i, v i ^ 2) / Fintype.card J

/-- The variables of SGNHT for one latent variable.  With `use_vector_alpha=False` the friction is a scalar;
here it is then the constant function.  (sgmcmc.py 448–458) -/
structure NState (J : Type) where
  q : J → ℝ
  v : J → ℝ
  alpha : J → ℝ

/-- `maybe_reduce_mean(v**2)` (464–468, 488). -/
noncomputable def maybeMeanSq {J : Type} [Fintype J] (vector : Bool) (v : J → ℝ) : J → ℝ :=
  if vector then fun i => v i ^ 2 else fun _ => meanK v

variable [∀ v, Fintype (I v)]

/-- The first order branch of `SGNHT._update` (479–490) for variable `v`. -/
noncomputable def sgnht1 (lr a tuneRate : ℝ) (vector : Bool) (grad : Lat I → Lat I) (now : V → Bool)
    (r z : Lat I) (v : V) (s : (v : V) → NState (I v)) : NState (I v) :=
  let q : Lat I := fun v => (s v).q
  let old := oldV lr now r fun v => (s v).v
  let newV : I v → ℝ := fun i =>
    (1 - (s v).alpha i) * old v i + lr * grad q v i + Real.sqrt (2 * a * lr) * z v i
  ⟨fun i => q v i + newV i, newV,
    fun i => (s v).alpha i + tuneRate * (maybeMeanSq vector newV i - lr)⟩

/-- The second order branch (479–481, 491–505). -/
noncomputable def sgnht2 (lr a tuneRate : ℝ) (vector : Bool) (grad : Lat I → Lat I) (now : V → Bool)
    (r z : Lat I) (v : V) (s : (v : V) → NState (I v)) : NState (I v) :=
  let q : Lat I := fun v => (s v).q
  let old := oldV lr now r fun v => (s v).v
  let q1 : Lat I := fun v i => q v i + 0.5 * old v i
  let alpha1 : I v → ℝ := fun i =>
    (s v).alpha i + 0.5 * tuneRate * (maybeMeanSq vector (old v) i - lr)
  let decayHalf : I v → ℝ := fun i => Real.exp (-0.5 * alpha1 i)
  let newV : I v → ℝ := fun i => decayHalf i *
    (decayHalf i * old v i + lr * grad q1 v i + Real.sqrt (2 * a * lr) * z v i)
  ⟨fun i => q1 v i + 0.5 * newV i, newV,
    fun i => alpha1 i + 0.5 * tuneRate * (maybeMeanSq vector newV i - lr)⟩

/-! ## Execution -/

/-- What happens in a run of `sample_op` (102–108): the new values of variable `v` are computed from the
variables (including the gradient), or assigned to the variables of `v`.  Computing the values of one
variable is taken as atomic. -/
inductive Ev (V : Type) where
  | compute (v : V)
  | assign (v : V)
deriving DecidableEq

variable {A : V → Type} [DecidableEq V]

/-- The variables after the given events; `none` if a value is assigned before it is computed.  (TensorFlow running
the graph of sgmcmc.py 102–108.) -/
def exec (upd : (v : V) → ((w : V) → A w) → A v) :
    List (Ev V) → ((v : V) → A v) → ((v : V) → Option (A v)) → Option ((v : V) → A v)
  | [], s, _ => some s
  | .compute v :: l, s, p => exec upd l s (Function.update p v (some (upd v s)))
  | .assign v :: l, s, p =>
    match p v with
    | none => none
    | some a => exec upd l (Function.update s v a) p

/-- Every event happens once.  (TensorFlow running the group of sgmcmc.py 108.) -/
def Complete (sched : List (Ev V)) : Prop := sched.Nodup ∧ ∀ e, e ∈ sched

/-- The orders allowed by the graph of SGLD and PSGLD (191–200, 246–257): a value is computed before it is
assigned; nothing orders different variables. -/
def DataDeps (sched : List (Ev V)) : Prop :=
  Complete sched ∧ sched.Pairwise fun a b => ∀ v, ¬(a = .assign v ∧ b = .compute v)

/-- The orders allowed by the graphs of SGHMC and SGNHT, where the assignments have control dependencies on all
new values (363, 511). -/
def Barrier (sched : List (Ev V)) : Prop :=
  Complete sched ∧ sched.Pairwise fun a b => ∀ v w, ¬(a = .assign v ∧ b = .compute w)

/-! ## Arguments and result -/

/-- The checks of `_make_grad_func` (84–90) and the dictionary passed to the log joint (92–94); the same code as
in HMC. -/
def makeGrad {K T : Type} [DecidableEq K] (latent : Dict K (Hmc.Latent T)) (observed : Dict K T) :
    Except Hmc.Err (Dict K T) :=
  if latent.isEmpty then .error .valueError
  else
    match Hmc.latentValues latent with
    | .error e => .error e
    | .ok vs => .ok (Hmc.jointObs latent.keys vs observed)

/-- `zip(*rows)`: the columns, as many as the shortest row has.  (Python; used at sgmcmc.py 109, 192, 247) -/
def zipStar {X : Type} : List (List X) → List (List X)
  | [] => []
  | rows => (List.range ((rows.map List.length).foldr min (rows.headD []).length)).map fun j =>
      rows.filterMap fun r => r[j]?

/-- The `SGMCMCInfo` tuple (109–115) as a dictionary from attributes to dictionaries of values. -/
def sgmcmcInfo {K X : Type} (names : List K) (infos : List (List (String × X))) :
    List (String × List (K × X)) :=
  let listAttrib := zipStar (infos.map fun d => d.map Prod.snd)
  let withK := listAttrib.map fun l => names.zip l
  ((infos.headD []).map Prod.fst).zip withK

end ZhuSuan.Sgmcmc

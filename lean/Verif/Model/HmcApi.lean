import Verif.Model.Dict

/-!
# The arguments of `HMC`

`zhusuan/hmc.py`: the checks of `HMC.__init__` and `HMC.sample`, and the dictionary that the log joint is
called with.
-/

set_option autoImplicit false

namespace ZhuSuan.Hmc

/-- Exceptions of the constructor and of `sample`.  (hmc.py 252–281, 421–423, 438–442) -/
inductive Err where
  | valueError
  | typeError
deriving DecidableEq, Repr

/-- What `HMC.__init__` (252–281) keeps of its optional arguments. -/
structure Init (β : Type) where
  adaptStep : Option β
  adaptMass : Option β
  massCollect : ℕ

/-- `HMC.__init__` (252–281).  The conversions to tensors are left out. -/
def hmcInit {β : Type} (adaptStep adaptMass : Option β) (massCollect : ℕ) : Except Err (Init β) :=
  match adaptMass with
  | some m =>
    match adaptStep with
    | none => .error .valueError
    | some s => .ok ⟨some s, some m, massCollect⟩
  | none => .ok ⟨adaptStep, none, 0⟩

/-- A value of the `latent` dictionary: a `tf.Variable`, or something else.  (hmc.py 419–423) -/
inductive Latent (T : Type) where
  | var (value : T)
  | other
deriving DecidableEq

/-- What `sample` goes on with: names, current values and number of chain axes.  (hmc.py 419–444) -/
structure Checked (K T : Type) where
  names : List K
  values : List T
  nChainDims : ℕ

variable {K T : Type} [DecidableEq K]

/-- The test of the latent values (419–423). -/
def latentValues : List (K × Latent T) → Except Err (List T)
  | [] => .ok []
  | (_, .other) :: _ => .error .typeError
  | (_, .var v) :: l =>
    match latentValues l with
    | .ok vs => .ok (v :: vs)
    | .error e => .error e

/-- The dictionary passed to the log joint for candidate values (426–428). -/
def jointObs (names : List K) (values : List T) (observed : Dict K T) : Dict K T :=
  Dict.mergeDicts [Dict.update [] (names.zip values), observed]

/-- The checks of `sample` (419–444).  `chainShape` gives the static shape of the log joint on a dictionary,
`none` when the rank is unknown.  The unpacking in 419 fails for an empty dictionary. -/
def checkSample (chainShape : Dict K T → Option (List (Option ℕ))) (observed : Dict K T)
    (latent : Dict K (Latent T)) : Except Err (Checked K T) :=
  if latent.isEmpty then .error .valueError
  else
    match latentValues latent with
    | .error e => .error e
    | .ok vs =>
      match chainShape (jointObs latent.keys vs observed) with
      | none => .error .valueError
      | some sh => .ok ⟨latent.keys, vs, sh.length⟩

end ZhuSuan.Hmc

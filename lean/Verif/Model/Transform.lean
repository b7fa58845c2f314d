import Mathlib.Analysis.SpecialFunctions.Exp
import Mathlib.Analysis.SpecialFunctions.Log.Basic
import Mathlib.Analysis.Complex.Trigonometric
import Mathlib.LinearAlgebra.Matrix.DotProduct
import Verif.Model.Shape
import Verif.Model.Univariate

/-!
# Normalizing flows

`zhusuan/transform.py`.  The inputs are reshaped to rows of length `d` (46, 171); the model is of one row and
its log density.
-/

set_option autoImplicit false

namespace ZhuSuan.Transform

open ZhuSuan.Shape Matrix

/-! ## Argument checks -/

/-- The checks common to `planar_normalizing_flow` (94–136) and `inv_autoregressive_flow` (230–272): `isInt` is
`isinstance(n_iters, int)`, `s`, `l` the static shapes of samples and log densities and `ds`, `dl` those at run
time.  A rank of 0 is false in Python (103–106). -/
def flowCheck (isInt : Bool) (s l : Static) (ds dl : List ℕ) : Verdict :=
  let sn := match s with
    | some a => a.length
    | none => 0
  let ln := match l with
    | some a => a.length
    | none => 0
  if !isInt then .buildError
  else if sn ≠ 0 ∧ sn ≤ 1 then .buildError
  else if sn ≠ 0 ∧ ln ≠ 0 ∧ sn ≠ ln + 1 then .buildError
  else if sbcast (s.dropEnd 1) l = none then .buildError
  else if ds.length < 2 then .runError
  else if dl.length + 1 ≠ ds.length then .runError
  else if ds.dropLast ≠ dl then .runError
  else .accepted

/-- The further check of `planar_normalizing_flow` (142–145) and of `linear_ar` (32–36): the last axis is known
statically. -/
def lastKnown (s : Static) : Bool :=
  match s with
  | some a => (a.drop (a.length - 1)).all Option.isSome
  | none => false

/-- `planar_normalizing_flow`'s checks.  (transform.py 94–145) -/
def planarCheck (isInt : Bool) (s l : Static) (ds dl : List ℕ) : Verdict :=
  match flowCheck isInt s l ds dl with
  | .buildError => .buildError
  | v => if lastKnown s then v else .buildError

/-! ## Planar flow -/

section
variable {ι : Type} [Fintype ι]

/-- The variables of one iteration (151–160). -/
structure Planar (ι : Type) where
  b : ℝ
  auxU : ι → ℝ
  w : ι → ℝ

/-- `param_u` (161–165). -/
noncomputable def Planar.u (p : Planar ι) : ι → ℝ :=
  let dotProd := p.w ⬝ᵥ p.auxU
  fun i => p.auxU i + p.w i / (p.w ⬝ᵥ p.w) * (Real.log (Real.exp dotProd + 1) - 1 - dotProd)

/-- `scalar` (173–174). -/
noncomputable def Planar.scalar (p : Planar ι) : ℝ := p.u ⬝ᵥ p.w

/-- The body of the loop (183–194): the new row and log density. -/
noncomputable def planarStep (p : Planar ι) (x : (ι → ℝ) × ℝ) : (ι → ℝ) × ℝ :=
  let activation := Real.tanh (x.1 ⬝ᵥ p.w + p.b)
  let detJa := p.scalar * (1 - activation * activation) + 1
  (fun i => x.1 i + activation * p.u i, x.2 - Real.log detJa)

/-- The loop (172–194). -/
noncomputable def planarFlow : List (Planar ι) → (ι → ℝ) × ℝ → (ι → ℝ) × ℝ
  | [], x => x
  | p :: l, x => planarFlow l (planarStep p x)

end

/-! ## Inverse autoregressive flow -/

section
variable {d : ℕ}

/-- `mask * w` (38–44, 56–57). -/
noncomputable def masked (w : Fin d → Fin d → ℝ) : Fin d → Fin d → ℝ := fun i j => (if i < j then 1 else 0) * w i j

/-- `linear_ar` (17–67) for one row. -/
noncomputable def linearAr (mW sW : Fin d → Fin d → ℝ) (z : Fin d → ℝ) : (Fin d → ℝ) × (Fin d → ℝ) :=
  (fun j => ∑ i, z i * masked mW i j, fun j => Real.exp (∑ i, z i * masked sW i j))

/-- The body of the loop (278–289) for one row.  `nn` is the network of this iteration with its hidden input;
networks that mix rows are not modelled. -/
noncomputable def iafStep (update : String) (nn : (Fin d → ℝ) → (Fin d → ℝ) × (Fin d → ℝ))
    (x : (Fin d → ℝ) × ℝ) : (Fin d → ℝ) × ℝ :=
  let m := (nn x.1).1
  let s := (nn x.1).2
  let y : (Fin d → ℝ) × ℝ :=
    if update = "gru" then
      (fun j => Uni.sigmoid (s j) * x.1 j + (1 - Uni.sigmoid (s j)) * m j,
        x.2 - ∑ j, Real.log (Uni.sigmoid (s j)))
    else x
  let y : (Fin d → ℝ) × ℝ :=
    if update = "normal" then (fun j => s j * y.1 j + m j, y.2 - ∑ j, Real.log (s j)) else y
  (fun j => y.1 j.rev, y.2)

/-- The loop (277–289). -/
noncomputable def iafFlow (update : String) :
    List ((Fin d → ℝ) → (Fin d → ℝ) × (Fin d → ℝ)) → (Fin d → ℝ) × ℝ → (Fin d → ℝ) × ℝ
  | [], x => x
  | nn :: l, x => iafFlow update l (iafStep update nn x)

end

end ZhuSuan.Transform

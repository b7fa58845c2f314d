import Mathlib.Analysis.SpecialFunctions.Sqrt
import Mathlib.Data.Real.Basic
import Mathlib.Algebra.BigOperators.Fin
import Mathlib.Data.List.FinRange
import Verif.Model.Tensor

/-!
# Utilities of the examples

`examples/utils/dataset.py` (standardize, to_one_hot), `examples/utils/multi_gpu.py` and
`examples/utils/utils.py` (average_rmse_over_batches, save_image_collections).
-/

set_option autoImplicit false

namespace ZhuSuan.ExUtils

open ZhuSuan.Shape

/-! ## standardize -/

/-- `np.mean(x, 0)` of one column.  (numpy; used at examples/utils/dataset.py 32) -/
noncomputable def colMean {n d : ℕ} (x : Fin n → Fin d → ℝ) (j : Fin d) : ℝ := (∑ i, x i j) / n

/-- `np.std(x, 0)` of one column.  (numpy; used at examples/utils/dataset.py 30) -/
noncomputable def colStd {n d : ℕ} (x : Fin n → Fin d → ℝ) (j : Fin d) : ℝ :=
  Real.sqrt ((∑ i, (x i j - colMean x j) ^ 2) / n)

open Classical in
/-- dataset.py 30–31: `std[std == 0] = 1`. -/
noncomputable def fixedStd {n d : ℕ} (x : Fin n → Fin d → ℝ) (j : Fin d) : ℝ :=
  if colStd x j = 0 then 1 else colStd x j

/-- The four values returned by `standardize` (examples/utils/dataset.py 36). -/
structure Standardized (n m d : ℕ) where
  train : Fin n → Fin d → ℝ
  test : Fin m → Fin d → ℝ
  mean : Fin d → ℝ
  std : Fin d → ℝ

/-- `standardize` (dataset.py 20–36). -/
noncomputable def standardize {n m d : ℕ} (train : Fin n → Fin d → ℝ) (test : Fin m → Fin d → ℝ) :
    Standardized n m d where
  train := fun i j => (train i j - colMean train j) / fixedStd train j
  test := fun i j => (test i j - colMean train j) / fixedStd train j
  mean := colMean train
  std := fixedStd train

/-! ## to_one_hot -/

/-- Numpy's reading of an index along an axis of length `depth`: negative indices count from the end, others out of
range are an error.  (numpy; used at examples/utils/dataset.py 49) -/
def npIndex (depth : ℕ) (k : ℤ) : Option ℕ :=
  if 0 ≤ k ∧ k < depth then some k.toNat
  else if -depth ≤ k ∧ k < 0 then some (k + depth).toNat
  else none

/-- The assignments of `ret[np.arange(n), x] = 1` (dataset.py 49), row after row, to an array given as a function. -/
def setOnes (depth : ℕ) : ℕ → List ℤ → (ℕ → ℕ → ℕ) → Option (ℕ → ℕ → ℕ)
  | _, [], a => some a
  | i, k :: l, a =>
    (npIndex depth k).bind fun c => setOnes depth (i + 1) l fun r s => if r = i ∧ s = c then 1 else a r s

/-- `to_one_hot` (dataset.py 39–50); the entries are integers here. -/
def toOneHot (x : List ℤ) (depth : ℕ) : Option (ℕ → ℕ → ℕ) := setOnes depth 0 x fun _ _ => 0

/-! ## Towers -/

/-- Python's `zip(*ls)`.  (Python; used at examples/utils/multi_gpu.py 37, 73) -/
def zipStar {α : Type} : List (List α) → List (List α)
  | [] => []
  | l :: ls => (List.range (ls.foldl (fun m l' => min m l'.length) l.length)).map fun i =>
      (l :: ls).filterMap fun l' => l'[i]?

/-- The exceptions of `average_gradients` and `average_losses` (examples/utils/multi_gpu.py 45, 51, 74). -/
inductive Err where
  | valueError
deriving DecidableEq

/-- The entries of a tuple, none of which may be `None` (`tf.expand_dims(None, 0)` is an error).
(examples/utils/multi_gpu.py 43–48) -/
def allSome {α : Type} : List (Option α) → Except Err (List α)
  | [] => .ok []
  | none :: _ => .error .valueError
  | some a :: l => match allSome l with
    | .error e => .error e
    | .ok r => .ok (a :: r)

/-- `tf.concat` of the expanded gradients along axis 0 needs equal shapes, then `tf.reduce_mean(·, 0)` (multi_gpu.py 51–52). -/
noncomputable def stackMean : List (Tensor ℝ) → Except Err (Tensor ℝ)
  | [] => .error .valueError
  | t :: ts =>
    if ts.all fun t' => t'.shape = t.shape then
      .ok ⟨t.shape, fun idx => ((t :: ts).map fun t' => t'.val idx).sum / (t :: ts).length⟩
    else .error .valueError

/-- One turn of the loop of `average_gradients` (multi_gpu.py 38–59): `none` for `continue`. -/
noncomputable def averageOne {V : Type} (gv : List (Option (Tensor ℝ) × V)) :
    Except Err (Option (Tensor ℝ × V)) :=
  match gv with
  | [] => .error .valueError
  | (none, _) :: _ => .ok none
  | (some g, v) :: rest => match allSome ((some g :: rest.map Prod.fst)) with
    | .error e => .error e
    | .ok gs => match stackMean gs with
      | .error e => .error e
      | .ok m => .ok (some (m, v))

/-- The loop.  (examples/utils/multi_gpu.py 37–59) -/
noncomputable def averageLoop {V : Type} :
    List (List (Option (Tensor ℝ) × V)) → Except Err (List (Tensor ℝ × V))
  | [] => .ok []
  | gv :: rest => match averageOne gv with
    | .error e => .error e
    | .ok o => match averageLoop rest with
      | .error e => .error e
      | .ok r => .ok (match o with
        | none => r
        | some p => p :: r)

/-- `average_gradients` (multi_gpu.py 24–60). -/
noncomputable def averageGradients {V : Type} (towers : List (List (Option (Tensor ℝ) × V))) :
    Except Err (List (Tensor ℝ × V)) := averageLoop (zipStar towers)

/-- `tf.add_n(quantities) / len(quantities)` (multi_gpu.py 73–74); `add_n` needs equal shapes. -/
noncomputable def addNMean : List (Tensor ℝ) → Except Err (Tensor ℝ)
  | [] => .error .valueError
  | t :: ts =>
    if ts.all fun t' => t'.shape = t.shape then
      .ok ⟨t.shape, fun idx => ((t :: ts).map fun t' => t'.val idx).sum / (t :: ts).length⟩
    else .error .valueError

/-- The loop of `average_losses`.  (examples/utils/multi_gpu.py 73–74) -/
noncomputable def lossLoop : List (List (Tensor ℝ)) → Except Err (List (Tensor ℝ))
  | [] => .ok []
  | q :: rest => match addNMean q with
    | .error e => .error e
    | .ok m => match lossLoop rest with
      | .error e => .error e
      | .ok r => .ok (m :: r)

/-- `average_losses` (multi_gpu.py 63–75). -/
noncomputable def averageLosses (towers : List (List (Tensor ℝ))) : Except Err (List (Tensor ℝ)) :=
  lossLoop (zipStar towers)

/-! ## average_rmse_over_batches -/

/-- `average_rmse_over_batches` (utils.py 60–70); the two lists are multiplied elementwise. -/
noncomputable def averageRmse (rmses sizes : List ℝ) : ℝ :=
  Real.sqrt ((List.zipWith (fun r s => r ^ 2 * s) rmses sizes).sum / sizes.sum)

/-! ## save_image_collections -/

/-- The assignment of one tile (utils.py 55): rows `i * h` to `(i + 1) * h` and columns `j * w` to `(j + 1) * w`. -/
def setTile {α : Type} (h w i j : ℕ) (img : ℕ → ℕ → α) (ret : ℕ → ℕ → α) : ℕ → ℕ → α := fun r s =>
  if i * h ≤ r ∧ r < (i + 1) * h ∧ j * w ≤ s ∧ s < (j + 1) * w then img (r - i * h) (s - j * w) else ret r s

/-- The two loops (utils.py 51–55) over a grid of `r` rows and `c` columns of tiles, from an array of zeros, for `n` images `x`
of `h` by `w` entries (an entry being the pixel's channels). -/
def tileImages {α : Type} (zero : α) (n h w r c : ℕ) (x : ℕ → ℕ → ℕ → α) : ℕ → ℕ → α :=
  (List.range r).foldl (fun ret i => (List.range c).foldl (fun ret j =>
    if i * c + j < n then setTile h w i j (x (i * c + j)) ret else ret) ret) fun _ _ => zero

end ZhuSuan.ExUtils

import Verif.Model.Num
import Verif.Model.TensorExpr
import Verif.Model.LogExp

/-!
# `_log_prob` of the distributions whose values are vectors or matrices, on whole tensors

`Model/Num.lean` has the formula of one row; here the same methods run on tensors of any batch shape, with the
broadcasting, flattening, transposing and solving the code does.  `none` stands for any failure (a `ValueError`
while the graph is built or a TensorFlow error while it runs); which of the two it is for
`maybe_explicit_broadcast` is C13's subject.  `path_param` and `tf.cast` do not change values (the dtypes are C12's
subject) and `check_numerics` is off.
-/

set_option autoImplicit false

namespace ZhuSuan.Batch
open Shape LogExp Num

/-- `maybe_explicit_broadcast`, any failure being `none` (distributions/utils.py 52–78). -/
def mebT (x y : STensor ℝ) : Option (STensor ℝ × STensor ℝ) :=
  match maybeExplicitBroadcast x y with
  | .ok p => some p
  | _ => none

/-- A reduction over the last axis: `agg` of each row.  (TensorFlow primitive; used at
distributions/multivariate.py 172–173, 188, 325–332, 440–442, 668, 676, 810–811, 951–952.) -/
def reduceRow {α β : Type} (agg : {n : ℕ} → (Fin n → α) → β) (t : Tensor α) : Option (Tensor β) :=
  t.shape.getLast?.map fun k => ⟨t.shape.dropLast, fun idx => agg (n := k) fun i => t.val (idx ++ [i.val])⟩

/-- `tf.reduce_sum` of one row.  (TensorFlow primitive; used at distributions/multivariate.py 188, 332, 442.) -/
noncomputable def sumRow {n : ℕ} (x : Fin n → ℝ) : ℝ := Fn.sum x

/-- `tf.reduce_logsumexp` of one row; the value for the empty row is never used by a theorem.  (TensorFlow primitive;
used at distributions/multivariate.py 325, 440, 811, 952.) -/
noncomputable def lseRow : {n : ℕ} → (Fin n → ℝ) → ℝ
  | 0, _ => 0
  | _ + 1, x => logSumExp x

/-- `tf.lbeta` of one row.  (TensorFlow primitive; used at distributions/multivariate.py 668.) -/
noncomputable def lbetaRow {n : ℕ} (x : Fin n → ℝ) : ℝ := lbeta x

/-- `tf.expand_dims(t, -1)`, also what `keepdims=True` does to a reduced last axis.  (TensorFlow primitive; used at
distributions/multivariate.py 182, 326, 441, distributions/univariate.py 505.) -/
def expandLast {α : Type} (t : Tensor α) : Tensor α := ⟨t.shape ++ [1], fun idx => t.val idx.dropLast⟩

/-- `tf.squeeze(t, -1)`: the last axis must have size 1.  (TensorFlow primitive; used at
distributions/multivariate.py 187.) -/
def squeezeLast {α : Type} (t : Tensor α) : Option (Tensor α) :=
  if t.shape.getLast? = some 1 then some ⟨t.shape.dropLast, fun idx => t.val (idx ++ [0])⟩ else none

/-- The last two axes of a shape, and the rest.  (the shape rules of `tf.matrix_diag_part`, `tf.matrix_transpose` and
`tf.matrix_triangular_solve`; used at distributions/multivariate.py 173, 186, 1153–1155.) -/
def split2 (s : List ℕ) : Option (List ℕ × ℕ × ℕ) :=
  match s.reverse with
  | c :: r :: b => some (b.reverse, r, c)
  | _ => none

/-- `tf.matrix_diag_part`.  (TensorFlow primitive; used at distributions/multivariate.py 173, 1130, 1132.) -/
def diagPart {α : Type} (t : Tensor α) : Option (Tensor α) :=
  (split2 t.shape).map fun (b, r, c) => ⟨b ++ [min r c], fun idx => t.val (idx ++ [idx.getLastD 0])⟩

/-- `tf.matrix_transpose`.  (TensorFlow primitive; used at distributions/multivariate.py 1116, 1154.) -/
def transposeLast {α : Type} (t : Tensor α) : Option (Tensor α) :=
  (split2 t.shape).map fun (b, r, c) =>
    ⟨b ++ [c, r], fun idx => t.val (idx.dropLast.dropLast ++ [idx.getLastD 0, idx.dropLast.getLastD 0])⟩

/-- `tf.matrix_triangular_solve(L, y, lower=True)`: the batch shapes must be the same, the matrices square and as high
as the right-hand sides; every column is solved.  (TensorFlow primitive; used at distributions/multivariate.py 186,
1153–1155.) -/
noncomputable def triSolveT (L y : Tensor ℝ) : Option (Tensor ℝ) := do
  let (b, r, c) ← split2 L.shape
  let (b', r', c') ← split2 y.shape
  if b = b' ∧ r = c ∧ r = r' then
    some ⟨b ++ [r, c'], fun idx =>
      let bi := idx.dropLast.dropLast
      let i := idx.dropLast.getLastD 0
      let j := idx.getLastD 0
      if h : i < r then
        triSolve (n := r) (fun k l => L.val (bi ++ [k.val, l.val])) (fun k => y.val (bi ++ [k.val, j])) ⟨i, h⟩
      else 0⟩
  else none

/-- Position of an index in row-major order.  (the memory order `tf.reshape` keeps; used at
distributions/multivariate.py 550–551, 557.) -/
def ravel : List ℕ → List ℕ → ℕ
  | _ :: s, i :: idx => i * s.prod + ravel s idx
  | _, _ => 0

/-- The index at a position in row-major order.  (the memory order `tf.reshape` keeps; used at
distributions/multivariate.py 550–551, 557.) -/
def unravel : List ℕ → ℕ → List ℕ
  | [], _ => []
  | _ :: s, k => k / s.prod :: unravel s (k % s.prod)

/-- `tf.reshape(t, s)`: the entries in row-major order stay the same; their number must be the same.  (TensorFlow
primitive; used at distributions/multivariate.py 557.) -/
def reshape {α : Type} (t : Tensor α) (s : List ℕ) : Option (Tensor α) :=
  if s.prod = t.shape.prod then some ⟨s, fun idx => t.val (unravel t.shape (ravel s idx))⟩ else none

/-- `tf.reshape(t, [-1, k])`; the number of rows cannot be inferred when `k` is 0.  (TensorFlow primitive; used at
distributions/multivariate.py 550–551.) -/
def reshapeRows {α : Type} (t : Tensor α) (k : ℕ) : Option (Tensor α) :=
  if k = 0 then none else reshape t [t.shape.prod / k, k]

/-- `tf.nn.softmax_cross_entropy_with_logits(labels=, logits=)` on the last axis; the shapes must be the same.
(TensorFlow primitive; used at distributions/multivariate.py 552–553.) -/
noncomputable def softmaxCE (labels logits : Tensor ℝ) : Option (Tensor ℝ) :=
  if labels.shape = logits.shape then
    logits.shape.getLast?.map fun k => ⟨logits.shape.dropLast, fun idx =>
      -Fn.sum fun i : Fin k => labels.val (idx ++ [i.val]) *
        (logits.val (idx ++ [i.val]) - lseRow fun j : Fin k => logits.val (idx ++ [j.val]))⟩
  else none

/-- `tf.nn.sparse_softmax_cross_entropy_with_logits(labels=, logits=)`: the labels have the shape of `logits` without
its last axis, and must be classes (on a CPU any other label is a run-time error).  (TensorFlow primitive; used at
distributions/univariate.py 543–544.) -/
noncomputable def sparseCE (labels : Tensor ℤ) (logits : Tensor ℝ) : Option (Tensor ℝ) := do
  let k ← logits.shape.getLast?
  if labels.shape = logits.shape.dropLast ∧
      (allIndices labels.shape).all (fun idx => decide (0 ≤ labels.val idx ∧ labels.val idx < k)) then
    some ⟨labels.shape, fun idx =>
      -(logits.val (idx ++ [(labels.val idx).toNat]) - lseRow fun j : Fin k => logits.val (idx ++ [j.val]))⟩
  else none

/-- `tf.expand_dims(·, -1)` of a static shape.  (TensorFlow primitive; used at distributions/multivariate.py 182.) -/
def staticExpandLast (s : Static) : Static := s.concat (some [some 1])

/-- `_broadcast` of `Categorical._log_prob` (univariate.py 499–506). -/
def catBroadcast (given : Tensor ℤ) (logits : Tensor ℝ) : Option (Tensor ℤ × Tensor ℝ) := do
  let ones : Tensor ℤ := ⟨logits.shape.dropLast, fun _ => 1⟩
  let given ← map2 (· * ·) given ones
  let logits ← map2 (· * ·) logits (onesLike (expandLast given))
  pure (given, logits)

/-- `Categorical._log_prob` (univariate.py 496–548), branch by branch. -/
noncomputable def categoricalLogProbT (given : STensor ℤ) (logits : STensor ℝ) : Option (Tensor ℝ) := do
  let (g, l) ←
    if !(given.static.truthy && logits.static.truthy) then catBroadcast given.rt logits.rt
    else if (given.static.map fun s => (s.length : ℤ)) ≠ logits.static.map fun s => (s.length : ℤ) - 1 then
      catBroadcast given.rt logits.rt
    else if given.static.fullyDefined && (logits.static.dropEnd 1).fullyDefined then
      if given.static ≠ logits.static.dropEnd 1 then catBroadcast given.rt logits.rt
      else pure (given.rt, logits.rt)
    else catBroadcast given.rt logits.rt
  let ce ← sparseCE g l
  pure (mapT (fun x => -x) ce)

/-- `MultivariateNormalCholesky._log_prob` (multivariate.py 169–189); `self._n_dim` is the last axis of `mean`. -/
noncomputable def mvnLogProbT (mean covTril given : STensor ℝ) : Option (Tensor ℝ) := do
  let n ← mean.rt.shape.getLast?
  let diag ← diagPart covTril.rt
  let log_det := mapT (fun x => 2 * x) (← reduceRow sumRow (mapT Fn.log diag))
  let log_z := mapT (fun x => -(n : ℝ) / 2 * Fn.log (2 * Real.pi) - x / 2) log_det
  let st ← sbcast given.static mean.static
  let y := expandLast (← map2 (· - ·) given.rt mean.rt)
  let (L, _) ← mebT covTril ⟨staticExpandLast st, y⟩
  let x ← squeezeLast (← triSolveT L.rt y)
  let stoc_dist := mapT (fun v => -0.5 * v) (← reduceRow sumRow (mapT sq x))
  map2 (· + ·) log_z stoc_dist

/-- `logits` after the optional normalisation of `Multinomial._log_prob` and `UnnormalizedMultinomial._log_prob`
(multivariate.py 324–326, 439–441). -/
noncomputable def normLogitsT (normalize : Bool) (logits : Tensor ℝ) : Option (Tensor ℝ) :=
  if normalize then do
    let z ← reduceRow lseRow logits
    map2 (· - ·) logits (expandLast z)
  else pure logits

/-- `log_combination(n, ks)` (utils.py 19–33). -/
noncomputable def logCombinationT (n ks : Tensor ℝ) : Option (Tensor ℝ) := do
  let s ← reduceRow sumRow (mapT (fun x => Fn.lgamma (x + 1)) ks)
  map2 (· - ·) (mapT (fun x => Fn.lgamma (x + 1)) n) s

/-- `Multinomial._log_prob` (multivariate.py 320–333). -/
noncomputable def multinomialLogProbT (normalize : Bool) (nExperiments : Option ℕ) (logits given : STensor ℝ) :
    Option (Tensor ℝ) := do
  let (g, l) ← mebT given logits
  let l ← normLogitsT normalize l.rt
  let n ← match nExperiments with
    | none => reduceRow sumRow g.rt
    | some k => pure ⟨[], fun _ => (k : ℝ)⟩
  let s ← reduceRow sumRow (← map2 (· * ·) g.rt l)
  map2 (· + ·) (← logCombinationT n g.rt) s

/-- `UnnormalizedMultinomial._log_prob` (multivariate.py 435–443). -/
noncomputable def unnormalizedMultinomialLogProbT (normalize : Bool) (logits given : STensor ℝ) :
    Option (Tensor ℝ) := do
  let (g, l) ← mebT given logits
  let l ← normLogitsT normalize l.rt
  reduceRow sumRow (← map2 (· * ·) g.rt l)

/-- `OnehotCategorical._log_prob` (multivariate.py 542–561); `self.n_categories` is the last axis of `logits`. -/
noncomputable def onehotLogProbT (logits given : STensor ℝ) : Option (Tensor ℝ) := do
  let k ← logits.rt.shape.getLast?
  let (g, l) ← mebT given logits
  if g.static.map List.length = some 2 ∨ l.static.map List.length = some 2 then
    pure (mapT (fun x => -x) (← softmaxCE g.rt l.rt))
  else
    let givenFlat ← reshapeRows g.rt k
    let logitsFlat ← reshapeRows l.rt k
    let ce ← softmaxCE givenFlat logitsFlat
    reshape (mapT (fun x => -x) ce) l.rt.shape.dropLast

/-- `Dirichlet._log_prob` (multivariate.py 665–677). -/
noncomputable def dirichletLogProbT (alpha given : STensor ℝ) : Option (Tensor ℝ) := do
  let (g, a) ← mebT given alpha
  let lbeta_alpha ← reduceRow lbetaRow a.rt
  let log_given := mapT Fn.log g.rt
  let s ← reduceRow sumRow (← map2 (· * ·) (mapT (fun x => x - 1) a.rt) log_given)
  map2 (· + ·) (mapT (fun x => -x) lbeta_alpha) s

/-- `ExpConcrete._log_prob` (multivariate.py 797–811); `self.n_categories` is the last axis of `logits`. -/
noncomputable def expConcreteLogProbT (temperature logits given : Tensor ℝ) : Option (Tensor ℝ) := do
  let n ← logits.shape.getLast?
  let log_temperature := mapT Fn.log temperature
  let temp ← map2 (· - ·) logits (← map2 (· * ·) temperature given)
  let a := mapT (fun x => Fn.lgamma (n : ℝ) + ((n : ℝ) - 1) * x) log_temperature
  let b ← map2 (· + ·) a (← reduceRow sumRow temp)
  map2 (· - ·) b (mapT (fun x => (n : ℝ) * x) (← reduceRow lseRow temp))

/-- `Concrete._log_prob` (multivariate.py 936–952); `self.n_categories` is the last axis of `logits`. -/
noncomputable def concreteLogProbT (temperature logits given : Tensor ℝ) : Option (Tensor ℝ) := do
  let log_given := mapT Fn.log given
  let log_temperature := mapT Fn.log temperature
  let n ← logits.shape.getLast?
  let temp ← map2 (· - ·) logits (← map2 (· * ·) temperature log_given)
  let a := mapT (fun x => Fn.lgamma (n : ℝ) + ((n : ℝ) - 1) * x) log_temperature
  let b ← map2 (· + ·) a (← reduceRow sumRow (← map2 (· - ·) temp log_given))
  map2 (· - ·) b (mapT (fun x => (n : ℝ) * x) (← reduceRow lseRow temp))

/-- `tf.reduce_sum(t, [-1, -2])`.  (TensorFlow primitive; used at distributions/multivariate.py 1156.) -/
noncomputable def reduceSumLast2 (t : Tensor ℝ) : Option (Tensor ℝ) := do
  let t ← reduceRow sumRow t
  reduceRow sumRow t

/-- `MatrixVariateNormalCholesky._log_prob` (multivariate.py 1124–1157); `self._n_row` and `self._n_col` are the last
two axes of `mean`.  `su`, `sv` are what TensorFlow knows of the shapes of the two `tf.ones` helpers when the graph is
built (1143, 1147–1148). -/
noncomputable def matNormalLogProbT (su sv : Static) (mean uTril vTril given : STensor ℝ) : Option (Tensor ℝ) := do
  let log_det_u := mapT (fun x => 2 * x) (← reduceRow sumRow (mapT Fn.log (← diagPart uTril.rt)))
  let log_det_v := mapT (fun x => 2 * x) (← reduceRow sumRow (mapT Fn.log (← diagPart vTril.rt)))
  let (_, nRow, nCol) ← split2 mean.rt.shape
  let logZ ← map2 (· - ·)
    (mapT (fun x => -((nRow : ℝ) * nCol) / 2 * Fn.log (2 * Real.pi) - (nRow : ℝ) / 2 * x) log_det_v)
    (mapT (fun x => (nCol : ℝ) / 2 * x) log_det_u)
  let y ← map2 (· - ·) given.rt mean.rt
  let (b, r, c) ← split2 y.shape
  let (Lu, _) ← mebT uTril ⟨su, ⟨b ++ [r, 1], fun _ => 1⟩⟩
  let (Lv, _) ← mebT vTril ⟨sv, ⟨b ++ [c, 1], fun _ => 1⟩⟩
  let x_Lb_inv_t ← triSolveT Lu.rt y
  let x_t ← triSolveT Lv.rt (← transposeLast x_Lb_inv_t)
  let stoc_dist := mapT (fun v => -0.5 * v) (← reduceSumLast2 (mapT sq x_t))
  map2 (· + ·) logZ stoc_dist

/-- `Distribution.log_prob` (base.py 291–304) after `_log_prob`: the trailing `group_ndims` axes are summed. -/
noncomputable def grouped (r : Option (Tensor ℝ)) (groupNdims : ℕ) : Option (Tensor ℝ) :=
  r.bind fun t => groupSum t groupNdims

end ZhuSuan.Batch

import Verif.Model.Minibatch
import Verif.Model.ExampleUtils
import Mathlib.Algebra.Order.Floor.Semiring
import Mathlib.Data.Rat.Floor

/-!
# Model: the loaders of the examples

`examples/utils/dataset.py`, from the contents of the files on.  Downloads and file formats are not modelled: arrays are given as lists of their rows.
The shuffles of numpy are permutations of the rows.
-/

set_option autoImplicit false

namespace ZhuSuan.Dataset

open ZhuSuan.Minibatch (slice)

section
variable {X : Type}

/-- `a[indices]` for an array of indices that are not negative; an index that is too large is an error.  (numpy; dataset.py 180–181, 187–188, 283–284, 290–291, 340–342, 366–368) -/
def pick {A : Type} (a : List A) (indices : List ℕ) : Option (List A) := indices.mapM fun k => a[k]?

/-! ## Semi-supervised data -/

/-- `np.nonzero(t_train == i)[0]`.  (dataset.py 179, 282) -/
def nonzeroEq (t : List ℤ) (i : ℤ) : List ℕ := (List.range t.length).filter fun k => t[k]? = some i

/-- One turn of the second loop, for one array: the rows of class `i` and of them those at the first `m` of the shuffled indices.
(dataset.py 179–181, 185–188; 282–284, 288–291) -/
def labeledOf {A : Type} (a : List A) (t : List ℤ) (m : ℕ) (shuffled : ℤ → List ℕ) (i : ℕ) : Option (List A) := do
  let byClass ← pick a (nonzeroEq t i)
  pick byClass ((shuffled i).take m)

/-- What `load_mnist_semi_supervised` and `load_cifar10_semi_supervised` return of the training data, with `one_hot=False`.
(dataset.py 194–195, 297–298) -/
structure Semi (X : Type) where
  xLabeled : List X
  tLabeled : List ℤ
  xUnlabeled : List X

/-- The selection of the labeled rows: `m` is 10 or 400; `shuffled i` is `np.arange(n_i)` after `rng.shuffle`; `mixed` are all rows after
`np.random.shuffle(x_unlabeled)`.  (dataset.py 176–192, 279–295) -/
def semiSupervised (x : List X) (t : List ℤ) (m : ℕ) (shuffled : ℤ → List ℕ) (mixed : List X) : Option (Semi X) := do
  let xs ← (List.range 10).mapM (labeledOf x t m shuffled)
  let ts ← (List.range 10).mapM (labeledOf t t m shuffled)
  return ⟨xs.flatten, ts.flatten, mixed⟩

/-! ## Noise and scale -/

/-- An entry of the MNIST data with `dequantify`; the file has `k / 256`, the draw `u` is from [0, 1).  (dataset.py 129–135) -/
noncomputable def mnistPixel (dequantify : Bool) (k : ℕ) (u : ℝ) : ℝ := (k : ℝ) / 256 + if dequantify then u * (1 / 256) else 0

/-- An entry of the CIFAR data.  (dataset.py 245–253) -/
noncomputable def cifarPixel (normalize dequantify : Bool) (k : ℕ) (u : ℝ) : ℝ :=
  let a := (k : ℝ) + if dequantify then u else 0
  if normalize then a / 256 else a

/-- `a.reshape((n, c, h, w)).transpose(0, 2, 3, 1)`: numpy keeps the order of the entries.  (numpy; dataset.py 255–256) -/
def toImages {A : Type} {n c h w : ℕ} (a : Fin n → Fin (c * h * w) → A) (i : Fin n) (y : Fin h) (x : Fin w) (k : Fin c) : A :=
  let flat := ((i.val * c + k) * h + y) * w + x
  have h0 : 0 < c * h * w := Nat.mul_pos (Nat.mul_pos k.pos y.pos) x.pos
  have h1 : flat < n * (c * h * w) := by
    have e1 : i.val * c + k < n * c := by
      calc i.val * c + k < i.val * c + c := Nat.add_lt_add_left k.isLt _
        _ = (i.val + 1) * c := by ring
        _ ≤ n * c := Nat.mul_le_mul_right _ i.isLt
    have e2 : (i.val * c + k) * h + y < n * c * h := by
      calc (i.val * c + k) * h + y < (i.val * c + k) * h + h := Nat.add_lt_add_left y.isLt _
        _ = (i.val * c + k + 1) * h := by ring
        _ ≤ n * c * h := Nat.mul_le_mul_right _ e1
    calc flat < ((i.val * c + k) * h + y) * w + w := Nat.add_lt_add_left x.isLt _
      _ = ((i.val * c + k) * h + y + 1) * w := by ring
      _ ≤ n * c * h * w := Nat.mul_le_mul_right _ e2
      _ = n * (c * h * w) := by ring
  a ⟨flat / (c * h * w), (Nat.div_lt_iff_lt_mul h0).2 h1⟩ ⟨flat % (c * h * w), Nat.mod_lt _ h0⟩

/-! ## UCI regression data -/

/-- `data[:n_train, :n_dims], data[:n_train, n_dims] - 1` and the same for the other rows.  (dataset.py 313–316) -/
def germanCredits (data : List (List ℤ)) (nTrain nDims : ℕ) : Option ((List (List ℤ) × List ℤ) × (List (List ℤ) × List ℤ)) := do
  let y ← data.mapM fun r => (r[nDims]?).map (· - 1)
  let x := data.map fun r => r.take nDims
  return ((x.take nTrain, y.take nTrain), (x.drop nTrain, y.drop nTrain))

/-- `np.round`: to the nearest integer, halves to the even one.  (numpy; dataset.py 334–335) -/
def npRound (r : ℚ) : ℤ :=
  if Int.fract r < 1 / 2 then ⌊r⌋ else if 1 / 2 < Int.fract r then ⌊r⌋ + 1 else if ⌊r⌋ % 2 = 0 then ⌊r⌋ else ⌊r⌋ + 1

/-- `size_train` and `size_test`, with exact products.  (dataset.py 334–335, 360–361) -/
def sizes (n : ℕ) : ℕ × ℕ := ((npRound (n * (8 / 10))).toNat, (npRound (n * (9 / 10))).toNat)

/-- Training, test and validation rows from the permutation of the row numbers.  (dataset.py 332–342, 358–368) -/
def splitRows {A : Type} (data : List A) (permutation : List ℕ) : Option (List A × List A × List A) := do
  let (a, b) := sizes data.length
  let train ← pick data (slice permutation 0 a)
  let test ← pick data (slice permutation a b)
  let val ← pick data (permutation.drop b)
  return (train, test, val)

/-- `row[:-1], row[-1]`.  (dataset.py 340–342) -/
def lastColumn {A : Type} (row : List A) : Option (List A × A) := (row.getLast?).map fun y => (row.dropLast, y)

/-- `row[1:], row[0]`.  (dataset.py 366–368) -/
def firstColumn {A : Type} (row : List A) : Option (List A × A) := (row.head?).map fun y => (row.drop 1, y)

/-! ## Bags of words -/

/-- The loop that fills the matrix.  A line is document, word, count.  (dataset.py 403–405) -/
def fillDense (D V : ℕ) : List (ℤ × ℤ × ℤ) → (ℕ → ℕ → ℤ) → Option (ℕ → ℕ → ℤ)
  | [], a => some a
  | (d, v, c) :: l, a => do
    let i ← ExUtils.npIndex D (d - 1)
    let j ← ExUtils.npIndex V (v - 1)
    fillDense D V l fun i' j' => if i' = i ∧ j' = j then a i' j' + c else a i' j'

/-- The matrix of `load_uci_bow`; a file with fewer than `T` lines is an error.  (dataset.py 398–405) -/
def bowDense (D V T : ℕ) (lines : List (ℤ × ℤ × ℤ)) : Option (ℕ → ℕ → ℤ) :=
  if lines.length < T then none else fillDense D V (lines.take T) fun _ _ => 0

/-- The loop that fills the lists.  (dataset.py 452–454) -/
def fillSparse (D : ℕ) : List (ℤ × ℤ × ℤ) → (ℕ → List (ℤ × ℤ)) → Option (ℕ → List (ℤ × ℤ))
  | [], a => some a
  | (d, v, c) :: l, a => do
    let i ← ExUtils.npIndex D (d - 1)
    fillSparse D l fun i' => if i' = i then a i' ++ [(v - 1, c)] else a i'

/-- The lists of `load_uci_bow_sparse`.  (dataset.py 447–454) -/
def bowSparse (D T : ℕ) (lines : List (ℤ × ℤ × ℤ)) : Option (ℕ → List (ℤ × ℤ)) :=
  if lines.length < T then none else fillSparse D (lines.take T) fun _ => []

/-! ## MovieLens -/

/-- A rating: user, movie, stars.  (dataset.py 494) -/
structure Rating where
  user : ℤ
  movie : ℤ
  stars : ℤ

/-- `num_users`, `num_movies` and `corpus`.  (dataset.py 484–486) -/
structure Corpus where
  numUsers : ℤ
  numMovies : ℤ
  data : List Rating

/-- The loop over the lines; a line is the list of its fields.  (dataset.py 484–496) -/
def readCorpus : List (List ℤ) → Corpus → Corpus
  | [], s => s
  | (u :: m :: r :: _) :: l, s => readCorpus l ⟨max s.numUsers (u - 1 + 1), max s.numMovies (m - 1 + 1), s.data ++ [⟨u - 1, m - 1, r⟩]⟩
  | _ :: l, s => readCorpus l s

/-- The three parts of the shuffled corpus.  (dataset.py 501–506) -/
def splitCorpus (shuffled : List Rating) : List Rating × List Rating × List Rating :=
  let N := shuffled.length
  let Ndv := N / 20 * 17
  let Ndv2 := N / 10 * 9
  (slice shuffled 0 Ndv, slice shuffled Ndv Ndv2, shuffled.drop Ndv2)

/-- `trained[id] = True` for the ids of the training data.  (dataset.py 510–514) -/
def markTrained (n : ℕ) : List ℤ → (ℕ → Bool) → Option (ℕ → Bool)
  | [], a => some a
  | k :: l, a => do
    let i ← ExUtils.npIndex n k
    markTrained n l fun j => if j = i then true else a j

/-- `N - us`: how many have no training data.  (dataset.py 508–522) -/
def untrained (n : ℕ) (ids : List ℤ) : Option ℤ := do
  let a ← markTrained n ids fun _ => false
  return n - ((List.range n).map fun i => if a i then (1 : ℤ) else 0).sum

/-- The loop of `load_movielens1m_mapped` for one of the two indices: `key` is the user or the movie, `item` the other one.
(dataset.py 542–549) -/
def fillLists (n : ℕ) (key item : Rating → ℤ) : List Rating → (ℕ → List ℤ × List ℤ) → Option (ℕ → List ℤ × List ℤ)
  | [], a => some a
  | r :: l, a => do
    let i ← ExUtils.npIndex n (key r)
    fillLists n key item l fun j => if j = i then ((a j).1 ++ [item r], (a j).2 ++ [r.stars]) else a j

/-- `user_movie, user_movie_score` and `movie_user, movie_user_score`.  (dataset.py 531–549) -/
def mapped (numUsers numMovies : ℕ) (train : List Rating) : Option ((ℕ → List ℤ × List ℤ) × (ℕ → List ℤ × List ℤ)) := do
  let u ← fillLists numUsers Rating.user Rating.movie train fun _ => ([], [])
  let m ← fillLists numMovies Rating.movie Rating.user train fun _ => ([], [])
  return (u, m)

end

end ZhuSuan.Dataset

import Mathlib.Probability.Distributions.Gaussian.Real
import Mathlib.MeasureTheory.Constructions.Pi

/-!
# The posterior of probabilistic matrix factorization

Independent of the code.  Every user and every movie has a vector of `D` numbers with independent normal entries.  The
rating of a movie by a user, mapped from `[1, 5]` to `[0, 1]`, is normal around the logistic function of the inner
product of the two vectors.
-/

set_option autoImplicit false

open MeasureTheory ProbabilityTheory
open scoped ENNReal NNReal

namespace ZhuSuan.Pmf

/-- The vectors of `a * c` users and `b * c` movies.  User `i * c + j` has the vector `fun d => x (.inl i) (j, d)`, movie
`i * c + j` the vector `fun d => x (.inr i) (j, d)`. -/
abbrev Lat (a b c D : ℕ) : Type := Fin a ⊕ Fin b → Fin c × Fin D → ℝ

/-- A rating: the user, the movie, and a number from 1 to 5. -/
abbrev Rating : Type := ℕ × ℕ × ℝ

variable {a b c D : ℕ}

/-- Vector `i` out of `n * c` vectors that are stored in `n` blocks of `c`.  (Zero if there is no such vector.) -/
def row {n : ℕ} (X : Fin n → Fin c × Fin D → ℝ) (i : ℕ) : Fin D → ℝ :=
  if h : i / c < n ∧ i % c < c then fun d => X ⟨i / c, h.1⟩ (⟨i % c, h.2⟩, d) else 0

/-- The vector of a user. -/
def user (x : Lat a b c D) (i : ℕ) : Fin D → ℝ := row (fun k => x (.inl k)) i

/-- The vector of a movie. -/
def movie (x : Lat a b c D) (j : ℕ) : Fin D → ℝ := row (fun k => x (.inr k)) j

/-- The mean of the mapped rating of a movie by a user. -/
noncomputable def mean (u v : Fin D → ℝ) : ℝ := 1 / (1 + Real.exp (-∑ d, u d * v d))

/-- What `list(set(l))` does: it lists every element once, in any order. -/
def IsSet (set : List ℕ → List ℕ) : Prop := ∀ l, (set l).Nodup ∧ ∀ v, v ∈ set l ↔ v ∈ l

/-- The variance of a normal distribution with the given standard deviation. -/
def var (s : ℝ) : ℝ≥0 := ⟨s ^ 2, sq_nonneg s⟩

/-- The three standard deviations: of the entries of the users, of the movies, and of the ratings. -/
structure Stds where
  u : ℝ
  v : ℝ
  r : ℝ
  u_pos : 0 < u
  v_pos : 0 < v
  r_pos : 0 < r

/-- All entries are independent and normal with mean zero. -/
noncomputable def prior (a b c D : ℕ) (s : Stds) : Measure (Lat a b c D) :=
  Measure.pi (Sum.elim (fun _ => Measure.pi fun _ => gaussianReal 0 (var s.u))
    (fun _ => Measure.pi fun _ => gaussianReal 0 (var s.v)))

/-- The density of the ratings given the vectors. -/
noncomputable def likelihood (s : Stds) (data : List Rating) (x : Lat a b c D) : ℝ≥0∞ :=
  (data.map fun t => gaussianPDF (mean (user x t.1) (movie x t.2.1)) (var s.r) ((t.2.2 - 1) / 4)).prod

/-- The density of the vectors and the ratings together. -/
noncomputable def density (s : Stds) (data : List Rating) (x : Lat a b c D) : ℝ :=
  (∏ i, ∏ e, gaussianPDFReal 0 (var s.u) (x (.inl i) e)) * (∏ j, ∏ e, gaussianPDFReal 0 (var s.v) (x (.inr j) e)) *
    (data.map fun t => gaussianPDFReal (mean (user x t.1) (movie x t.2.1)) (var s.r) ((t.2.2 - 1) / 4)).prod

/-- Bayes' rule. -/
noncomputable def posterior (a b c D : ℕ) (s : Stds) (data : List Rating) : Measure (Lat a b c D) :=
  (∫⁻ x, likelihood s data x ∂(prior a b c D s))⁻¹ • (prior a b c D s).withDensity (likelihood s data)

end ZhuSuan.Pmf

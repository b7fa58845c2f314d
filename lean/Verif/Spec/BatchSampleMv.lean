import Mathlib.Probability.Independence.Basic
import Verif.Spec.BatchSample
import Verif.Spec.Categorical

/-! # Sampling and log_prob agree: independent groups with density `exp (log_prob)`, for values of any kind -/

set_option autoImplicit false

open MeasureTheory ProbabilityTheory Set
open scoped ENNReal

namespace ZhuSuan.Batch
open Shape
open Uni (Idx)

/-- The shape of `sample(n_samples)` without the axes of one value. -/
def sampleShape (ns : Option ℕ) (B : List ℕ) : List ℕ :=
  match ns with
  | none => B
  | some n => n :: B

/-- The values in the group `o`: those whose index starts with `o`. -/
def blockOf {E : Type} {s outer inner : List ℕ} (hs : s = outer ++ inner) (o : Idx outer) (x : Idx s → E) :
    Idx inner → E :=
  fun j => x ⟨o.1 ++ j.1, mem_allIndices_append hs o.2 j.2⟩
where
  /-- Indices put together. -/
  mem_allIndices_append {s outer inner o j : List ℕ} (hs : s = outer ++ inner) (ho : o ∈ allIndices outer)
      (hj : j ∈ allIndices inner) : o ++ j ∈ allIndices s := by
    subst hs
    induction outer generalizing o with
    | nil =>
      simp only [allIndices, List.mem_singleton] at ho
      subst ho
      simpa using hj
    | cons d outer ih =>
      simp only [allIndices, List.mem_flatMap, List.mem_range, List.mem_map] at ho
      obtain ⟨i, hi, r, hr, rfl⟩ := ho
      simp only [List.cons_append, allIndices, List.mem_flatMap, List.mem_range, List.mem_map]
      exact ⟨i, hi, r ++ j, ih hr, rfl⟩

/-- The random values `X` of shape `s` and the function `logProb` of such values and of `group_ndims` describe the same
distribution.  For every way to write the shape as `outer ++ inner`, with `group_ndims` the number of axes of `inner`:
`log_prob` of any values in the support succeeds with shape `outer`, and its `exp` at `o` depends on the values in the
group `o` only; the values in a group have this as their joint density with respect to the base measure; and the groups
are independent. -/
def Agree {Ω E : Type} [MeasurableSpace Ω] [MeasurableSpace E] (s : List ℕ) (P : Measure Ω) (X : Ω → Idx s → E)
    (base : Measure E) (supp : Set E) (logProb : (Idx s → E) → ℕ → Option (Tensor EReal)) : Prop :=
  base suppᶜ = 0 ∧
  ∀ (outer inner : List ℕ) (hs : s = outer ++ inner), ∃ ρ : Idx outer → (Idx inner → E) → ℝ≥0∞,
    (∀ x : Idx s → E, (∀ i, x i ∈ supp) → ∃ r, logProb x inner.length = some r ∧ r.shape = outer ∧
      ∀ o : Idx outer, EReal.exp (r.val o.1) = ρ o (blockOf hs o x)) ∧
    (∀ o : Idx outer, P.map (fun w => blockOf hs o (X w)) = (Measure.pi fun _ => base).withDensity (ρ o)) ∧
    iIndepFun (fun (o : Idx outer) w => blockOf hs o (X w)) P

/-- The tensor holding a value at every index. -/
noncomputable def scalarsT {α : Type} [Zero α] (s : List ℕ) (x : Idx s → α) : Tensor α :=
  ⟨s, fun i => if h : i ∈ allIndices s then x ⟨i, h⟩ else 0⟩

/-- The tensor holding a vector at every index. -/
noncomputable def rowsT (s : List ℕ) {k : ℕ} (x : Idx s → Fin k → ℝ) : Tensor ℝ :=
  ⟨s ++ [k], fun i => if h : i.dropLast ∈ allIndices s ∧ i.getLastD 0 < k
    then x ⟨i.dropLast, h.1⟩ ⟨i.getLastD 0, h.2⟩ else 0⟩

/-- The tensor holding a matrix at every index. -/
noncomputable def matsT (s : List ℕ) {r c : ℕ} (x : Idx s → Fin r × Fin c → ℝ) : Tensor ℝ :=
  ⟨s ++ [r, c], fun i => if h : i.dropLast.dropLast ∈ allIndices s ∧ i.dropLast.getLastD 0 < r ∧ i.getLastD 0 < c
    then x ⟨i.dropLast.dropLast, h.1⟩ (⟨i.dropLast.getLastD 0, h.2.1⟩, ⟨i.getLastD 0, h.2.2⟩) else 0⟩

/-- The entries of a returned tensor (0 if there was none). -/
def scalarsOf {α : Type} [Zero α] (s : List ℕ) : Option (Tensor α) → Idx s → α
  | some t => fun i => t.val i.1
  | none => fun _ => 0

/-- The vectors of a returned tensor (0 if there was none). -/
def rowsOf (s : List ℕ) (k : ℕ) : Option (Tensor ℝ) → Idx s → Fin k → ℝ
  | some t => fun i j => t.val (i.1 ++ [j.val])
  | none => fun _ _ => 0

/-- The matrices of a returned tensor (0 if there was none). -/
def matsOf (s : List ℕ) (r c : ℕ) : Option (Tensor ℝ) → Idx s → Fin r × Fin c → ℝ
  | some t => fun i p => t.val (i.1 ++ [p.1.val, p.2.val])
  | none => fun _ _ => 0

/-- Independent sources, one per index of a tensor of shape `s`, with laws that may depend on the index. -/
noncomputable def sources (s : List ℕ) (law : List ℕ → Measure ℝ) : Measure (Idx s → ℝ) :=
  Measure.pi fun i => law i.1

/-- The results of `tf.random.categorical(logits, m)`: independent draws, `m` for each of the `rows` rows of `logits`
with `k + 1` columns. -/
noncomputable def catNoise (logits : Tensor ℝ) (rows k m : ℕ) : Measure (Fin rows × Fin m → Fin (k + 1)) :=
  Measure.pi fun p => Num.categoricalLaw fun c : Fin (k + 1) => logits.val [p.1.val, c.val]

/-- The draws as a table of integers. -/
def drawOf {rows k m : ℕ} (w : Fin rows × Fin m → Fin (k + 1)) (i j : ℕ) : ℤ :=
  if h : i < rows ∧ j < m then ((w (⟨i, h.1⟩, ⟨j, h.2⟩)).val : ℤ) else 0

/-- A number without the type of extended reals. -/
noncomputable def toE (r : Option (Tensor ℝ)) : Option (Tensor EReal) :=
  r.map fun t => ⟨t.shape, fun i => (t.val i : EReal)⟩

/-- Lebesgue measure of the first `n` of `n + 1` positive numbers with sum 1. -/
noncomputable def simplexMeasure (n : ℕ) : Measure (Fin (n + 1) → ℝ) :=
  (volume.restrict {x : Fin n → ℝ | (∀ i, 0 < x i) ∧ ∑ i, x i < 1}).map
    fun x => Fin.snoc (α := fun _ => ℝ) x (1 - ∑ i, x i)

/-- The base measure of ExpConcrete, on the logarithms of `n + 1` positive numbers with sum 1: Lebesgue measure of the
first `n`, divided by the last of the numbers. -/
noncomputable def logSimplexMeasure (n : ℕ) : Measure (Fin (n + 1) → ℝ) :=
  ((volume.restrict {y : Fin n → ℝ | ∑ i, Real.exp (y i) < 1}).withDensity
    fun y => ENNReal.ofReal (1 / (1 - ∑ i, Real.exp (y i)))).map
    fun y => Fin.snoc (α := fun _ => ℝ) y (Real.log (1 - ∑ i, Real.exp (y i)))

/-- One unit of mass at every vector of counts with total `N`. -/
noncomputable def countMeasure (n N : ℕ) : Measure (Fin (n + 1) → ℝ) :=
  ∑ c : ↥(Finset.univ.piAntidiag N : Finset (Fin (n + 1) → ℕ)), Measure.dirac fun i => ((c.1 i : ℕ) : ℝ)

end ZhuSuan.Batch

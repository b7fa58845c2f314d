import Verif.Model.Guards
import Verif.Lemmas.Shape

/-!
# C17: argument guards decide exactly the documented condition
-/

set_option autoImplicit false

namespace ZhuSuan.Guards

section
variable {D : Type} [DecidableEq D]

theorem sameDtypeLoop_ok (allowed : Option (List D)) (e : Option D) (ts : List D) (r : Option D) :
    sameDtypeLoop allowed e ts = .ok r ↔
      (∀ l, allowed = some l → ∀ t ∈ ts, t ∈ l) ∧
      (∀ t ∈ ts, ∀ t' ∈ e.toList ++ ts, t = t') ∧ r = (e.toList ++ ts).head? := by
  induction ts generalizing e with
  | nil => cases e <;> simp [sameDtypeLoop, eq_comm]
  | cons t ts ih =>
    unfold sameDtypeLoop
    by_cases hbad : disallowed allowed t = true
    · rw [if_pos hbad]
      cases allowed with
      | none => simp [disallowed] at hbad
      | some l =>
        simp only [disallowed, decide_eq_true_eq] at hbad
        constructor
        · intro h; cases h
        · rintro ⟨h, _⟩; exact absurd (h l rfl t (by simp)) hbad
    · rw [if_neg hbad]
      have hgood : ∀ l, allowed = some l → t ∈ l := by
        intro l hl; subst hl; simpa [disallowed] using hbad
      cases e with
      | none =>
        simp only [ih, Option.toList_some, Option.toList_none, List.nil_append]
        constructor
        · rintro ⟨h1, h2, h3⟩
          refine ⟨fun l hl u hu => ?_, ?_, ?_⟩
          · rcases List.mem_cons.1 hu with rfl | hu
            · exact hgood l hl
            · exact h1 l hl u hu
          · intro u hu v hv
            rcases List.mem_cons.1 hu with rfl | hu
            · rcases List.mem_cons.1 hv with rfl | hv
              · rfl
              · exact (h2 v hv u (by simp)).symm
            · exact h2 u hu v (by simpa using hv)
          · simpa using h3
        · rintro ⟨h1, h2, h3⟩
          refine ⟨fun l hl u hu => h1 l hl u (by simp [hu]), ?_, by simpa using h3⟩
          intro u hu v hv
          exact h2 u (by simp [hu]) v (by simpa using hv)
      | some d =>
        by_cases hd : d ≠ t
        · simp only [if_pos hd]
          constructor
          · intro h; cases h
          · rintro ⟨_, h2, _⟩
            exact absurd (h2 t (by simp) d (by simp)).symm hd
        · simp only [if_neg hd, ih]
          have hd' : d = t := not_not.1 hd
          subst hd'
          constructor
          · rintro ⟨h1, h2, h3⟩
            refine ⟨fun l hl u hu => ?_, ?_, by simpa using h3⟩
            · rcases List.mem_cons.1 hu with rfl | hu
              · exact hgood l hl
              · exact h1 l hl u hu
            · intro u hu v hv
              have hv' : v = d ∨ v ∈ ts := by simpa using hv
              rcases List.mem_cons.1 hu with rfl | hu
              · rcases hv' with rfl | hv
                · rfl
                · exact (h2 v hv u (by simp)).symm
              · exact h2 u hu v (by simpa using hv')
          · rintro ⟨h1, h2, h3⟩
            refine ⟨fun l hl u hu => h1 l hl u (by simp [hu]), ?_, by simpa using h3⟩
            intro u hu v hv
            have hv' : v = d ∨ v ∈ ts := by simpa using hv
            exact h2 u (by simp [hu]) v (by simpa using hv')

/-- With a non-empty list of allowed dtypes, `assert_same_dtype_in` succeeds exactly when every dtype
is allowed and all are equal, and returns that dtype (`None` for no tensors). -/
theorem C17_same_dtype (ts : List D) (dtypes : List D) (hne : dtypes ≠ []) (r : Option D) :
    assertSameDtypeIn ts (some dtypes) = .ok r ↔
      (∀ t ∈ ts, t ∈ dtypes) ∧ (∀ t ∈ ts, ∀ t' ∈ ts, t = t') ∧ r = ts.head? := by
  have hall : dtypesSet (some dtypes) = some dtypes := by
    cases dtypes with
    | nil => exact absurd rfl hne
    | cons _ _ => rfl
  unfold assertSameDtypeIn
  simp only [hall, sameDtypeLoop_ok]
  simp

/-- With `dtypes=None` (or an empty list) every dtype is allowed. -/
theorem C17_same_dtype_any (ts : List D) (r : Option D) (dtypes : Option (List D))
    (h : dtypes = none ∨ dtypes = some []) :
    assertSameDtypeIn ts dtypes = .ok r ↔ (∀ t ∈ ts, ∀ t' ∈ ts, t = t') ∧ r = ts.head? := by
  rcases h with rfl | rfl <;> (unfold assertSameDtypeIn; simp only [dtypesSet, sameDtypeLoop_ok]; simp)

theorem sameDtypeLoop_error (allowed : Option (List D)) (e : Option D) (ts : List D) (x : Err)
    (h : sameDtypeLoop allowed e ts = .error x) : x = .typeError := by
  induction ts generalizing e with
  | nil => simp [sameDtypeLoop] at h
  | cons t ts ih =>
    unfold sameDtypeLoop at h
    by_cases hbad : disallowed allowed t = true
    · rw [if_pos hbad] at h; cases h; rfl
    · rw [if_neg hbad] at h
      cases e with
      | none => exact ih _ h
      | some d =>
        by_cases hd : d ≠ t
        · simp only [if_pos hd] at h; cases h; rfl
        · simp only [if_neg hd] at h; exact ih _ h

/-- The only exception it raises is `TypeError`. -/
theorem C17_same_dtype_error (ts : List D) (dtypes : Option (List D)) (x : Err)
    (h : assertSameDtypeIn ts dtypes = .error x) : x = .typeError :=
  sameDtypeLoop_error _ _ _ _ h

end

/-- Floating parameters: accepted exactly when all dtypes are one and the same of float16/32/64. -/
theorem C17_same_float_dtype (ts : List DType) (r : Option DType) :
    assertSameFloatDtype ts = .ok r ↔
      (∀ t ∈ ts, t = .float16 ∨ t = .float32 ∨ t = .float64) ∧
      (∀ t ∈ ts, ∀ t' ∈ ts, t = t') ∧ r = ts.head? := by
  unfold assertSameFloatDtype
  rw [C17_same_dtype _ _ (by simp [floatingDtypes])]
  simp [floatingDtypes]

/-- What an argument denotes: an integer scalar, if it denotes one. -/
def denotes : PyArg → Option ℤ
  | .bool b => some (ofBool b)
  | .int n => some n
  | .float => none
  | .obj (some (0, [v])) => some v
  | .obj _ => none

/-- The tensor entries of a rank-0 tensor are one number (TensorFlow invariant). -/
def WellFormed : PyArg → Prop
  | .obj (some (0, vs)) => vs.length = 1
  | _ => True

/-- `assert_positive_int32_scalar` accepts exactly the arguments denoting a positive integer scalar. -/
theorem C17_positive_int32_scalar (a : PyArg) (hw : WellFormed a) :
    (∃ c, assertPositiveInt32Scalar a = .ok c) ↔ ∃ n, denotes a = some n ∧ 0 < n := by
  cases a with
  | bool b => cases b <;> simp [assertPositiveInt32Scalar, denotes, ofBool]
  | int n =>
    simp only [assertPositiveInt32Scalar, denotes]
    split_ifs with h <;> simp_all
  | float => simp [assertPositiveInt32Scalar, denotes]
  | obj o =>
    match o with
    | none => simp [assertPositiveInt32Scalar, denotes]
    | some (0, []) => simp [WellFormed] at hw
    | some (0, [v]) =>
      simp only [assertPositiveInt32Scalar, denotes]
      by_cases h : v > 0 <;> simp [h]
    | some (0, _ :: _ :: _) => simp [WellFormed] at hw
    | some (r + 1, vs) => simp [assertPositiveInt32Scalar, denotes]

/-- A value is passed through unchanged. -/
theorem C17_positive_int32_scalar_value (n : ℤ) (hn : 0 < n) :
    assertPositiveInt32Scalar (.int n) = .ok (.py n) := by
  simp [assertPositiveInt32Scalar, hn]

/-- Which exception: a Python float and an unconvertible object are `TypeError`s, a non-positive
Python integer is a `ValueError`. -/
theorem C17_positive_int32_scalar_errors :
    assertPositiveInt32Scalar .float = .error .typeError ∧
    assertPositiveInt32Scalar (.obj none) = .error .typeError ∧
    ∀ n ≤ 0, assertPositiveInt32Scalar (.int n) = .error .valueError := by
  refine ⟨rfl, rfl, fun n hn => ?_⟩
  have : ¬ n > 0 := by omega
  simp [assertPositiveInt32Scalar, this]

/-- `group_ndims` is accepted exactly when it denotes a non-negative integer scalar and the deprecated
keyword is absent. -/
theorem C17_group_ndims (dep : Bool) (a : PyArg) (hw : WellFormed a) :
    (∃ c, checkGroupNdims dep a = .ok c) ↔ dep = false ∧ ∃ n, denotes a = some n ∧ 0 ≤ n := by
  cases dep with
  | true => simp [checkGroupNdims]
  | false =>
    cases a with
    | bool b => cases b <;> simp [checkGroupNdims, denotes, ofBool]
    | int n =>
      by_cases h : n < 0
      · simp [checkGroupNdims, denotes, h]
      · simp [checkGroupNdims, denotes, h, Int.not_lt.1 h]
    | float => simp [checkGroupNdims, denotes]
    | obj o =>
      match o with
      | none => simp [checkGroupNdims, denotes]
      | some (0, []) => simp [WellFormed] at hw
      | some (0, [v]) =>
        by_cases h : v ≥ 0 <;> simp [checkGroupNdims, denotes, h]
      | some (0, _ :: _ :: _) => simp [WellFormed] at hw
      | some (r + 1, vs) => simp [checkGroupNdims, denotes]

/-- `Binomial` accepts exactly a positive number of experiments. -/
theorem C17_n_experiments (a : PyArg) (hw : WellFormed a) :
    (∃ c, checkNExperiments a = .ok c) ↔ ∃ n, denotes a = some n ∧ 0 < n := by
  cases a with
  | bool b => cases b <;> simp [checkNExperiments, denotes, ofBool]
  | int n =>
    by_cases h : n ≤ 0
    · have : ¬ 0 < n := by omega
      simp [checkNExperiments, denotes, h, this]
    · have : 0 < n := by omega
      simp [checkNExperiments, denotes, h, this]
  | float => simp [checkNExperiments, denotes]
  | obj o =>
    match o with
    | none => simp [checkNExperiments, denotes]
    | some (0, []) => simp [WellFormed] at hw
    | some (0, [v]) =>
      by_cases h : v > 0 <;> simp [checkNExperiments, denotes, h]
    | some (0, _ :: _ :: _) => simp [WellFormed] at hw
    | some (r + 1, vs) => simp [checkNExperiments, denotes]

section
variable {P : Type} (dtype : P → DType) (static : P → Shape.Static)

/-- Two parameters are acceptable together: one floating dtype, statically broadcastable. -/
def GoodPair (m s : P) : Prop :=
  (dtype m = .float16 ∨ dtype m = .float32 ∨ dtype m = .float64) ∧ dtype s = dtype m ∧
  Shape.sbcast (static m) (static s) ≠ none

theorem goodPair_iff (m s : P) (k : P ⊕ P) :
    (match assertSameFloatDtype [dtype m, dtype s] with
      | .error e => (.error e : Except Err (P × (P ⊕ P)))
      | .ok _ => if (Shape.sbcast (static m) (static s)).isNone then .error .valueError
                 else .ok (m, k)) = .ok (m, k) ↔ GoodPair dtype static m s := by
  unfold GoodPair
  cases h : assertSameFloatDtype [dtype m, dtype s] with
  | error e =>
    constructor
    · intro h'; cases h'
    · rintro ⟨h1, h2, _⟩
      have := (C17_same_float_dtype [dtype m, dtype s] (some (dtype m))).2
        ⟨by simp [h2, h1], by simp [h2], rfl⟩
      rw [this] at h; cases h
  | ok r =>
    have hr := (C17_same_float_dtype _ r).1 h
    have h1 : dtype m = .float16 ∨ dtype m = .float32 ∨ dtype m = .float64 := hr.1 _ (by simp)
    have h2 : dtype s = dtype m := hr.2.1 _ (by simp) _ (by simp)
    simp only [h1, h2, true_and]
    cases hs : Shape.sbcast (static m) (static s) <;> simp

/-- `Normal`/`FoldNormal`: construction succeeds exactly when exactly one of `std`, `logstd` is given
(and no positional third argument), with one floating dtype and statically broadcastable shapes; the
parameter given is the one used. -/
theorem C17_std_xor_logstd (sentinel : Bool) (mean : P) (std logstd : Option P)
    (res : P × (P ⊕ P)) :
    normalCtor dtype static sentinel mean std logstd = .ok res ↔
      sentinel = false ∧
      ((∃ s, std = some s ∧ logstd = none ∧ res = (mean, .inl s) ∧ GoodPair dtype static mean s) ∨
       (∃ l, std = none ∧ logstd = some l ∧ res = (mean, .inr l) ∧ GoodPair dtype static mean l)) := by
  have aux : ∀ (p : P) (k : P ⊕ P),
      (match assertSameFloatDtype [dtype mean, dtype p] with
        | .error e => (.error e : Except Err (P × (P ⊕ P)))
        | .ok _ => if (Shape.sbcast (static mean) (static p)).isNone then .error .valueError
                   else .ok (mean, k)) = .ok res ↔
        res = (mean, k) ∧ GoodPair dtype static mean p := by
    intro p k
    constructor
    · intro h
      have : res = (mean, k) := by
        cases h' : assertSameFloatDtype [dtype mean, dtype p] with
        | error e => rw [h'] at h; cases h
        | ok r =>
          rw [h'] at h
          simp only at h
          split_ifs at h
          cases h; rfl
      subst this
      exact ⟨rfl, (goodPair_iff dtype static mean p k).1 h⟩
    · rintro ⟨rfl, h⟩
      exact (goodPair_iff dtype static mean p k).2 h
  cases sentinel with
  | true => simp [normalCtor]
  | false =>
    cases std with
    | none =>
      cases logstd with
      | none => simp [normalCtor]
      | some l =>
        have := aux l (.inr l)
        refine Iff.trans (b := res = (mean, .inr l) ∧ GoodPair dtype static mean l) this ?_
        simp
    | some s =>
      cases logstd with
      | none =>
        have := aux s (.inl s)
        refine Iff.trans (b := res = (mean, .inl s) ∧ GoodPair dtype static mean s) this ?_
        simp
      | some l => simp [normalCtor]

end

/-- Concrete cases. -/
example : assertSameFloatDtype [.float32, .float32] = .ok (some .float32) := rfl
example : assertSameFloatDtype [.float32, .float64] = .error .typeError := rfl
example : assertSameFloatDtype [.int32] = .error .typeError := rfl
example : WellFormed (.obj (some (0, [3]))) := rfl
example : normalCtor (P := DType × Shape.Static) Prod.fst Prod.snd false (.float32, some [some 2, some 1])
    (some (.float32, some [none])) none = .ok ((.float32, some [some 2, some 1]), .inl (.float32, some [none])) := rfl

end ZhuSuan.Guards

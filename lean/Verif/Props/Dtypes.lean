import Verif.Model.Dtypes
import Verif.Spec.Ctors

/-!
# C109: the dtypes of samples and probabilities

`DtypeOK` (`Spec/Ctors.lean`) is the documented requirement on the dtypes of the parameters.
-/

set_option autoImplicit false

namespace ZhuSuan.Dtypes
open ZhuSuan.Guards ZhuSuan.Ctors

theorem isFloat_iff {d : DType} : isFloat d = true ↔ IsFloat d := by
  unfold isFloat IsFloat
  simp [or_assoc]

theorem isNumber_iff {d : DType} : isNumber d = true ↔ IsIntOrFloat d := by
  unfold isNumber IsIntOrFloat
  simp [isFloat_iff, or_assoc]

section
variable {d : DType}

theorem number_of (h : IsFloat d) : isNumber d = true := isNumber_iff.2 (Or.inl h)

theorem bin_ok (h : isNumber d = true) : bin (.ok d) (.ok d) = .ok d := by
  show (if d = d ∧ isNumber d = true then _ else _) = _
  rw [if_pos ⟨rfl, h⟩]
  rfl

theorem numF_ok (h : isFloat d = true) : numF (.ok d) = .ok d := by
  show (if isFloat d = true then _ else _) = _
  rw [if_pos h]
  rfl

theorem numI_ok (h : isNumber d = true) : numI (.ok d) = .ok d := by
  show (if isNumber d = true then _ else _) = _
  rw [if_pos h]
  rfl

theorem fn_ok (h : isFloat d = true) : fn (.ok d) = .ok d := numF_ok h

theorem fnN_ok (h : isNumber d = true) : fnN (.ok d) = .ok d := numI_ok h

theorem checked_ok (h : isFloat d = true) (c : Bool) : checked c (.ok d) = .ok d := by
  cases c
  · rfl
  · exact fn_ok h

theorem compare_ok (h : isNumber d = true) : compare (.ok d) (.ok d) = .ok bool := by
  unfold compare
  rw [bin_ok h]
  rfl

theorem compareF_ok (h : isFloat d = true) : compareF (.ok d) = .ok bool := by
  unfold compareF
  rw [numF_ok h]
  rfl

theorem both_ok : both (.ok bool) (.ok bool) = .ok bool := rfl

theorem cast_ok (a : DType) : cast (.ok a) d = .ok d := rfl

theorem source_ok (h : isFloat d = true) : source d = .ok d := if_pos h

theorem gamma_ok (h : isFloat d = true) (l : List Ty) (hl : ∀ x ∈ l, x = .ok d) : gamma l d = .ok d := by
  unfold gamma
  rw [source_ok h]
  induction l with
  | nil => rfl
  | cons a l ih =>
    rw [List.foldl_cons, hl a List.mem_cons_self, bin_ok (by simp [isNumber, h])]
    exact ih fun x hx => hl x (List.mem_cons_of_mem _ hx)

theorem poisson_ok (h : isFloat d = true) : poisson (.ok d) d = .ok d := by
  unfold poisson
  rw [fn_ok h, source_ok h]
  rfl

theorem categorical_ok (h : isFloat d = true) : categorical (.ok d) = .ok .int64 := by
  unfold categorical
  rw [fn_ok h]
  rfl

theorem oneHot_ok : oneHot (.ok .int64) d = .ok d := rfl

theorem broadcast_ok (h : isNumber d = true) (b : Bool) (a : DType) : broadcast b (.ok d) (.ok a) = .ok d := by
  cases b
  · rfl
  · exact bin_ok h

theorem triangularSolve_ok (e : Env) (h : isNumber d = true) (hs : e.solve d = true) : triangularSolve e (.ok d) (.ok d) = .ok d := by
  unfold triangularSolve
  rw [bin_ok h]
  show (if e.solve d = true then _ else _) = _
  rw [if_pos hs]
  rfl

theorem triangularSolve_error (e : Env) (h : isNumber d = true) (hs : e.solve d = false) : triangularSolve e (.ok d) (.ok d) = .error .typeError := by
  unfold triangularSolve
  rw [bin_ok h]
  show (if e.solve d = true then _ else _) = _
  rw [if_neg (by simp [hs])]
  rfl

end

/-- The distributions that can be sampled: all except `UnnormalizedMultinomial` and `Multinomial` without `n_experiments`. -/
def Samplable : Args → Prop
  | .multinomial _ n _ => n.isSome
  | .unnormalizedMultinomial _ _ => False
  | _ => True

/-- The distributions whose log probability solves a triangular system. -/
def Solves : Args → Prop
  | .mvn _ _ | .matrixNormal _ _ _ => True
  | _ => False

attribute [local simp] t dtype paramDtype bin_ok numF_ok numI_ok fn_ok fnN_ok checked_ok compare_ok compareF_ok both_ok cast_ok source_ok gamma_ok
  poisson_ok categorical_ok oneHot_ok broadcast_ok

/-- **C109.** For parameters of the documented dtypes, `sample` builds and its result has the dtype `dtype` of the distribution. -/
theorem C109_sample (a : Args) (h : a.DtypeOK) (hs : Samplable a) : sample a = .ok (dtype a) := by
  have h64 : isNumber .int64 = true := rfl
  cases a with
  | categorical l d =>
    have h1 : IsFloat l.dtype := h.1.elim (fun e => Or.inr (Or.inl e)) fun e => Or.inr (Or.inr e)
    simp [sample, isFloat_iff.2 h1]
  | multinomial l n d =>
    have h2 : n.isNone = false := by
      have : n.isSome = true := hs
      cases n <;> simp_all
    simp [sample, isFloat_iff.2 h.1, isNumber_iff.2 h.2, h2]
  | unnormalizedMultinomial l d => exact hs.elim
  | matrixNormal m u v =>
    obtain ⟨h1, h2, h3⟩ := h
    simp [sample, h2, h3, isFloat_iff.2 h1, number_of h1]
  | dirichlet x =>
    have h1 : IsFloat x.dtype := h
    simp [sample, isFloat_iff.2 h1, number_of h1]
  | bernoulli l d | poisson l d | onehot l d => simp [sample, isFloat_iff.2 h.1, number_of h.1]
  | binomial l n d => simp [sample, isFloat_iff.2 h.1, number_of h.1, h64]
  | normal x y | foldNormal x y | uniform x y | gamma x y | beta x y | inverseGamma x y | laplace x y | binConcrete x y | mvn x y | expConcrete x y
  | concrete x y =>
    obtain ⟨h1, h2⟩ := h
    simp [sample, h2, isFloat_iff.2 h1, number_of h1]

theorem xent_ok {p d : DType} (hp : isFloat p = true) (hd : d = .float32 ∨ d = .float64 ∨ d = .int32 ∨ d = .int64) :
    sparseXent (if d = .float32 then cast (.ok d) .int32 else if d = .float64 then cast (.ok d) .int64 else .ok d) (.ok p) = .ok p := by
  have e : ∀ l : DType, l = .int32 ∨ l = .int64 → sparseXent (.ok l) (.ok p) = .ok p := fun l hl => by
    unfold sparseXent
    rw [fn_ok hp]
    show (if l = .int32 ∨ l = .int64 then _ else _) = _
    rw [if_pos hl]
    rfl
  rcases hd with rfl | rfl | rfl | rfl
  · exact e _ (Or.inl rfl)
  · exact e _ (Or.inr rfl)
  · exact e _ (Or.inl rfl)
  · exact e _ (Or.inr rfl)

/-- `_log_prob` of a value that has the dtype of the distribution. -/
theorem logProb_ok (e : Env) (a : Args) (h : a.DtypeOK) (hs : Solves a → e.solve (dtype a) = true) :
    logProb e a (.ok (dtype a)) = .ok (paramDtype a) := by
  cases a with
  | categorical l d =>
    have h1 : IsFloat l.dtype := h.1.elim (fun e => Or.inr (Or.inl e)) fun e => Or.inr (Or.inr e)
    have hd : isNumber d = true := isNumber_iff.2 (by
      rcases h.2 with h | h | h | h <;> simp [h, IsIntOrFloat, IsFloat])
    have := xent_ok (isFloat_iff.2 h1) h.2
    have e1 : (if e.spread = true then bin (.ok d) (.ok d) else .ok d : Ty) = .ok d := by
      rw [bin_ok hd, ite_self]
    have e2 : (if e.spread = true then bin (.ok l.dtype) (cast (.ok d) l.dtype) else .ok l.dtype : Ty) = .ok l.dtype := by
      rw [cast_ok, bin_ok (number_of h1), ite_self]
    show fnN (sparseXent (let g : Ty := if e.spread = true then bin (.ok d) (.ok d) else .ok d
        if d = .float32 then cast g .int32 else if d = .float64 then cast g .int64 else g)
      (if e.spread = true then bin (.ok l.dtype) (cast (if e.spread = true then bin (.ok d) (.ok d) else .ok d) l.dtype) else .ok l.dtype)) = .ok l.dtype
    rw [e1, e2, this, fnN_ok (number_of h1)]
  | multinomial l n d => cases n <;> simp [logProb, isFloat_iff.2 h.1, number_of h.1]
  | matrixNormal m u v =>
    obtain ⟨h1, h2, h3⟩ := h
    have hs' := hs trivial
    simp only [dtype] at hs'
    simp [logProb, h2, h3, isFloat_iff.2 h1, number_of h1, triangularSolve_ok, hs']
  | mvn m u =>
    obtain ⟨h1, h2⟩ := h
    have hs' := hs trivial
    simp only [dtype] at hs'
    simp [logProb, h2, isFloat_iff.2 h1, number_of h1, triangularSolve_ok, hs']
  | dirichlet x =>
    have h1 : IsFloat x.dtype := h
    simp [logProb, isFloat_iff.2 h1, number_of h1]
  | foldNormal x y =>
    obtain ⟨h1, h2⟩ := h
    have hb : ((.ok x.dtype : Ty) >>= fun z => .ok z) = .ok x.dtype := rfl
    simp [logProb, h2, isFloat_iff.2 h1, number_of h1, hb]
  | bernoulli l d | poisson l d | onehot l d | unnormalizedMultinomial l d | binomial l _ d => simp [logProb, isFloat_iff.2 h.1, number_of h.1]
  | normal x y | uniform x y | gamma x y | beta x y | inverseGamma x y | laplace x y | binConcrete x y | expConcrete x y | concrete x y =>
    obtain ⟨h1, h2⟩ := h
    simp [logProb, uniformProb, h2, isFloat_iff.2 h1, number_of h1]

theorem param_float {a : Args} (h : a.DtypeOK) : isFloat (paramDtype a) = true := by
  cases a with
  | categorical l d => exact isFloat_iff.2 (h.1.elim (fun e => Or.inr (Or.inl e)) fun e => Or.inr (Or.inr e))
  | dirichlet x => exact isFloat_iff.2 h
  | binConcrete x y | expConcrete x y | concrete x y => exact isFloat_iff.2 (show IsFloat y.dtype from h.2.symm ▸ h.1)
  | _ => exact isFloat_iff.2 h.1

theorem dtype_number {a : Args} (h : a.DtypeOK) : isNumber (dtype a) = true := by
  cases a with
  | categorical l d => rcases h.2 with h | h | h | h <;> simp [dtype, h, isNumber, isFloat]
  | bernoulli l d | poisson l d | binomial l _ d | multinomial l _ d | unnormalizedMultinomial l d | onehot l d => exact isNumber_iff.2 h.2
  | dirichlet x => exact number_of h
  | binConcrete x y | expConcrete x y | concrete x y => exact number_of (show IsFloat y.dtype from h.2.symm ▸ h.1)
  | _ => exact number_of h.1

/-- What a user may pass: a tensor of the distribution's dtype, a numpy array, Python integers, or Python floats for a floating dtype. -/
def Accepted (a : Args) : Given → Prop
  | .tensor d => d = dtype a
  | .array _ | .ints => True
  | .floats => IsFloat (dtype a)

theorem convert_ok {a : Args} {g : Given} (h : Accepted a g) : convert g (dtype a) = .ok (dtype a) := by
  cases g with
  | tensor d => exact if_pos h
  | array _ => rfl
  | ints => rfl
  | floats => exact if_pos (isFloat_iff.2 h)

/-- **C109.** For parameters of the documented dtypes and a value of an accepted kind, `log_prob` and `prob` build and have the dtype `param_dtype`,
with and without numeric checks and broadcasting.  For the two normal distributions with Cholesky factors TensorFlow must be able to solve
triangular systems of the dtype; missing: the dtypes without a solver, for which it is false (`C109_no_solver`). -/
theorem C109_log_prob_partial (e : Env) (a : Args) (h : a.DtypeOK) (hs : Solves a → e.solve (dtype a) = true) (g : Given) (hg : Accepted a g) :
    logProbOf e a g = .ok (paramDtype a) ∧ probOf e a g = .ok (paramDtype a) := by
  have hp := param_float h
  have hn : isNumber (paramDtype a) = true := number_of (isFloat_iff.1 hp)
  have hl := logProb_ok e a h hs
  unfold logProbOf probOf
  rw [convert_ok hg]
  show fnN (logProb e a (.ok (dtype a))) = _ ∧ fnN (prob e a (.ok (dtype a))) = _
  rw [hl, fnN_ok hn]
  refine ⟨rfl, ?_⟩
  have hq : prob e a (.ok (dtype a)) = .ok (paramDtype a) := by
    cases a with
    | uniform x y =>
      obtain ⟨h1, h2⟩ := h
      simp [prob, uniformProb, h2, isFloat_iff.2 h1, number_of h1]
    | _ => exact (congrArg fn hl).trans (fn_ok hp)
  rw [hq, fnN_ok hn]

/-- **C109.** Without a triangular solver for the dtype, the log probability of the two normal distributions cannot be built. -/
theorem C109_no_solver (e : Env) (a : Args) (h : a.DtypeOK) (hm : Solves a) (hs : e.solve (dtype a) = false) (g : Given) (hg : Accepted a g) :
    logProbOf e a g = .error .typeError := by
  have b1 : ∀ (d : DType) (r : Err), bin (.ok d) (.error r) = .error r := fun _ _ => rfl
  have b2 : ∀ r : Err, numF (.error r) = .error r := fun _ => rfl
  have b3 : ∀ r : Err, fnN (.error r) = .error r := fun _ => rfl
  have b4 : ∀ (d : DType) (r : Err), triangularSolve e (.ok d) (.error r) = .error r := fun _ _ => rfl
  unfold logProbOf
  rw [convert_ok hg]
  show fnN (logProb e a (.ok (dtype a))) = _
  cases a with
  | mvn x y =>
    obtain ⟨h1, h2⟩ := h
    simp only [dtype] at hs
    simp [logProb, h2, isFloat_iff.2 h1, number_of h1, triangularSolve_error, hs, b1, b2, b3]
  | matrixNormal x y z =>
    obtain ⟨h1, h2, h3⟩ := h
    simp only [dtype] at hs
    simp [logProb, h2, h3, isFloat_iff.2 h1, number_of h1, triangularSolve_error, hs, b1, b2, b3, b4]
  | _ => exact hm.elim

/-- **C109.** Values of the wrong kind are refused: a tensor of another dtype with a `ValueError`, Python floats for an integer distribution with a
`TypeError`. -/
theorem C109_refused (e : Env) (a : Args) (d : DType) (hd : d ≠ dtype a) :
    (logProbOf e a (.tensor d) = .error .valueError ∧ probOf e a (.tensor d) = .error .valueError) ∧
    (¬IsFloat (dtype a) → logProbOf e a .floats = .error .typeError ∧ probOf e a .floats = .error .typeError) := by
  have h1 : convert (.tensor d) (dtype a) = .error .valueError := if_neg hd
  have h2 (h : ¬IsFloat (dtype a)) : convert .floats (dtype a) = .error .typeError := if_neg fun h' => h (isFloat_iff.1 h')
  refine ⟨⟨?_, ?_⟩, fun h => ⟨?_, ?_⟩⟩
  · rw [logProbOf, h1]; rfl
  · rw [probOf, h1]; rfl
  · rw [logProbOf, h2 h]; rfl
  · rw [probOf, h2 h]; rfl

/-- **C109.** A numpy array is never refused.  For an integer distribution its fractions are cut off: the log probability of 0.7 is the one of 0, with
no exception. -/
theorem C109_truncated (d : DType) (hd : ¬IsFloat d) (v : ℝ) (h0 : 0 ≤ v) (h1 : v < 1) (d' : DType) :
    convert (.array d') d = .ok d ∧ astype d v = astype d 0 := by
  have hf : ¬isFloat d = true := fun h => hd (isFloat_iff.1 h)
  refine ⟨rfl, ?_⟩
  unfold astype
  rw [if_neg hf, if_neg hf, if_pos h0, if_pos le_rfl, Int.floor_eq_zero_iff.2 ⟨h0, h1⟩, Int.floor_zero]

/-- **C109.** Whole numbers keep their value. -/
theorem C109_whole (d : DType) (k : ℤ) : astype d k = k := by
  unfold astype
  split_ifs <;> simp

theorem foldl_error (l : List Ty) (r : Err) : l.foldl bin (.error r) = .error r := by
  induction l with
  | nil => rfl
  | cons a l ih => exact ih

/-- **C109.** The log joint of a network whose nodes have parameters of documented dtypes builds if and only if all of them have the same
`param_dtype`, which is then its dtype. -/
theorem C109_log_joint (a : Args) (l : List Args) (h : ∀ x ∈ a :: l, x.DtypeOK) (d : DType) :
    logJoint ((a :: l).map fun x => .ok (paramDtype x)) = some (.ok d) ↔ ∀ x ∈ a :: l, paramDtype x = d := by
  have ha : isNumber (paramDtype a) = true := number_of (isFloat_iff.1 (param_float (h a List.mem_cons_self)))
  have key : ∀ (l : List Args) (c : DType), isNumber c = true →
      ((l.map fun x => (.ok (paramDtype x) : Ty)).foldl bin (.ok c) = .ok d ↔ c = d ∧ ∀ x ∈ l, paramDtype x = d) := by
    intro l
    induction l with
    | nil =>
      intro c _
      simp
    | cons x l ih =>
      intro c hc
      rw [List.map_cons, List.foldl_cons]
      by_cases e : c = paramDtype x
      · rw [← e, bin_ok hc, ih c hc]
        simp only [List.mem_cons, forall_eq_or_imp, ← e]
        tauto
      · have : bin (.ok c) (.ok (paramDtype x)) = .error .typeError := if_neg fun h => e h.1
        rw [this, foldl_error]
        simp only [List.mem_cons, forall_eq_or_imp, reduceCtorEq, false_iff]
        rintro ⟨h1, h2, -⟩
        exact e (h1.trans h2.symm)
  show some (((l.map fun x => (.ok (paramDtype x) : Ty))).foldl bin (numI (.ok (paramDtype a)))) = _ ↔ _
  rw [numI_ok ha, Option.some_inj, key l _ ha]
  simp

/-- A concrete case: a `Bernoulli` with `float64` logits and `int32` samples. -/
example : (Args.bernoulli ⟨.float64, ⟨none, [3]⟩⟩ .int32).DtypeOK ∧ sample (.bernoulli ⟨.float64, ⟨none, [3]⟩⟩ .int32) = .ok .int32 ∧
    logProbOf ⟨true, true, fun _ => true⟩ (.bernoulli ⟨.float64, ⟨none, [3]⟩⟩ .int32) .ints = .ok .float64 :=
  ⟨⟨Or.inr (Or.inr rfl), Or.inr (Or.inr (Or.inl rfl))⟩, rfl, rfl⟩

/-- A concrete case: a `float16` normal distribution with a Cholesky factor, without a solver for `float16`. -/
example : (Args.mvn ⟨.float16, ⟨none, [3]⟩⟩ ⟨.float16, ⟨none, [3, 3]⟩⟩).DtypeOK ∧ Solves (Args.mvn ⟨.float16, ⟨none, [3]⟩⟩ ⟨.float16, ⟨none, [3, 3]⟩⟩) ∧
    logProbOf ⟨true, true, fun d => d = .float32 || d = .float64⟩ (.mvn ⟨.float16, ⟨none, [3]⟩⟩ ⟨.float16, ⟨none, [3, 3]⟩⟩) .floats = .error .typeError :=
  ⟨⟨Or.inl rfl, rfl⟩, trivial, rfl⟩

end ZhuSuan.Dtypes

import Verif.Spec.Ctors
import Verif.Lemmas.DistShape

/-! # C73 A distribution is constructed exactly for well-formed parameters, whatever is known statically -/

set_option autoImplicit false

namespace ZhuSuan.Ctors
open ZhuSuan.Shape ZhuSuan.Guards

/-! ## Pieces of a constructor -/

theorem ok_iff {c : Check} : c.ok = true ↔ c = .pass := by
  obtain ⟨e, r⟩ := c
  cases e <;> cases r <;> simp [Check.ok, Check.pass]

theorem pass_then (b : Check) : Check.pass.then b = b := by
  simp [Check.then, Check.pass]

theorem then_ok {a b : Check} : (a.then b).ok = true ↔ a.ok = true ∧ b.ok = true := by
  obtain ⟨e, r⟩ := a
  obtain ⟨e', r'⟩ := b
  cases e <;> cases r <;> cases e' <;> cases r' <;> simp [Check.ok, Check.then]

theorem ofGuard_ok {α : Type} (x : Except Err α) : (Check.ofGuard x).ok = true ↔ ∃ y, x = .ok y := by
  cases x with
  | ok y => simp [Check.ofGuard, Check.ok, Check.pass]
  | error e => cases e <;> simp [Check.ofGuard, Check.ok]

theorem ofVerdict_ok (v : Verdict) : (Check.ofVerdict v).ok = true ↔ v = .accepted := by
  cases v <;> simp [Check.ofVerdict, Check.ok, Check.pass]

theorem sameFloat_ok (ts : List T) : (sameFloat ts).ok = true ↔
    (∀ t ∈ ts, IsFloat t.dtype) ∧ ∀ t ∈ ts, ∀ t' ∈ ts, t.dtype = t'.dtype := by
  unfold sameFloat IsFloat
  rw [ofGuard_ok]
  simp only [C17_same_float_dtype]
  constructor
  · rintro ⟨_, h1, h2, _⟩
    exact ⟨fun t ht => h1 _ (List.mem_map_of_mem ht),
      fun t ht t' ht' => h2 _ (List.mem_map_of_mem ht) _ (List.mem_map_of_mem ht')⟩
  · rintro ⟨h1, h2⟩
    refine ⟨_, ?_, ?_, rfl⟩
    · intro t ht
      obtain ⟨x, hx, rfl⟩ := List.mem_map.1 ht
      exact h1 x hx
    · intro t ht t' ht'
      obtain ⟨x, hx, rfl⟩ := List.mem_map.1 ht
      obtain ⟨x', hx', rfl⟩ := List.mem_map.1 ht'
      exact h2 x hx x' hx'

theorem sameFloat_one (x : T) : (sameFloat [x]).ok = true ↔ IsFloat x.dtype := by
  rw [sameFloat_ok]; simp

theorem sameFloat_two (x y : T) :
    (sameFloat [x, y]).ok = true ↔ IsFloat x.dtype ∧ y.dtype = x.dtype := by
  rw [sameFloat_ok]
  constructor
  · rintro ⟨h1, h2⟩
    exact ⟨h1 x (by simp), h2 y (by simp) x (by simp)⟩
  · rintro ⟨h1, h2⟩
    simp [h1, h2]

theorem sameFloat_two' (x y : T) :
    (sameFloat [y, x]).ok = true ↔ IsFloat x.dtype ∧ y.dtype = x.dtype := by
  rw [sameFloat_two]
  constructor
  · rintro ⟨h1, h2⟩; exact ⟨by rwa [h2], h2.symm⟩
  · rintro ⟨h1, h2⟩; exact ⟨by rwa [h2], h2.symm⟩

theorem sameFloat_three (x y z : T) : (sameFloat [x, y, z]).ok = true ↔
    IsFloat x.dtype ∧ y.dtype = x.dtype ∧ z.dtype = x.dtype := by
  rw [sameFloat_ok]
  constructor
  · rintro ⟨h1, h2⟩
    exact ⟨h1 x (by simp), h2 y (by simp) x (by simp), h2 z (by simp) x (by simp)⟩
  · rintro ⟨h1, h2, h3⟩
    simp [h1, h2, h3]

theorem intOrFloat_ok (d : DType) : (intOrFloat d).ok = true ↔ IsIntOrFloat d := by
  unfold intOrFloat assertDtypeInDtypes IsIntOrFloat IsFloat
  rw [ofGuard_ok]
  cases d <;> simp [integerDtypes, floatingDtypes]

theorem categoricalLogits_ok (x : T) :
    (categoricalLogits x).ok = true ↔ x.dtype = .float32 ∨ x.dtype = .float64 := by
  unfold categoricalLogits
  rw [ofGuard_ok]
  simp [C17_same_dtype _ _ (show ([.float32, .float64] : List DType) ≠ [] by simp)]

theorem categoricalDtype_ok (d : DType) :
    (Check.ofGuard (assertDtypeInDtypes d [.float32, .float64, .int32, .int64])).ok = true ↔
      (d = .float32 ∨ d = .float64 ∨ d = .int32 ∨ d = .int64) := by
  unfold assertDtypeInDtypes
  rw [ofGuard_ok]
  cases d <;> simp

theorem baseInit_ok (g : PyArg) (hg : WellFormed g) : (baseInit g).ok = true ↔ GroupOK g := by
  unfold baseInit GroupOK
  rw [ofGuard_ok, C17_group_ndims false g hg]
  simp

theorem rankAtLeast_ok {x : T} (h : x.shape.WF) (k : ℕ) :
    (rankAtLeast x k).ok = true ↔ k ≤ x.dims.length := by
  unfold rankAtLeast
  rw [ofVerdict_ok]
  exact C16_rank_at_least _ _ h k

theorem scalar_ok {x : T} (h : x.shape.WF) : (scalar x).ok = true ↔ x.dims = [] := by
  unfold scalar
  rw [ofVerdict_ok]
  exact C16_scalar _ _ h

theorem one_le_length_iff (l : List ℕ) : 1 ≤ l.length ↔ ∃ b k, l = b ++ [k] := by
  constructor
  · intro h
    have hne : l ≠ [] := by rintro rfl; simp at h
    exact ⟨l.dropLast, l.getLast hne, (List.dropLast_append_getLast hne).symm⟩
  · rintro ⟨b, k, rfl⟩; simp

theorem two_le_length_iff (l : List ℕ) : 2 ≤ l.length ↔ ∃ b r c, l = b ++ [r, c] := by
  constructor
  · intro h
    obtain ⟨b, c, rfl⟩ := (one_le_length_iff l).1 (by omega)
    obtain ⟨b', r, rfl⟩ := (one_le_length_iff b).1 (by simp at h; omega)
    exact ⟨b', r, c, by simp⟩
  · rintro ⟨b, r, c, rfl⟩; simp

theorem multinomialCount_ok (n : Option PyArg) (hn : ∀ n' ∈ n, WellFormed n') :
    (multinomialCount n).ok = true ↔ ∀ n' ∈ n, ∃ k, denotes n' = some k ∧ 0 < k := by
  cases n with
  | none => simp [multinomialCount, Check.ok, Check.pass]
  | some n =>
    unfold multinomialCount
    rw [ofGuard_ok, C17_positive_int32_scalar n (hn n rfl)]
    simp

theorem compatDims_of_admits {a b : List (Option ℕ)} {d : List ℕ} (ha : Admits (some a) d)
    (hb : Admits (some b) d) : compatDims a b = true := by
  induction a generalizing b d with
  | nil =>
    cases ha
    cases hb
    rfl
  | cons x a ih =>
    cases ha with
    | cons h1 h2 =>
      cases hb with
      | cons h3 h4 =>
        simp only [compatDims, Bool.and_eq_true]
        refine ⟨?_, ih h2 h4⟩
        rcases h1 with rfl | rfl <;> rcases h3 with rfl | rfl <;> simp [compatDim]

/-- Static shapes of tensors that have the same run-time shape are compatible. -/
theorem assertCompatible_of_admits {s t : Static} {d : List ℕ} (hs : Admits s d) (ht : Admits t d) :
    assertCompatible s t = .pass := by
  cases s with
  | none => rfl
  | some a =>
    cases t with
    | none => rfl
    | some b => simp [assertCompatible, compatDims_of_admits hs ht]

theorem assertEqualVec_iff {x y : List ℕ} (hx : 2 ≤ x.length) (hy : 2 ≤ y.length) :
    assertEqualVec x y = true ↔ x = y := by
  match x, y, hx, hy with
  | a :: a' :: x, b :: b' :: y, _, _ =>
    unfold assertEqualVec
    by_cases h : (a :: a' :: x).length = (b :: b' :: y).length
    · rw [if_pos h]; simp
    · rw [if_neg h]
      simp only [Bool.false_eq_true, false_iff]
      intro he
      exact h (by rw [he])

theorem atRun_ok (r : Option Bool) : (atRun r).ok = true ↔ r = some true := by
  cases r with
  | none => simp [atRun, Check.ok]
  | some b => cases b <;> simp [atRun, Check.ok]

theorem dirichletShape_ok {x : T} (h : x.shape.WF) :
    (dirichletShape x).ok = true ↔ ∃ b k, x.dims = b ++ [k] ∧ 2 ≤ k := by
  have dyn : (⟨none, decide (1 ≤ x.shape.rt.length) &&
      ((pyIndex x.shape.rt (-1)).any (fun k => decide (2 ≤ k)))⟩ : Check).ok = true ↔
      ∃ b k, x.dims = b ++ [k] ∧ 2 ≤ k := by
    simp only [Check.ok, Option.isNone_none, Bool.true_and, Bool.and_eq_true, decide_eq_true_eq]
    rw [one_le_length_iff]
    constructor
    · rintro ⟨⟨b, k, hbk⟩, h2⟩
      rw [hbk, pyIndex_last] at h2
      exact ⟨b, k, hbk, by simpa using h2⟩
    · rintro ⟨b, k, hbk, hk⟩
      have hbk' : x.shape.rt = b ++ [k] := hbk
      refine ⟨⟨b, k, hbk'⟩, ?_⟩
      rw [hbk', pyIndex_last]; simpa using hk
  unfold dirichletShape
  cases hs : x.shape.st with
  | none => exact dyn
  | some l =>
    have ha : Admits (some l) x.shape.rt := hs ▸ h
    have hl : l.length = x.shape.rt.length := List.Forall₂.length_eq ha
    simp only
    by_cases h1 : l.length < 1
    · rw [if_pos h1]
      simp only [Check.ok, Option.isNone_some, Bool.false_and, Bool.false_eq_true, false_iff]
      rintro ⟨b, k, hbk, _⟩
      have hbk' : x.shape.rt = b ++ [k] := hbk
      rw [hbk'] at hl
      simp at hl; omega
    · rw [if_neg h1]
      have hne : l ≠ [] := by rintro rfl; simp at h1
      obtain ⟨b, k, hbk⟩ := (one_le_length_iff x.shape.rt).1 (by omega)
      have hlast : l.getLast? = some (l.getLast hne) := List.getLast?_eq_getLast_of_ne_nil hne
      rw [hlast]
      cases hv : l.getLast hne with
      | none => exact dyn
      | some m =>
        have hmk : m = k := by
          have e : l = l.dropLast ++ [some m] := by
            rw [← hv]; exact (List.dropLast_append_getLast hne).symm
          rw [e, hbk] at ha
          have hrev := List.rel_reverse ha
          simp only [List.reverse_append, List.reverse_cons, List.reverse_nil, List.nil_append,
            List.cons_append] at hrev
          cases hrev with
          | cons hh _ =>
            rcases hh with hh | hh
            · cases hh
            · exact Option.some.inj hh
        subst hmk
        have : (∃ b k, x.dims = b ++ [k] ∧ 2 ≤ k) ↔ 2 ≤ m := by
          constructor
          · rintro ⟨b', k', h1, h2⟩
            have h1' : x.shape.rt = b' ++ [k'] := h1
            rw [hbk] at h1'
            have := (List.append_inj' h1' rfl).2
            simp at this; omega
          · intro h2; exact ⟨b, m, hbk, h2⟩
        rw [this]
        simp only
        split_ifs with h2 <;> simp [Check.ok, Check.pass] <;> omega

theorem admits_append {s t : Static} {a b : List ℕ} (hs : Admits s a) (ht : Admits t b) :
    Admits (s.concat t) (a ++ b) := by
  cases s with
  | none => trivial
  | some s =>
    cases t with
    | none => trivial
    | some t => exact List.rel_append hs ht

theorem admits_dropEnd {s : Static} {d : List ℕ} (h : Admits s d) (k : ℕ) :
    Admits (s.dropEnd k) (d.take (d.length - k)) := by
  have := admits_take h k
  unfold staticButLast at this
  cases s with
  | none => trivial
  | some l => simpa [Static.truthy] using this

theorem mvn_ok {m c : T} (hm : m.shape.WF) (hc : c.shape.WF) (r : Check) :
    ((rankAtLeast m 1).then ((rankAtLeast c 2).then
      ((assertCompatible c.shape.st (m.shape.st.concat (some [intAt m.shape.st (-1)]))).then
        ((atRun ((getShapeAt m.shape.st m.shape.rt (-1)).map
            (fun n => assertEqualVec (m.shape.rt ++ [n]) c.shape.rt))).then r)))).ok = true ↔
      (∃ b k, m.dims = b ++ [k] ∧ c.dims = b ++ [k, k]) ∧ r.ok = true := by
  simp only [then_ok, rankAtLeast_ok hm, rankAtLeast_ok hc, atRun_ok]
  constructor
  · rintro ⟨h1, h2, _, h4, h5⟩
    refine ⟨?_, h5⟩
    obtain ⟨b, k, hbk⟩ := (one_le_length_iff _).1 h1
    have hbk' : m.shape.rt = b ++ [k] := hbk
    rw [getShapeAt_last hm hbk', Option.map_some, Option.some.injEq,
      assertEqualVec_iff (y := c.shape.rt) (by rw [hbk']; simp) h2] at h4
    exact ⟨b, k, hbk, by show c.shape.rt = _; rw [← h4, hbk']; simp⟩
  · rintro ⟨⟨b, k, hbk, hck⟩, h5⟩
    have hbk' : m.shape.rt = b ++ [k] := hbk
    have hck' : c.shape.rt = b ++ [k, k] := hck
    refine ⟨by rw [hbk]; simp, by rw [hck]; simp, ?_, ?_, h5⟩
    · rw [assertCompatible_of_admits (d := c.shape.rt) hc]
      · rfl
      · rw [hck', show b ++ [k, k] = m.shape.rt ++ [k] by rw [hbk']; simp]
        exact admits_append hm (.cons (intAt_admits hm (by rw [hbk', pyIndex_last])) .nil)
    · rw [getShapeAt_last hm hbk', Option.map_some, Option.some.injEq,
        assertEqualVec_iff (by rw [hbk']; simp) (by rw [hck']; simp), hbk', hck']
      simp

theorem matrix_ok {m u v : T} (hm : m.shape.WF) (hu : u.shape.WF) (hv : v.shape.WF) (q : Check) :
    ((rankAtLeast m 2).then
    ((rankAtLeast u 2).then
      ((rankAtLeast v 2).then
        ((assertCompatible u.shape.st ((m.shape.st.dropEnd 1).concat (some [intAt m.shape.st (-2)]))).then
          ((assertCompatible v.shape.st
              ((m.shape.st.dropEnd 2).concat
                (some [intAt m.shape.st (-1), intAt m.shape.st (-1)]))).then
            ((atRun ((getShapeAt m.shape.st m.shape.rt (-2)).map
                (fun r => assertEqualVec (m.shape.rt.dropLast ++ [r]) u.shape.rt))).then
              ((atRun ((getShapeAt m.shape.st m.shape.rt (-1)).map
                  (fun c => assertEqualVec (m.shape.rt.dropLast.dropLast ++ [c, c]) v.shape.rt))).then
                q))))))).ok = true ↔
      (∃ b r c, m.dims = b ++ [r, c] ∧ u.dims = b ++ [r, r] ∧ v.dims = b ++ [c, c]) ∧ q.ok = true := by
  simp only [then_ok, rankAtLeast_ok hm, rankAtLeast_ok hu, rankAtLeast_ok hv, atRun_ok]
  have d1 : ∀ (b : List ℕ) (r c : ℕ), (b ++ [r, c]).dropLast = b ++ [r] := by
    intro b r c
    rw [show b ++ [r, c] = (b ++ [r]) ++ [c] by simp, List.dropLast_concat]
  have d2 : ∀ (b : List ℕ) (r : ℕ), (b ++ [r]).dropLast = b := fun b r => List.dropLast_concat
  constructor
  · rintro ⟨h1, h2, h3, _, _, h6, h7, h8⟩
    refine ⟨?_, h8⟩
    obtain ⟨b, r, c, hbk⟩ := (two_le_length_iff _).1 h1
    have hbk' : m.shape.rt = b ++ [r, c] := hbk
    obtain ⟨p1, p2⟩ := pyIndex_last2 b r c
    rw [C16_get_shape_at _ _ hm, hbk', p1, Option.map_some, Option.some.injEq, d1,
      assertEqualVec_iff (y := u.shape.rt) (by simp) h2] at h6
    rw [C16_get_shape_at _ _ hm, hbk', p2, Option.map_some, Option.some.injEq, d1, d2,
      assertEqualVec_iff (y := v.shape.rt) (by simp) h3] at h7
    exact ⟨b, r, c, hbk, by show u.shape.rt = _; rw [← h6]; simp, by show v.shape.rt = _; rw [← h7]⟩
  · rintro ⟨⟨b, r, c, hbk, huk, hvk⟩, h8⟩
    have hbk' : m.shape.rt = b ++ [r, c] := hbk
    have huk' : u.shape.rt = b ++ [r, r] := huk
    have hvk' : v.shape.rt = b ++ [c, c] := hvk
    obtain ⟨p1, p2⟩ := pyIndex_last2 b r c
    refine ⟨by rw [hbk]; simp, by rw [huk]; simp, by rw [hvk]; simp, ?_, ?_, ?_, ?_, h8⟩
    · rw [assertCompatible_of_admits (d := u.shape.rt) hu]
      · rfl
      · have h1 := admits_dropEnd hm 1
        rw [huk', show b ++ [r, r] = (b ++ [r]) ++ [r] by simp]
        refine admits_append ?_ (.cons (intAt_admits hm (by rw [hbk', p1])) .nil)
        convert h1 using 1
        rw [hbk', show b ++ [r, c] = (b ++ [r]) ++ [c] by simp]
        simp [List.take_append]
    · rw [assertCompatible_of_admits (d := v.shape.rt) hv]
      · rfl
      · have h1 := admits_dropEnd hm 2
        rw [hvk']
        refine admits_append ?_ (.cons (intAt_admits hm (by rw [hbk', p2]))
          (.cons (intAt_admits hm (by rw [hbk', p2])) .nil))
        convert h1 using 1
        rw [hbk']; simp
    · rw [C16_get_shape_at _ _ hm, hbk', p1, Option.map_some, Option.some.injEq, d1,
        assertEqualVec_iff (by simp) (by rw [huk']; simp), huk']
      simp
    · rw [C16_get_shape_at _ _ hm, hbk', p2, Option.map_some, Option.some.injEq, d1, d2,
        assertEqualVec_iff (by simp) (by rw [hvk']; simp), hvk']

theorem staticBroadcast_ok (x y : T) :
    (staticBroadcast x y).ok = true ↔ sbcast x.shape.st y.shape.st ≠ none := by
  unfold staticBroadcast
  cases sbcast x.shape.st y.shape.st <;> simp [Check.ok, Check.pass]

theorem binomialCount_ok (n : PyArg) (hn : WellFormed n) :
    (Check.ofGuard (checkNExperiments n)).ok = true ↔ ∃ k, denotes n = some k ∧ 0 < k := by
  rw [ofGuard_ok, C17_n_experiments n hn]

/-! ## The theorems -/

/-- Outside the families of two broadcast parameters: the constructor returns, and its assertions hold at run time,
exactly when the run-time shapes, the dtypes, `n_experiments` and `group_ndims` are as documented. -/
theorem C73_exactly (a : Args) (g : PyArg) (hw : a.WF) (hg : WellFormed g) (hp : a.Pair = none) :
    (a.init g).ok = true ↔ a.ShapeOK ∧ a.DtypeOK ∧ a.CountOK ∧ GroupOK g := by
  cases a with
  | normal x y | foldNormal x y | uniform x y | gamma x y | beta x y | inverseGamma x y
  | laplace x y => simp [Args.Pair] at hp
  | bernoulli l d =>
    simp only [Args.init, bernoulliInit, then_ok, sameFloat_one, intOrFloat_ok, baseInit_ok g hg,
      Args.ShapeOK, Args.DtypeOK, Args.CountOK]
    tauto
  | poisson l d =>
    simp only [Args.init, poissonInit, then_ok, sameFloat_one, intOrFloat_ok, baseInit_ok g hg,
      Args.ShapeOK, Args.DtypeOK, Args.CountOK]
    tauto
  | categorical l d =>
    simp only [Args.init, categoricalInit, then_ok, categoricalLogits_ok, categoricalDtype_ok,
      rankAtLeast_ok (x := l) hw, baseInit_ok g hg, one_le_length_iff, Args.ShapeOK, Args.DtypeOK, Args.CountOK]
    tauto
  | binomial l n d =>
    simp only [Args.init, binomialInit, then_ok, sameFloat_one, intOrFloat_ok, baseInit_ok g hg,
      binomialCount_ok n hw.2, Args.ShapeOK, Args.DtypeOK, Args.CountOK]
    tauto
  | binConcrete t l =>
    simp only [Args.init, binConcreteInit, then_ok, sameFloat_two' t l, scalar_ok (x := t) hw.1,
      baseInit_ok g hg, Args.ShapeOK, Args.DtypeOK, Args.CountOK]
    tauto
  | mvn m c =>
    simp only [Args.init, mvnInit]
    rw [mvn_ok hw.1 hw.2]
    simp only [then_ok, sameFloat_two, baseInit_ok g hg, Args.ShapeOK, Args.DtypeOK, Args.CountOK]
    tauto
  | multinomial l n d =>
    simp only [Args.init, multinomialInit, then_ok, sameFloat_one, intOrFloat_ok, baseInit_ok g hg,
      rankAtLeast_ok (x := l) hw.1, one_le_length_iff, multinomialCount_ok n hw.2,
      Args.ShapeOK, Args.DtypeOK, Args.CountOK]
    tauto
  | unnormalizedMultinomial l d | onehot l d =>
    simp only [Args.init, onehotInit, then_ok, sameFloat_one, intOrFloat_ok, baseInit_ok g hg,
      rankAtLeast_ok (x := l) hw, one_le_length_iff, Args.ShapeOK, Args.DtypeOK, Args.CountOK]
    tauto
  | dirichlet x =>
    simp only [Args.init, dirichletInit, then_ok, sameFloat_one, baseInit_ok g hg,
      dirichletShape_ok (x := x) hw, Args.ShapeOK, Args.DtypeOK, Args.CountOK]
    tauto
  | expConcrete t l | concrete t l =>
    simp only [Args.init, concreteInit, then_ok, sameFloat_two' t l, scalar_ok (x := t) hw.1,
      rankAtLeast_ok (x := l) hw.2, one_le_length_iff, baseInit_ok g hg, Args.ShapeOK, Args.DtypeOK, Args.CountOK]
    tauto
  | matrixNormal m u v =>
    simp only [Args.init, matrixNormalInit]
    rw [matrix_ok hw.1 hw.2.1 hw.2.2]
    simp only [then_ok, sameFloat_three, baseInit_ok g hg, Args.ShapeOK, Args.DtypeOK, Args.CountOK]
    tauto

/-- The families of two broadcast parameters: the constructor succeeds exactly when the dtypes and `group_ndims`
are as documented and nothing known statically rules out broadcasting. -/
theorem C73_pairs (a : Args) (g : PyArg) (hg : WellFormed g) (x y : T) (hp : a.Pair = some (x, y)) :
    (a.init g).ok = true ↔
      IsFloat x.dtype ∧ y.dtype = x.dtype ∧ GroupOK g ∧ sbcast x.shape.st y.shape.st ≠ none := by
  cases a <;> simp only [Args.Pair, Option.some.injEq, Prod.mk.injEq, reduceCtorEq] at hp <;>
    (obtain ⟨rfl, rfl⟩ := hp
     simp only [Args.init, normalInit, pairInit, then_ok, sameFloat_two, staticBroadcast_ok,
       baseInit_ok g hg]
     tauto)

theorem pair_shapeOK {a : Args} {x y : T} (hp : a.Pair = some (x, y)) :
    (a.ShapeOK ↔ Compatible x.dims y.dims) ∧ (a.DtypeOK ↔ IsFloat x.dtype ∧ y.dtype = x.dtype) ∧
    (a.WF ↔ x.shape.WF ∧ y.shape.WF) ∧ a.CountOK := by
  cases a <;> simp only [Args.Pair, Option.some.injEq, Prod.mk.injEq, reduceCtorEq] at hp <;>
    (obtain ⟨rfl, rfl⟩ := hp
     exact ⟨Iff.rfl, Iff.rfl, Iff.rfl, trivial⟩)

/-- Documented arguments are never refused, by any class, however little or much is known statically. -/
theorem C73_never_refused (a : Args) (g : PyArg) (hw : a.WF) (hg : WellFormed g)
    (h1 : a.ShapeOK) (h2 : a.DtypeOK) (h3 : a.CountOK) (h4 : GroupOK g) :
    (a.init g).err = none ∧ (a.init g).run = true := by
  have : (a.init g).ok = true := by
    cases hp : a.Pair with
    | none => exact (C73_exactly a g hw hg hp).2 ⟨h1, h2, h3, h4⟩
    | some p =>
      obtain ⟨x, y⟩ := p
      obtain ⟨e1, e2, e3, _⟩ := pair_shapeOK hp
      obtain ⟨d1, d2⟩ := e2.1 h2
      obtain ⟨w1, w2⟩ := e3.1 hw
      exact (C73_pairs a g hg x y hp).2 ⟨d1, d2, h4,
        fun hn => (C12_static_sound _ _ _ _ w1 w2).1 hn (e1.1 h1)⟩
  rw [ok_iff] at this
  rw [this]
  exact ⟨rfl, rfl⟩

/-- Parameters of the two-parameter families that do not broadcast but pass, because too little was known: there is
no batch shape, so every use of the two parameters together fails at run time. -/
theorem C73_pairs_late (a : Args) (x y : T) (hp : a.Pair = some (x, y)) (hs : ¬ a.ShapeOK) :
    bcast x.shape.rt y.shape.rt = none :=
  (C12_fails_iff _ _).2 (fun h => hs ((pair_shapeOK hp).1.2 h))

theorem wf_forget (a : Args) (hw : a.WF) : a.forget.WF := by
  cases a <;> simp_all [Args.WF, Args.forget, Args.forget.un, P.WF, Admits]

/-- Static knowledge does not decide whether arguments are accepted. -/
theorem C73_static_irrelevant (a : Args) (g : PyArg) (hw : a.WF) (hg : WellFormed g)
    (hp : a.Pair = none) : (a.init g).ok = (a.forget.init g).ok := by
  have hp' : a.forget.Pair = none := by
    cases a <;> simp_all [Args.Pair, Args.forget]
  have hs : a.forget.ShapeOK ↔ a.ShapeOK := by cases a <;> exact Iff.rfl
  have hd : a.forget.DtypeOK ↔ a.DtypeOK := by cases a <;> exact Iff.rfl
  have hc : a.forget.CountOK ↔ a.CountOK := by cases a <;> exact Iff.rfl
  rw [Bool.eq_iff_iff, C73_exactly a g hw hg hp, C73_exactly _ g (wf_forget a hw) hg hp', hs, hd, hc]

/-- What a constructor accepts has the documented batch and value shapes (so that `C14_batch_value_shape` and the
theorems on samples and log-probabilities apply to it). -/
theorem C73_usable (a : Args) (g : PyArg) (n : ℕ) (hw : a.WF) (hg : WellFormed g)
    (hok : (a.init g).ok = true) (hp : a.Pair ≠ none → a.ShapeOK) (hc : a.HasCategory) :
    ∃ b v, (a.dist n).HasShape b v := by
  have hs : a.ShapeOK := by
    by_cases h : a.Pair = none
    · exact ((C73_exactly a g hw hg h).1 hok).1
    · exact hp h
  have two : ∀ x y : T, Compatible x.dims y.dims → ∃ b v, IsBroadcast x.shape.rt y.shape.rt b ∧ v = ([] : List ℕ) := by
    intro x y h
    cases hb : bcast x.shape.rt y.shape.rt with
    | none => exact absurd h ((C12_fails_iff _ _).1 hb)
    | some b => exact ⟨b, [], (C12_least_upper_bound _ _ _).1 hb, rfl⟩
  have pos : ∀ (l : T) (b : List ℕ) (k : ℕ), (∀ b, l.dims ≠ b ++ [0]) → l.dims = b ++ [k] → 0 < k := by
    intro l b k h1 h2
    rcases Nat.eq_zero_or_pos k with rfl | h
    · exact absurd h2 (h1 b)
    · exact h
  cases a with
  | normal x y | foldNormal x y | uniform x y | gamma x y | beta x y | inverseGamma x y
  | laplace x y => exact two x y hs
  | bernoulli l d | poisson l d => exact ⟨_, _, rfl, rfl⟩
  | binomial l n d => exact ⟨_, _, rfl, rfl⟩
  | binConcrete t l => exact ⟨_, _, hs, rfl, rfl⟩
  | categorical l d =>
    obtain ⟨b, k, h⟩ := hs
    exact ⟨b, [], rfl, k, pos l b k hc h, h⟩
  | multinomial l _ d | unnormalizedMultinomial l d | onehot l d =>
    obtain ⟨b, k, h⟩ := hs
    exact ⟨b, [k], k, pos l b k hc h, rfl, h⟩
  | dirichlet x =>
    obtain ⟨b, k, h, hk⟩ := hs
    exact ⟨b, [k], k, hk, rfl, h⟩
  | expConcrete t l | concrete t l =>
    obtain ⟨ht, b, k, h⟩ := hs
    exact ⟨b, [k], ht, k, rfl, h⟩
  | mvn m c =>
    obtain ⟨b, k, h1, h2⟩ := hs
    exact ⟨b, [k], k, rfl, h1, h2⟩
  | matrixNormal m u v =>
    obtain ⟨b, r, c, h1, h2, h3⟩ := hs
    exact ⟨b, [r, c], r, c, rfl, h1, h2, h3⟩

/-! ### When and how a refusal is reported -/

/-- A piece whose verdict is final while the graph is built. -/
def Early (c : Check) : Prop := c.err = none → c.run = true

theorem Early.then {a b : Check} (ha : Early a) (hb : Early b) : Early (a.then b) := by
  obtain ⟨e, r⟩ := a
  cases e with
  | some e => intro h; simp [Check.then] at h
  | none =>
    have : r = true := ha rfl
    subst this
    intro h
    simpa [Check.then] using hb (by simpa [Check.then] using h)

theorem Early.of_pass_or {c : Check} (h : c.ok = true ∨ c.err ≠ none) : Early c := by
  rcases h with h | h
  · rw [ok_iff] at h; subst h; intro _; rfl
  · intro h'; exact absurd h' h

theorem ofGuard_early {α : Type} {x : Except Err α} (h : x ≠ .error .runError) :
    Early (Check.ofGuard x) := by
  cases x with
  | ok y => intro _; rfl
  | error e => cases e <;> first | exact absurd rfl h | (intro h'; simp [Check.ofGuard] at h')

theorem sameDtype_early {D : Type} [DecidableEq D] (ts : List D) (o : Option (List D)) :
    assertSameDtypeIn ts o ≠ .error .runError := by
  intro h
  have := C17_same_dtype_error ts o _ h
  cases this

theorem sameFloat_early (ts : List T) : Early (sameFloat ts) :=
  ofGuard_early (sameDtype_early _ _)

theorem dtypeIn_early (d : DType) (l : List DType) : Early (Check.ofGuard (assertDtypeInDtypes d l)) := by
  apply ofGuard_early
  unfold assertDtypeInDtypes
  split_ifs <;> simp

theorem staticBroadcast_early (x y : T) : Early (staticBroadcast x y) := by
  unfold staticBroadcast
  split_ifs
  · intro h; simp at h
  · intro _; rfl

theorem isPy_cases {g : PyArg} (h : Args.PyCount.IsPy g) :
    (∃ b, g = .bool b) ∨ (∃ n, g = .int n) ∨ g = .float ∨ g = .obj none := by
  cases g with
  | bool b => exact .inl ⟨b, rfl⟩
  | int n => exact .inr (.inl ⟨n, rfl⟩)
  | float => simp
  | obj o =>
    cases o with
    | none => simp
    | some t => exact absurd rfl (h t)

theorem baseInit_early {g : PyArg} (h : Args.PyCount.IsPy g) : Early (baseInit g) := by
  apply ofGuard_early
  rcases isPy_cases h with ⟨b, rfl⟩ | ⟨n, rfl⟩ | rfl | rfl <;> simp only [checkGroupNdims] <;>
    (try split_ifs) <;> simp

theorem binomialCount_early {g : PyArg} (h : Args.PyCount.IsPy g) :
    Early (Check.ofGuard (checkNExperiments g)) := by
  apply ofGuard_early
  rcases isPy_cases h with ⟨b, rfl⟩ | ⟨n, rfl⟩ | rfl | rfl <;> simp only [checkNExperiments] <;>
    (try split_ifs) <;> simp

theorem multinomialCount_early {n : Option PyArg} (h : ∀ n' ∈ n, Args.PyCount.IsPy n') :
    Early (multinomialCount n) := by
  cases n with
  | none => intro _; rfl
  | some g =>
    apply ofGuard_early
    rcases isPy_cases (h g rfl) with ⟨b, rfl⟩ | ⟨n, rfl⟩ | rfl | rfl <;>
      simp only [assertPositiveInt32Scalar] <;> (try split_ifs) <;> simp

theorem known_wf {x : T} (h : Args.FullyKnown.known x) : x.shape.WF := by
  unfold P.WF
  rw [h.1]
  show List.Forall₂ _ _ _
  have : x.dims = x.shape.rt := rfl
  rw [this]
  induction x.shape.rt with
  | nil => exact .nil
  | cons a l ih => exact .cons (.inr rfl) ih

theorem rankAtLeast_early {x : T} (h : Args.FullyKnown.known x) (k : ℕ) : Early (rankAtLeast x k) := by
  unfold rankAtLeast assertRankAtLeast
  rw [h.1]
  simp only
  split_ifs
  · intro h; simp [Check.ofVerdict] at h
  · intro _; rfl

theorem scalar_early {x : T} (h : Args.FullyKnown.known x) : Early (scalar x) := by
  unfold scalar assertScalar
  rw [h.1]
  simp only
  split_ifs with h1 h2
  · intro h; simp [Check.ofVerdict] at h
  · exact absurd (by simpa [T.dims] using h1) h2
  · intro _; rfl

theorem dirichletShape_early {x : T} (h : Args.FullyKnown.known x) : Early (dirichletShape x) := by
  unfold dirichletShape
  rw [h.1]
  simp only
  split_ifs with h1
  · intro h; simp at h
  · obtain ⟨b, k, hbk⟩ := (one_le_length_iff x.dims).1 (by rw [List.length_map] at h1; omega)
    have : (x.dims.map some).getLast? = some (some k) := by rw [hbk]; simp
    rw [this]
    simp only
    split_ifs
    · intro h; simp at h
    · intro _; rfl

theorem compatDims_known {a b : List ℕ} (h : compatDims (a.map some) (b.map some) = true) : a = b := by
  induction a generalizing b with
  | nil => cases b with
    | nil => rfl
    | cons _ _ => simp [compatDims] at h
  | cons x a ih =>
    cases b with
    | nil => simp [compatDims] at h
    | cons y b =>
      simp only [List.map_cons, compatDims, Bool.and_eq_true, compatDim, decide_eq_true_eq] at h
      rw [h.1, ih h.2]

theorem shapeListFrom_pos (i : ℕ) (l : List ℕ) (h : ∀ n ∈ l, 0 < n) :
    shapeListFrom i (l.map some) = l.map Size.static := by
  induction l generalizing i with
  | nil => rfl
  | cons x l ih =>
    obtain ⟨m, rfl⟩ : ∃ m, x = m + 1 := ⟨x - 1, by have := h x (by simp); omega⟩
    simp only [List.map_cons, shapeListFrom]
    rw [ih _ (fun n hn => h n (by simp [hn]))]

theorem pyIndex_map {α β : Type} (f : α → β) (l : List α) (i : ℤ) :
    pyIndex (l.map f) i = (pyIndex l i).map f := by
  unfold pyIndex
  split_ifs <;> simp_all

theorem intAt_known {x : T} (h : Args.FullyKnown.known x) {i : ℤ} {k : ℕ}
    (hk : pyIndex x.shape.rt i = some k) : intAt x.shape.st i = some k := by
  unfold intAt
  rw [h.1]
  have e : getShapeList (some (x.dims.map some)) = some (x.dims.map Size.static) := by
    simp [getShapeList, Static.truthy, shapeListFrom_pos 0 x.dims h.2]
  rw [e]
  have hi : pyIndex (x.dims.map Size.static) i = some (Size.static k) := by
    rw [pyIndex_map]; show Option.map _ (pyIndex x.shape.rt i) = _; rw [hk]; rfl
  cases hd : x.dims.map Size.static with
  | nil =>
    rw [hd] at hi
    unfold pyIndex at hi
    split_ifs at hi <;> simp at hi
  | cons z zs => rw [hd] at hi; simp only [hi]

theorem atRun_err (r : Option Bool) : (atRun r).err = none := rfl

theorem then_err_none {a b : Check} : (a.then b).err = none ↔ a.err = none ∧ b.err = none := by
  obtain ⟨e, r⟩ := a
  cases e <;> simp [Check.then]

theorem then_run {a b : Check} (ha : a.err = none) : (a.then b).run = (a.run && b.run) := by
  obtain ⟨e, r⟩ := a
  simp only at ha
  subst ha
  rfl

theorem ok_of_early {c : Check} (h : Early c) (h' : c.err = none) : c.ok = true := by
  unfold Check.ok
  rw [h', h h']; rfl

theorem compatible_known {a b : List ℕ} (h : (assertCompatible (some (a.map some)) (some (b.map some))).err = none) :
    a = b := by
  unfold assertCompatible at h
  simp only at h
  split_ifs at h with hc
  · exact compatDims_known hc

theorem mvn_early {m c : T} {g : PyArg} (hm : Args.FullyKnown.known m) (hc : Args.FullyKnown.known c)
    (hg : Args.PyCount.IsPy g) : Early (mvnInit m c g) := by
  unfold mvnInit
  intro h
  simp only [then_err_none] at h
  obtain ⟨h1, h2, h3, _, h5, h6⟩ := h
  have o1 := ok_of_early (rankAtLeast_early hm 1) h1
  have o2 := ok_of_early (rankAtLeast_early hc 2) h2
  have o5 := ok_of_early (sameFloat_early _) h5
  have o6 := ok_of_early (baseInit_early hg) h6
  obtain ⟨b, k, hbk⟩ := (one_le_length_iff _).1 ((rankAtLeast_ok (known_wf hm) 1).1 o1)
  have hbk' : m.shape.rt = b ++ [k] := hbk
  have hk : intAt m.shape.st (-1) = some k := intAt_known hm (by rw [hbk', pyIndex_last])
  have hcd : c.dims = b ++ [k, k] := by
    rw [hk, hm.1, hc.1, Static.concat] at h3
    have := compatible_known (a := c.dims) (b := m.dims ++ [k]) (by simpa using h3)
    rw [this, hbk]; simp
  have := (mvn_ok (known_wf hm) (known_wf hc) ((sameFloat [m, c]).then (baseInit g))).2
    ⟨⟨b, k, hbk, hcd⟩, then_ok.2 ⟨o5, o6⟩⟩
  rw [ok_iff] at this
  rw [this]; rfl

theorem matrix_early {m u v : T} {g : PyArg} (hm : Args.FullyKnown.known m) (hu : Args.FullyKnown.known u)
    (hv : Args.FullyKnown.known v) (hg : Args.PyCount.IsPy g) : Early (matrixNormalInit m u v g) := by
  unfold matrixNormalInit
  intro h
  simp only [then_err_none] at h
  obtain ⟨h1, h2, h2', h3, h4, _, _, h5, h6⟩ := h
  have o1 := ok_of_early (rankAtLeast_early hm 2) h1
  have o5 := ok_of_early (sameFloat_early _) h5
  have o6 := ok_of_early (baseInit_early hg) h6
  obtain ⟨b, r, c, hbk⟩ := (two_le_length_iff _).1 ((rankAtLeast_ok (known_wf hm) 2).1 o1)
  have hbk' : m.shape.rt = b ++ [r, c] := hbk
  obtain ⟨p1, p2⟩ := pyIndex_last2 b r c
  have hr : intAt m.shape.st (-2) = some r := intAt_known hm (by rw [hbk', p1])
  have hc : intAt m.shape.st (-1) = some c := intAt_known hm (by rw [hbk', p2])
  have hud : u.dims = b ++ [r, r] := by
    rw [hr, hm.1, hu.1] at h3
    have := compatible_known (a := u.dims) (b := m.dims.take (m.dims.length - 1) ++ [r])
      (by simpa [Static.concat, Static.dropEnd] using h3)
    rw [this, hbk, show b ++ [r, c] = (b ++ [r]) ++ [c] by simp]
    simp [List.take_append]
  have hvd : v.dims = b ++ [c, c] := by
    rw [hc, hm.1, hv.1] at h4
    have := compatible_known (a := v.dims) (b := m.dims.take (m.dims.length - 2) ++ [c, c])
      (by simpa [Static.concat, Static.dropEnd] using h4)
    rw [this, hbk]; simp
  have := (matrix_ok (known_wf hm) (known_wf hu) (known_wf hv)
    ((sameFloat [m, u, v]).then (baseInit g))).2 ⟨⟨b, r, c, hbk, hud, hvd⟩, then_ok.2 ⟨o5, o6⟩⟩
  rw [ok_iff] at this
  rw [this]; rfl

/-- When all shapes are known while the graph is built (and the counts are Python numbers), every refusal is an
exception of the constructor: nothing is left to fail at run time. -/
theorem C73_build_time (a : Args) (g : PyArg) (hk : a.FullyKnown) (hn : a.PyCount)
    (hg : Args.PyCount.IsPy g) (h : (a.init g).err = none) : (a.init g).run = true := by
  suffices Early (a.init g) from this h
  cases a with
  | normal x y | foldNormal x y =>
    exact (sameFloat_early _).then ((staticBroadcast_early _ _).then (baseInit_early hg))
  | uniform x y | gamma x y | beta x y | inverseGamma x y | laplace x y =>
    exact (sameFloat_early _).then ((staticBroadcast_early _ _).then (baseInit_early hg))
  | bernoulli l d | poisson l d =>
    exact (sameFloat_early _).then ((dtypeIn_early _ _).then (baseInit_early hg))
  | categorical l d =>
    exact Early.then (ofGuard_early (sameDtype_early _ _)) ((dtypeIn_early _ _).then
      ((rankAtLeast_early hk 1).then (baseInit_early hg)))
  | binomial l n d =>
    exact (sameFloat_early _).then ((dtypeIn_early _ _).then
      ((binomialCount_early hn).then (baseInit_early hg)))
  | binConcrete t l =>
    exact (sameFloat_early _).then ((scalar_early hk.1).then (baseInit_early hg))
  | mvn m c => exact mvn_early hk.1 hk.2 hg
  | multinomial l n d =>
    exact (sameFloat_early _).then ((dtypeIn_early _ _).then
      ((rankAtLeast_early hk 1).then ((multinomialCount_early hn).then (baseInit_early hg))))
  | unnormalizedMultinomial l d | onehot l d =>
    exact (sameFloat_early _).then ((dtypeIn_early _ _).then
      ((rankAtLeast_early hk 1).then (baseInit_early hg)))
  | dirichlet x =>
    exact (sameFloat_early _).then ((dirichletShape_early hk).then (baseInit_early hg))
  | expConcrete t l | concrete t l =>
    exact (sameFloat_early _).then ((rankAtLeast_early hk.2 1).then
      ((scalar_early hk.1).then (baseInit_early hg)))
  | matrixNormal m u v => exact matrix_early hk.1 hk.2.1 hk.2.2 hg

/-- For fully known shapes the two-parameter families, too, accept exactly the documented arguments. -/
theorem C73_pairs_known (a : Args) (g : PyArg) (hg : WellFormed g) (hk : a.FullyKnown) (x y : T)
    (hp : a.Pair = some (x, y)) :
    (a.init g).ok = true ↔ a.ShapeOK ∧ a.DtypeOK ∧ GroupOK g := by
  have hxy : Args.FullyKnown.known x ∧ Args.FullyKnown.known y := by
    cases a <;> simp only [Args.Pair, Option.some.injEq, Prod.mk.injEq, reduceCtorEq] at hp <;>
      (obtain ⟨rfl, rfl⟩ := hp; exact hk)
  obtain ⟨e1, e2, _, _⟩ := pair_shapeOK hp
  rw [C73_pairs a g hg x y hp, e1, e2, hxy.1.1, hxy.2.1, C12_static_exact]
  have : ((bcast x.dims y.dims).map (fun c => some (c.map some)) : Option Static) ≠ none ↔
      Compatible x.dims y.dims := by
    rw [← not_iff_not, ← C12_fails_iff]
    simp
  rw [this]
  tauto

theorem dtype_typeError_of_guard {α : Type} {x : Except Err α} (hx : ∀ e, x = .error e → e = .typeError)
    (h : (Check.ofGuard x).ok ≠ true) : (Check.ofGuard x).err = some .typeError := by
  cases x with
  | ok y => simp [Check.ofGuard, Check.ok, Check.pass] at h
  | error e => rw [hx e rfl]; rfl

theorem sameFloat_typeError {ts : List T} (h : (sameFloat ts).ok ≠ true) :
    (sameFloat ts).err = some .typeError :=
  dtype_typeError_of_guard (fun e he => C17_same_dtype_error _ _ e he) h

theorem dtypeIn_typeError {d : DType} {l : List DType}
    (h : (Check.ofGuard (assertDtypeInDtypes d l)).ok ≠ true) :
    (Check.ofGuard (assertDtypeInDtypes d l)).err = some .typeError := by
  apply dtype_typeError_of_guard _ h
  intro e he
  unfold assertDtypeInDtypes at he
  split_ifs at he
  exact (Except.error.inj he).symm

theorem err_then_left {a b : Check} {e : Err} (h : a.err = some e) : (a.then b).err = some e := by
  obtain ⟨e', r⟩ := a
  simp only at h
  subst h
  rfl

theorem err_then_right {a b : Check} {e : Err} (ha : a.err = none) (h : b.err = some e) :
    (a.then b).err = some e := by
  obtain ⟨e', r⟩ := a
  simp only at ha
  subst ha
  exact h

theorem err_none_of_ok {c : Check} (h : c.ok = true) : c.err = none := by
  rw [ok_iff] at h; rw [h]; rfl

/-- Wrong dtypes with shapes that are right are reported as a `TypeError` of the constructor. -/
theorem C73_dtype_error (a : Args) (g : PyArg) (hw : a.WF) (hs : a.ShapeOK) (hd : ¬ a.DtypeOK) :
    (a.init g).err = some .typeError := by
  have step : ∀ {c r : Check} (p : Prop), (c.ok = true ↔ p) → (c.ok ≠ true → c.err = some .typeError) →
      (p → r.err = some .typeError) → (c.then r).err = some .typeError := by
    intro c r p h1 h2 h3
    by_cases hc : c.ok = true
    · exact err_then_right (err_none_of_ok hc) (h3 (h1.1 hc))
    · exact err_then_left (h2 hc)
  cases a with
  | normal x y | foldNormal x y | uniform x y | gamma x y | beta x y | inverseGamma x y
  | laplace x y =>
    exact step _ (sameFloat_two x y) sameFloat_typeError (fun h => absurd h hd)
  | bernoulli l d | poisson l d | binomial l n d =>
    exact step _ (sameFloat_one l) sameFloat_typeError (fun h =>
      step _ (intOrFloat_ok d) dtypeIn_typeError (fun h' => absurd ⟨h, h'⟩ hd))
  | multinomial l n d | unnormalizedMultinomial l d | onehot l d =>
    exact step _ (sameFloat_one l) sameFloat_typeError (fun h =>
      step _ (intOrFloat_ok d) dtypeIn_typeError (fun h' => absurd ⟨h, h'⟩ hd))
  | categorical l d =>
    exact step _ (categoricalLogits_ok l)
      (dtype_typeError_of_guard (fun e he => C17_same_dtype_error _ _ e he)) (fun h =>
      step _ (categoricalDtype_ok d) dtypeIn_typeError (fun h' => absurd ⟨h, h'⟩ hd))
  | binConcrete t l | expConcrete t l | concrete t l =>
    exact step _ (sameFloat_two' t l) sameFloat_typeError (fun h => absurd h hd)
  | dirichlet x => exact step _ (sameFloat_one x) sameFloat_typeError (fun h => absurd h hd)
  | mvn m c =>
    have h0 := (mvn_ok hw.1 hw.2 .pass).2 ⟨hs, rfl⟩
    simp only [then_ok] at h0
    obtain ⟨h1, h2, h3, h4, _⟩ := h0
    refine err_then_right (err_none_of_ok h1) (err_then_right (err_none_of_ok h2)
      (err_then_right (err_none_of_ok h3) (err_then_right (err_none_of_ok h4) ?_)))
    exact step _ (sameFloat_two m c) sameFloat_typeError (fun h => absurd h hd)
  | matrixNormal m u v =>
    have h0 := (matrix_ok hw.1 hw.2.1 hw.2.2 .pass).2 ⟨hs, rfl⟩
    simp only [then_ok] at h0
    obtain ⟨h1, h2, h3, h4, h5, h6, h7, _⟩ := h0
    refine err_then_right (err_none_of_ok h1) (err_then_right (err_none_of_ok h2)
      (err_then_right (err_none_of_ok h3) (err_then_right (err_none_of_ok h4)
      (err_then_right (err_none_of_ok h5) (err_then_right (err_none_of_ok h6)
      (err_then_right (err_none_of_ok h7) ?_))))))
    exact step _ (sameFloat_three m u v) sameFloat_typeError (fun h => absurd h hd)

/-! ### Concrete cases -/

/-- A partially known mean and a covariance factor of unknown rank meet the hypotheses. -/
example : let a := Args.mvn ⟨.float32, ⟨some [none, some 3], [5, 3]⟩⟩ ⟨.float32, ⟨none, [5, 3, 3]⟩⟩
    a.WF ∧ WellFormed (.int 1) ∧ a.ShapeOK ∧ a.DtypeOK ∧ a.CountOK ∧ GroupOK (.int 1) ∧ a.Pair = none :=
  ⟨⟨.cons (.inl rfl) (.cons (.inr rfl) .nil), trivial⟩, trivial, ⟨[5], 3, rfl, rfl⟩,
    ⟨.inr (.inl rfl), rfl⟩, trivial, ⟨1, rfl, by decide⟩, rfl⟩

/-- The same with a covariance factor of the wrong shape: accepted while building, refused at run time. -/
example : (Args.mvn ⟨.float32, ⟨some [none, some 3], [5, 3]⟩⟩ ⟨.float32, ⟨none, [5, 3, 2]⟩⟩).init (.int 0) =
    ⟨none, false⟩ := by decide

/-- With everything known the same call raises. -/
example : (Args.mvn ⟨.float32, ⟨some [some 5, some 3], [5, 3]⟩⟩
    ⟨.float32, ⟨some [some 5, some 3, some 2], [5, 3, 2]⟩⟩).init (.int 0) = ⟨some .valueError, true⟩ := by decide

/-- A size 0 is treated as unknown, so that this mismatch is found only at run time (`C73_build_time` asks for
positive sizes). -/
example : (Args.mvn ⟨.float32, ⟨some [some 0], [0]⟩⟩
    ⟨.float32, ⟨some [some 0, some 2], [0, 2]⟩⟩).init (.int 0) = ⟨none, false⟩ := by decide

/-- Two parameters that do not broadcast and of which nothing is known pass the constructor (`C73_pairs_late`). -/
example : let a := Args.normal ⟨.float32, ⟨none, [2]⟩⟩ ⟨.float32, ⟨none, [3]⟩⟩
    (a.init (.int 0)).ok = true ∧ bcast [2] [3] = none := by decide

end ZhuSuan.Ctors

import Verif.Lemmas.Tensor

/-!
# C11, C12, C13, C16: shapes and broadcasting
-/

set_option autoImplicit false

namespace ZhuSuan.Shape

/-! ## C12 broadcasting -/

/-- Run-time broadcasting returns the least shape both operands expand to. -/
theorem C12_least_upper_bound (a b c : List ℕ) : bcast a b = some c ↔ IsBroadcast a b c := by
  constructor
  · intro h
    exact ⟨(bcast_expands h).1, (bcast_expands h).2, fun d h1 h2 => bcast_least h h1 h2⟩
  · rintro ⟨h1, h2, h3⟩
    cases hb : bcast a b with
    | none => exact absurd ⟨c, h1, h2⟩ (bcast_none_iff.1 hb)
    | some d =>
      have g1 := bcast_least hb h1 h2
      have g2 := h3 d (bcast_expands hb).1 (bcast_expands hb).2
      rw [expands_antisymm g1 g2]

/-- It fails exactly when no shape accommodates both. -/
theorem C12_fails_iff (a b : List ℕ) : bcast a b = none ↔ ¬ Compatible a b := bcast_none_iff

theorem C12_comm (a b : List ℕ) : bcast a b = bcast b a := bcast_comm a b

/-- Associativity, including failure: both orders fail together and give the same shape. -/
theorem C12_assoc (a b c : List ℕ) :
    (bcast a b).bind (fun ab => bcast ab c) = (bcast b c).bind (fun bc => bcast a bc) := by
  have h := zipLongest_assoc (fill := 1) (f := dim) dim_one_left dim_one_right dim_assoc
    a.reverse b.reverse c.reverse
  have e1 : (bcast a b).bind (fun ab => bcast ab c) =
      ((zipLongest 1 dim a.reverse b.reverse).bind
        (fun u => zipLongest 1 dim u c.reverse)).map List.reverse := by
    unfold bcast
    cases zipLongest 1 dim a.reverse b.reverse <;> simp
  have e2 : (bcast b c).bind (fun bc => bcast a bc) =
      ((zipLongest 1 dim b.reverse c.reverse).bind
        (fun u => zipLongest 1 dim a.reverse u)).map List.reverse := by
    unfold bcast
    cases zipLongest 1 dim b.reverse c.reverse <;> simp
  rw [e1, e2, h]

theorem C12_idem (a : List ℕ) : bcast a a = some a := bcast_self a

theorem C12_unit (a : List ℕ) : bcast [] a = some a ∧ bcast a [] = some a :=
  ⟨bcast_eq_of_expands (expands_nil a), bcast_eq_of_expands' (expands_nil a)⟩

/-- Static broadcasting over-approximates run time: an error when the graph is built means the
run-time shapes do not broadcast, and otherwise the run-time result is one the static result admits. -/
theorem C12_static_sound (s t : Static) (a b : List ℕ) (hs : Admits s a) (ht : Admits t b) :
    (sbcast s t = none → ¬ Compatible a b) ∧
    (∀ u c, sbcast s t = some u → IsBroadcast a b c → Admits u c) := by
  obtain ⟨h1, h2⟩ := sbcast_sound hs ht
  exact ⟨fun h => bcast_none_iff.1 (h1 h),
    fun u c hu hc => h2 u c hu ((C12_least_upper_bound a b c).2 hc)⟩

/-- On fully known shapes the static operation is exactly the run-time one. -/
theorem C12_static_exact (a b : List ℕ) :
    sbcast (some (a.map some)) (some (b.map some)) =
      (bcast a b).map (fun c => some (c.map some)) := sbcast_known a b

example : bcast [2, 1, 3] [4, 1] = some [2, 4, 3] := rfl
example : bcast [2, 3] [4, 3] = none := rfl
example : sbcast (some [none, some 3]) (some [some 2, some 1]) = some (some [some 2, some 3]) := rfl
/-- The hypotheses of `C12_static_sound` are met by a partially known pair. -/
example : Admits (some [none, some 3]) [2, 3] ∧ Admits none [2, 1] :=
  ⟨.cons (.inl rfl) (.cons (.inr rfl) .nil), trivial⟩

/-! ## C11 observation shape check -/

/-- An observation is refused only if, at run time, it could not broadcast with
`batch_shape + value_shape`. -/
theorem C11_refused_only_if_incompatible (batch value obs : Static) (b v o : List ℕ)
    (hb : Admits batch b) (hv : Admits value v) (ho : Admits obs o)
    (h : checkObservation batch value obs = false) : ¬ Compatible (b ++ v) o := by
  have h1 := (sbcast_sound (admits_concat hb hv) ho).1
  have h2 : sbcast (batch.concat value) obs = none := by
    unfold checkObservation at h
    exact Option.isNone_iff_eq_none.1 (by simpa using h)
  exact bcast_none_iff.1 (h1 h2)

/-- With fully known shapes it is accepted exactly when it broadcasts. -/
theorem C11_exact_when_known (batch value obs : Static) (b v o : List ℕ)
    (hb : Admits batch b) (hv : Admits value v) (ho : Admits obs o)
    (kb : batch.fullyDefined = true) (kv : value.fullyDefined = true)
    (ko : obs.fullyDefined = true) :
    checkObservation batch value obs = true ↔ Compatible (b ++ v) o := by
  rw [admits_fully hb kb, admits_fully hv kv, admits_fully ho ko]
  unfold checkObservation Static.concat
  simp only
  rw [← List.map_append, sbcast_known, Option.isSome_map]
  cases hc : bcast (b ++ v) o with
  | none => simp [bcast_none_iff.1 hc]
  | some c => simpa using ⟨c, bcast_expands hc⟩

/-- The same two statements for the check `log_prob`/`prob` make on their argument. -/
theorem C11_given_refused_only_if_incompatible (batch value given : Static) (b v g : List ℕ)
    (hb : Admits batch b) (hv : Admits value v) (hg : Admits given g)
    (h : checkInputShape batch value given = false) : ¬ Compatible g (b ++ v) := by
  have h1 := (sbcast_sound hg (admits_concat hb hv)).1
  unfold checkInputShape at h
  split_ifs at h
  exact bcast_none_iff.1 (h1 (Option.isNone_iff_eq_none.1 (by simpa using h)))

theorem C11_given_exact_when_known (batch value given : Static) (b v g : List ℕ)
    (hb : Admits batch b) (hv : Admits value v) (hg : Admits given g)
    (kb : batch.fullyDefined = true) (kv : value.fullyDefined = true)
    (kg : given.fullyDefined = true) :
    checkInputShape batch value given = true ↔ Compatible g (b ++ v) := by
  rw [admits_fully hb kb, admits_fully hv kv, admits_fully hg kg]
  unfold checkInputShape Static.concat Static.truthy
  simp only [Option.isSome_some, Bool.and_self, if_true]
  rw [← List.map_append, sbcast_known, Option.isSome_map]
  cases hc : bcast g (b ++ v) with
  | none => simp [bcast_none_iff.1 hc]
  | some c => simpa using ⟨c, bcast_expands hc⟩

example : checkObservation (some [some 2]) (some [some 3]) (some [some 5, some 2, some 3]) = true := rfl
example : checkObservation (some [some 2]) (some [some 3]) (some [some 3, some 3]) = false := rfl
example : checkObservation (some [none]) (some [some 3]) (some [some 2, some 4]) = false := rfl

/-! ## C13 explicit broadcasting -/

section
variable {α : Type} [MulOneClass α]

theorem broadcastOf_of_proj {x t : Tensor α} {c : List ℕ} (hs : t.shape = c)
    (he : Expands x.shape c) (hv : ∀ idx, t.val idx = x.val (projIdx x.shape idx)) :
    IsBroadcastOf t x c :=
  ⟨hs, fun idx hi => ⟨projIdx x.shape idx, inBounds_projIdx he hi, comesFrom_projIdx he hi, hv idx⟩⟩

/-- `explicit_broadcast` returns both tensors broadcast to the common shape. -/
theorem C13_explicit (x y x' y' : STensor α) (h : explicitBroadcast x y = .ok (x', y')) :
    ∃ c, IsBroadcast x.rt.shape y.rt.shape c ∧
      IsBroadcastOf x'.rt x.rt c ∧ IsBroadcastOf y'.rt y.rt c := by
  rcases explicitBroadcast_cases x y with h1 | h1 | ⟨x1, y1, c, h1, _, hc, sx, sy, _, _, vx, vy⟩
  · rw [h1.1] at h; cases h
  · rw [h1.1] at h; cases h
  · rw [h1] at h
    cases h
    exact ⟨c, (C12_least_upper_bound _ _ _).1 hc, broadcastOf_of_proj sx (bcast_expands hc).1 vx,
      broadcastOf_of_proj sy (bcast_expands hc).2 vy⟩

/-- `ValueError` is raised exactly when the static shapes are incompatible, and then no run of the
graph could have broadcast the tensors. -/
theorem C13_explicit_valueError (x y : STensor α) (hx : Admits x.static x.rt.shape)
    (hy : Admits y.static y.rt.shape) :
    (explicitBroadcast x y = .valueError ↔ sbcast x.static y.static = none) ∧
    (explicitBroadcast x y = .valueError → ¬ Compatible x.rt.shape y.rt.shape) := by
  rcases explicitBroadcast_cases x y with h1 | h1 | ⟨x1, y1, c, h1, hs, hc, _⟩
  · exact ⟨by simp [h1.1, h1.2], fun _ => bcast_none_iff.1 ((sbcast_sound hx hy).1 h1.2)⟩
  · refine ⟨?_, ?_⟩
    · rw [h1.1]
      constructor
      · intro h; cases h
      · intro h; rw [h] at h1; simp at h1
    · rw [h1.1]; intro h; cases h
  · refine ⟨?_, ?_⟩
    · rw [h1]
      constructor
      · intro h; cases h
      · intro h; rw [h] at hs; simp at hs
    · rw [h1]; intro h; cases h

/-- Compatible run-time shapes are always broadcast. -/
theorem C13_explicit_succeeds (x y : STensor α) (hx : Admits x.static x.rt.shape)
    (hy : Admits y.static y.rt.shape) (h : Compatible x.rt.shape y.rt.shape) :
    ∃ x' y', explicitBroadcast x y = .ok (x', y') ∧
      Admits x'.static x'.rt.shape ∧ Admits y'.static y'.rt.shape := by
  rcases explicitBroadcast_cases x y with h1 | h1 |
      ⟨x1, y1, c, h1, _, hc, sx, sy, tx, ty, _⟩
  · exact absurd h (bcast_none_iff.1 ((sbcast_sound hx hy).1 h1.2))
  · exact absurd h (bcast_none_iff.1 h1.2.2)
  · refine ⟨x1, y1, h1, ?_, ?_⟩
    · rw [sx]; exact (sbcast_sound hx hy).2 _ _ tx hc
    · rw [sy]
      have a1 : Admits x1.static c := (sbcast_sound hx hy).2 _ _ tx hc
      exact (sbcast_sound hy a1).2 _ _ ty (bcast_eq_of_expands (bcast_expands hc).2)

/-- `maybe_explicit_broadcast` has the same outcome as `explicit_broadcast` in every branch: it fails
together with it, and otherwise returns the same shapes and entries. -/
theorem C13_maybe_same (x y : STensor α) (hx : Admits x.static x.rt.shape)
    (hy : Admits y.static y.rt.shape) :
    (maybeExplicitBroadcast x y = .valueError ∧ explicitBroadcast x y = .valueError) ∨
    (maybeExplicitBroadcast x y = .runError ∧ explicitBroadcast x y = .runError) ∨
    (∃ a b a' b', maybeExplicitBroadcast x y = .ok (a, b) ∧ explicitBroadcast x y = .ok (a', b') ∧
      SameTensor a.rt a'.rt ∧ SameTensor b.rt b'.rt) := by
  have same : ∀ o, o = explicitBroadcast x y →
      (o = .valueError ∧ explicitBroadcast x y = .valueError) ∨
      (o = .runError ∧ explicitBroadcast x y = .runError) ∨
      (∃ a b a' b', o = .ok (a, b) ∧ explicitBroadcast x y = .ok (a', b') ∧
        SameTensor a.rt a'.rt ∧ SameTensor b.rt b'.rt) := by
    intro o ho
    subst ho
    rcases explicitBroadcast_cases x y with h1 | h1 | ⟨x1, y1, c, h1, _⟩
    · exact .inl ⟨h1.1, h1.1⟩
    · exact .inr (.inl ⟨h1.1, h1.1⟩)
    · exact .inr (.inr ⟨x1, y1, x1, y1, h1, h1, ⟨rfl, fun _ _ => rfl⟩, ⟨rfl, fun _ _ => rfl⟩⟩)
  by_cases hsame : x.static = y.static ∧ x.static.fullyDefined = true
  · right; right
    obtain ⟨he, hf⟩ := hsame
    have ex := admits_fully hx hf
    have ey := admits_fully hy (he ▸ hf)
    have hsh : x.rt.shape = y.rt.shape := by
      have h0 := ex.symm.trans (he.trans ey)
      simp only [Option.some.injEq] at h0
      have := congrArg (List.map (fun o => Option.getD o 0)) h0
      simpa [Function.comp_def] using this
    have hm : maybeExplicitBroadcast x y = .ok (x, y) := by
      unfold maybeExplicitBroadcast
      have t1 : x.static.truthy = true := by rw [ex]; rfl
      have t2 : y.static.truthy = true := by rw [ey]; rfl
      have f2 : y.static.fullyDefined = true := he ▸ hf
      simp [t1, t2, hf, f2, he]
    rcases explicitBroadcast_cases x y with h1 | h1 | ⟨x1, y1, c, h1, _, hc, sx, sy, _, _, vx, vy⟩
    · have := bcast_none_iff.1 ((sbcast_sound hx hy).1 h1.2)
      exact absurd ⟨x.rt.shape, expands_refl _, hsh ▸ expands_refl _⟩ this
    · have := bcast_none_iff.1 h1.2.2
      exact absurd ⟨x.rt.shape, expands_refl _, hsh ▸ expands_refl _⟩ this
    · rw [← hsh, bcast_self] at hc
      simp only [Option.some.injEq] at hc
      refine ⟨x, y, x1, y1, hm, h1, ⟨by rw [sx, hc], ?_⟩, ⟨by rw [sy, ← hc, hsh], ?_⟩⟩
      · intro idx hi; rw [vx, projIdx_self hi]
      · intro idx hi; rw [vy, projIdx_self hi]
  · apply same
    unfold maybeExplicitBroadcast
    by_cases h1 : (!(x.static.truthy && y.static.truthy)) = true
    · rw [if_pos h1]
    · rw [if_neg h1]
      by_cases h2 : x.static.map List.length ≠ y.static.map List.length
      · rw [if_pos h2]
      · rw [if_neg h2]
        by_cases h3 : (x.static.fullyDefined && y.static.fullyDefined) = true
        · rw [if_pos h3]
          by_cases h4 : x.static ≠ y.static
          · rw [if_pos h4]
          · exact absurd ⟨not_not.1 h4, (by simp at h3; exact h3.1)⟩ hsame
        · rw [if_neg h3]

/-- `is_same_dynamic_shape` decides equality of the run-time shapes. -/
theorem C13_is_same_dynamic_shape (x y : List ℕ) : isSameDynamicShape x y = true ↔ x = y := by
  have key : ∀ (u v : List ℕ), u.length = v.length →
      ((u.zipWith (fun a b => decide (a = b)) v).all id = true ↔ u = v) := by
    intro u
    induction u with
    | nil => intro v hv; cases v with
      | nil => simp
      | cons _ _ => simp at hv
    | cons a u ih =>
      intro v hv
      cases v with
      | nil => simp at hv
      | cons b v =>
        simp only [List.length_cons, Nat.add_right_cancel_iff] at hv
        simp [ih v hv]
  unfold isSameDynamicShape
  split_ifs with hl
  · rw [key _ _ (by simp [hl, Nat.add_comm])]
    constructor
    · intro h; exact (List.append_inj h hl).1
    · rintro rfl; rfl
  · constructor
    · intro h; cases h
    · rintro rfl; exact absurd rfl hl

end

/-- A concrete success with different ranks and a partially known shape. -/
example : ∃ r, explicitBroadcast (α := ℕ)
    ⟨some [none, some 1], ⟨[2, 1], fun i => i.sum + 5⟩⟩ ⟨some [some 3], ⟨[3], fun i => i.sum⟩⟩ = .ok r ∧
      r.1.rt.shape = [2, 3] ∧ r.1.rt.val [1, 2] = 6 ∧ r.2.rt.val [1, 2] = 2 :=
  ⟨_, rfl, rfl, rfl, rfl⟩

/-! ## C16 static helpers -/

/-- `get_shape_list` reports the run-time sizes (or `None` when the rank is unknown). -/
theorem C16_get_shape_list (s : Static) (d : List ℕ) (h : Admits s d) :
    match getShapeList s with
    | some l => l.map (Size.eval d) = d.map some
    | none => s = none := by
  unfold getShapeList
  cases s with
  | none => rfl
  | some l =>
    have := shapeListFrom_eval l d [] h
    simpa [Static.truthy] using this

/-- A size reported as a Python `int` is the run-time size, a positive one. -/
theorem C16_get_shape_list_ints (s : Static) (d : List ℕ) (h : Admits s d) (l : List Size)
    (hl : getShapeList s = some l) (i n : ℕ) (hi : l[i]? = some (Size.static n)) :
    d[i]? = some n := by
  have h1 := C16_get_shape_list s d h
  rw [hl] at h1
  simp only at h1
  have h2 := congrArg (fun l => l[i]?) h1
  simp only [List.getElem?_map, hi, Option.map_some, Size.eval] at h2
  cases hd : d[i]? with
  | none => simp [hd] at h2
  | some m => simp [hd] at h2; rw [h2]

theorem pyIndex_map {α β : Type} (f : α → β) (l : List α) (a : ℤ) :
    pyIndex (l.map f) a = (pyIndex l a).map f := by
  unfold pyIndex
  simp only [List.length_map]
  split_ifs <;> simp

/-- `get_shape_at(t, axis)` is the run-time size of that axis, negative axes counting from the end, and
fails exactly when the axis is out of range. -/
theorem C16_get_shape_at (s : Static) (d : List ℕ) (h : Admits s d) (axis : ℤ) :
    getShapeAt s d axis = pyIndex d axis := by
  have h1 := C16_get_shape_list s d h
  unfold getShapeAt
  cases hl : getShapeList s with
  | none => rfl
  | some l =>
    rw [hl] at h1
    simp only at h1
    cases l with
    | nil => rfl
    | cons x xs =>
      simp only
      have h2 := congrArg (fun l => pyIndex l axis) h1
      rw [pyIndex_map, pyIndex_map] at h2
      cases hx : pyIndex (x :: xs) axis with
      | none =>
        rw [hx] at h2
        cases hd : pyIndex d axis with
        | none => rfl
        | some n => rw [hd] at h2; simp at h2
      | some z =>
        rw [hx] at h2
        cases hd : pyIndex d axis with
        | none => rw [hd] at h2; simp at h2
        | some n => rw [hd] at h2; simpa using h2

/-- `batch_shape` / `value_shape` report the run-time shape whatever is known statically. -/
theorem C16_report_shape (s : Static) (d : List ℕ) (h : Admits s d) : reportShape s d = d := by
  unfold reportShape
  cases s with
  | none => rfl
  | some l =>
    simp only
    split_ifs with hl
    · have := admits_fully h hl
      simp only [Option.some.injEq] at this
      subst this
      simp [Function.comp_def]
    · rfl

/-- `assert_rank_at_least` lets a tensor through exactly when its run-time rank is at least `k`. -/
theorem C16_rank_at_least (s : Static) (d : List ℕ) (h : Admits s d) (k : ℕ) :
    assertRankAtLeast s d k = .accepted ↔ k ≤ d.length := by
  unfold assertRankAtLeast
  cases s with
  | none => simp only; split_ifs with hk <;> simp <;> omega
  | some l =>
    have : l.length = d.length := List.Forall₂.length_eq h
    simp only; split_ifs with hk <;> simp <;> omega

/-- When the rank is known the violation is reported while building the graph. -/
theorem C16_rank_at_least_early (s : Static) (d : List ℕ) (h : Admits s d) (k : ℕ)
    (hr : s ≠ none) : assertRankAtLeast s d k ≠ .runError := by
  unfold assertRankAtLeast
  cases s with
  | none => exact absurd rfl hr
  | some l => simp only; split_ifs <;> simp

/-- `assert_scalar` lets a tensor through exactly when its run-time rank is 0. -/
theorem C16_scalar (s : Static) (d : List ℕ) (h : Admits s d) :
    assertScalar s d = .accepted ↔ d = [] := by
  unfold assertScalar
  cases s with
  | none => simp only; split_ifs with hk <;> simp_all
  | some l =>
    have : l.length = d.length := List.Forall₂.length_eq h
    simp only
    split_ifs with h1 h2
    · simp; intro hd; subst hd; simp at this; simp [this] at h1
    · exact absurd (by omega) h2
    · simp; exact List.length_eq_zero_iff.1 (by omega)

example : getShapeAt (some [none, some 3]) [7, 3] (-2) = some 7 := rfl
example : getShapeAt (some [none, some 0]) [7, 0] (-1) = some 0 := rfl
example : assertRankAtLeast none [7] 2 = .runError := rfl

end ZhuSuan.Shape

import Mathlib.Algebra.BigOperators.Group.List.Basic
import Verif.Props.Shape
import Verif.Spec.DistShape

set_option autoImplicit false

namespace ZhuSuan.Shape

theorem zipLongest_append {α : Type} (fill : α) (f : α → α → Option α) (v w a b : List α)
    (h : v.length = w.length) :
    zipLongest fill f (v ++ a) (w ++ b) =
      (zipLongest fill f v w).bind (fun p => (zipLongest fill f a b).map (p ++ ·)) := by
  induction v generalizing w with
  | nil =>
    cases w with
    | nil => simp [zipLongest, zipRest]
    | cons _ _ => simp at h
  | cons x v ih =>
    cases w with
    | nil => simp at h
    | cons y w =>
      simp only [List.length_cons, Nat.add_right_cancel_iff] at h
      simp only [List.cons_append, zipLongest, ih w h]
      cases f x y <;> simp
      cases zipLongest fill f v w <;> simp
      cases zipLongest fill f a b <;> simp

theorem bcast_append (a b v w : List ℕ) (h : v.length = w.length) :
    bcast (a ++ v) (b ++ w) = (bcast a b).bind (fun c => (bcast v w).map (c ++ ·)) := by
  unfold bcast
  rw [List.reverse_append, List.reverse_append, zipLongest_append _ _ _ _ _ _ (by simpa using h)]
  cases zipLongest 1 dim v.reverse w.reverse <;>
    cases zipLongest 1 dim a.reverse b.reverse <;> simp

theorem Expands.of_append {a c v w : List ℕ} (hl : v.length = w.length)
    (h : Expands (a ++ v) (c ++ w)) : Expands a c ∧ Expands v w := by
  have h1 := bcast_eq_of_expands h
  rw [bcast_append _ _ _ _ hl] at h1
  cases hac : bcast a c with
  | none => simp [hac] at h1
  | some x =>
    cases hvw : bcast v w with
    | none => simp [hac, hvw] at h1
    | some y =>
      simp only [hac, hvw, Option.bind_some, Option.map_some, Option.some.injEq] at h1
      have hy : y.length = w.length := by
        have e := bcast_expands hvw
        have l := bcast_least hvw (d := w)
        have h3 : y.length ≤ w.length := by
          have h4 := congrArg List.length h1
          simp only [List.length_append] at h4
          have h5 := (bcast_expands hac).2.1
          omega
        have := e.2.1
        omega
      have := List.append_inj' h1 hy
      rw [this.1] at hac
      rw [this.2] at hvw
      exact ⟨(bcast_expands hac).1, (bcast_expands hvw).1⟩

@[simp] theorem splitLast2_append (b : List ℕ) (m k : ℕ) :
    splitLast2 (b ++ [m, k]) = some (b, m, k) := by
  unfold splitLast2; simp

@[simp] theorem splitLast2_cons_append (n : ℕ) (b : List ℕ) (m k : ℕ) :
    splitLast2 (n :: (b ++ [m, k])) = some (n :: b, m, k) := splitLast2_append (n :: b) m k

@[simp] theorem dropLastAxis_append (b : List ℕ) (k : ℕ) : dropLastAxis (b ++ [k]) = some b := by
  unfold dropLastAxis; simp

@[simp] theorem squeezeLast_append (b : List ℕ) : squeezeLast (b ++ [1]) = some b := by
  unfold squeezeLast; simp

theorem pyIndex_last (b : List ℕ) (k : ℕ) : pyIndex (b ++ [k]) (-1) = some k := by
  unfold pyIndex
  rw [if_neg (by omega), if_pos (by simp)]
  have : ((-1 : ℤ) + ((b ++ [k]).length : ℤ)).toNat = b.length := by simp
  rw [this]
  simp

theorem pyIndex_last2 (b : List ℕ) (r c : ℕ) :
    pyIndex (b ++ [r, c]) (-2) = some r ∧ pyIndex (b ++ [r, c]) (-1) = some c := by
  unfold pyIndex
  constructor
  · rw [if_neg (by omega), if_pos (by simp)]
    have : ((-2 : ℤ) + ((b ++ [r, c]).length : ℤ)).toNat = b.length := by simp
    rw [this]; simp
  · rw [if_neg (by omega), if_pos (by simp; omega)]
    have : ((-1 : ℤ) + ((b ++ [r, c]).length : ℤ)).toNat = b.length + 1 := by simp; omega
    rw [this]; simp

theorem getShapeAt_last {p : P} (h : p.WF) {b : List ℕ} {k : ℕ} (hp : p.rt = b ++ [k]) :
    getShapeAt p.st p.rt (-1) = some k := by
  rw [C16_get_shape_at _ _ h, hp, pyIndex_last]

theorem intAt_sound {p : P} (h : p.WF) {axis : ℤ} {n m : ℕ} (hn : intAt p.st axis = some n)
    (hm : pyIndex p.rt axis = some m) : n = m := by
  have h0 := C16_get_shape_at p.st p.rt h axis
  rw [hm] at h0
  unfold intAt at hn
  unfold getShapeAt at h0
  cases hl : getShapeList p.st with
  | none => simp [hl] at hn
  | some l =>
    cases l with
    | nil => simp [hl] at hn
    | cons x xs =>
      simp only [hl] at hn h0
      cases hx : pyIndex (x :: xs) axis with
      | none => simp [hx] at hn
      | some z =>
        cases z with
        | dynamic i => simp [hx] at hn
        | static q =>
          simp only [hx, Option.some.injEq] at hn
          simp only [hx, Option.bind_some, Size.eval, Option.some.injEq] at h0
          omega

theorem intAt_admits {p : P} (h : p.WF) {axis : ℤ} {m : ℕ} (hm : pyIndex p.rt axis = some m) :
    intAt p.st axis = none ∨ intAt p.st axis = some m := by
  cases hi : intAt p.st axis with
  | none => exact .inl rfl
  | some n => rw [intAt_sound h hi hm]; exact .inr rfl

theorem admits_take {s : Static} {d : List ℕ} (h : Admits s d) (k : ℕ) :
    Admits (staticButLast s k) (d.take (d.length - k)) := by
  unfold staticButLast
  cases s with
  | none => trivial
  | some l =>
    have hl : l.length = d.length := List.Forall₂.length_eq h
    simp only [Static.truthy, Option.isSome_some, if_true, Static.dropEnd, Option.map_some, Admits]
    rw [hl]
    exact List.forall₂_take _ h

theorem meb_spec {x y : P} (hx : x.WF) (hy : y.WF) {c : List ℕ} (hc : bcast x.rt y.rt = some c) :
    ∃ x' y', P.meb x y = some (x', y') ∧ x'.rt = c ∧ y'.rt = c := by
  unfold P.meb
  rcases C13_maybe_same (α := PUnit) ⟨x.st, ⟨x.rt, fun _ => 1⟩⟩ ⟨y.st, ⟨y.rt, fun _ => 1⟩⟩ hx hy with
    h | h | ⟨a, b, a', b', h1, h2, h3, h4⟩
  · have := (C13_explicit_valueError (α := PUnit) ⟨x.st, ⟨x.rt, fun _ => 1⟩⟩
      ⟨y.st, ⟨y.rt, fun _ => 1⟩⟩ hx hy).2 h.2
    exact absurd ⟨c, bcast_expands hc⟩ this
  · obtain ⟨x', y', h', _⟩ := C13_explicit_succeeds (α := PUnit) ⟨x.st, ⟨x.rt, fun _ => 1⟩⟩
      ⟨y.st, ⟨y.rt, fun _ => 1⟩⟩ hx hy ⟨c, bcast_expands hc⟩
    rw [h.2] at h'; cases h'
  · rw [h1]
    obtain ⟨c', hc', e1, e2⟩ := C13_explicit _ _ _ _ h2
    rw [← C12_least_upper_bound] at hc'
    have hcc : c = c' := by
      have h9 : bcast x.rt y.rt = some c' := hc'
      rw [hc] at h9; exact Option.some.inj h9
    exact ⟨_, _, rfl, by rw [h3.1, e1.1, hcc], by rw [h4.1, e2.1, hcc]⟩

theorem pbcast_spec {x y : P} (hx : x.WF) (hy : y.WF) {c : List ℕ} (hc : bcast x.rt y.rt = some c) :
    ∃ z, P.bcast x y = some z ∧ z.rt = c ∧ z.WF := by
  unfold P.bcast
  obtain ⟨h1, h2⟩ := sbcast_sound hx hy
  cases hs : sbcast x.st y.st with
  | none => rw [h1 hs] at hc; cases hc
  | some s => exact ⟨⟨s, c⟩, by simp [hc], rfl, h2 s c hs hc⟩

theorem expandLast_WF {x : P} (h : x.WF) : x.expandLast.WF :=
  admits_concat h (show Admits (some [some 1]) [1] from .cons (.inr rfl) .nil)

theorem reshapeRows_spec (b : List ℕ) (k : ℕ) (hk : 0 < k) :
    reshapeRows k (b ++ [k]) = some [b.prod, k] := by
  unfold reshapeRows
  rw [if_neg (by omega), List.prod_append, List.prod_singleton, if_pos (Nat.dvd_mul_left _ _),
    Nat.mul_div_cancel _ hk]

theorem logitsFlat_spec {l : P} (hl : l.WF) {b : List ℕ} {k : ℕ} (hk : 0 < k)
    (h : l.rt = b ++ [k]) : Dist.logitsFlat l = some [b.prod, k] ∧
      (l.st.map List.length = some 2 → b.length = 1) := by
  have hlen : l.st.map List.length = some 2 → b.length = 1 := by
    intro h2
    have hl' : Admits l.st l.rt := hl
    cases hs : l.st with
    | none => simp [hs] at h2
    | some s =>
      rw [hs] at hl' h2
      have := List.Forall₂.length_eq hl'
      simp only [Option.map_some, Option.some.injEq] at h2
      rw [h] at this
      simp at this
      omega
  refine ⟨?_, hlen⟩
  unfold Dist.logitsFlat
  split_ifs with h2
  · have := hlen h2
    match b, this with
    | [x], _ => simp [h]
  · rw [getShapeAt_last hl h, Option.bind_some, h, reshapeRows_spec b k hk]

end ZhuSuan.Shape

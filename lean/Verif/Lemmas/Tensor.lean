import Mathlib.Data.List.Basic
import Mathlib.Data.List.Forall2
import Verif.Lemmas.Shape
import Verif.Spec.Tensor

set_option autoImplicit false

namespace ZhuSuan.Shape

/-- One position of `projIdx`. -/
def rd (d i : ℕ) : ℕ := if d = 1 then 0 else i

theorem projIdx_reverse {a idx : List ℕ} (h : a.length ≤ idx.length) :
    (projIdx a idx).reverse = List.zipWith rd a.reverse idx.reverse := by
  unfold projIdx
  rw [List.reverse_zipWith (by simp; omega), List.reverse_drop]
  have hk : idx.length - (idx.length - a.length) = a.length := by omega
  rw [hk]
  have : ∀ (u v : List ℕ), List.zipWith rd u (v.take u.length) = List.zipWith rd u v := by
    intro u
    induction u with
    | nil => intro v; simp
    | cons x u ih =>
      intro v
      cases v with
      | nil => simp
      | cons y v => simp [ih]
  have h2 := this a.reverse idx.reverse
  rw [List.length_reverse] at h2
  exact h2

theorem zipRd_zipRd (a c i : List ℕ) (h : ExpR a c) :
    List.zipWith rd a (List.zipWith rd c i) = List.zipWith rd a i := by
  induction a generalizing c i with
  | nil => simp
  | cons x a ih =>
    cases c with
    | nil => exact h.elim
    | cons y c =>
      cases i with
      | nil => simp
      | cons k i =>
        obtain ⟨h1, h2⟩ := h
        simp only [List.zipWith_cons_cons, ih c i h2, List.cons.injEq, and_true]
        unfold rd
        rcases h1 with rfl | rfl
        · simp
        · split_ifs <;> rfl

theorem zipRd_inb (a c i : List ℕ) (h : ExpR a c) (hi : List.Forall₂ (· < ·) i c) :
    List.Forall₂ (· < ·) (List.zipWith rd a i) a := by
  induction a generalizing c i with
  | nil => simp
  | cons x a ih =>
    cases hi with
    | nil => exact h.elim
    | @cons k y i c hk hi =>
      obtain ⟨h1, h2⟩ := h
      refine .cons ?_ (ih c i h2 hi)
      unfold rd
      rcases h1 with rfl | rfl
      · simp
      · split_ifs <;> omega

theorem zipRd_self (c i : List ℕ) (hi : List.Forall₂ (· < ·) i c) : List.zipWith rd c i = i := by
  induction hi with
  | nil => rfl
  | @cons k y i c hk _ ih =>
    simp only [List.zipWith_cons_cons, ih, List.cons.injEq, and_true]
    unfold rd
    split_ifs <;> omega

theorem InBounds.reverse {idx s : List ℕ} (h : InBounds idx s) :
    List.Forall₂ (· < ·) idx.reverse s.reverse := forall₂_reverse h

theorem InBounds.length {idx s : List ℕ} (h : InBounds idx s) : idx.length = s.length :=
  List.Forall₂.length_eq h

theorem inBounds_projIdx {a c idx : List ℕ} (h : Expands a c) (hi : InBounds idx c) :
    InBounds (projIdx a idx) a := by
  have h1 := zipRd_inb _ _ _ ((expands_iff a c).1 h) hi.reverse
  rw [← projIdx_reverse (by rw [hi.length]; exact h.1)] at h1
  have h2 := forall₂_reverse h1
  simpa [InBounds] using h2

theorem projIdx_projIdx {a c idx : List ℕ} (h : Expands a c) (hl : c.length ≤ idx.length) :
    projIdx a (projIdx c idx) = projIdx a idx := by
  have hlen : (projIdx c idx).length = c.length := by
    have := congrArg List.length (projIdx_reverse hl)
    simp only [List.length_reverse, List.length_zipWith] at this
    omega
  have h0 : (projIdx a (projIdx c idx)).reverse = (projIdx a idx).reverse := by
    rw [projIdx_reverse (by rw [hlen]; exact h.1), projIdx_reverse (Nat.le_trans h.1 hl),
      projIdx_reverse hl, zipRd_zipRd _ _ _ ((expands_iff a c).1 h)]
  simpa using congrArg List.reverse h0

theorem projIdx_self {c idx : List ℕ} (hi : InBounds idx c) : projIdx c idx = idx := by
  have h0 : (projIdx c idx).reverse = idx.reverse := by
    rw [projIdx_reverse (by rw [hi.length]; exact Nat.le_refl _), zipRd_self _ _ hi.reverse]
  simpa using congrArg List.reverse h0

theorem comesFrom_projIdx {a c idx : List ℕ} (h : Expands a c) (hi : InBounds idx c) :
    ComesFrom a idx (projIdx a idx) := by
  have hl : a.length ≤ idx.length := by rw [hi.length]; exact h.1
  have hin := inBounds_projIdx h hi
  refine ⟨hin.length, fun k hk => ?_⟩
  rw [projIdx_reverse hl]
  have hk1 : k < a.reverse.length := by simpa using hk
  have hk2 : k < idx.reverse.length := by simp; omega
  rw [List.getElem?_zipWith, List.getElem?_eq_getElem hk1, List.getElem?_eq_getElem hk2]
  simp only [rd, Option.some.injEq]
  split_ifs <;> rfl

theorem comesFrom_unique {a idx j1 j2 : List ℕ} (h1 : ComesFrom a idx j1)
    (h2 : ComesFrom a idx j2) : j1 = j2 := by
  have : j1.reverse = j2.reverse := by
    apply List.ext_getElem?
    intro k
    by_cases hk : k < a.length
    · rw [h1.2 k hk, h2.2 k hk]
    · rw [List.getElem?_eq_none (by simp [h1.1]; omega),
        List.getElem?_eq_none (by simp [h2.1]; omega)]
  simpa using congrArg List.reverse this

theorem bcast_expands {a b c : List ℕ} (h : bcast a b = some c) : Expands a c ∧ Expands b c := by
  obtain ⟨h1, h2, _⟩ := expR_lub _ _ _ (bcast_some h)
  exact ⟨(expands_iff _ _).2 h1, (expands_iff _ _).2 h2⟩

theorem bcast_least {a b c : List ℕ} (h : bcast a b = some c) {d : List ℕ} (ha : Expands a d)
    (hb : Expands b d) : Expands c d := by
  obtain ⟨_, _, h3⟩ := expR_lub _ _ _ (bcast_some h)
  rw [expands_iff] at *
  exact h3 _ ha hb

theorem bcast_none_iff {a b : List ℕ} : bcast a b = none ↔ ¬ Compatible a b := by
  constructor
  · rintro h ⟨d, h1, h2⟩
    exact expR_none _ _ (bcast_none h) d.reverse ((expands_iff _ _).1 h1) ((expands_iff _ _).1 h2)
  · intro h
    cases hb : bcast a b with
    | none => rfl
    | some c => exact absurd ⟨c, bcast_expands hb⟩ h

theorem expands_refl (a : List ℕ) : Expands a a := ⟨Nat.le_refl _, fun _ _ => .inr rfl⟩

theorem expands_trans {a b c : List ℕ} (h1 : Expands a b) (h2 : Expands b c) : Expands a c := by
  refine ⟨Nat.le_trans h1.1 h2.1, fun i hi => ?_⟩
  rcases h1.2 i hi with h | h
  · exact .inl h
  · rcases h2.2 i (by have := h1.1; omega) with g | g
    · exact .inl (h.trans g)
    · exact .inr (h.trans g)

theorem bcast_eq_of_expands {a c : List ℕ} (h : Expands a c) : bcast a c = some c := by
  cases hb : bcast a c with
  | none => exact absurd ⟨c, h, expands_refl c⟩ (bcast_none_iff.1 hb)
  | some d =>
    have h1 := bcast_least hb h (expands_refl c)
    have h2 := (bcast_expands hb).2
    rw [expands_antisymm h1 h2]

theorem bcast_comm (a b : List ℕ) : bcast a b = bcast b a := by
  unfold bcast; rw [zipLongest_comm dim_comm]

theorem bcast_eq_of_expands' {a c : List ℕ} (h : Expands a c) : bcast c a = some c := by
  rw [bcast_comm, bcast_eq_of_expands h]

theorem bcast_self (a : List ℕ) : bcast a a = some a := bcast_eq_of_expands (expands_refl a)

/-- Inserting a new leading axis keeps expansion. -/
theorem Expands.cons {a c : List ℕ} (h : Expands a c) (n : ℕ) : Expands a (n :: c) := by
  refine ⟨by simp only [List.length_cons]; have := h.1; omega, fun i hi => ?_⟩
  rcases h.2 i hi with g | g
  · exact .inl g
  · refine .inr (g.trans ?_)
    rw [List.reverse_cons, List.getElem?_append_left (by simp; have := h.1; omega)]

theorem Expands.cons_cons {a c : List ℕ} (hl : a.length = c.length) (h : Expands a c) (n : ℕ) :
    Expands (n :: a) (n :: c) := by
  refine ⟨by simp [hl], fun i hi => ?_⟩
  simp only [List.length_cons] at hi
  simp only [List.reverse_cons]
  by_cases hc : i < a.length
  · rw [List.getElem?_append_left (by simpa using hc), List.getElem?_append_left (by simp; omega)]
    exact h.2 i hc
  · have : i = a.length := by omega
    subst this
    right
    rw [List.getElem?_append_right (by simp), List.getElem?_append_right (by simp [hl])]
    simp [hl]

theorem expands_nil (c : List ℕ) : Expands [] c := ⟨by simp, fun i hi => by simp at hi⟩

/-- Appending the same trailing axes keeps expansion. -/
theorem Expands.append {a c : List ℕ} (h : Expands a c) (v : List ℕ) :
    Expands (a ++ v) (c ++ v) := by
  refine ⟨by simp [h.1], fun i hi => ?_⟩
  simp only [List.reverse_append]
  by_cases hv : i < v.length
  · right
    rw [List.getElem?_append_left (by simpa using hv), List.getElem?_append_left (by simpa using hv)]
  · rw [List.getElem?_append_right (by simp; omega), List.getElem?_append_right (by simp; omega)]
    simp only [List.length_append] at hi
    simp only [List.length_reverse]
    exact h.2 (i - v.length) (by omega)

/-! ### explicit_broadcast -/

section
variable {α : Type} [MulOneClass α]

theorem map2_ones {β : Type} {x : Tensor α} {y : Tensor β} {t : Tensor α}
    (h : map2 (· * ·) x (onesLike y : Tensor α) = some t) :
    bcast x.shape y.shape = some t.shape ∧ ∀ idx, t.val idx = x.val (projIdx x.shape idx) := by
  unfold map2 onesLike at h
  simp only [mul_one] at h
  cases hb : bcast x.shape y.shape with
  | none => simp [hb] at h
  | some c =>
    simp only [hb, Option.map_some, Option.some.injEq] at h
    subst h
    exact ⟨rfl, fun _ => rfl⟩

theorem map2_ones_none {β : Type} {x : Tensor α} {y : Tensor β}
    (h : map2 (· * ·) x (onesLike y : Tensor α) = none) : bcast x.shape y.shape = none := by
  unfold map2 onesLike at h
  simpa using h

theorem sdim_twice (x y u : Option ℕ) (h : sdim x y = some u) : (sdim y u).isSome := by
  unfold sdim at h
  cases x with
  | none =>
    cases y with
    | none => simp at h; subst h; rfl
    | some y =>
      simp only at h
      split_ifs at h
      · simp at h; subst h; simp [sdim, dim_self]
      · simp at h; subst h; simp only [sdim]; split_ifs <;> rfl
  | some x =>
    cases y with
    | none =>
      simp only at h
      split_ifs at h
      · simp at h; subst h; simp only [sdim]; split_ifs <;> rfl
      · simp at h; subst h; rfl
    | some y =>
      simp only at h
      cases hd : dim x y with
      | none => simp [hd] at h
      | some d =>
        simp only [hd, Option.map_some, Option.some.injEq] at h
        subst h
        simp only [sdim, Option.isSome_map]
        by_cases hy : y = 1
        · subst hy; simp [dim_one_left]
        · by_cases hx : x = 1
          · subst hx; rw [dim_one_left] at hd; cases hd; simp [dim_self]
          · unfold dim at hd
            rw [if_neg hx, if_neg hy] at hd
            split_ifs at hd with hxy
            cases hd; subst hxy; simp [dim_self]

theorem szip_twice (x y u : List (Option ℕ)) (h : zipLongest (some 1) sdim x y = some u) :
    (zipLongest (some 1) sdim y u).isSome := by
  have key : ∀ (p q : Option ℕ) (R T : Option (List (Option ℕ))) (w : List (Option ℕ))
      (a b : List (Option ℕ)),
      (sdim p q).bind (fun d => R.map (d :: ·)) = some w →
      (∀ v, R = some v → (zipLongest (some 1) sdim b v).isSome) →
      (zipLongest (some 1) sdim (q :: b) w).isSome := by
    intro p q R _ w a b hw hr
    cases hd : sdim p q with
    | none => simp [hd] at hw
    | some d =>
      cases hR : R with
      | none => simp [hd, hR] at hw
      | some v =>
        simp only [hd, hR, Option.bind_some, Option.map_some, Option.some.injEq] at hw
        subst hw
        have h1 := sdim_twice p q d hd
        have h2 := hr v hR
        simp only [zipLongest]
        obtain ⟨e, he⟩ := Option.isSome_iff_exists.1 h1
        obtain ⟨f, hf⟩ := Option.isSome_iff_exists.1 h2
        simp [he, hf]
  have restSome : ∀ v : List (Option ℕ), (zipRest (some 1) sdim v).isSome := by
    intro v
    induction v with
    | nil => rfl
    | cons a v ih =>
      simp only [zipRest]
      obtain ⟨f, hf⟩ := Option.isSome_iff_exists.1 ih
      have : (sdim (some 1) a).isSome := by
        cases a with
        | none => simp [sdim]
        | some a => simp [sdim, dim_one_left]
      obtain ⟨e, he⟩ := Option.isSome_iff_exists.1 this
      simp [he, hf]
  induction x generalizing y u with
  | nil =>
    induction y generalizing u with
    | nil => simp only [zipLongest] ; exact restSome u
    | cons q y ih => exact key (some 1) q (zipRest (some 1) sdim y) none u [] y h (fun v hv => ih v hv)
  | cons p x ih =>
    cases y with
    | nil => simp only [zipLongest]; exact restSome u
    | cons q y => exact key p q (zipLongest (some 1) sdim x y) none u [] y h (fun v hv => ih y v hv)

theorem sbcast_twice {s t u : Static} (h : sbcast s t = some u) : (sbcast t u).isSome := by
  cases s with
  | none => cases t <;> simp [sbcast] at h <;> subst h <;> rfl
  | some s =>
    cases t with
    | none => simp [sbcast] at h; subst h; rfl
    | some t =>
      simp only [sbcast] at h
      cases hz : zipLongest (some 1) sdim s.reverse t.reverse with
      | none => simp [hz] at h
      | some w =>
        simp only [hz, Option.map_some, Option.some.injEq] at h
        subst h
        have := szip_twice _ _ _ hz
        simp only [sbcast, List.reverse_reverse, Option.isSome_map]
        exact this

/-- The outcome of `explicit_broadcast`, by cases. -/
theorem explicitBroadcast_cases (x y : STensor α) :
    (explicitBroadcast x y = .valueError ∧ sbcast x.static y.static = none) ∨
    (explicitBroadcast x y = .runError ∧ (sbcast x.static y.static).isSome ∧
      bcast x.rt.shape y.rt.shape = none) ∨
    (∃ x' y' c, explicitBroadcast x y = .ok (x', y') ∧ (sbcast x.static y.static).isSome ∧
      bcast x.rt.shape y.rt.shape = some c ∧
      x'.rt.shape = c ∧ y'.rt.shape = c ∧
      sbcast x.static y.static = some x'.static ∧ sbcast y.static x'.static = some y'.static ∧
      (∀ idx, x'.rt.val idx = x.rt.val (projIdx x.rt.shape idx)) ∧
      (∀ idx, y'.rt.val idx = y.rt.val (projIdx y.rt.shape idx))) := by
  unfold explicitBroadcast
  cases h1 : sbcast x.static y.static with
  | none => exact .inl ⟨rfl, rfl⟩
  | some s1 =>
    right
    obtain ⟨s2, h2⟩ := Option.isSome_iff_exists.1 (sbcast_twice h1)
    simp only [h2]
    cases h3 : map2 (· * ·) x.rt (onesLike y.rt : Tensor α) with
    | none => exact .inl ⟨rfl, rfl, map2_ones_none h3⟩
    | some x1 =>
      right
      obtain ⟨g1, g2⟩ := map2_ones h3
      have hex := bcast_expands g1
      cases h4 : map2 (· * ·) y.rt (onesLike x1 : Tensor α) with
      | none =>
        have := map2_ones_none h4
        rw [bcast_eq_of_expands hex.2] at this
        cases this
      | some y1 =>
        obtain ⟨g3, g4⟩ := map2_ones h4
        rw [bcast_eq_of_expands hex.2] at g3
        simp only [Option.some.injEq] at g3
        exact ⟨⟨s1, x1⟩, ⟨s2, y1⟩, x1.shape, by simp only [h4], rfl, g1, rfl, g3.symm, rfl, h2, g2, g4⟩

end

end ZhuSuan.Shape

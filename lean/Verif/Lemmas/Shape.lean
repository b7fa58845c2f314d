import Mathlib.Data.List.Basic
import Mathlib.Data.List.Forall2
import Verif.Spec.Shape

set_option autoImplicit false

namespace ZhuSuan.Shape

section Zip
variable {α : Type} {fill : α} {f : α → α → Option α}

theorem zipLongest_nil_right (h : ∀ x, f x fill = some x) (a : List α) :
    zipLongest fill f a [] = some a := by
  induction a with
  | nil => rfl
  | cons x a ih => simp [zipLongest, h, ih]

theorem zipLongest_nil_left (h : ∀ x, f fill x = some x) (a : List α) :
    zipLongest fill f [] a = some a := by
  show zipRest fill f a = some a
  induction a with
  | nil => rfl
  | cons x a ih => simp [zipRest, h, ih]

theorem zipLongest_comm (h : ∀ x y, f x y = f y x) (a b : List α) :
    zipLongest fill f a b = zipLongest fill f b a := by
  induction a generalizing b with
  | nil =>
    induction b with
    | nil => rfl
    | cons y b ih =>
      have ih' : zipRest fill f b = zipLongest fill f b [] := ih
      simp [zipLongest, zipRest, h fill y, ih']
  | cons x a ih =>
    cases b with
    | nil => simp [zipLongest, zipRest, h x fill, ih]
    | cons y b => simp [zipLongest, h x y, ih]

theorem zipLongest_self (h : ∀ x, f x x = some x) (a : List α) :
    zipLongest fill f a a = some a := by
  induction a with
  | nil => rfl
  | cons x a ih => simp [zipLongest, h, ih]

theorem zipLongest_assoc (hl : ∀ x, f fill x = some x) (hr : ∀ x, f x fill = some x)
    (h : ∀ x y z, (f x y).bind (fun u => f u z) = (f y z).bind (fun u => f x u))
    (a b c : List α) :
    (zipLongest fill f a b).bind (fun u => zipLongest fill f u c) =
      (zipLongest fill f b c).bind (fun u => zipLongest fill f a u) := by
  induction a generalizing b c with
  | nil =>
    rw [zipLongest_nil_left hl]
    simp only [Option.bind_some]
    cases hbc : zipLongest fill f b c with
    | none => simp
    | some u => simp [zipLongest_nil_left hl]
  | cons x a ih =>
    cases b with
    | nil => simp [zipLongest_nil_left hl, zipLongest_nil_right hr]
    | cons y b =>
      cases c with
      | nil =>
        rw [zipLongest_nil_right hr]
        simp only [Option.bind_some]
        cases hbc : zipLongest fill f (x :: a) (y :: b) with
        | none => simp
        | some u => simp [zipLongest_nil_right hr]
      | cons z c =>
        simp only [zipLongest]
        have h1 := h x y z
        have h2 := ih b c
        cases hxy : f x y with
        | none =>
          rw [hxy] at h1
          simp only [Option.bind_none] at h1 ⊢
          cases hyz : f y z with
          | none => simp
          | some v =>
            rw [hyz] at h1
            simp only [Option.bind_some] at h1 ⊢
            cases zipLongest fill f b c with
            | none => simp
            | some w => simp [zipLongest, ← h1]
        | some u =>
          rw [hxy] at h1
          simp only [Option.bind_some] at h1 ⊢
          cases hyz : f y z with
          | none =>
            rw [hyz] at h1
            simp only [Option.bind_none] at h1 ⊢
            cases zipLongest fill f a b with
            | none => simp
            | some w => simp [zipLongest, h1]
          | some v =>
            rw [hyz] at h1
            simp only [Option.bind_some] at h1 ⊢
            cases hab : zipLongest fill f a b with
            | none =>
              rw [hab] at h2
              simp only [Option.bind_none] at h2
              cases hbc : zipLongest fill f b c with
              | none => simp
              | some w =>
                rw [hbc] at h2
                simp only [Option.bind_some] at h2
                simp [zipLongest, ← h2]
            | some p =>
              rw [hab] at h2
              simp only [Option.bind_some] at h2
              cases hbc : zipLongest fill f b c with
              | none =>
                rw [hbc] at h2
                simp only [Option.bind_none] at h2
                simp [zipLongest, h2]
              | some w =>
                rw [hbc] at h2
                simp only [Option.bind_some] at h2
                simp [zipLongest, h1, h2]

end Zip

theorem dim_comm (x y : ℕ) : dim x y = dim y x := by
  by_cases hx : x = 1
  · subst hx; by_cases hy : y = 1 <;> simp [dim, hy]
  · by_cases hy : y = 1
    · subst hy; simp [dim, hx]
    · by_cases h : x = y
      · subst h; rfl
      · simp [dim, hx, hy, h, Ne.symm h]

theorem dim_one_left (x : ℕ) : dim 1 x = some x := by simp [dim]

theorem dim_one_right (x : ℕ) : dim x 1 = some x := by unfold dim; split_ifs <;> simp_all

theorem dim_self (x : ℕ) : dim x x = some x := by unfold dim; split_ifs <;> simp_all

theorem dim_assoc (x y z : ℕ) :
    (dim x y).bind (fun u => dim u z) = (dim y z).bind (fun u => dim x u) := by
  by_cases hx : x = 1
  · subst hx
    simp only [dim_one_left, Option.bind_some]
    cases dim y z <;> simp
  · by_cases hz : z = 1
    · subst hz
      simp only [dim_one_right, Option.bind_some]
      cases dim x y <;> simp
    · by_cases hy : y = 1
      · subst hy
        simp only [dim_one_right, dim_one_left, Option.bind_some]
      · by_cases hxy : x = y
        · subst hxy
          by_cases hxz : x = z
          · subst hxz; simp [dim_self]
          · simp [dim, hx, hz, hxz]
        · by_cases hyz : y = z
          · subst hyz; simp [dim, hx, hy, hxy]
          · simp [dim, hx, hy, hz, hxy, hyz]

/-- `ExpR` is `Expands` on reversed shapes, recursively. -/
def ExpR : List ℕ → List ℕ → Prop
  | [], _ => True
  | _ :: _, [] => False
  | x :: a, y :: b => (x = 1 ∨ x = y) ∧ ExpR a b

theorem expR_iff (a c : List ℕ) :
    ExpR a c ↔ a.length ≤ c.length ∧ ∀ i, i < a.length → a[i]? = some 1 ∨ a[i]? = c[i]? := by
  induction a generalizing c with
  | nil => simp [ExpR]
  | cons x a ih =>
    cases c with
    | nil => simp [ExpR]
    | cons y c =>
      simp only [ExpR, ih, List.length_cons, Nat.add_le_add_iff_right]
      constructor
      · rintro ⟨h1, h2, h3⟩
        refine ⟨h2, fun i hi => ?_⟩
        cases i with
        | zero => simpa using h1
        | succ i => simpa using h3 i (by omega)
      · rintro ⟨h2, h3⟩
        refine ⟨by simpa using h3 0 (by omega), h2, fun i hi => ?_⟩
        simpa using h3 (i + 1) (by omega)

theorem expands_iff (a c : List ℕ) : Expands a c ↔ ExpR a.reverse c.reverse := by
  rw [expR_iff]; simp [Expands]

theorem expR_refl (a : List ℕ) : ExpR a a := by
  induction a with
  | nil => trivial
  | cons x a ih => exact ⟨.inr rfl, ih⟩

theorem expR_lub (a b c : List ℕ) (h : zipLongest 1 dim a b = some c) :
    ExpR a c ∧ ExpR b c ∧ ∀ d, ExpR a d → ExpR b d → ExpR c d := by
  induction a generalizing b c with
  | nil =>
    rw [zipLongest_nil_left dim_one_left] at h
    cases h
    exact ⟨trivial, expR_refl _, fun d _ hd => hd⟩
  | cons x a ih =>
    cases b with
    | nil =>
      rw [zipLongest_nil_right dim_one_right] at h
      cases h
      exact ⟨expR_refl _, trivial, fun d hd _ => hd⟩
    | cons y b =>
      simp only [zipLongest] at h
      cases hxy : dim x y with
      | none => simp [hxy] at h
      | some u =>
        cases hab : zipLongest 1 dim a b with
        | none => simp [hxy, hab] at h
        | some v =>
          simp only [hxy, hab, Option.bind_some, Option.map_some, Option.some.injEq] at h
          subst h
          obtain ⟨h1, h2, h3⟩ := ih b v hab
          have hu : (x = 1 ∨ x = u) ∧ (y = 1 ∨ y = u) ∧ (u = x ∨ u = y) ∧
              (u ≠ 1 → x = u ∨ y = u) := by
            unfold dim at hxy
            split_ifs at hxy <;> simp at hxy <;> subst_vars <;> simp_all
          refine ⟨⟨hu.1, h1⟩, ⟨hu.2.1, h2⟩, ?_⟩
          intro d hd1 hd2
          cases d with
          | nil => exact hd1
          | cons z d =>
            obtain ⟨g1, g2⟩ := hd1
            obtain ⟨g3, g4⟩ := hd2
            refine ⟨?_, h3 d g2 g4⟩
            rcases hu.2.2.1 with rfl | rfl
            · exact g1
            · exact g3

theorem expR_none (a b : List ℕ) (h : zipLongest 1 dim a b = none) :
    ∀ d, ExpR a d → ExpR b d → False := by
  induction a generalizing b with
  | nil => rw [zipLongest_nil_left dim_one_left] at h; cases h
  | cons x a ih =>
    cases b with
    | nil => rw [zipLongest_nil_right dim_one_right] at h; cases h
    | cons y b =>
      simp only [zipLongest] at h
      intro d hd1 hd2
      cases d with
      | nil => exact hd1
      | cons z d =>
        obtain ⟨g1, g2⟩ := hd1
        obtain ⟨g3, g4⟩ := hd2
        cases hxy : dim x y with
        | none =>
          unfold dim at hxy
          split_ifs at hxy
          rcases g1 with g1 | g1 <;> rcases g3 with g3 | g3 <;> simp_all
        | some u =>
          cases hab : zipLongest 1 dim a b with
          | none => exact ih b hab d g2 g4
          | some v => simp [hxy, hab] at h

theorem bcast_some {a b c : List ℕ} (h : bcast a b = some c) :
    zipLongest 1 dim a.reverse b.reverse = some c.reverse := by
  unfold bcast at h
  cases hz : zipLongest 1 dim a.reverse b.reverse with
  | none => simp [hz] at h
  | some v =>
    simp only [hz, Option.map_some, Option.some.injEq] at h
    rw [← h, List.reverse_reverse]

theorem bcast_none {a b : List ℕ} (h : bcast a b = none) :
    zipLongest 1 dim a.reverse b.reverse = none := by
  unfold bcast at h
  simpa using h

theorem expands_antisymm {a c : List ℕ} (h1 : Expands a c) (h2 : Expands c a) : a = c := by
  have hl : a.length = c.length := Nat.le_antisymm h1.1 h2.1
  have : a.reverse = c.reverse := by
    apply List.ext_getElem?
    intro i
    by_cases hi : i < a.length
    · rcases h1.2 i hi with g1 | g1
      · rcases h2.2 i (by omega) with g2 | g2
        · rw [g1, g2]
        · exact g2.symm
      · exact g1
    · rw [List.getElem?_eq_none (by simp; omega), List.getElem?_eq_none (by simp; omega)]
  have := congrArg List.reverse this
  simpa using this

/-! ### Static shapes -/

/-- Admission of one dimension. -/
def DimOK (o : Option ℕ) (n : ℕ) : Prop := o = none ∨ o = some n

theorem sdim_sound {x y : Option ℕ} {m n : ℕ} (hx : DimOK x m) (hy : DimOK y n) :
    (sdim x y = none → dim m n = none) ∧
    (∀ u k, sdim x y = some u → dim m n = some k → DimOK u k) := by
  unfold DimOK at *
  rcases hx with rfl | rfl <;> rcases hy with rfl | rfl
  · refine ⟨by simp [sdim], fun u k hu _ => ?_⟩
    simp only [sdim, Option.some.injEq] at hu
    exact .inl hu.symm
  · unfold sdim
    by_cases h : n > 1
    · simp only [h, if_true]
      refine ⟨by simp, fun u k hu hk => ?_⟩
      simp only [Option.some.injEq] at hu
      subst hu
      right
      unfold dim at hk
      split_ifs at hk <;> simp_all
    · simp only [h, if_false]
      exact ⟨by simp, fun u k hu hk => by simp at hu; simp [← hu]⟩
  · unfold sdim
    by_cases h : m > 1
    · simp only [h, if_true]
      refine ⟨by simp, fun u k hu hk => ?_⟩
      simp only [Option.some.injEq] at hu
      subst hu
      right
      unfold dim at hk
      split_ifs at hk <;> simp_all
    · simp only [h, if_false]
      exact ⟨by simp, fun u k hu hk => by simp at hu; simp [← hu]⟩
  · simp only [sdim, Option.map_eq_none_iff, imp_self, true_and]
    intro u k hu hk
    rw [hk] at hu
    simp at hu
    simp [← hu]

theorem szip_sound (a b : List (Option ℕ)) (m n : List ℕ) (ha : List.Forall₂ DimOK a m)
    (hb : List.Forall₂ DimOK b n) :
    (zipLongest (some 1) sdim a b = none → zipLongest 1 dim m n = none) ∧
    (∀ u k, zipLongest (some 1) sdim a b = some u → zipLongest 1 dim m n = some k →
      List.Forall₂ DimOK u k) := by
  have h1 : DimOK (some 1) 1 := .inr rfl
  have cons_case : ∀ (x y : Option ℕ) (p q : ℕ) (R : Option (List (Option ℕ)))
      (S : Option (List ℕ)), DimOK x p → DimOK y q → (R = none → S = none) →
      (∀ u k, R = some u → S = some k → List.Forall₂ DimOK u k) →
      (((sdim x y).bind (fun d => R.map (d :: ·)) = none →
        (dim p q).bind (fun d => S.map (d :: ·)) = none) ∧
      (∀ u k, (sdim x y).bind (fun d => R.map (d :: ·)) = some u →
        (dim p q).bind (fun d => S.map (d :: ·)) = some k → List.Forall₂ DimOK u k)) := by
    intro x y p q R S hx hy hn hs
    obtain ⟨s1, s2⟩ := sdim_sound hx hy
    constructor
    · intro h
      cases hsd : sdim x y with
      | none => simp [s1 hsd]
      | some u =>
        cases hR : R with
        | none => simp [hn hR]
        | some w => simp [hsd, hR] at h
    · intro u k hu hk
      cases hsd : sdim x y with
      | none => simp [hsd] at hu
      | some d =>
        cases hR : R with
        | none => simp [hsd, hR] at hu
        | some w =>
          cases hd : dim p q with
          | none => simp [hd] at hk
          | some e =>
            cases hS : S with
            | none => simp [hd, hS] at hk
            | some v =>
              simp only [hsd, hR, Option.bind_some, Option.map_some, Option.some.injEq] at hu
              simp only [hd, hS, Option.bind_some, Option.map_some, Option.some.injEq] at hk
              subst hu
              subst hk
              exact .cons (s2 _ _ hsd hd) (hs _ _ hR hS)
  induction ha generalizing b n with
  | nil =>
    induction hb with
    | nil =>
      refine ⟨by simp [zipLongest, zipRest], fun u k hu hk => ?_⟩
      simp only [zipLongest, zipRest, Option.some.injEq] at hu hk
      subst hu; subst hk; exact .nil
    | cons hy _ ih => exact cons_case _ _ _ _ _ _ h1 hy ih.1 ih.2
  | cons hx ht ih =>
    cases hb with
    | nil =>
      have := ih [] [] .nil
      exact cons_case _ _ _ _ _ _ hx h1 this.1 this.2
    | cons hy hb' =>
      have := ih _ _ hb'
      exact cons_case _ _ _ _ _ _ hx hy this.1 this.2

theorem forall₂_reverse {α β : Type} {R : α → β → Prop} {a : List α} {b : List β}
    (h : List.Forall₂ R a b) : List.Forall₂ R a.reverse b.reverse := List.rel_reverse h

/-- Static broadcasting is sound for run-time broadcasting. -/
theorem sbcast_sound {s t : Static} {a b : List ℕ} (hs : Admits s a) (ht : Admits t b) :
    (sbcast s t = none → bcast a b = none) ∧
    (∀ u c, sbcast s t = some u → bcast a b = some c → Admits u c) := by
  cases s with
  | none => exact ⟨by simp [sbcast], fun u c hu _ => by simp [sbcast] at hu; simp [← hu, Admits]⟩
  | some s =>
    cases t with
    | none => exact ⟨by simp [sbcast], fun u c hu _ => by simp [sbcast] at hu; simp [← hu, Admits]⟩
    | some t =>
      obtain ⟨h1, h2⟩ := szip_sound _ _ _ _ (forall₂_reverse (show List.Forall₂ DimOK s a from hs))
        (forall₂_reverse (show List.Forall₂ DimOK t b from ht))
      constructor
      · intro h
        simp only [sbcast, Option.map_eq_none_iff] at h
        simp [bcast, h1 h]
      · intro u c hu hc
        simp only [sbcast] at hu
        cases hz : zipLongest (some 1) sdim s.reverse t.reverse with
        | none => simp [hz] at hu
        | some w =>
          simp only [hz, Option.map_some, Option.some.injEq] at hu
          subst hu
          have := h2 w _ hz (bcast_some hc)
          have := forall₂_reverse this
          rw [List.reverse_reverse] at this
          exact this

theorem sdim_known (x y : ℕ) : sdim (some x) (some y) = (dim x y).map some := rfl

theorem szip_known (a b : List ℕ) :
    zipLongest (some 1) sdim (a.map some) (b.map some) =
      (zipLongest 1 dim a b).map (List.map some) := by
  induction a generalizing b with
  | nil =>
    induction b with
    | nil => rfl
    | cons y b ih =>
      simp only [List.map_nil, List.map_cons, zipLongest] at ih ⊢
      simp only [zipRest, sdim_known, ih]
      cases dim 1 y <;> simp
      cases zipRest 1 dim b <;> simp
  | cons x a ih =>
    cases b with
    | nil =>
      have := ih []
      simp only [List.map_nil, List.map_cons] at this ⊢
      simp only [zipLongest, sdim_known, this]
      cases dim x 1 <;> simp
      cases zipLongest 1 dim a [] <;> simp
    | cons y b =>
      have := ih b
      simp only [List.map_cons, zipLongest, sdim_known, this]
      cases dim x y <;> simp
      cases zipLongest 1 dim a b <;> simp

/-- Fully known static shapes broadcast exactly like run-time shapes. -/
theorem sbcast_known (a b : List ℕ) :
    sbcast (some (a.map some)) (some (b.map some)) = (bcast a b).map (fun c => some (c.map some)) := by
  unfold sbcast bcast
  simp only
  rw [← List.map_reverse, ← List.map_reverse, szip_known]
  cases zipLongest 1 dim a.reverse b.reverse <;> simp

theorem admits_fully {s : Static} {d : List ℕ} (h : Admits s d) (hf : s.fullyDefined = true) :
    s = some (d.map some) := by
  cases s with
  | none => simp [Static.fullyDefined] at hf
  | some l =>
    simp only [Static.fullyDefined] at hf
    congr 1
    have h' : List.Forall₂ (fun o n => o = none ∨ o = some n) l d := h
    clear h
    induction h' with
    | nil => rfl
    | cons h1 _ ih =>
      simp only [List.all_cons, Bool.and_eq_true] at hf
      rw [ih hf.2]
      rcases h1 with rfl | rfl
      · simp at hf
      · rfl

theorem admits_concat {s t : Static} {a b : List ℕ} (hs : Admits s a) (ht : Admits t b) :
    Admits (s.concat t) (a ++ b) := by
  cases s with
  | none => trivial
  | some s =>
    cases t with
    | none => trivial
    | some t => exact List.rel_append hs ht

theorem shapeListFrom_eval (l : List (Option ℕ)) (d pre : List ℕ)
    (h : List.Forall₂ (fun o n => o = none ∨ o = some n) l d) :
    (shapeListFrom pre.length l).map (Size.eval (pre ++ d)) = d.map some := by
  induction h generalizing pre with
  | nil => rfl
  | @cons o n l d h1 _ ih =>
    have := ih (pre ++ [n])
    simp only [List.length_append, List.length_singleton, List.append_assoc,
      List.singleton_append] at this
    simp only [shapeListFrom, List.map_cons, this]
    congr 1
    rcases h1 with rfl | rfl
    · simp [Size.eval]
    · cases n with
      | zero => simp [Size.eval]
      | succ n => simp [Size.eval]

end ZhuSuan.Shape

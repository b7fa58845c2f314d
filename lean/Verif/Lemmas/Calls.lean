import Verif.Model.Calls

/-!
# Facts about `Model/Calls.lean`
-/

set_option autoImplicit false

namespace ZhuSuan.Calls

variable {U : Type}

theorem get?_append {V : Type} (a b : Dict String V) (k : String) :
    Dict.get? (a ++ b) k = (Dict.get? a k).or (Dict.get? b k) := by
  induction a with
  | nil => simp [Dict.get?]
  | cons x a ih =>
    obtain ⟨k', v⟩ := x
    by_cases h : k' = k <;> simp [Dict.get?, h, ih]

theorem get?_none_iff {V : Type} (a : Dict String V) (k : String) :
    Dict.get? a k = none ↔ k ∉ a.keys := by
  induction a with
  | nil => simp [Dict.get?, Dict.keys]
  | cons x a ih =>
    obtain ⟨k', v⟩ := x
    by_cases h : k' = k
    · simp [Dict.get?, h, Dict.keys]
    · simp only [Dict.get?, h, if_false, ih, Dict.keys, List.map_cons, List.mem_cons, not_or]
      exact ⟨fun q => ⟨fun e => h e.symm, q⟩, fun q => q.2⟩

theorem get?_isSome_iff {V : Type} (a : Dict String V) (k : String) :
    (Dict.get? a k).isSome = true ↔ k ∈ a.keys := by
  have := get?_none_iff a k
  cases h : Dict.get? a k with
  | none => simpa [h] using this
  | some v => simp only [h, reduceCtorEq, false_iff, not_not] at this; simpa using this

theorem get?_filter {V : Type} (a : Dict String V) (f : String → Bool) (k : String) :
    Dict.get? (a.filter fun kv => f kv.1) k = if f k then Dict.get? a k else none := by
  induction a with
  | nil => simp [Dict.get?]
  | cons x a ih =>
    obtain ⟨k', v⟩ := x
    by_cases hk : k' = k
    · subst hk
      by_cases hf : f k' = true
      · simp [hf, Dict.get?]
      · simp only [hf, List.filter_cons, Dict.get?, if_false, Bool.false_eq_true]
        rw [ih]; simp [hf]
    · by_cases hf : f k' = true <;> simp [hf, List.filter_cons, Dict.get?, hk, ih]

theorem fill_get? {ps : Params} {a b : Dict String (Val U)} (h : fill ps a = .ok b) (p : String) :
    b.get? p = match ps.get? p with
      | none => none
      | some d => (a.get? p).or (d.map .lit) := by
  induction ps generalizing b with
  | nil => simp only [fill, Except.ok.injEq] at h; subst h; rfl
  | cons x ps ih =>
    obtain ⟨q, d⟩ := x
    simp only [fill] at h
    split at h
    · simp at h
    · rename_i v hv
      split at h
      · simp at h
      · rename_i b' hb'
        simp only [Except.ok.injEq] at h
        subst h
        by_cases hq : q = p
        · subst hq; simp [Dict.get?, hv]
        · simp only [Dict.get?, hq, if_false]; exact ih hb'

theorem fill_keys {ps : Params} {a b : Dict String (Val U)} (h : fill ps a = .ok b) : b.keys = ps.keys := by
  induction ps generalizing b with
  | nil => simp only [fill, Except.ok.injEq] at h; subst h; rfl
  | cons x ps ih =>
    obtain ⟨q, d⟩ := x
    simp only [fill] at h
    split at h
    · simp at h
    · split at h
      · simp at h
      · rename_i b' hb'
        simp only [Except.ok.injEq] at h
        subst h
        simp only [Dict.keys, List.map_cons, List.cons.injEq, true_and]
        exact ih hb'

theorem fill_ok_iff (ps : Params) (a : Dict String (Val U)) :
    (∃ b, fill ps a = .ok b) ↔ ∀ p, (p, none) ∈ ps → p ∈ a.keys := by
  induction ps with
  | nil => simp [fill]
  | cons x ps ih =>
    obtain ⟨q, d⟩ := x
    simp only [fill]
    constructor
    · rintro ⟨b, h⟩ p hp
      split at h
      · simp at h
      · rename_i v hv
        split at h
        · simp at h
        · rename_i b' hb'
          rcases List.mem_cons.1 hp with e | hp
          · cases e
            rw [← get?_isSome_iff]
            simpa using (Option.isSome_iff_exists.2 ⟨v, by simpa using hv⟩)
          · exact ih.1 ⟨b', hb'⟩ p hp
    · intro h
      obtain ⟨b, hb⟩ := ih.2 fun p hp => h p (List.mem_cons_of_mem _ hp)
      rw [hb]
      cases d with
      | some l =>
        cases hq : Dict.get? a q with
        | none => exact ⟨_, rfl⟩
        | some v => exact ⟨_, rfl⟩
      | none =>
        have := h q List.mem_cons_self
        rw [← get?_isSome_iff] at this
        obtain ⟨v, hv⟩ := Option.isSome_iff_exists.1 this
        rw [hv]
        exact ⟨_, rfl⟩

/-- Two argument lists that agree on the parameters fill them alike. -/
theorem fill_congr {ps : Params} {a a' : Dict String (Val U)} (h : ∀ p ∈ ps.keys, a.get? p = a'.get? p) :
    fill ps a = fill ps a' := by
  induction ps with
  | nil => rfl
  | cons x ps ih =>
    obtain ⟨q, d⟩ := x
    simp only [fill]
    rw [h q (by simp [Dict.keys]), ih fun p hp => h p (by
      simp only [Dict.keys, List.map_cons, List.mem_cons] at hp ⊢; exact Or.inr hp)]

theorem evalPos_eq {l : Dict String (Val U)} {xs : List String} (h : ∀ x ∈ xs, x ∈ l.keys) :
    ∃ vs, evalPos l xs = .ok vs ∧ vs.length = xs.length ∧
      ∀ k, Dict.get? (List.zip xs vs) k = if k ∈ xs then l.get? k else none := by
  induction xs with
  | nil => exact ⟨[], rfl, rfl, fun k => by simp [Dict.get?]⟩
  | cons x xs ih =>
    obtain ⟨vs, h1, h2, h3⟩ := ih fun y hy => h y (List.mem_cons_of_mem _ hy)
    obtain ⟨v, hv⟩ := Option.isSome_iff_exists.1 ((get?_isSome_iff l x).2 (h x List.mem_cons_self))
    refine ⟨v :: vs, by simp [evalPos, hv, h1], by simp [h2], fun k => ?_⟩
    by_cases hx : x = k
    · subst hx; simp [Dict.get?, hv]
    · have : k ≠ x := fun e => hx e.symm
      simp [Dict.get?, hx, h3, this]

theorem evalKw_eq {l : Dict String (Val U)} {xs : List String} (h : ∀ x ∈ xs, x ∈ l.keys) :
    ∃ vs, evalKw l (xs.map fun x => (x, x)) = .ok vs ∧ vs.keys = xs ∧
      ∀ k, vs.get? k = if k ∈ xs then l.get? k else none := by
  induction xs with
  | nil => exact ⟨[], rfl, rfl, fun k => by simp [Dict.get?]⟩
  | cons x xs ih =>
    obtain ⟨vs, h1, h2, h3⟩ := ih fun y hy => h y (List.mem_cons_of_mem _ hy)
    obtain ⟨v, hv⟩ := Option.isSome_iff_exists.1 ((get?_isSome_iff l x).2 (h x List.mem_cons_self))
    refine ⟨(x, v) :: vs, by simp [evalKw, hv, h1], ?_, fun k => ?_⟩
    · simp only [Dict.keys, List.map_cons] at h2 ⊢; rw [h2]
    · by_cases hx : x = k
      · subst hx; simp [Dict.get?, hv]
      · have : k ≠ x := fun e => hx e.symm
        simp [Dict.get?, hx, h3, this]

end ZhuSuan.Calls

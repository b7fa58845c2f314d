import Mathlib.Data.List.Nodup
import Verif.Model.Dict

set_option linter.unusedSectionVars false

namespace ZhuSuan.Dict

variable {K V : Type} [DecidableEq K]

theorem get?_set (d : Dict K V) (k : K) (v : V) (k' : K) :
    (d.set k v).get? k' = if k = k' then some v else d.get? k' := by
  induction d with
  | nil => simp [set, get?]
  | cons a d ih =>
    obtain ⟨ka, va⟩ := a
    by_cases h : ka = k
    · subst h
      simp only [set, if_true, get?]
      split <;> simp_all
    · simp only [set, if_neg h, get?]
      by_cases h' : ka = k'
      · subst h'
        simp [Ne.symm h]
      · simp [h', ih]

theorem mem_keys_set (d : Dict K V) (k : K) (v : V) (x : K) :
    x ∈ (d.set k v).keys ↔ x ∈ d.keys ∨ x = k := by
  induction d with
  | nil => simp [set, keys]
  | cons a d ih =>
    obtain ⟨ka, va⟩ := a
    by_cases h : ka = k
    · subst h
      simp only [set, if_true, keys, List.map_cons, List.mem_cons]
      tauto
    · simp only [set, if_neg h, keys, List.map_cons, List.mem_cons]
      simp only [keys] at ih
      rw [ih]
      tauto

theorem set_wf {d : Dict K V} (h : d.WF) (k : K) (v : V) : (d.set k v).WF := by
  induction d with
  | nil => simp [set, WF, keys]
  | cons a d ih =>
    obtain ⟨ka, va⟩ := a
    simp only [WF, keys, List.map_cons, List.nodup_cons] at h
    by_cases hk : ka = k
    · subst hk
      simpa [set, WF, keys] using h
    · simp only [set, if_neg hk, WF, keys, List.map_cons, List.nodup_cons]
      refine ⟨?_, ih h.2⟩
      have := mem_keys_set d k v ka
      simp only [keys] at this
      rw [this]
      rintro (h1 | h1)
      · exact h.1 h1
      · exact hk h1

theorem get?_eq_some_iff {d : Dict K V} (h : d.WF) {k : K} {v : V} :
    d.get? k = some v ↔ (k, v) ∈ d := by
  induction d with
  | nil => simp [get?]
  | cons a d ih =>
    obtain ⟨ka, va⟩ := a
    simp only [WF, keys, List.map_cons, List.nodup_cons] at h
    by_cases hk : ka = k
    · subst hk
      simp only [get?, if_true, Option.some.injEq, List.mem_cons, Prod.mk.injEq, true_and]
      constructor
      · intro e; exact .inl e.symm
      · rintro (e | e)
        · exact e.symm
        · exact absurd (List.mem_map_of_mem (f := Prod.fst) e) h.1
    · simp only [get?, if_neg hk, List.mem_cons, Prod.mk.injEq]
      rw [ih h.2]
      constructor
      · exact .inr
      · rintro (e | e)
        · exact absurd e.1.symm hk
        · exact e

theorem get?_isSome_iff {d : Dict K V} {k : K} : (d.get? k).isSome ↔ k ∈ d.keys := by
  induction d with
  | nil => simp [get?, keys]
  | cons a d ih =>
    obtain ⟨ka, va⟩ := a
    simp only [keys] at ih
    by_cases hk : ka = k
    · subst hk; simp [get?, keys]
    · simp only [get?, if_neg hk, keys, List.map_cons, List.mem_cons]
      rw [ih]
      simp [Ne.symm hk]

theorem get?_eq_none_iff {d : Dict K V} {k : K} : d.get? k = none ↔ k ∉ d.keys := by
  rw [← get?_isSome_iff]; simp

theorem set_of_not_mem {d : Dict K V} {k : K} {v : V} (h : d.get? k = none) :
    d.set k v = d ++ [(k, v)] := by
  induction d with
  | nil => rfl
  | cons a d ih =>
    obtain ⟨ka, va⟩ := a
    by_cases hk : ka = k
    · subst hk; simp [get?] at h
    · simp only [get?, if_neg hk] at h
      simp [set, if_neg hk, ih h]

theorem get?_update {d e : Dict K V} (he : e.WF) (k : K) :
    (d.update e).get? k = (e.get? k).or (d.get? k) := by
  induction e generalizing d with
  | nil => simp [update, get?]
  | cons a e ih =>
    obtain ⟨ka, va⟩ := a
    simp only [WF, keys, List.map_cons, List.nodup_cons] at he
    have := ih (d := d.set ka va) he.2
    simp only [update, List.foldl_cons] at this ⊢
    rw [this, get?_set]
    by_cases hk : ka = k
    · subst hk
      have hn : get? e ka = none := get?_eq_none_iff.2 he.1
      simp [get?, hn]
    · simp [get?, hk]

theorem update_wf {d : Dict K V} (h : d.WF) (e : Dict K V) : (d.update e).WF := by
  induction e generalizing d with
  | nil => exact h
  | cons a e ih => exact ih (set_wf h _ _)

end ZhuSuan.Dict

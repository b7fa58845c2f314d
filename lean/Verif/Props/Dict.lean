import Verif.Lemmas.Dict

/-! # Property C36: `merge_dicts` -/

namespace ZhuSuan.Dict

variable {K V : Type} [DecidableEq K]

theorem foldl_update_get? (ds : List (Dict K V)) (h : ∀ d ∈ ds, d.WF) (r : Dict K V) (k : K) :
    (ds.foldl update r).get? k = (ds.reverse.findSome? (fun d => d.get? k)).or (r.get? k) := by
  induction ds generalizing r with
  | nil => simp
  | cons d ds ih =>
    simp only [List.foldl_cons, List.reverse_cons, List.findSome?_append]
    rw [ih (fun e he => h e (by simp [he])), get?_update (h d (by simp))]
    simp only [List.findSome?_cons, List.findSome?_nil]
    cases List.findSome? (fun d => d.get? k) ds.reverse <;> cases d.get? k <;> simp

/-- **C36.** `merge_dicts(d1, ..., dn)[k]` is the value of the last dictionary that has `k`
(and `k` is missing iff no dictionary has it). -/
theorem C36_last_wins (ds : List (Dict K V)) (h : ∀ d ∈ ds, d.WF) (k : K) :
    (mergeDicts ds).get? k = ds.reverse.findSome? (fun d => d.get? k) := by
  unfold mergeDicts
  rw [foldl_update_get? ds h]
  simp [get?]

/-- The result is a proper dictionary. -/
theorem C36_wf (ds : List (Dict K V)) : (mergeDicts ds).WF := by
  unfold mergeDicts
  have : ∀ r : Dict K V, r.WF → (ds.foldl update r).WF := by
    induction ds with
    | nil => intro r hr; exact hr
    | cons d ds ih => intro r hr; exact ih _ (update_wf hr d)
  exact this [] (by simp [WF, keys])

/-- Its keys are the union of the keys. -/
theorem C36_keys (ds : List (Dict K V)) (h : ∀ d ∈ ds, d.WF) (k : K) :
    k ∈ (mergeDicts ds).keys ↔ ∃ d ∈ ds, k ∈ d.keys := by
  rw [← get?_isSome_iff, C36_last_wins ds h, List.isSome_findSome?]
  simp [get?_isSome_iff]

/-- Merging may be bracketed in any way. -/
theorem C36_assoc (xs ys zs : List (Dict K V))
    (hx : ∀ d ∈ xs, d.WF) (hy : ∀ d ∈ ys, d.WF) (hz : ∀ d ∈ zs, d.WF) (k : K) :
    (mergeDicts (xs ++ [mergeDicts ys] ++ zs)).get? k = (mergeDicts (xs ++ ys ++ zs)).get? k := by
  rw [C36_last_wins _ (by
      intro d hd
      simp only [List.mem_append, List.mem_singleton] at hd
      rcases hd with (hd | rfl) | hd
      · exact hx d hd
      · exact C36_wf ys
      · exact hz d hd),
    C36_last_wins _ (by
      intro d hd
      simp only [List.mem_append] at hd
      rcases hd with (hd | hd) | hd
      · exact hx d hd
      · exact hy d hd
      · exact hz d hd)]
  simp only [List.reverse_append, List.findSome?_append, List.reverse_cons, List.reverse_nil,
    List.nil_append, List.findSome?_cons, List.findSome?_nil, C36_last_wins ys hy]
  cases List.findSome? (fun d => d.get? k) ys.reverse <;> rfl

/-- Non-vacuity: two overlapping dictionaries; the later one wins on the shared key. -/
example : (WF [("z", 1), ("x", 2)] ∧ WF [("x", 3)]) ∧
    (mergeDicts [[("z", 1), ("x", 2)], [("x", 3)]]).get? "x" = some 3 := by
  refine ⟨⟨by simp [WF, keys], by simp [WF, keys]⟩, by decide⟩

end ZhuSuan.Dict

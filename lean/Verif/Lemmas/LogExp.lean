import Verif.Lemmas.TensorExpr
import Verif.Spec.LogExp

set_option autoImplicit false

namespace ZhuSuan.LogExp
open ZhuSuan.Shape

variable (axes : List ℕ)

theorem zeroAxes_length (p : ℕ) (l : List ℕ) : (zeroAxes axes p l).length = l.length := by
  induction l generalizing p with
  | nil => rfl
  | cons i l ih => simp [zeroAxes, ih]

theorem oneAxes_length (p : ℕ) (l : List ℕ) : (oneAxes axes p l).length = l.length := by
  induction l generalizing p with
  | nil => rfl
  | cons i l ih => simp [oneAxes, ih]

theorem zeroAxes_eq_iff (p : ℕ) (k1 k2 : List ℕ) (h : k1.length = k2.length) :
    zeroAxes axes p k1 = zeroAxes axes p k2 ↔ keepAxes axes p k1 = keepAxes axes p k2 := by
  induction k1 generalizing p k2 with
  | nil => cases k2 with
    | nil => simp [zeroAxes, keepAxes]
    | cons => simp at h
  | cons a k1 ih =>
    cases k2 with
    | nil => simp at h
    | cons b k2 =>
      have h' : k1.length = k2.length := by simpa using h
      by_cases hp : p ∈ axes
      · simp [zeroAxes, keepAxes, hp, ih _ _ h']
      · simp [zeroAxes, keepAxes, hp, ih _ _ h']

theorem zeroAxes_of_inBounds (p : ℕ) (s k : List ℕ) (h : InBounds k (oneAxes axes p s)) :
    zeroAxes axes p k = k := by
  induction s generalizing p k with
  | nil => cases h; rfl
  | cons d s ih =>
    cases h with
    | @cons i _ k _ hi hk =>
      simp only [zeroAxes, ih _ _ hk, List.cons.injEq, and_true]
      split_ifs with hp
      · simp [hp] at hi; exact hi.symm
      · rfl

theorem zeroAxes_inBounds (p : ℕ) (s k : List ℕ) (h : InBounds k s) :
    InBounds (zeroAxes axes p k) (oneAxes axes p s) := by
  induction h generalizing p with
  | nil => exact .nil
  | @cons i d k s hi _ ih =>
    refine .cons ?_ (ih _)
    split_ifs <;> omega

theorem keepAxes_oneAxes (p : ℕ) (s : List ℕ) :
    keepAxes axes p (oneAxes axes p s) = keepAxes axes p s := by
  induction s generalizing p with
  | nil => rfl
  | cons d s ih => by_cases hp : p ∈ axes <;> simp [oneAxes, keepAxes, hp, ih]

theorem keepAxes_inBounds (p : ℕ) (s k : List ℕ) (h : InBounds k s) :
    InBounds (keepAxes axes p k) (keepAxes axes p s) := by
  induction h generalizing p with
  | nil => exact .nil
  | @cons i d k s hi _ ih =>
    by_cases hp : p ∈ axes
    · simpa [keepAxes, hp] using ih _
    · simp only [keepAxes, hp, if_false]; exact .cons hi (ih _)

/-- Every kept index is the kept part of some full index, if no axis is empty. -/
theorem exists_full (p : ℕ) (s idx : List ℕ) (hs : ∀ d ∈ s, 0 < d)
    (h : InBounds idx (keepAxes axes p s)) :
    ∃ k, InBounds k s ∧ keepAxes axes p k = idx := by
  induction s generalizing p idx with
  | nil => cases h; exact ⟨[], .nil, rfl⟩
  | cons d s ih =>
    by_cases hp : p ∈ axes
    · simp only [keepAxes, hp, if_true] at h
      obtain ⟨k, hk, rfl⟩ := ih (p + 1) idx (fun d hd => hs d (by simp [hd])) h
      exact ⟨0 :: k, .cons (hs d (by simp)) hk, by simp [keepAxes, hp]⟩
    · simp only [keepAxes, hp, if_false] at h
      cases h with
      | @cons i _ idx _ hi hidx =>
        obtain ⟨k, hk, rfl⟩ := ih (p + 1) idx (fun d hd => hs d (by simp [hd])) hidx
        exact ⟨i :: k, .cons hi hk, by simp [keepAxes, hp]⟩

theorem exists_full_one (p : ℕ) (s kidx : List ℕ) (hs : ∀ d ∈ s, 0 < d)
    (h : InBounds kidx (oneAxes axes p s)) :
    ∃ k, InBounds k s ∧ zeroAxes axes p k = kidx := by
  have h1 := keepAxes_inBounds axes p _ _ h
  rw [keepAxes_oneAxes] at h1
  obtain ⟨k, hk, he⟩ := exists_full axes p s _ hs h1
  refine ⟨k, hk, ?_⟩
  rw [← zeroAxes_of_inBounds axes p s kidx h, zeroAxes_eq_iff _ _ _ _ ?_]
  · exact he
  · rw [hk.length, h.length, oneAxes_length]

theorem exists_one (p : ℕ) (s idx : List ℕ) (h : InBounds idx (keepAxes axes p s)) :
    ∃ k, InBounds k (oneAxes axes p s) ∧ keepAxes axes p k = idx := by
  induction s generalizing p idx with
  | nil => cases h; exact ⟨[], .nil, rfl⟩
  | cons d s ih =>
    by_cases hp : p ∈ axes
    · simp only [keepAxes, hp, if_true] at h
      obtain ⟨k, hk, rfl⟩ := ih (p + 1) idx h
      exact ⟨0 :: k, .cons (by simp [hp]) hk, by simp [keepAxes, hp]⟩
    · simp only [keepAxes, hp, if_false] at h
      cases h with
      | @cons i _ idx _ hi hidx =>
        obtain ⟨k, hk, rfl⟩ := ih (p + 1) idx hidx
        exact ⟨i :: k, .cons (by simp [hp, hi]) hk, by simp [keepAxes, hp]⟩

theorem expands_oneAxes (p : ℕ) (s : List ℕ) : Expands (oneAxes axes p s) s := by
  refine ⟨by rw [oneAxes_length], ?_⟩
  intro i hi
  rw [oneAxes_length] at hi
  have key : ∀ (p : ℕ) (s : List ℕ) (j : ℕ), j < s.length →
      (oneAxes axes p s)[j]? = some 1 ∨ (oneAxes axes p s)[j]? = s[j]? := by
    intro p s
    induction s generalizing p with
    | nil => intro j hj; simp at hj
    | cons d s ih =>
      intro j hj
      cases j with
      | zero => by_cases hp : p ∈ axes <;> simp [oneAxes, hp]
      | succ j => simpa [oneAxes] using ih (p + 1) j (by simpa using hj)
  rw [List.getElem?_reverse (by rw [oneAxes_length]; exact hi), List.getElem?_reverse hi, oneAxes_length]
  exact key p s _ (by omega)

theorem projIdx_oneAxes (p : ℕ) (s k : List ℕ) (h : InBounds k s) :
    projIdx (oneAxes axes p s) k = zeroAxes axes p k := by
  unfold projIdx
  have : k.length - (oneAxes axes p s).length = 0 := by rw [oneAxes_length, h.length]; omega
  rw [this, List.drop_zero]
  induction h generalizing p with
  | nil => rfl
  | @cons i d k s hi _ ih =>
    simp only [oneAxes, zeroAxes, List.zipWith_cons_cons]
    rw [ih (p + 1) (by rw [oneAxes_length]; simp_all [oneAxes_length])]
    congr 1
    by_cases hp : p ∈ axes
    · simp [hp]
    · simp only [hp, if_false]; split_ifs with hd
      · omega
      · rfl

theorem allIndices_nodup (s : List ℕ) : (allIndices s).Nodup := by
  induction s with
  | nil => simp [allIndices]
  | cons d s ih =>
    simp only [allIndices]
    rw [List.nodup_flatMap]
    refine ⟨fun i _ => ih.map (fun _ _ h => by simpa using h), ?_⟩
    refine List.nodup_range.imp ?_
    intro a b hab
    simp only [Function.onFun, List.disjoint_left, List.mem_map, not_exists, not_and]
    rintro _ ⟨x, _, rfl⟩ y _ h
    exact hab (by simp at h; exact h.1.symm)

theorem filter_eq_singleton {α : Type} [DecidableEq α] {l : List α} (hn : l.Nodup) {a : α}
    (ha : a ∈ l) (P : α → Bool) (hP : ∀ b ∈ l, P b = true ↔ b = a) : l.filter P = [a] := by
  induction l with
  | nil => simp at ha
  | cons b l ih =>
    rw [List.nodup_cons] at hn
    by_cases hb : b = a
    · subst hb
      rw [List.filter_cons_of_pos ((hP b (by simp)).2 rfl)]
      congr 1
      rw [List.filter_eq_nil_iff]
      intro c hc hPc
      have := (hP c (by simp [hc])).1 hPc
      subst this; exact hn.1 hc
    · rw [List.filter_cons_of_neg (fun h => hb ((hP b (by simp)).1 h))]
      exact ih hn.2 (by simpa [Ne.symm hb] using ha) (fun c hc => hP c (by simp [hc]))

/-- The entries of `x` in the cell of the kept index `idx`. -/
def cell {α : Type} (x : Tensor α) (idx : List ℕ) : List α :=
  ((allIndices x.shape).filter (fun full => keepAxes axes 0 full = idx)).map x.val

def cellKeep {α : Type} (x : Tensor α) (kidx : List ℕ) : List α :=
  ((allIndices x.shape).filter (fun full => zeroAxes axes 0 full = kidx)).map x.val

theorem cellKeep_eq {α : Type} (x : Tensor α) (kidx : List ℕ)
    (h : InBounds kidx (oneAxes axes 0 x.shape)) :
    cellKeep axes x kidx = cell axes x (keepAxes axes 0 kidx) := by
  unfold cellKeep cell
  congr 1
  apply List.filter_congr
  intro full hf
  have hb := mem_allIndices.1 hf
  rw [decide_eq_decide, ← zeroAxes_eq_iff _ _ _ _ (by rw [hb.length, h.length, oneAxes_length]),
    zeroAxes_of_inBounds axes 0 x.shape kidx h]

theorem cell_keep {α : Type} (r : Tensor α) (s kidx : List ℕ) (hr : r.shape = oneAxes axes 0 s)
    (h : InBounds kidx r.shape) : cell axes r (keepAxes axes 0 kidx) = [r.val kidx] := by
  unfold cell
  rw [filter_eq_singleton (allIndices_nodup _) (mem_allIndices.2 h)]
  · rfl
  · intro b hb
    have hb' := mem_allIndices.1 hb
    rw [decide_eq_true_iff, ← zeroAxes_eq_iff _ _ _ _ (by rw [hb'.length, h.length]),
      zeroAxes_of_inBounds axes 0 s b (hr ▸ hb'), zeroAxes_of_inBounds axes 0 s kidx (hr ▸ h)]

theorem mapM_normAxis {n : ℕ} {ax : List ℤ} (h : ValidAxes n ax) :
    ∃ l, ax.mapM (normAxis n) = some l := by
  induction ax with
  | nil => exact ⟨[], rfl⟩
  | cons a ax ih =>
    obtain ⟨l, hl⟩ := ih (fun b hb => h b (by simp [hb]))
    have ha := h a (by simp)
    have : ∃ k, normAxis n a = some k := by
      unfold normAxis
      split_ifs with h1 h2
      · exact ⟨_, rfl⟩
      · exact ⟨_, rfl⟩
      · exfalso; push Not at h1 h2; omega
    obtain ⟨k, hk⟩ := this
    exact ⟨k :: l, by simp [List.mapM_cons, hk, hl]⟩

theorem listMax_mem {l : List ℝ} (h : l ≠ []) : listMax l ∈ l := by
  cases l with
  | nil => exact absurd rfl h
  | cons a l =>
    simp only [listMax]
    clear h
    induction l generalizing a with
    | nil => simp
    | cons b l ih =>
      simp only [List.foldl_cons]
      rcases max_cases a b with ⟨hm, _⟩ | ⟨hm, _⟩ <;> rw [hm]
      · have := ih a; simp only [List.mem_cons] at this ⊢; tauto
      · have := ih b; simp only [List.mem_cons] at this ⊢; tauto

theorem le_foldl_max (l : List ℝ) (a : ℝ) : a ≤ l.foldl max a ∧ ∀ b ∈ l, b ≤ l.foldl max a := by
  induction l generalizing a with
  | nil => simp
  | cons b l ih =>
    simp only [List.foldl_cons]
    obtain ⟨h1, h2⟩ := ih (max a b)
    refine ⟨le_trans (le_max_left _ _) h1, ?_⟩
    intro c hc
    rcases List.mem_cons.1 hc with rfl | hc
    · exact le_trans (le_max_right _ _) h1
    · exact h2 c hc

theorem le_listMax {l : List ℝ} {a : ℝ} (h : a ∈ l) : a ≤ listMax l := by
  cases l with
  | nil => simp at h
  | cons b l =>
    obtain ⟨h1, h2⟩ := le_foldl_max l b
    rcases List.mem_cons.1 h with rfl | h
    · exact h1
    · exact h2 a h

theorem sum_exp_sub (l : List ℝ) (m : ℝ) :
    (l.map (fun a => Real.exp (a - m))).sum = Real.exp (-m) * (l.map Real.exp).sum := by
  rw [← List.sum_map_mul_left]
  congr 1
  apply List.map_congr_left
  intro a _
  rw [← Real.exp_add]; congr 1; ring

theorem sum_exp_pos {l : List ℝ} (h : l ≠ []) : 0 < (l.map Real.exp).sum := by
  apply List.sum_pos
  · intro x hx; obtain ⟨a, _, rfl⟩ := List.mem_map.1 hx; exact Real.exp_pos a
  · simpa using h

end ZhuSuan.LogExp

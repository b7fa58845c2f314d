import Verif.Lemmas.Tensor
import Verif.Model.TensorExpr

set_option autoImplicit false

namespace ZhuSuan.Shape

theorem map2_some {α β γ : Type} {f : α → β → γ} {x : Tensor α} {y : Tensor β} {t : Tensor γ}
    (h : map2 f x y = some t) :
    bcast x.shape y.shape = some t.shape ∧
    ∀ idx, t.val idx = f (x.val (projIdx x.shape idx)) (y.val (projIdx y.shape idx)) := by
  unfold map2 at h
  cases hb : bcast x.shape y.shape with
  | none => simp [hb] at h
  | some c =>
    simp only [hb, Option.map_some, Option.some.injEq] at h
    subst h
    exact ⟨rfl, fun _ => rfl⟩

theorem map2_eq_none {α β γ : Type} {f : α → β → γ} {x : Tensor α} {y : Tensor β} :
    map2 f x y = none ↔ bcast x.shape y.shape = none := by
  unfold map2; simp

namespace Expr
variable {ι ρ α : Type}

theorem scalar_congr (e : Expr ι ρ α) (u v : ι → ρ) (h : ∀ i ∈ e.vars, u i = v i) :
    e.scalar u = e.scalar v := by
  induction e with
  | var i => exact h i (by simp [vars])
  | const c => rfl
  | un f e ih => simp only [scalar]; rw [ih h]
  | bin f e₁ e₂ ih₁ ih₂ =>
    simp only [scalar]
    rw [ih₁ (fun i hi => h i (by simp [vars, hi])), ih₂ (fun i hi => h i (by simp [vars, hi]))]

theorem eval_spec (env : ι → Tensor ρ) (e : Expr ι ρ α) (t : Tensor α) (h : e.eval env = some t) :
    (∀ i ∈ e.vars, Expands (env i).shape t.shape) ∧
    (∀ d, (∀ i ∈ e.vars, Expands (env i).shape d) → Expands t.shape d) ∧
    (∀ idx, InBounds idx t.shape →
      t.val idx = e.scalar (fun i => (env i).val (projIdx (env i).shape idx))) := by
  induction e with
  | var i =>
    simp only [eval, Option.some.injEq] at h
    subst h
    refine ⟨?_, fun d hd => hd i (by simp [vars]), fun idx hi => ?_⟩
    · intro j hj; simp [vars] at hj; subst hj; exact expands_refl _
    · simp only [scalar]; rw [projIdx_self hi]
  | const c =>
    simp only [eval, Option.some.injEq] at h
    subst h
    exact ⟨by simp [vars], fun d _ => expands_nil d, fun _ _ => rfl⟩
  | un f e ih =>
    simp only [eval] at h
    cases he : e.eval env with
    | none => simp [he] at h
    | some t1 =>
      simp only [he, Option.map_some, Option.some.injEq] at h
      subst h
      obtain ⟨h1, h2, h3⟩ := ih t1 he
      exact ⟨h1, h2, fun idx hi => by simp only [scalar]; rw [h3 idx hi]⟩
  | bin f e₁ e₂ ih₁ ih₂ =>
    simp only [eval] at h
    cases he₁ : e₁.eval env with
    | none => simp [he₁] at h
    | some t₁ =>
      cases he₂ : e₂.eval env with
      | none => simp [he₁, he₂] at h
      | some t₂ =>
        simp only [he₁, he₂, Option.bind_some] at h
        obtain ⟨hs, hv⟩ := map2_some h
        obtain ⟨a1, a2, a3⟩ := ih₁ t₁ he₁
        obtain ⟨b1, b2, b3⟩ := ih₂ t₂ he₂
        have hex := bcast_expands hs
        refine ⟨?_, ?_, ?_⟩
        · intro i hi
          simp only [vars, List.mem_append] at hi
          rcases hi with hi | hi
          · exact expands_trans (a1 i hi) hex.1
          · exact expands_trans (b1 i hi) hex.2
        · intro d hd
          exact bcast_least hs (a2 d fun i hi => hd i (by simp [vars, hi]))
            (b2 d fun i hi => hd i (by simp [vars, hi]))
        · intro idx hi
          have l1 : t₁.shape.length ≤ idx.length := by rw [hi.length]; exact hex.1.1
          have l2 : t₂.shape.length ≤ idx.length := by rw [hi.length]; exact hex.2.1
          rw [hv, a3 _ (inBounds_projIdx hex.1 hi), b3 _ (inBounds_projIdx hex.2 hi)]
          simp only [scalar]
          congr 1
          · exact scalar_congr _ _ _ fun i hi' => by rw [projIdx_projIdx (a1 i hi') l1]
          · exact scalar_congr _ _ _ fun i hi' => by rw [projIdx_projIdx (b1 i hi') l2]

theorem eval_none (env : ι → Tensor ρ) (e : Expr ι ρ α) (h : e.eval env = none) :
    ¬ ∃ d, ∀ i ∈ e.vars, Expands (env i).shape d := by
  induction e with
  | var i => simp [eval] at h
  | const c => simp [eval] at h
  | un f e ih => simp only [eval, Option.map_eq_none_iff] at h; exact ih h
  | bin f e₁ e₂ ih₁ ih₂ =>
    rintro ⟨d, hd⟩
    simp only [eval] at h
    cases he₁ : e₁.eval env with
    | none => exact ih₁ he₁ ⟨d, fun i hi => hd i (by simp [vars, hi])⟩
    | some t₁ =>
      cases he₂ : e₂.eval env with
      | none => exact ih₂ he₂ ⟨d, fun i hi => hd i (by simp [vars, hi])⟩
      | some t₂ =>
        simp only [he₁, he₂, Option.bind_some, map2_eq_none] at h
        refine bcast_none_iff.1 h ⟨d, ?_, ?_⟩
        · exact (eval_spec env e₁ t₁ he₁).2.1 d fun i hi => hd i (by simp [vars, hi])
        · exact (eval_spec env e₂ t₂ he₂).2.1 d fun i hi => hd i (by simp [vars, hi])

end Expr

/-! ### Reductions over the last axes -/

theorem keepAxes_take {α : Type} (axes : List ℕ) (p n : ℕ) (l : List α)
    (h : ∀ k, k < l.length → (p + k ∈ axes ↔ n ≤ k)) : keepAxes axes p l = l.take n := by
  induction l generalizing p n with
  | nil => simp [keepAxes]
  | cons x l ih =>
    unfold keepAxes
    have h0 := h 0 (by simp)
    simp only [Nat.add_zero, Nat.le_zero] at h0
    by_cases hn : n = 0
    · subst hn
      rw [if_pos (h0.2 rfl)]
      rw [ih (p + 1) 0 (fun k hk => by
        have := h (k + 1) (by simpa using hk)
        rw [Nat.add_assoc, Nat.add_comm 1 k]; simpa using this)]
      simp
    · rw [if_neg (fun hm => hn (h0.1 hm))]
      obtain ⟨m, rfl⟩ := Nat.exists_eq_succ_of_ne_zero hn
      rw [ih (p + 1) m (fun k hk => by
        have := h (k + 1) (by simpa using hk)
        rw [Nat.add_assoc, Nat.add_comm 1 k, this]; omega)]
      simp

theorem allIndices_length {s idx : List ℕ} (h : idx ∈ allIndices s) : idx.length = s.length := by
  induction s generalizing idx with
  | nil => simp [allIndices] at h; subst h; rfl
  | cons d s ih =>
    simp only [allIndices, List.mem_flatMap, List.mem_range, List.mem_map] at h
    obtain ⟨i, _, j, hj, rfl⟩ := h
    simp [ih hj]

theorem mem_allIndices {s idx : List ℕ} : idx ∈ allIndices s ↔ InBounds idx s := by
  unfold InBounds
  induction s generalizing idx with
  | nil => simp [allIndices]
  | cons d s ih =>
    simp only [allIndices, List.mem_flatMap, List.mem_range, List.mem_map]
    constructor
    · rintro ⟨i, hi, j, hj, rfl⟩
      exact .cons hi (ih.1 hj)
    · intro h
      cases h with
      | @cons i d' j s' hi hj => exact ⟨i, hi, j, ih.2 hj, rfl⟩

theorem filter_flatMap_range {β : Type} (d i0 : ℕ) (hi : i0 < d) (F : ℕ → List β)
    (p : β → Bool) (hp : ∀ i, i ≠ i0 → (F i).filter p = []) :
    ((List.range d).flatMap F).filter p = (F i0).filter p := by
  induction d with
  | zero => omega
  | succ d ih =>
    rw [List.range_succ, List.flatMap_append, List.filter_append]
    simp only [List.flatMap_cons, List.flatMap_nil, List.append_nil]
    by_cases h : i0 = d
    · subst h
      have : ((List.range i0).flatMap F).filter p = [] := by
        rw [List.filter_eq_nil_iff]
        intro b hb
        simp only [List.mem_flatMap, List.mem_range] at hb
        obtain ⟨i, hi, hb⟩ := hb
        have := List.filter_eq_nil_iff.1 (hp i (by omega)) b hb
        exact this
      rw [this, List.nil_append]
    · rw [ih (by omega), hp d (by omega), List.append_nil]

theorem filter_allIndices (s1 s2 idx : List ℕ) (h : InBounds idx s1) :
    (allIndices (s1 ++ s2)).filter (fun full => decide (full.take s1.length = idx)) =
      (allIndices s2).map (idx ++ ·) := by
  induction s1 generalizing idx with
  | nil =>
    cases h
    simp
  | cons d s1 ih =>
    cases h with
    | @cons i0 _ idx _ hi hrest =>
      have ih' := ih idx hrest
      simp only [List.cons_append, allIndices]
      rw [filter_flatMap_range d i0 hi]
      · rw [List.filter_map]
        have : ((fun full => decide (List.take (d :: s1).length full = i0 :: idx)) ∘
            fun x => i0 :: x) = fun full => decide (full.take s1.length = idx) := by
          funext full; simp
        rw [this, ih', List.map_map]
        rfl
      · intro i hne
        rw [List.filter_eq_nil_iff]
        intro b hb
        simp only [List.mem_map] at hb
        obtain ⟨j, _, rfl⟩ := hb
        simp [hne]

theorem mapM_some {α β : Type} (f : α → Option β) (g : α → β) (l : List α)
    (h : ∀ a ∈ l, f a = some (g a)) : l.mapM f = some (l.map g) := by
  induction l with
  | nil => rfl
  | cons a l ih =>
    rw [List.mapM_cons, h a (by simp), ih (fun b hb => h b (by simp [hb]))]
    rfl

/-- Reducing the last `g` axes. -/
theorem reduceWith_last {α β : Type} (agg : List α → β) (t : Tensor α) (axes : List ℤ)
    (g : ℕ) (hg : g ≤ t.shape.length)
    (ax : List ℕ) (hax : axes.mapM (normAxis t.shape.length) = some ax)
    (hmem : ∀ k, k < t.shape.length → (k ∈ ax ↔ t.shape.length - g ≤ k)) :
    ∃ r, reduceWith agg t axes = some r ∧
      r.shape = t.shape.take (t.shape.length - g) ∧
      ∀ idx, InBounds idx r.shape → r.val idx =
        agg ((allIndices (t.shape.drop (t.shape.length - g))).map (fun j => t.val (idx ++ j))) := by
  unfold reduceWith
  rw [hax]
  simp only [Option.map_some]
  refine ⟨_, rfl, ?_, ?_⟩
  · exact keepAxes_take _ _ _ _ (fun k hk => by rw [Nat.zero_add]; exact hmem k hk)
  · intro idx hi
    simp only at hi ⊢
    rw [keepAxes_take _ _ _ _ (fun k hk => by rw [Nat.zero_add]; exact hmem k hk)] at hi
    have key := filter_allIndices _ (t.shape.drop (t.shape.length - g)) idx hi
    rw [List.take_append_drop] at key
    have hlen : (t.shape.take (t.shape.length - g)).length = t.shape.length - g := by
      rw [List.length_take]; omega
    have e1 : (allIndices t.shape).filter (fun full => decide (keepAxes ax 0 full = idx)) =
        (allIndices t.shape).filter (fun full =>
          decide (full.take (t.shape.take (t.shape.length - g)).length = idx)) := by
      apply List.filter_congr
      intro full hf
      rw [hlen, keepAxes_take ax 0 (t.shape.length - g) full (fun k hk => by
        rw [Nat.zero_add]; exact hmem k (by rw [← allIndices_length hf]; exact hk))]
    rw [e1, key, List.map_map]
    rfl

theorem rangeNeg_norm (r g : ℕ) (h : g ≤ r) :
    (rangeNeg g).mapM (normAxis r) = some ((List.range g).map (fun i => r - g + i)) := by
  unfold rangeNeg
  rw [mapM_some (normAxis r) (fun a => (a + r).toNat)]
  · rw [List.map_map]
    congr 1
    apply List.map_congr_left
    intro i hi
    simp only [List.mem_range] at hi
    simp only [Function.comp]
    omega
  · intro a ha
    simp only [List.mem_map, List.mem_range] at ha
    obtain ⟨i, hi, rfl⟩ := ha
    unfold normAxis
    rw [if_neg (by omega), if_pos (by omega)]

theorem rangeNeg_fail (r g : ℕ) (h : r < g) : (rangeNeg g).mapM (normAxis r) = none := by
  obtain ⟨g, rfl⟩ : ∃ k, g = k + 1 := ⟨g - 1, by omega⟩
  unfold rangeNeg
  rw [List.range_succ_eq_map, List.map_cons, List.mapM_cons]
  have : normAxis r ((0 : ℕ) - ((g + 1 : ℕ) : ℤ)) = none := by
    unfold normAxis
    rw [if_neg (by omega), if_neg (by omega)]
  rw [this]
  rfl

theorem groupReduce_spec {α β : Type} (agg : List α → β) (t : Tensor α) (g : ℕ)
    (hg : g ≤ t.shape.length) :
    ∃ r, reduceWith agg t (rangeNeg g) = some r ∧
      r.shape = t.shape.take (t.shape.length - g) ∧
      ∀ idx, InBounds idx r.shape → r.val idx =
        agg ((allIndices (t.shape.drop (t.shape.length - g))).map (fun j => t.val (idx ++ j))) := by
  apply reduceWith_last agg t _ g hg _ (rangeNeg_norm _ g hg)
  intro k hk
  simp only [List.mem_map, List.mem_range]
  constructor
  · rintro ⟨i, hi, rfl⟩; omega
  · intro h; exact ⟨k - (t.shape.length - g), by omega, by omega⟩

theorem groupReduce_fail {α β : Type} (agg : List α → β) (t : Tensor α) (g : ℕ)
    (hg : t.shape.length < g) : reduceWith agg t (rangeNeg g) = none := by
  unfold reduceWith
  rw [rangeNeg_fail _ g hg]
  rfl

theorem reduceLast_spec {α β : Type} (agg : List α → β) (t : Tensor α) (s : List ℕ) (k : ℕ)
    (ht : t.shape = s ++ [k]) :
    ∃ r, reduceLast agg t = some r ∧ r.shape = s ∧
      ∀ idx, InBounds idx s → r.val idx = agg ((List.range k).map (fun j => t.val (idx ++ [j]))) := by
  have hlen : t.shape.length = s.length + 1 := by rw [ht]; simp
  have hax : ([-1] : List ℤ).mapM (normAxis t.shape.length) = some [s.length] := by
    rw [hlen]
    rw [mapM_some (normAxis (s.length + 1)) (fun a => (a + (s.length + 1 : ℕ)).toNat)]
    · simp
    · intro a ha
      simp only [List.mem_singleton] at ha
      subst ha
      unfold normAxis
      rw [if_neg (by omega), if_pos (by omega)]
  obtain ⟨r, h1, h2, h3⟩ := reduceWith_last agg t [-1] 1 (by omega) [s.length] hax (by
    intro j hj; simp only [List.mem_singleton]; omega)
  rw [hlen, ht] at h2 h3
  simp only [Nat.add_sub_cancel, List.take_left', List.drop_left'] at h2 h3
  refine ⟨r, h1, h2, fun idx hi => ?_⟩
  rw [h3 idx (by rw [h2]; exact hi)]
  congr 1
  simp only [allIndices, List.map_cons, List.map_nil]
  have : (List.range k).flatMap (fun i => [[i]]) = (List.range k).map (fun i => [i]) :=
    (List.map_eq_flatMap).symm
  rw [this, List.map_map]
  rfl

end ZhuSuan.Shape

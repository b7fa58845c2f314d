import Verif.Model.MetaArgs

/-!
# C110, C111: the arguments of model functions, and inherited documentation
-/

set_option autoImplicit false

namespace ZhuSuan.MetaArgs

variable {V D : Type}

theorem writes_at (h : Heap V) (l : List (ℕ × Box V)) (a : ℕ) (ha : ∀ w ∈ l, w.1 ≠ a) : (writes h l).at_ a = h.at_ a := by
  induction l generalizing h with
  | nil => rfl
  | cons w l ih =>
    have h1 : w.1 ≠ a := ha w (List.mem_cons_self ..)
    rw [writes, ih _ fun w' hw => ha w' (List.mem_cons_of_mem _ hw)]
    simp [Heap.write, h1.symm]

/-- **C110.** A model made by a decorated function hands to the function, at every call of `observe`, exactly the arguments of the call that made
it, whatever is written meanwhile to any container that existed before (`h.next` bounds the addresses in use), to the tuple and dictionary of the
call itself, or to any container made later. -/
theorem C110_decorated (h : Heap V) (pos : List V) (named : List (String × V)) (l : List (ℕ × Box V))
    (hl : ∀ w ∈ l, w.1 < h.next + 2 ∨ (decorated h pos named).1.next ≤ w.1) :
    observe (writes (decorated h pos named).1 l) (decorated h pos named).2 = some (pos, named) := by
  have hn : (decorated h pos named).1.next = h.next + 4 := rfl
  rw [hn] at hl
  have e1 := writes_at (decorated h pos named).1 l (h.next + 2) fun w hw => by have := hl w hw; omega
  have e2 := writes_at (decorated h pos named).1 l (h.next + 3) fun w hw => by have := hl w hw; omega
  show some (((writes (decorated h pos named).1 l).at_ (h.next + 2)).pos, ((writes (decorated h pos named).1 l).at_ (h.next + 3)).named) = _
  rw [e1, e2]
  simp [decorated, init, copy, Heap.alloc]

/-- **C110.** A `MetaBayesianNet` built directly from a list and a dictionary: later changes of the list and the dictionary by the caller do not
reach the model function; it gets the items they had at construction.  Missing: construction with the default `None`, which cannot be
observed (`C110_defaults`). -/
theorem C110_direct_partial (h : Heap V) (a k : ℕ) (hk : k < h.next) (l : List (ℕ × Box V))
    (hl : ∀ w ∈ l, w.1 < h.next ∨ (init h (some a) (some k)).1.next ≤ w.1) :
    observe (writes (init h (some a) (some k)).1 l) (init h (some a) (some k)).2 = some ((h.at_ a).pos, (h.at_ k).named) := by
  have hn : (init h (some a) (some k)).1.next = h.next + 2 := rfl
  rw [hn] at hl
  have e1 := writes_at (init h (some a) (some k)).1 l h.next fun w hw => by have := hl w hw; omega
  have e2 := writes_at (init h (some a) (some k)).1 l (h.next + 1) fun w hw => by have := hl w hw; omega
  show some (((writes (init h (some a) (some k)).1 l).at_ h.next).pos, ((writes (init h (some a) (some k)).1 l).at_ (h.next + 1)).named) = _
  rw [e1, e2]
  simp [init, copy, Heap.alloc, Nat.ne_of_lt hk]

/-- **C110.** Construction leaves the containers of the caller as they were. -/
theorem C110_untouched (h : Heap V) (args kwargs : Option ℕ) (b : ℕ) (hb : b < h.next) : (init h args kwargs).1.at_ b = h.at_ b := by
  have h0 : b ≠ h.next := by omega
  have h1 : b ≠ h.next + 1 := by omega
  cases args <;> cases kwargs <;> simp [init, copy, Heap.alloc, h0, h1]

/-- **C110.** A `MetaBayesianNet` can be observed exactly when both `args` and `kwargs` were given: with the default `None` of either, every call of
`observe` is a `TypeError`. -/
theorem C110_defaults (h : Heap V) (args kwargs : Option ℕ) (l : List (ℕ × Box V)) :
    observe (writes (init h args kwargs).1 l) (init h args kwargs).2 = none ↔ args = none ∨ kwargs = none := by
  cases args <;> cases kwargs <;> simp [init, copy, observe]

/-- Both kinds of construction, with the caller's list emptied before `observe`. -/
example : let h : Heap ℕ := ⟨fun a => if a = 0 then ⟨[3, 4], []⟩ else ⟨[], [("n", 7)]⟩, 2⟩
    observe (writes (init h (some 0) (some 1)).1 [(0, ⟨[], []⟩)]) (init h (some 0) (some 1)).2 = some ([3, 4], [("n", 7)]) := by
  intro h
  exact C110_direct_partial h 0 1 (by decide) _ (by intro w hw; left; simp at hw; subst hw; decide)

/-! ## `doc_inherit` -/

theorem getWithInst_inherit (parents : List (Option (Attr D))) (h : first parents = some .inherit) (n : ℕ) :
    getWithInst n parents = .recursionError := by
  induction n with
  | zero => rfl
  | succ n ih => rw [getWithInst, h]; exact ih

/-- **C111.** On an instance, a decorated method has the documentation of the nearest class after the type of the instance that has the attribute,
if that class does not decorate it too; without such a class it is a `NameError`; and if that class decorates it too, as it does for every
instance of a subclass that does not override the method, then the access is a `RecursionError`, whatever the limit. -/
theorem C111_instance (parents : List (Option (Attr D))) (n : ℕ) :
    getWithInst (n + 1) parents = match first parents with
      | none => .nameError
      | some (.plain d) => .doc d
      | some .inherit => .recursionError := by
  rw [getWithInst]
  rcases h : first parents with _ | _ | _
  · rfl
  · rfl
  · exact getWithInst_inherit parents h n

/-- **C111.** A subclass that does not override a decorated method: the attribute is found in its parent, but its instances cannot use it. -/
theorem C111_subclass (above : List (Option (Attr D))) (n : ℕ) : getWithInst n (some .inherit :: above) = .recursionError :=
  getWithInst_inherit _ rfl n

/-- **C111.** On a class, with single inheritance, a decorated method has the documentation of the nearest ancestor that does not decorate it.
Missing: the same on instances, which is false (`C111_subclass`). -/
theorem C111_class_partial (parents : List (Option (Attr D))) (d : D) :
    getNoInst parents = .doc d ↔
      ∃ below above, parents = below ++ some (.plain d) :: above ∧ ∀ x ∈ below, ∀ d', x ≠ some (.plain d') := by
  induction parents with
  | nil => simp [getNoInst]
  | cons x l ih =>
    have step (hx : ∀ d', x ≠ some (.plain d')) :
        (∃ below above, l = below ++ some (.plain d) :: above ∧ ∀ x ∈ below, ∀ d', x ≠ some (.plain d')) ↔
        ∃ below above, x :: l = below ++ some (.plain d) :: above ∧ ∀ x ∈ below, ∀ d', x ≠ some (.plain d') := by
      constructor
      · rintro ⟨b, a, rfl, hb⟩
        exact ⟨x :: b, a, rfl, by intro y hy; rcases List.mem_cons.1 hy with rfl | hy; exacts [hx, hb y hy]⟩
      · rintro ⟨b, a, e, hb⟩
        cases b with
        | nil => exact absurd (List.cons.inj e).1 (hx d)
        | cons y b => exact ⟨b, a, (List.cons.inj e).2, fun z hz => hb z (List.mem_cons_of_mem _ hz)⟩
    rcases x with _ | ⟨d'⟩ | _
    · rw [getNoInst, ih]; exact step (by simp)
    · rw [getNoInst]
      constructor
      · intro e
        cases e
        exact ⟨[], l, rfl, by simp⟩
      · rintro ⟨b, a, e, hb⟩
        cases b with
        | nil => cases e; rfl
        | cons y b => exact absurd (List.cons.inj e).1.symm (hb y (List.mem_cons_self ..) d')
    · rw [getNoInst, ih]; exact step (by simp)

/-- **C111.** The decorated method is called with the instance in front exactly when the instance is true in Python's sense: a container that is
empty, or anything else that counts as false, is dropped from the arguments.  Missing: those instances. -/
theorem C111_self_partial (truthy : V → Bool) (obj : V) (args : List V) : boundArgs truthy obj args = obj :: args ↔ truthy obj = true := by
  unfold boundArgs
  split
  · simp [*]
  · refine ⟨fun e => ?_, fun e => absurd e ‹_›⟩
    have := congrArg List.length e
    simp at this

/-- A class, its parent that decorates the method, and its grandparent with the documentation. -/
example : getNoInst [some .inherit, some (.plain "doc")] = .doc "doc" ∧ getWithInst 1000 [some .inherit, some (.plain "doc")] = .recursionError :=
  ⟨(C111_class_partial _ _).2 ⟨[some .inherit], [], rfl, by simp⟩, C111_subclass _ _⟩

end ZhuSuan.MetaArgs

import Mathlib.Data.List.Basic
import Mathlib.Data.List.Forall2
import Verif.Spec.Observe

/-! Simulation between the `Local` machine and lexical scoping. -/

set_option autoImplicit false

namespace ZhuSuan.Observe

variable {M V : Type}

/-- The cell `i` holds scope `sc`. -/
def Holds (cells : List (Cell M V)) : Option ℕ → Scope M V → Prop
  | none, sc => sc = none
  | some i, sc => ∃ m obs, sc = some (m, obs) ∧ cells[i]? = some ⟨some obs, some m⟩

/-- The simulation relation between machine states and lexical states. -/
structure Sim (s : State M V) (scope : Scope M V) (nets : List (Scope M V)) : Prop where
  top : Holds s.cells s.stack.head? scope
  nets : List.Forall₂ (fun (a : Option ℕ × Option M) sc =>
    Holds s.cells a.1 sc ∧ a.2 = sc.map Prod.fst) s.nets nets

theorem Holds.mono {cells : List (Cell M V)} {i : Option ℕ} {sc : Scope M V}
    (h : Holds cells i sc) (extra : List (Cell M V)) : Holds (cells ++ extra) i sc := by
  cases i with
  | none => exact h
  | some i =>
    obtain ⟨m, obs, h1, h2⟩ := h
    refine ⟨m, obs, h1, ?_⟩
    have hlt : i < cells.length := by
      by_contra hcon
      rw [List.getElem?_eq_none (by omega)] at h2
      cases h2
    rw [List.getElem?_append_left hlt]
    exact h2

theorem enterLocal_eq (s : State M V) (m : M) (obs : Dict Name V) :
    enterLocal s m obs = { s with cells := s.cells ++ [⟨some obs, some m⟩],
                                  stack := s.cells.length :: s.stack } := by
  unfold enterLocal
  simp only [State.mk.injEq, and_true]
  apply List.ext_getElem?
  intro j
  rw [List.getElem?_modify, List.getElem?_modify]
  by_cases hj : s.cells.length = j
  · subst hj; simp
  · simp only [hj, if_false, id_map']
    by_cases hlt : j < s.cells.length
    · rw [List.getElem?_append_left hlt, List.getElem?_append_left hlt]
    · rw [List.getElem?_eq_none (by simp; omega), List.getElem?_eq_none (by simp; omega)]

/-- Execution simulates lexical evaluation, and leaves the stack as it was. -/
theorem exec_sim (argsOk : M → Bool) (p : Prog M V) :
    ∀ (s : State M V) (scope : Scope M V) (nets : List (Scope M V)), Sim s scope nets →
      (exec argsOk p s).1 = (lexical argsOk scope p nets).1 ∧
      Sim (exec argsOk p s).2 scope (lexical argsOk scope p nets).2 ∧
      (exec argsOk p s).2.stack = s.stack ∧
      ∃ extra, (exec argsOk p s).2.cells = s.cells ++ extra := by
  induction p with
  | skip => intro s scope nets h; exact ⟨rfl, h, rfl, [], by simp [exec]⟩
  | raise => intro s scope nets h; exact ⟨rfl, h, rfl, [], by simp [exec]⟩
  | newNet =>
    intro s scope nets h
    have hm : (match s.stack.head? with
        | some i => (s.cells[i]?).bind Cell.metaBn
        | none => none) = scope.map Prod.fst := by
      have := h.top
      cases hh : s.stack.head? with
      | none => rw [hh] at this; simp [Holds] at this; simp [this]
      | some i =>
        rw [hh] at this
        obtain ⟨m, obs, h1, h2⟩ := this
        simp [h1, h2]
    refine ⟨?_, ⟨h.top, ?_⟩, rfl, [], by simp [exec, newNet]⟩
    · exact congrArg (fun m => (⟨.ok, [.created m]⟩ : Result M V)) hm
    · simp only [exec, newNet, lexical]
      refine List.rel_append h.nets ?_
      exact .cons ⟨h.top, hm⟩ .nil
  | lookup net n =>
    intro s scope nets h
    have hlen := h.nets.length_eq
    have hget : (match getObservation s net n, nets[net]? with
        | none, none => True
        | some v, some sc => v = sc.bind (fun x => x.2.get? n)
        | _, _ => False) := by
      unfold getObservation
      by_cases hlt : net < s.nets.length
      · have hr := h.nets.get hlt (by omega)
        simp only [List.get_eq_getElem] at hr
        rw [List.getElem?_eq_getElem hlt, List.getElem?_eq_getElem (by omega : net < nets.length)]
        rcases hx : s.nets[net] with ⟨a, b⟩
        rw [hx] at hr
        cases a with
        | none =>
          have : nets[net] = none := hr.1
          simp [this]
        | some i =>
          obtain ⟨m, obs, h1, h2⟩ := hr.1
          simp [h1, h2]
      · rw [List.getElem?_eq_none (by omega), List.getElem?_eq_none (by omega)]
        trivial
    simp only [exec, lexical]
    cases hg : getObservation s net n with
    | none =>
      cases hn : nets[net]? with
      | none => exact ⟨rfl, h, rfl, [], by simp⟩
      | some sc => simp [hg, hn] at hget
    | some v =>
      cases hn : nets[net]? with
      | none => simp [hg, hn] at hget
      | some sc =>
        simp only [hg, hn] at hget
        subst hget
        exact ⟨rfl, h, rfl, [], by simp⟩
  | seq p q ihp ihq =>
    intro s scope nets h
    obtain ⟨h1, h2, h3, e, h4⟩ := ihp s scope nets h
    simp only [exec, lexical]
    rcases hp : exec argsOk p s with ⟨⟨o, t⟩, s1⟩
    rcases hl : lexical argsOk scope p nets with ⟨⟨o', t'⟩, n1⟩
    rw [hp, hl] at h1 h2
    rw [hp] at h3 h4
    cases h1
    cases o with
    | raised => exact ⟨rfl, h2, h3, e, h4⟩
    | ok =>
      obtain ⟨g1, g2, g3, e', g4⟩ := ihq s1 scope n1 h2
      simp only
      refine ⟨by rw [g1], g2, g3.trans h3, e ++ e', ?_⟩
      rw [g4]
      simp only at h4
      rw [h4, List.append_assoc]
  | tryExcept p q ihp ihq =>
    intro s scope nets h
    obtain ⟨h1, h2, h3, e, h4⟩ := ihp s scope nets h
    simp only [exec, lexical]
    rcases hp : exec argsOk p s with ⟨⟨o, t⟩, s1⟩
    rcases hl : lexical argsOk scope p nets with ⟨⟨o', t'⟩, n1⟩
    rw [hp, hl] at h1 h2
    rw [hp] at h3 h4
    cases h1
    cases o with
    | ok => exact ⟨rfl, h2, h3, e, h4⟩
    | raised =>
      obtain ⟨g1, g2, g3, e', g4⟩ := ihq s1 scope n1 h2
      simp only
      refine ⟨by rw [g1], g2, g3.trans h3, e ++ e', ?_⟩
      rw [g4]
      simp only at h4
      rw [h4, List.append_assoc]
  | observe m obs body ih =>
    intro s scope nets h
    have henter : Sim (enterLocal s m obs) (some (m, obs)) nets := by
      rw [enterLocal_eq]
      refine ⟨⟨m, obs, rfl, by simp⟩, h.nets.imp (fun a b hab => ⟨hab.1.mono _, hab.2⟩)⟩
    have hback : ∀ (s1 : State M V) (n1 : List (Scope M V)), Sim s1 (some (m, obs)) n1 →
        s1.stack = (enterLocal s m obs).stack →
        (∃ e, s1.cells = (enterLocal s m obs).cells ++ e) →
        ∃ s2, exitLocal s1 = some s2 ∧ Sim s2 scope n1 ∧ s2.stack = s.stack ∧
          ∃ e, s2.cells = s.cells ++ e := by
      intro s1 n1 hs hst ⟨e, he⟩
      rw [enterLocal_eq] at hst he
      simp only at hst he
      refine ⟨{ s1 with stack := s.stack }, by simp [exitLocal, hst], ⟨?_, hs.nets⟩, rfl,
        [⟨some obs, some m⟩] ++ e, ?_⟩
      · simp only
        rw [he, List.append_assoc]
        exact h.top.mono _
      · simp only
        rw [he, List.append_assoc]
    simp only [exec, lexical]
    cases ha : argsOk m with
    | false =>
      obtain ⟨s2, k1, k2, k3, k4⟩ := hback _ nets henter rfl ⟨[], by simp⟩
      simp only [Bool.false_eq_true, if_false]
      rw [k1]
      exact ⟨rfl, k2, k3, k4⟩
    | true =>
      obtain ⟨g1, g2, g3, g4⟩ := ih _ _ _ henter
      obtain ⟨s2, k1, k2, k3, k4⟩ := hback _ _ g2 g3 g4
      simp only [if_true]
      rw [k1]
      exact ⟨g1, k2, k3, k4⟩

end ZhuSuan.Observe

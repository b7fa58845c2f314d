import Verif.Model.Vars

/-! # C74 Variables of a model function are shared by its calls and by nothing else -/

set_option autoImplicit false

namespace ZhuSuan.Vars

variable {M : Type} [DecidableEq M]

/-- Code that gets variables, possibly in sub-scopes named or numbered by TensorFlow, and may raise; it observes no
other net and opens no scope with `reuse=True`. -/
def Flat : Prog M → Prop
  | .skip | .get _ | .raise => True
  | .seq p q => Flat p ∧ Flat q
  | .scope _ r body => r = false ∧ Flat body
  | .dscope _ body => Flat body
  | .observe _ _ => False

/-! ## Lemmas -/

theorem below_snoc (p : Path) (n : String) : Below p (p ++ [n]) := ⟨[n], by simp, rfl⟩

theorem Below.of_snoc {p q : Path} {n : String} (h : Below (p ++ [n]) q) : Below p q := by
  obtain ⟨x, _, rfl⟩ := h
  exact ⟨n :: x, by simp, by simp⟩

theorem Below.length {p q : Path} (h : Below p q) : p.length < q.length := by
  obtain ⟨x, hx, rfl⟩ := h
  have : 0 < x.length := List.length_pos_iff.2 hx
  simp; omega

theorem mem_close {s : Store M} {p q : Path} : q ∈ (s.close p).opened ↔ q ∈ s.opened ∧ ¬ Below p q := by
  simp [Store.close]

theorem mem_open {s : Store M} {p q : Path} : q ∈ (s.open p).opened ↔ q = p ∨ q ∈ s.opened := by
  simp [Store.open]

variable (cfg : M → Cfg)

theorem getVariable_frame (n : String) (cur : Path) (reuse : Bool) (s : Store M) :
    (getVariable n cur reuse s).2.2.tmpl = s.tmpl ∧ (getVariable n cur reuse s).2.2.opened = s.opened := by
  unfold getVariable
  simp only
  split_ifs <;> exact ⟨rfl, rfl⟩

/-- Flat code leaves templates alone and changes scope counts only below its scope. -/
theorem flat_frame (b : Prog M) (hb : Flat b) (cur : Path) (reuse : Bool) (s : Store M) :
    (exec cfg b cur reuse s).2.2.tmpl = s.tmpl ∧
    ∀ q, ¬ Below cur q → (q ∈ (exec cfg b cur reuse s).2.2.opened ↔ q ∈ s.opened) := by
  induction b generalizing cur reuse s with
  | skip => exact ⟨rfl, fun _ _ => Iff.rfl⟩
  | raise => exact ⟨rfl, fun _ _ => Iff.rfl⟩
  | get n =>
    obtain ⟨h1, h2⟩ := getVariable_frame n cur reuse s
    exact ⟨h1, fun q _ => by rw [exec, h2]⟩
  | seq p q ihp ihq =>
    have h1 := ihp hb.1 cur reuse s
    rw [exec]
    rcases he : exec cfg p cur reuse s with ⟨o, t, s'⟩
    rw [he] at h1
    cases o with
    | raised => exact h1
    | ok =>
      have h2 := ihq hb.2 cur reuse s'
      exact ⟨h2.1.trans h1.1, fun r hr => (h2.2 r hr).trans (h1.2 r hr)⟩
  | scope n r body ih =>
    rw [exec]
    have h1 := ih hb.2 (cur ++ [n]) (r || reuse) (s.open (cur ++ [n]))
    refine ⟨h1.1, fun q hq => ?_⟩
    have hq' : ¬ Below (cur ++ [n]) q := fun h => hq h.of_snoc
    have hne : q ≠ cur ++ [n] := by rintro rfl; exact hq (below_snoc _ _)
    simp only [mem_close]
    rw [h1.2 q hq', mem_open]
    simp [hq', hne]
  | dscope n body ih =>
    rw [exec]
    have h1 := ih hb (cur ++ [unique s.opened cur n]) reuse (s.open (cur ++ [unique s.opened cur n]))
    refine ⟨h1.1, fun q hq => ?_⟩
    have hq' : ¬ Below (cur ++ [unique s.opened cur n]) q := fun h => hq h.of_snoc
    have hne : q ≠ cur ++ [unique s.opened cur n] := by rintro rfl; exact hq (below_snoc _ _)
    simp only [mem_close]
    rw [h1.2 q hq', mem_open]
    simp [hq', hne]
  | observe m body _ => exact absurd hb id

/-- Flat code leaves at most direct sub-scopes counted. -/
theorem flat_depth (b : Prog M) (hb : Flat b) (cur : Path) (reuse : Bool) (s : Store M)
    (h : ∀ q ∈ s.opened, Below cur q → q.length = cur.length + 1) :
    ∀ q ∈ (exec cfg b cur reuse s).2.2.opened, Below cur q → q.length = cur.length + 1 := by
  induction b generalizing cur reuse s with
  | skip => exact h
  | raise => exact h
  | get n =>
    rw [exec, (getVariable_frame n cur reuse s).2]
    exact h
  | seq p q ihp ihq =>
    have h1 := ihp hb.1 cur reuse s h
    rw [exec]
    rcases he : exec cfg p cur reuse s with ⟨o, t, s'⟩
    rw [he] at h1
    cases o with
    | raised => exact h1
    | ok => exact ihq hb.2 cur reuse s' h1
  | scope n r body ih =>
    rw [exec]
    intro q hq hbq
    simp only [mem_close] at hq
    rw [(flat_frame cfg body hb.2 _ _ _).2 q hq.2, mem_open] at hq
    rcases hq.1 with rfl | hq'
    · simp
    · exact h q hq' hbq
  | dscope n body ih =>
    rw [exec]
    intro q hq hbq
    simp only [mem_close] at hq
    rw [(flat_frame cfg body hb _ _ _).2 q hq.2, mem_open] at hq
    rcases hq.1 with rfl | hq'
    · simp
    · exact h q hq' hbq
  | observe m body _ => exact absurd hb id

/-- Without reuse the variables got are exactly the variables created, and they are new. -/
theorem flat_fresh (b : Prog M) (hb : Flat b) (cur : Path) (s : Store M) :
    (exec cfg b cur false s).2.2.vars = s.vars ++ (exec cfg b cur false s).2.1 ∧
    ∀ v ∈ (exec cfg b cur false s).2.1, v ∉ s.vars := by
  induction b generalizing cur s with
  | skip => simp [exec]
  | raise => simp [exec]
  | get n =>
    rw [exec]
    unfold getVariable
    by_cases h : cur ++ [n] ∈ s.vars <;> simp [h]
  | seq p q ihp ihq =>
    have h1 := ihp hb.1 cur s
    rw [exec]
    rcases he : exec cfg p cur false s with ⟨o, t, s'⟩
    rw [he] at h1
    cases o with
    | raised => exact h1
    | ok =>
      have h2 := ihq hb.2 cur s'
      simp only at h1 ⊢
      refine ⟨by rw [h2.1, h1.1]; simp, ?_⟩
      intro v hv
      rcases List.mem_append.1 hv with hv | hv
      · exact h1.2 v hv
      · have := h2.2 v hv
        rw [h1.1] at this
        exact fun h => this (List.mem_append_left _ h)
  | scope n r body ih =>
    rw [exec]
    have h0 : r = false := hb.1
    subst h0
    exact ih hb.2 (cur ++ [n]) (s.open (cur ++ [n]))
  | dscope n body ih =>
    rw [exec]
    exact ih hb (cur ++ [unique s.opened cur n]) (s.open (cur ++ [unique s.opened cur n]))
  | observe m body _ => exact absurd hb id

/-- Variables are never removed. -/
theorem vars_mono (b : Prog M) (cur : Path) (reuse : Bool) (s : Store M) :
    ∃ l, (exec cfg b cur reuse s).2.2.vars = s.vars ++ l := by
  induction b generalizing cur reuse s with
  | skip => exact ⟨[], by simp [exec]⟩
  | raise => exact ⟨[], by simp [exec]⟩
  | get n =>
    rw [exec]
    unfold getVariable
    simp only
    split_ifs
    · exact ⟨[], by simp⟩
    · exact ⟨[], by simp⟩
    · exact ⟨[], by simp⟩
    · exact ⟨_, rfl⟩
  | seq p q ihp ihq =>
    obtain ⟨l, hl⟩ := ihp cur reuse s
    rw [exec]
    rcases he : exec cfg p cur reuse s with ⟨o, t, s'⟩
    rw [he] at hl
    cases o with
    | raised => exact ⟨l, hl⟩
    | ok =>
      obtain ⟨l', hl'⟩ := ihq cur reuse s'
      simp only at hl
      exact ⟨l ++ l', by simp only; rw [hl', hl, List.append_assoc]⟩
  | scope n r body ih => rw [exec]; exact ih _ _ (s.open (cur ++ [n]))
  | dscope n body ih => rw [exec]; exact ih _ _ (s.open (cur ++ [unique s.opened cur n]))
  | observe m body ih =>
    have hf : ∀ (k : ℕ) (x : Outcome × List Path × Store M), (finish m k x).2.2.vars = x.2.2.vars := by
      intro k x
      obtain ⟨o, t, s⟩ := x
      cases o with
      | raised => rfl
      | ok => unfold finish; simp only; split_ifs <;> rfl
    rw [exec]
    split
    · split
      · simp only [Store.close, hf]
        exact ih _ _ _
      · simp only [hf]
        exact ih _ _ _
    · exact ih _ _ (s.open _)
    · exact ⟨[], by simp⟩
    · exact ih _ _ s

/-- Two stores agree on the scopes counted below `p`. -/
def Agree (p : Path) (s s' : Store M) : Prop := ∀ q, Below p q → (q ∈ s.opened ↔ q ∈ s'.opened)

theorem Agree.unique {p : Path} {s s' : Store M} (h : Agree p s s') (n : String) :
    unique s.opened p n = unique s'.opened p n := by
  have hn : ∀ c : String, p ++ [c] ∈ s.opened ↔ p ++ [c] ∈ s'.opened := fun c => h _ (below_snoc p c)
  unfold Vars.unique
  simp only [hn n]
  split_ifs with h1
  · congr 1
    exact Nat.find_congr' (fun {i} => by rw [hn])
  · rfl

theorem Agree.open_snoc {p : Path} {s s' : Store M} (h : Agree p s s') (c : String) :
    Agree (p ++ [c]) (s.open (p ++ [c])) (s'.open (p ++ [c])) := by
  intro q hq
  rw [mem_open, mem_open, h q hq.of_snoc]

/-- Running flat code a second time, either reusing variables or in a part that needs none: it gets what it got the
first time and creates nothing. -/
theorem replay (b : Prog M) (hb : Flat b) (p : Path) (reuse : Bool) (s1 s' : Store M)
    (hok : (exec cfg b p false s1).1 = .ok) (hag : Agree p s1 s')
    (hr : reuse = true ∨ (exec cfg b p false s1).2.1 = [])
    (hv : ∀ v ∈ (exec cfg b p false s1).2.1, v ∈ s'.vars) :
    (exec cfg b p reuse s').1 = .ok ∧ (exec cfg b p reuse s').2.1 = (exec cfg b p false s1).2.1 ∧
    (exec cfg b p reuse s').2.2.vars = s'.vars ∧
    Agree p (exec cfg b p false s1).2.2 (exec cfg b p reuse s').2.2 := by
  induction b generalizing p s1 s' with
  | skip => exact ⟨rfl, rfl, rfl, hag⟩
  | raise => simp [exec] at hok
  | get n =>
    rw [exec] at hok hr hv ⊢
    rw [exec]
    unfold getVariable at hok hr hv ⊢
    by_cases h : p ++ [n] ∈ s1.vars
    · simp [h] at hok
    · simp only [h, Bool.false_eq_true, ↓reduceIte, List.cons_ne_nil, or_false] at hr hv ⊢
      subst hr
      have : p ++ [n] ∈ s'.vars := hv _ (by simp)
      simp only [this, ↓reduceIte, true_and]
      exact hag
  | seq b c ihb ihc =>
    rw [exec] at hok hr hv ⊢
    rw [exec]
    have hb' := ihb hb.1 p s1 s'
    rcases he : exec cfg b p false s1 with ⟨o, t, s2⟩
    rw [he] at hok hr hv hb'
    cases o with
    | raised => simp at hok
    | ok =>
      simp only at hok hr hv hb' ⊢
      obtain ⟨h1, h2, h3, h4⟩ := hb' trivial hag
        (hr.imp id (fun h => (List.append_eq_nil_iff.1 h).1))
        (fun v hv' => hv v (List.mem_append_left _ hv'))
      rcases he' : exec cfg b p reuse s' with ⟨o', t', s3⟩
      rw [he'] at h1 h2 h3 h4
      simp only at h1 h2 h3 h4
      subst h1
      subst h2
      simp only
      obtain ⟨g1, g2, g3, g4⟩ := ihc hb.2 p s2 s3 hok h4
        (hr.imp id (fun h => (List.append_eq_nil_iff.1 h).2))
        (fun v hv' => by rw [h3]; exact hv v (List.mem_append_right _ hv'))
      exact ⟨g1, by rw [g2], g3.trans h3, g4⟩
  | scope n r body ih =>
    have h0 : r = false := hb.1
    subst h0
    rw [exec] at hok hr hv ⊢
    rw [exec]
    simp only [Bool.false_or] at hok hr hv ⊢
    obtain ⟨h1, h2, h3, _⟩ := ih hb.2 (p ++ [n]) (s1.open (p ++ [n])) (s'.open (p ++ [n])) hok
      (hag.open_snoc n) hr hv
    refine ⟨h1, h2, h3, ?_⟩
    intro q hq
    rw [mem_close, mem_close]
    by_cases hbq : Below (p ++ [n]) q
    · simp [hbq]
    · rw [(flat_frame cfg body hb.2 _ _ _).2 q hbq, (flat_frame cfg body hb.2 _ _ _).2 q hbq, mem_open,
        mem_open, hag q hq]
  | dscope n body ih =>
    rw [exec] at hok hr hv ⊢
    rw [exec]
    have hu := hag.unique n
    simp only at hok hr hv ⊢
    rw [← hu]
    obtain ⟨h1, h2, h3, _⟩ := ih hb (p ++ [unique s1.opened p n]) (s1.open (p ++ [unique s1.opened p n]))
      (s'.open (p ++ [unique s1.opened p n])) hok (hag.open_snoc _) hr hv
    refine ⟨h1, h2, h3, ?_⟩
    intro q hq
    rw [mem_close, mem_close]
    by_cases hbq : Below (p ++ [unique s1.opened p n]) q
    · simp [hbq]
    · rw [(flat_frame cfg body hb _ _ _).2 q hbq, (flat_frame cfg body hb _ _ _).2 q hbq, mem_open,
        mem_open, hag q hq]
  | observe m body _ => exact absurd hb id

/-- Running flat code a second time without reuse fails at its first variable. -/
theorem replay_raises (b : Prog M) (hb : Flat b) (p : Path) (s1 s' : Store M)
    (hok : (exec cfg b p false s1).1 = .ok) (hag : Agree p s1 s')
    (hne : (exec cfg b p false s1).2.1 ≠ [])
    (hv : ∀ v ∈ (exec cfg b p false s1).2.1, v ∈ s'.vars) :
    (exec cfg b p false s').1 = .raised := by
  induction b generalizing p s1 s' with
  | skip => simp [exec] at hne
  | raise => simp [exec] at hok
  | get n =>
    rw [exec] at hok hne hv ⊢
    unfold getVariable at hok hne hv ⊢
    by_cases h : p ++ [n] ∈ s1.vars
    · simp [h] at hok
    · simp only [h, Bool.false_eq_true, ↓reduceIte] at hv ⊢
      have : p ++ [n] ∈ s'.vars := hv _ (by simp)
      simp [this]
  | seq b c ihb ihc =>
    have hrep := replay cfg b hb.1 p false s1 s'
    have hb' := ihb hb.1 p s1 s'
    rw [exec] at hok hne hv ⊢
    rcases he : exec cfg b p false s1 with ⟨o, t, s2⟩
    rw [he] at hok hne hv hrep hb'
    cases o with
    | raised => simp at hok
    | ok =>
      simp only at hok hne hv hrep hb' ⊢
      by_cases ht : t = []
      · obtain ⟨h1, h2, h3, h4⟩ := hrep trivial hag (.inr ht) (by simp [ht])
        rcases he' : exec cfg b p false s' with ⟨o', t', s3⟩
        rw [he'] at h1 h2 h3 h4
        simp only at h1 h2 h3 h4
        subst h1
        simp only
        exact ihc hb.2 p s2 s3 hok h4 (by simpa [ht] using hne)
          (fun v hv' => by rw [h3]; exact hv v (List.mem_append_right _ hv'))
      · have := hb' trivial hag ht (fun v hv' => hv v (List.mem_append_left _ hv'))
        rcases he' : exec cfg b p false s' with ⟨o', t', s3⟩
        rw [he'] at this
        simp only at this
        subst this
        rfl
  | scope n r body ih =>
    have h0 : r = false := hb.1
    subst h0
    rw [exec] at hok hne hv ⊢
    exact ih hb.2 (p ++ [n]) (s1.open (p ++ [n])) (s'.open (p ++ [n])) hok (hag.open_snoc n) hne hv
  | dscope n body ih =>
    rw [exec] at hok hne hv ⊢
    have hu := hag.unique n
    simp only at hok hne hv ⊢
    rw [← hu]
    exact ih hb (p ++ [unique s1.opened p n]) (s1.open (p ++ [unique s1.opened p n]))
      (s'.open (p ++ [unique s1.opened p n])) hok (hag.open_snoc _) hne hv
  | observe m body _ => exact absurd hb id

/-! ## Invariants of a script -/

theorem observe_first {m : M} {n : String} (hc : cfg m = ⟨some n, true⟩) (body : Prog M) (cur : Path)
    (reuse : Bool) (s : Store M) (hs : (s.tmpl m).scope = none) :
    exec cfg (.observe m body) cur reuse s =
      (let p := cur ++ [unique s.opened cur n]
       let s' := { s.open p with tmpl := Function.update s.tmpl m { s.tmpl m with scope := some (p, reuse) } }
       let x := finish m s.vars.length (exec cfg body p reuse s')
       (x.1, x.2.1, x.2.2.close p)) := by
  rw [exec, hc]
  simp only [hs]

theorem observe_later {m : M} {n : String} (hc : cfg m = ⟨some n, true⟩) (body : Prog M) (cur : Path)
    (reuse : Bool) (s : Store M) {p : Path} {r : Bool} (hs : (s.tmpl m).scope = some (p, r)) :
    exec cfg (.observe m body) cur reuse s =
      (let x := finish m s.vars.length (exec cfg body p ((s.tmpl m).created || r) (s.open p))
       (x.1, x.2.1, { x.2.2 with opened := (s.open p).opened })) := by
  rw [exec, hc]
  simp only [hs]

theorem finish_ok {m : M} {k : ℕ} {x : Outcome × List Path × Store M} (h : (finish m k x).1 = .ok) :
    x.1 = .ok ∧ (finish m k x).2.1 = x.2.1 ∧
    (finish m k x).2.2 = { x.2.2 with
      tmpl := Function.update x.2.2.tmpl m { x.2.2.tmpl m with created := true } } ∧
    ((x.2.2.tmpl m).created = true → x.2.2.vars.length = k) := by
  obtain ⟨o, t, s⟩ := x
  cases o with
  | raised => simp [finish] at h
  | ok =>
    unfold finish at h ⊢
    simp only at h ⊢
    split_ifs at h ⊢ with h1
    refine ⟨trivial, rfl, rfl, fun hc => ?_⟩
    simp only [hc, Bool.true_and, decide_eq_true_eq, not_not] at h1
    exact h1

theorem finish_any (m : M) (k : ℕ) (x : Outcome × List Path × Store M) :
    (finish m k x).2.1 = x.2.1 ∧ (finish m k x).2.2.vars = x.2.2.vars ∧
    (finish m k x).2.2.opened = x.2.2.opened ∧
    (∀ m', ((finish m k x).2.2.tmpl m').scope = (x.2.2.tmpl m').scope) ∧
    (∀ m', m' ≠ m → (finish m k x).2.2.tmpl m' = x.2.2.tmpl m') ∧
    ((finish m k x).1 = .raised → (finish m k x).2.2.tmpl m = x.2.2.tmpl m) := by
  obtain ⟨o, t, s⟩ := x
  cases o with
  | raised => simp [finish]
  | ok =>
    unfold finish
    simp only
    split_ifs
    · simp
    · refine ⟨rfl, rfl, rfl, fun m' => ?_, fun m' hm => ?_, fun h => by simp at h⟩
      · by_cases hm : m' = m
        · subst hm; simp
        · simp [Function.update_of_ne hm]
      · simp [Function.update_of_ne hm]

/-- `m` is a net with `reuse_variables` whose first successful call got the variables `τ`, its function doing
`f m`. -/
def Data (f : M → Prog M) (s : Store M) (m : M) (τ : List Path) : Prop :=
  (∃ n, cfg m = ⟨some n, true⟩) ∧ (s.tmpl m).created = true ∧
  ∃ p s1, (s.tmpl m).scope = some (p, false) ∧ p.length = 1 ∧
    (exec cfg (f m) p false s1).1 = .ok ∧ (exec cfg (f m) p false s1).2.1 = τ ∧
    (∀ q ∈ s1.opened, ¬ Below p q) ∧ (∀ v ∈ τ, v ∈ s.vars)

/-- What holds between the calls of a script. -/
structure Inv (f : M → Prog M) (s : Store M) : Prop where
  opened : ∀ q ∈ s.opened, q.length ≤ 1
  scope : ∀ m p r, (s.tmpl m).scope = some (p, r) → p.length = 1 ∧ r = false
  created : ∀ m, (s.tmpl m).created = true → ∃ τ, Data cfg f s m τ
  apart : ∀ m m' τ τ', m ≠ m' → Data cfg f s m τ → Data cfg f s m' τ' → ∀ v ∈ τ, v ∉ τ'

theorem inv_empty (f : M → Prog M) : Inv cfg f (Store.empty : Store M) where
  opened := by simp [Store.empty]
  scope := by simp [Store.empty]
  created := by simp [Store.empty]
  apart := by
    intro m m' τ τ' _ h
    obtain ⟨_, h, _⟩ := h
    simp [Store.empty] at h

/-- Code of the script's calls: flat, and a net with `reuse_variables` always does the same. -/
def Stmt (f : M → Prog M) (m : M) (b : Prog M) : Prop := Flat b ∧ ((cfg m).reuse = true → b = f m)

variable {cfg} {f : M → Prog M}

theorem not_below_of_length {p q : Path} (hp : p.length = 1) (hq : q.length ≤ 1) : ¬ Below p q :=
  fun h => by have := h.length; omega

/-- A net that has its variables gets them again, and nothing is created. -/
theorem data_step {s : Store M} {m : M} {τ : List Path} (hi : Inv cfg f s) (hf : Flat (f m))
    (hd : Data cfg f s m τ) (cur : Path) (reuse : Bool) :
    (exec cfg (.observe m (f m)) cur reuse s).1 = .ok ∧
    (exec cfg (.observe m (f m)) cur reuse s).2.1 = τ ∧
    (exec cfg (.observe m (f m)) cur reuse s).2.2.vars = s.vars := by
  obtain ⟨⟨n, hc⟩, hcr, p, s1, hs, hp, hok, ht, hq, hv⟩ := hd
  rw [observe_later cfg hc _ _ _ _ hs]
  have hag : Agree p s1 (s.open p) := by
    intro q hb
    constructor
    · intro h; exact absurd hb (hq q h)
    · intro h
      rw [mem_open] at h
      rcases h with rfl | h
      · exact absurd hb.length (by omega)
      · exact absurd hb (not_below_of_length hp (hi.opened q h))
  obtain ⟨h1, h2, h3, _⟩ := replay cfg (f m) hf p true s1 (s.open p) hok hag (.inl rfl)
    (by rw [ht]; exact hv)
  simp only [hcr, Bool.true_or]
  rcases he : exec cfg (f m) p true (s.open p) with ⟨o, t, s2⟩
  rw [he] at h1 h2 h3
  simp only at h1 h2 h3
  subst h1
  have hlen : s2.vars.length = s.vars.length := by rw [h3]; rfl
  have hfin : finish m s.vars.length (Outcome.ok, t, s2) =
      (.ok, t, { s2 with tmpl := Function.update s2.tmpl m { s2.tmpl m with created := true } }) := by
    unfold finish
    simp [hlen]
  rw [hfin]
  exact ⟨rfl, h2.trans ht, h3⟩

/-- The variables of a net are determined by its template. -/
theorem data_unique (hf : ∀ m, Flat (f m)) {s : Store M} {m : M} {τ τ' : List Path}
    (h : Data cfg f s m τ) (h' : Data cfg f s m τ') : τ = τ' := by
  obtain ⟨_, _, p, s1, b3, b4, b5, b6, b7, b8⟩ := h
  obtain ⟨_, _, p', s1', c3, c4, c5, c6, c7, c8⟩ := h'
  rw [b3] at c3
  have hpp : p = p' := by simpa using c3
  subst hpp
  have hag : ∀ s1 : Store M, (∀ q ∈ s1.opened, ¬ Below p q) → Agree p s1 ⟨s.vars, [], s.tmpl⟩ :=
    fun s1 h q hq => ⟨fun h' => absurd hq (h q h'), fun h' => by simp at h'⟩
  have r1 := replay cfg (f m) (hf m) p true s1 ⟨s.vars, [], s.tmpl⟩ b5 (hag s1 b7) (.inl rfl)
    (by rw [b6]; exact b8)
  have r2 := replay cfg (f m) (hf m) p true s1' ⟨s.vars, [], s.tmpl⟩ c5 (hag s1' c7) (.inl rfl)
    (by rw [c6]; exact c8)
  rw [← b6, ← c6, ← r1.2.1, ← r2.2.1]

theorem data_mono {s x : Store M} {m : M} {τ : List Path} (hv : ∀ v ∈ s.vars, v ∈ x.vars)
    (ht : x.tmpl m = s.tmpl m) (h : Data cfg f s m τ) : Data cfg f x m τ := by
  obtain ⟨a1, a2, p, s1, a3, a4, a5, a6, a7, a8⟩ := h
  exact ⟨a1, by rw [ht]; exact a2, p, s1, by rw [ht]; exact a3, a4, a5, a6, a7, fun v h => hv v (a8 v h)⟩

theorem inv_of (hf : ∀ m, Flat (f m)) {s x : Store M} {m : M} {l : List Path} (hi : Inv cfg f s)
    (h1 : ∀ q ∈ x.opened, q.length ≤ 1) (h2 : x.vars = s.vars ++ l) (hl : ∀ v ∈ l, v ∉ s.vars)
    (h3 : ∀ m', m' ≠ m → x.tmpl m' = s.tmpl m')
    (h4 : x.tmpl m = s.tmpl m ∨ ((s.tmpl m).created = false ∧ ∃ p, (x.tmpl m).scope = some (p, false) ∧
      p.length = 1 ∧ ((x.tmpl m).created = true → Data cfg f x m l))) :
    Inv cfg f x ∧ (∀ m' τ, Data cfg f s m' τ → Data cfg f x m' τ) ∧
    (∀ m' τ, m' ≠ m → Data cfg f x m' τ → Data cfg f s m' τ) := by
  have hmono : ∀ v ∈ s.vars, v ∈ x.vars := fun v hv => by rw [h2]; exact List.mem_append_left _ hv
  have fwd : ∀ m' τ, Data cfg f s m' τ → Data cfg f x m' τ := by
    intro m' τ hd
    by_cases hm : m' = m
    · subst hm
      rcases h4 with h4 | ⟨h4, _⟩
      · exact data_mono hmono h4 hd
      · rw [hd.2.1] at h4; cases h4
    · exact data_mono hmono (h3 m' hm) hd
  have bwd' : ∀ m' τ, x.tmpl m' = s.tmpl m' → Data cfg f x m' τ → Data cfg f s m' τ := by
    intro m' τ ht hd
    obtain ⟨τ', hd'⟩ := hi.created m' (by rw [← ht]; exact hd.2.1)
    have := data_unique hf hd (fwd m' τ' hd')
    subst this
    exact hd'
  refine ⟨⟨h1, ?_, ?_, ?_⟩, fwd, fun m' τ hm hd => bwd' m' τ (h3 m' hm) hd⟩
  · intro m' p r hp
    by_cases hm : m' = m
    · subst hm
      rcases h4 with h4 | ⟨_, p', h5, h6, _⟩
      · rw [h4] at hp; exact hi.scope _ _ _ hp
      · rw [h5] at hp
        simp only [Option.some.injEq, Prod.mk.injEq] at hp
        exact ⟨by rw [← hp.1]; exact h6, hp.2.symm⟩
    · rw [h3 m' hm] at hp; exact hi.scope _ _ _ hp
  · intro m' hc
    by_cases hm : m' = m
    · subst hm
      rcases h4 with h4 | ⟨_, p', _, _, h7⟩
      · rw [h4] at hc
        obtain ⟨τ, hd⟩ := hi.created _ hc
        exact ⟨τ, fwd _ τ hd⟩
      · exact ⟨l, h7 hc⟩
    · rw [h3 m' hm] at hc
      obtain ⟨τ, hd⟩ := hi.created _ hc
      exact ⟨τ, fwd _ τ hd⟩
  · -- the new variables are not among the old ones
    have key : ∀ m' τ τ', m' ≠ m → Data cfg f x m τ → Data cfg f x m' τ' → ∀ v ∈ τ, v ∉ τ' := by
      intro m' τ τ' hm hd hd'
      have hd2 := bwd' m' τ' (h3 m' hm) hd'
      rcases h4 with h4 | ⟨_, p', _, _, h7⟩
      · exact hi.apart m m' τ τ' (Ne.symm hm) (bwd' m τ h4 hd) hd2
      · have := data_unique hf hd (h7 hd.2.1)
        subst this
        intro v hv hv'
        obtain ⟨_, _, _, _, _, _, _, _, _, a8⟩ := hd2
        exact hl v hv (a8 v hv')
    intro m1 m2 τ τ' hne hd hd' v hv hv'
    by_cases e1 : m1 = m
    · subst e1; exact key m2 τ τ' (Ne.symm hne) hd hd' v hv hv'
    · by_cases e2 : m2 = m
      · subst e2; exact key m1 τ' τ hne hd' hd v hv' hv
      · exact hi.apart m1 m2 τ τ' hne (bwd' m1 τ (h3 m1 e1) hd) (bwd' m2 τ' (h3 m2 e2) hd') v hv hv'

theorem unique_length (opened : List Path) (n : String) : ([] ++ [unique opened [] n] : Path).length = 1 := rfl

/-- One call of a script. -/
theorem step (hf : ∀ m, Flat (f m)) {s : Store M} {m : M} {b : Prog M} (hi : Inv cfg f s)
    (hst : Stmt cfg f m b) :
    let x := exec cfg (.observe m b) [] false s
    Inv cfg f x.2.2 ∧ (∀ v ∈ s.vars, v ∈ x.2.2.vars) ∧ (∀ v ∈ x.2.1, v ∈ x.2.2.vars) ∧
    (∀ m' τ, Data cfg f s m' τ → Data cfg f x.2.2 m' τ) ∧
    (∀ m' τ, m' ≠ m → Data cfg f x.2.2 m' τ → Data cfg f s m' τ) ∧
    ((∀ τ, ¬ Data cfg f s m τ) → (∀ v ∈ x.2.1, v ∉ s.vars) ∧
      ((cfg m).reuse = true → x.1 = .ok → Data cfg f x.2.2 m x.2.1) ∧
      ∀ τ, Data cfg f x.2.2 m τ → x.1 = .ok) := by
  obtain ⟨hfl, hsame⟩ := hst
  rcases hcm : cfg m with ⟨sc, ru⟩
  have hroot : ∀ q ∈ s.opened, Below [] q → q.length = ([] : Path).length + 1 := by
    intro q hq hb
    have h1 := hi.opened q hq
    have h2 := hb.length
    simp at h2 ⊢; omega
  -- the scopes left open by code run in a scope of depth 1
  have depth : ∀ (p : Path) (r : Bool) (s' : Store M), p.length = 1 → (∀ q ∈ s'.opened, q.length ≤ 1) →
      ∀ q ∈ ((exec cfg b p r s').2.2.close p).opened, q.length ≤ 1 := by
    intro p r s' hp hs' q hq
    rw [mem_close] at hq
    rw [(flat_frame cfg b hfl p r s').2 q hq.2] at hq
    exact hs' q hq.1
  have open_le : ∀ p : Path, p.length = 1 → ∀ q ∈ (s.open p).opened, q.length ≤ 1 := by
    intro p hp q hq
    rw [mem_open] at hq
    rcases hq with rfl | hq
    · omega
    · exact hi.opened q hq
  cases ru with
  | false =>
    have main : ∀ x : Outcome × List Path × Store M, exec cfg (.observe m b) [] false s = x →
        x.2.2.tmpl = s.tmpl → (∀ q ∈ x.2.2.opened, q.length ≤ 1) →
        (x.2.2.vars = s.vars ++ x.2.1 ∧ ∀ v ∈ x.2.1, v ∉ s.vars) →
        Inv cfg f x.2.2 ∧ (∀ v ∈ s.vars, v ∈ x.2.2.vars) ∧ (∀ v ∈ x.2.1, v ∈ x.2.2.vars) ∧
        (∀ m' τ, Data cfg f s m' τ → Data cfg f x.2.2 m' τ) ∧
        (∀ m' τ, m' ≠ m → Data cfg f x.2.2 m' τ → Data cfg f s m' τ) ∧
        ((∀ τ, ¬ Data cfg f s m τ) → (∀ v ∈ x.2.1, v ∉ s.vars) ∧
          (false = true → x.1 = .ok → Data cfg f x.2.2 m x.2.1) ∧
          ∀ τ, Data cfg f x.2.2 m τ → x.1 = .ok) := by
      intro x _ h1 h2 h3
      obtain ⟨g1, g2, g3⟩ := inv_of (m := m) hf hi h2 h3.1 h3.2 (fun m' _ => by rw [h1]) (.inl (by rw [h1]))
      exact ⟨g1, fun v hv => by rw [h3.1]; exact List.mem_append_left _ hv,
        fun v hv => by rw [h3.1]; exact List.mem_append_right _ hv, g2, g3,
        fun _ => ⟨h3.2, fun h => (by cases h), fun τ hd => by
          obtain ⟨n, hc⟩ := hd.1
          rw [hcm] at hc
          cases hc⟩⟩
    cases sc with
    | none =>
      have he : exec cfg (.observe m b) [] false s = exec cfg b [] false s := by
        rw [exec, hcm]
      refine main _ rfl ?_ ?_ ?_ <;> rw [he]
      · exact (flat_frame cfg b hfl [] false s).1
      · intro q hq
        rcases q with _ | ⟨a, q⟩
        · simp
        · have := flat_depth cfg b hfl [] false s hroot _ hq ⟨a :: q, by simp, rfl⟩
          rw [this]; simp
      · exact flat_fresh cfg b hfl [] s
    | some n =>
      have he : exec cfg (.observe m b) [] false s =
          ((exec cfg b [n] false (s.open [n])).1, (exec cfg b [n] false (s.open [n])).2.1,
            (exec cfg b [n] false (s.open [n])).2.2.close [n]) := by
        rw [exec, hcm]; rfl
      refine main _ rfl ?_ ?_ ?_ <;> rw [he]
      · exact (flat_frame cfg b hfl [n] false (s.open [n])).1
      · exact depth [n] false (s.open [n]) rfl (open_le [n] rfl)
      · exact flat_fresh cfg b hfl [n] (s.open [n])
  | true =>
    have hbf : b = f m := hsame (by rw [hcm])
    subst hbf
    cases sc with
    | none =>
      have he : exec cfg (.observe m (f m)) [] false s = (.raised, [], s) := by rw [exec, hcm]
      rw [he]
      refine ⟨hi, fun v h => h, by simp, fun _ _ h => h, fun _ _ _ h => h,
        fun hno => ⟨by simp, by simp, fun τ hd => absurd hd (hno τ)⟩⟩
    | some n =>
      by_cases hcr : (s.tmpl m).created = true
      · -- variables are reused
        obtain ⟨τ, hd⟩ := hi.created m hcr
        obtain ⟨d1, d2, d3⟩ := data_step hi (hf m) hd [] false
        obtain ⟨_, _, p, s1, a3, a4, _, _, _, a8⟩ := hd
        have htm : (exec cfg (.observe m (f m)) [] false s).2.2.tmpl = s.tmpl ∧
            ∀ q ∈ (exec cfg (.observe m (f m)) [] false s).2.2.opened, q.length ≤ 1 := by
          have d1' := d1
          rw [observe_later cfg hcm _ _ _ _ a3] at d1' ⊢
          obtain ⟨_, _, f3, _⟩ := finish_ok d1'
          refine ⟨?_, open_le p a4⟩
          show (finish m s.vars.length _).2.2.tmpl = _
          rw [f3, (flat_frame cfg (f m) hfl _ _ _).1]
          show Function.update s.tmpl m { s.tmpl m with created := true } = s.tmpl
          have : ({ s.tmpl m with created := true } : Template) = s.tmpl m := by rw [← hcr]
          rw [this, Function.update_eq_self]
        have hd : Data cfg f s m τ := by
          obtain ⟨τ', hd'⟩ := hi.created m hcr
          have := (data_step hi (hf m) hd' [] false).2.1
          rw [d2] at this
          rw [this]; exact hd'
        obtain ⟨g1, g2, g3⟩ := inv_of (m := m) (l := []) hf hi htm.2 (by rw [d3]; simp) (by simp)
          (fun m' _ => by rw [htm.1]) (.inl (by rw [htm.1]))
        exact ⟨g1, fun v hv => by rw [d3]; exact hv, fun v hv => by rw [d3]; rw [d2] at hv; exact a8 v hv,
          g2, g3, fun h => absurd hd (h τ)⟩
      · -- the first successful call, if it is one
        have hcr' : (s.tmpl m).created = false := by simpa using hcr
        have main : ∀ (p : Path) (s' : Store M) (y : Outcome × List Path × Store M) (O : List Path),
            p.length = 1 → s'.vars = s.vars → (∀ q ∈ s'.opened, q.length ≤ 1) →
            (∀ m', m' ≠ m → s'.tmpl m' = s.tmpl m') → (s'.tmpl m).scope = some (p, false) →
            (s'.tmpl m).created = false → y = finish m s.vars.length (exec cfg (f m) p false s') →
            (∀ q ∈ O, q.length ≤ 1) →
            Inv cfg f { y.2.2 with opened := O } ∧ (∀ v ∈ s.vars, v ∈ y.2.2.vars) ∧
            (∀ v ∈ y.2.1, v ∈ y.2.2.vars) ∧
            (∀ m' τ, Data cfg f s m' τ → Data cfg f { y.2.2 with opened := O } m' τ) ∧
            (∀ m' τ, m' ≠ m → Data cfg f { y.2.2 with opened := O } m' τ → Data cfg f s m' τ) ∧
            ((∀ τ, ¬ Data cfg f s m τ) → (∀ v ∈ y.2.1, v ∉ s.vars) ∧
              (true = true → y.1 = .ok → Data cfg f { y.2.2 with opened := O } m y.2.1) ∧
              ∀ τ, Data cfg f { y.2.2 with opened := O } m τ → y.1 = .ok) := by
          intro p s' y O hp hv ho ht hsc hcr2 hy hO
          obtain ⟨k1, k2, k3, k4, k5, k6⟩ := finish_any m s.vars.length (exec cfg (f m) p false s')
          obtain ⟨fr1, fr2⟩ := flat_fresh cfg (f m) (hf m) p s'
          have ftm := (flat_frame cfg (f m) (hf m) p false s').1
          rw [← hy] at k1 k2 k4 k5 k6
          have hvars : y.2.2.vars = s.vars ++ y.2.1 := by rw [k2, k1, fr1, hv]
          have hnew : ∀ v ∈ y.2.1, v ∉ s.vars := by
            intro v h; rw [k1] at h; rw [← hv]; exact fr2 v h
          have hdata : y.1 = .ok → Data cfg f { y.2.2 with opened := O } m y.2.1 := by
            intro hok
            have hfo := hok
            rw [hy] at hfo
            obtain ⟨f1, _, f3, _⟩ := finish_ok hfo
            rw [← hy] at f3
            refine ⟨⟨n, hcm⟩, ?_, p, s', ?_, hp, f1, k1.symm,
              fun q hq => not_below_of_length hp (ho q hq), fun v h => by
                show v ∈ y.2.2.vars
                rw [hvars]; exact List.mem_append_right _ h⟩
            · show (y.2.2.tmpl m).created = true
              rw [f3]; simp
            · show (y.2.2.tmpl m).scope = _
              rw [k4 m, ftm, hsc]
          have hcreated : (y.2.2.tmpl m).created = true → y.1 = .ok := by
            intro h
            cases hyo : y.1 with
            | ok => rfl
            | raised =>
              have := k6 hyo
              rw [this, ftm, hcr2] at h
              cases h
          obtain ⟨g1, g2, g3⟩ := inv_of (m := m) (x := { y.2.2 with opened := O }) (l := y.2.1) hf hi hO
            hvars hnew (fun m' hm => by
              show y.2.2.tmpl m' = _
              rw [k5 m' hm, ftm, ht m' hm])
            (.inr ⟨hcr', p, by show (y.2.2.tmpl m).scope = _; rw [k4 m, ftm, hsc], hp,
              fun h => hdata (hcreated h)⟩)
          exact ⟨g1, fun v h => by rw [hvars]; exact List.mem_append_left _ h,
            fun v h => by rw [hvars]; exact List.mem_append_right _ h, g2, g3,
            fun _ => ⟨hnew, fun _ => hdata, fun τ hd => hcreated hd.2.1⟩⟩
        rcases hsc : (s.tmpl m).scope with _ | ⟨p, r⟩
        · obtain ⟨p, hpd⟩ : ∃ p : Path, p = [] ++ [unique s.opened [] n] := ⟨_, rfl⟩
          have hp : p.length = 1 := by rw [hpd]; rfl
          obtain ⟨s', hs'⟩ : ∃ s' : Store M, s' = ⟨s.vars, p :: s.opened,
            Function.update s.tmpl m ⟨some (p, false), (s.tmpl m).created⟩⟩ := ⟨_, rfl⟩
          have he : exec cfg (.observe m (f m)) [] false s =
              ((finish m s.vars.length (exec cfg (f m) p false s')).1,
                (finish m s.vars.length (exec cfg (f m) p false s')).2.1,
                (finish m s.vars.length (exec cfg (f m) p false s')).2.2.close p) := by
            rw [observe_first cfg hcm _ _ _ _ hsc, hs', hpd]
            rfl
          rw [he]
          have ho : ∀ q ∈ s'.opened, q.length ≤ 1 := by
            rw [hs']; exact open_le p hp
          refine main p s' _ _ hp (by rw [hs']) ho
            (fun m' hm => by rw [hs']; exact Function.update_of_ne hm _ _) (by rw [hs']; simp)
            (by rw [hs']; simp [hcr']) rfl ?_
          intro q hq
          have hq' : q ∈ (Store.close (finish m s.vars.length (exec cfg (f m) p false s')).2.2 p).opened := hq
          rw [mem_close, (finish_any m _ _).2.2.1] at hq'
          exact depth p false s' hp ho q (mem_close.2 hq')
        · obtain ⟨hp, hr⟩ := hi.scope m p r hsc
          subst hr
          rw [observe_later cfg hcm _ _ _ _ hsc, hcr']
          exact main p (s.open p) _ _ hp rfl (open_le p hp) (fun _ _ => rfl) hsc hcr' rfl (open_le p hp)

/-! ## The theorems -/

theorem run_facts (hf : ∀ m, Flat (f m)) (h : List (M × Prog M)) (hst : ∀ e ∈ h, Stmt cfg f e.1 e.2)
    (s : Store M) (hi : Inv cfg f s) :
    (∀ e ∈ run cfg h s, ∀ τ, Data cfg f s e.1 τ → e.2 = (.ok, τ)) ∧
    (∀ e ∈ run cfg h s, (∀ τ, ¬ Data cfg f s e.1 τ) → ∀ v ∈ e.2.2, v ∉ s.vars) ∧
    (run cfg h s).Pairwise (fun e e' =>
      (e.1 = e'.1 → (cfg e.1).reuse = true → e.2.1 = .ok → e'.2 = e.2) ∧
      (¬ (e.1 = e'.1 ∧ (cfg e.1).reuse = true) → ∀ v ∈ e.2.2, v ∉ e'.2.2)) := by
  induction h generalizing s with
  | nil => simp [run]
  | cons e0 h ih =>
    obtain ⟨m, b⟩ := e0
    have hst0 : Stmt cfg f m b := hst (m, b) (by simp)
    obtain ⟨i1, i2, i3, i4, i5, i6⟩ := step hf hi hst0
    obtain ⟨t1, t2, t3⟩ := ih (fun e he => hst e (by simp [he])) _ i1
    have same : ∀ τ, Data cfg f s m τ →
        (exec cfg (.observe m b) [] false s).1 = .ok ∧ (exec cfg (.observe m b) [] false s).2.1 = τ := by
      intro τ hd
      obtain ⟨n, hc⟩ := hd.1
      have hb : b = f m := hst0.2 (by rw [hc])
      subst hb
      obtain ⟨d1, d2, _⟩ := data_step hi (hf m) hd [] false
      exact ⟨d1, d2⟩
    simp only [run]
    refine ⟨?_, ?_, ?_⟩
    · intro e he τ hd
      rcases List.mem_cons.1 he with rfl | he
      · obtain ⟨d1, d2⟩ := same τ hd
        exact Prod.ext d1 d2
      · exact t1 e he τ (i4 _ _ hd)
    · intro e he hno
      rcases List.mem_cons.1 he with rfl | he
      · exact (i6 hno).1
      · by_cases hx : ∃ τ, Data cfg f (exec cfg (.observe m b) [] false s).2.2 e.1 τ
        · obtain ⟨τ, hd⟩ := hx
          have he2 := t1 e he τ hd
          by_cases hm : e.1 = m
          · -- its variables are those of this call
            have hno' : ∀ τ, ¬ Data cfg f s m τ := by rw [← hm]; exact hno
            obtain ⟨n, hc⟩ := hd.1
            rw [hm] at hd hc
            have hok := (i6 hno').2.2 τ hd
            have := data_unique hf hd ((i6 hno').2.1 (by rw [hc]) hok)
            rw [he2]
            show ∀ v ∈ τ, v ∉ s.vars
            rw [this]
            exact (i6 hno').1
          · exact absurd (i5 _ _ hm hd) (hno τ)
        · push Not at hx
          exact fun v hv hv' => t2 e he hx v hv (i2 v hv')
    · refine List.Pairwise.cons ?_ t3
      rintro ⟨m', e2⟩ he
      refine ⟨?_, ?_⟩
      · intro hm hru hok
        simp only at hm hru hok
        subst hm
        have hd : Data cfg f (exec cfg (.observe m b) [] false s).2.2 m
            (exec cfg (.observe m b) [] false s).2.1 := by
          by_cases hx : ∃ τ, Data cfg f s m τ
          · obtain ⟨τ, hd⟩ := hx
            rw [(same τ hd).2]
            exact i4 _ _ hd
          · push Not at hx
            exact (i6 hx).2.1 hru hok
        rw [show e2 = _ from t1 (m, e2) he _ hd]
        exact Prod.ext hok.symm rfl
      · intro hne v hv hv'
        simp only at hne hv hv'
        by_cases hx : ∃ τ, Data cfg f (exec cfg (.observe m b) [] false s).2.2 m' τ
        · obtain ⟨τ', hd'⟩ := hx
          have he2 : e2 = _ := t1 (m', e2) he τ' hd'
          rw [he2] at hv'
          have hm : m' ≠ m := by
            intro hm
            obtain ⟨n, hc⟩ := hd'.1
            exact hne ⟨hm.symm, by rw [← hm, hc]⟩
          have hds := i5 _ _ hm hd'
          by_cases hx : ∃ τ, Data cfg f s m τ
          · obtain ⟨τ, hd⟩ := hx
            rw [(same τ hd).2] at hv
            exact hi.apart m m' τ τ' (Ne.symm hm) hd hds v hv hv'
          · push Not at hx
            obtain ⟨_, _, _, _, _, _, _, _, _, a8⟩ := hds
            exact (i6 hx).1 v hv (a8 v hv')
        · push Not at hx
          exact t2 (m', e2) he hx v hv' (i3 v hv)

/-- A script of flat model functions in which a net with `reuse_variables` does the same in all its calls. -/
def Script (cfg : M → Cfg) (h : List (M × Prog M)) : Prop :=
  (∀ e ∈ h, Flat e.2) ∧ ∀ e ∈ h, ∀ e' ∈ h, e.1 = e'.1 → (cfg e.1).reuse = true → e.2 = e'.2

theorem script_facts {h : List (M × Prog M)} (hh : Script cfg h) :
    (run cfg h Store.empty).Pairwise (fun e e' =>
      (e.1 = e'.1 → (cfg e.1).reuse = true → e.2.1 = .ok → e'.2 = e.2) ∧
      (¬ (e.1 = e'.1 ∧ (cfg e.1).reuse = true) → ∀ v ∈ e.2.2, v ∉ e'.2.2)) := by
  classical
  let f : M → Prog M := fun m => if hm : ∃ e ∈ h, e.1 = m then (Classical.choose hm).2 else .skip
  have hf : ∀ m, Flat (f m) := by
    intro m
    by_cases hm : ∃ e ∈ h, e.1 = m
    · simp only [f, hm, ↓reduceDIte]
      exact hh.1 _ (Classical.choose_spec hm).1
    · simp only [f, hm, ↓reduceDIte]
      trivial
  have hst : ∀ e ∈ h, Stmt cfg f e.1 e.2 := by
    intro e he
    refine ⟨hh.1 e he, fun hr => ?_⟩
    have hm : ∃ e' ∈ h, e'.1 = e.1 := ⟨e, he, rfl⟩
    simp only [f, hm, ↓reduceDIte]
    exact hh.2 e he _ (Classical.choose_spec hm).1 (Classical.choose_spec hm).2.symm hr
  exact (run_facts hf h hst _ (inv_empty cfg f)).2.2

/-- A net with `reuse_variables=True`: once a call of `observe` has succeeded, every later call succeeds and its
model function gets the same variables, whatever nets are observed and whatever variables are made in between. -/
theorem C74_same_variables {h : List (M × Prog M)} (hh : Script cfg h) (i j : ℕ) (hij : i < j) (m : M)
    (hm : (cfg m).reuse = true) (t : List Path) (o : Outcome) (t' : List Path)
    (hi : (run cfg h Store.empty)[i]? = some (m, .ok, t))
    (hj : (run cfg h Store.empty)[j]? = some (m, o, t')) : o = .ok ∧ t' = t := by
  obtain ⟨hi', ei⟩ := List.getElem?_eq_some_iff.1 hi
  obtain ⟨hj', ej⟩ := List.getElem?_eq_some_iff.1 hj
  have := (List.pairwise_iff_getElem.1 (script_facts hh) i j hi' hj' hij).1
  rw [ei, ej] at this
  have := this rfl hm rfl
  simpa using this

/-- Two calls get no variable in common unless they are calls of one net with `reuse_variables=True`: different
nets never share, even when made by the same function with the same `scope`, and a net without `reuse_variables`
never shares with itself. -/
theorem C74_separate {h : List (M × Prog M)} (hh : Script cfg h) (i j : ℕ) (hij : i ≠ j)
    (m m' : M) (o o' : Outcome) (t t' : List Path)
    (hi : (run cfg h Store.empty)[i]? = some (m, o, t))
    (hj : (run cfg h Store.empty)[j]? = some (m', o', t'))
    (hne : ¬ (m = m' ∧ (cfg m).reuse = true)) : List.Disjoint t t' := by
  have key : ∀ i j : ℕ, i < j → ∀ (m m' : M) (o o' : Outcome) (t t' : List Path),
      (run cfg h Store.empty)[i]? = some (m, o, t) → (run cfg h Store.empty)[j]? = some (m', o', t') →
      ¬ (m = m' ∧ (cfg m).reuse = true) → List.Disjoint t t' := by
    intro i j hij m m' o o' t t' hi hj hne
    obtain ⟨hi', ei⟩ := List.getElem?_eq_some_iff.1 hi
    obtain ⟨hj', ej⟩ := List.getElem?_eq_some_iff.1 hj
    have := (List.pairwise_iff_getElem.1 (script_facts hh) i j hi' hj' hij).2
    rw [ei, ej] at this
    intro v hv hv'
    exact this hne v hv hv'
  rcases Nat.lt_or_gt_of_ne hij with h1 | h1
  · exact key i j h1 m m' o o' t t' hi hj hne
  · refine (key j i h1 m' m o' o t' t hj hi ?_).symm
    rintro ⟨rfl, hr⟩
    exact hne ⟨rfl, hr⟩

theorem created_mono (b : Prog M) (cur : Path) (reuse : Bool) (s : Store M) (m : M)
    (h : (s.tmpl m).created = true) : ((exec cfg b cur reuse s).2.2.tmpl m).created = true := by
  have hfin : ∀ (m' : M) (k : ℕ) (x : Outcome × List Path × Store M), (x.2.2.tmpl m).created = true →
      ((finish m' k x).2.2.tmpl m).created = true := by
    intro m' k x hx
    obtain ⟨o, t, s⟩ := x
    cases o with
    | raised => exact hx
    | ok =>
      unfold finish
      simp only
      split_ifs
      · exact hx
      · by_cases hm : m = m'
        · subst hm; simp
        · simp only [Function.update_of_ne hm]; exact hx
  induction b generalizing cur reuse s with
  | skip => exact h
  | raise => exact h
  | get n => rw [exec, (getVariable_frame n cur reuse s).1]; exact h
  | seq p q ihp ihq =>
    have h1 := ihp cur reuse s h
    rw [exec]
    rcases he : exec cfg p cur reuse s with ⟨o, t, s'⟩
    rw [he] at h1
    cases o with
    | raised => exact h1
    | ok => exact ihq cur reuse s' h1
  | scope n r body ih => rw [exec]; exact ih _ _ (s.open (cur ++ [n])) h
  | dscope n body ih => rw [exec]; exact ih _ _ (s.open (cur ++ [unique s.opened cur n])) h
  | observe m' body ih =>
    rw [exec]
    split
    · split
      · refine hfin m' _ _ (ih _ _ _ ?_)
        by_cases hm : m = m'
        · subst hm; simp only [Function.update_self]; exact h
        · simp only [Function.update_of_ne hm]; exact h
      · exact hfin m' _ _ (ih _ _ (s.open _) h)
    · exact ih _ _ (s.open _) h
    · exact h
    · exact ih _ _ s h

/-- After a successful call of a net with `reuse_variables=True`, no later call that succeeds creates a variable,
whatever its model function does (any scopes, other nets, other names), wherever it is called. -/
theorem C74_nothing_new (m : M) (n : String) (hc : cfg m = ⟨some n, true⟩) (s : Store M)
    (hcr : (s.tmpl m).created = true) (body : Prog M) (cur : Path) (reuse : Bool)
    (hok : (exec cfg (.observe m body) cur reuse s).1 = .ok) :
    (exec cfg (.observe m body) cur reuse s).2.2.vars = s.vars := by
  have key : ∀ (p : Path) (r : Bool) (s' : Store M), s'.vars = s.vars → (s'.tmpl m).created = true →
      (finish m s.vars.length (exec cfg body p r s')).1 = .ok →
      (finish m s.vars.length (exec cfg body p r s')).2.2.vars = s.vars := by
    intro p r s' hv hcr' hok'
    obtain ⟨_, _, f3, f4⟩ := finish_ok hok'
    have hlen := f4 (created_mono body p r s' m hcr')
    obtain ⟨l, hl⟩ := vars_mono cfg body p r s'
    rw [f3]
    show (exec cfg body p r s').2.2.vars = s.vars
    rw [hl, hv] at hlen ⊢
    have : l = [] := by
      rw [List.length_append] at hlen
      exact List.length_eq_zero_iff.1 (by omega)
    rw [this, List.append_nil]
  rcases hsc : (s.tmpl m).scope with _ | ⟨p, r⟩
  · rw [observe_first cfg hc _ _ _ _ hsc] at hok ⊢
    exact key _ _ _ rfl (by simp [hcr]) hok
  · rw [observe_later cfg hc _ _ _ _ hsc] at hok ⊢
    exact key _ _ (s.open p) rfl hcr hok

/-- In particular a later call that asks for a variable its scope does not have raises, and creates nothing. -/
theorem C74_new_name (m : M) (n : String) (hc : cfg m = ⟨some n, true⟩) (s : Store M) (p : Path) (r : Bool)
    (hcr : (s.tmpl m).created = true) (hs : (s.tmpl m).scope = some (p, r)) (w : String)
    (hw : p ++ [w] ∉ s.vars) (rest : Prog M) (cur : Path) (reuse : Bool) :
    (exec cfg (.observe m (.seq (.get w) rest)) cur reuse s).1 = .raised ∧
    (exec cfg (.observe m (.seq (.get w) rest)) cur reuse s).2.2.vars = s.vars := by
  rw [observe_later cfg hc _ _ _ _ hs, hcr]
  have : exec cfg (.seq (.get w) rest) p (true || r) (s.open p) = (.raised, [], s.open p) := by
    have hw' : p ++ [w] ∉ (s.open p).vars := hw
    simp [exec, getVariable, hw']
  rw [this]
  exact ⟨rfl, rfl⟩

/-- With a `scope` but without `reuse_variables`: when a call has succeeded and made variables, the same call again
raises (nothing is shared, nothing is made twice).  The scope counts must be as they are between `with` blocks:
nothing counted below the scope. -/
theorem C74_scope_without_reuse (m : M) (n : String) (hc : cfg m = ⟨some n, false⟩) (s s' : Store M) (body : Prog M)
    (hb : Flat body) (cur : Path)
    (hok : (exec cfg (.observe m body) cur false s).1 = .ok)
    (hne : (exec cfg (.observe m body) cur false s).2.1 ≠ [])
    (hq : ∀ q ∈ s.opened, ¬ Below (cur ++ [n]) q) (hq' : ∀ q ∈ s'.opened, ¬ Below (cur ++ [n]) q)
    (hv : ∀ v ∈ (exec cfg (.observe m body) cur false s).2.2.vars, v ∈ s'.vars) :
    (exec cfg (.observe m body) cur false s').1 = .raised := by
  have he : ∀ s : Store M, exec cfg (.observe m body) cur false s =
      ((exec cfg body (cur ++ [n]) false (s.open (cur ++ [n]))).1,
        (exec cfg body (cur ++ [n]) false (s.open (cur ++ [n]))).2.1,
        (exec cfg body (cur ++ [n]) false (s.open (cur ++ [n]))).2.2.close (cur ++ [n])) := by
    intro s; rw [exec, hc]
  rw [he] at hok hne hv ⊢
  refine replay_raises cfg body hb (cur ++ [n]) (s.open (cur ++ [n])) (s'.open (cur ++ [n])) hok ?_ hne ?_
  · intro q hbq
    rw [mem_open, mem_open]
    exact ⟨fun h => h.elim (fun e => .inl e) (fun e => absurd hbq (hq q e)),
      fun h => h.elim (fun e => .inl e) (fun e => absurd hbq (hq' q e))⟩
  · intro v h
    refine hv v ?_
    show v ∈ (exec cfg body (cur ++ [n]) false (s.open (cur ++ [n]))).2.2.vars
    rw [(flat_fresh cfg body hb _ _).1]
    exact List.mem_append_right _ h

/-- `reuse_variables` needs a `scope`; every other combination constructs. -/
theorem C74_requires_scope (c : Cfg) : c.constructs = false ↔ c.reuse = true ∧ c.scope = none := by
  obtain ⟨sc, r⟩ := c
  cases sc <;> cases r <;> simp [Cfg.constructs]

/-- What the full claim misses: when the *first* call raises after making a variable, no later call that asks for
this variable succeeds, although the net has `reuse_variables=True`. -/
theorem C74_failed_first_call (m : M) (n : String) (hc : cfg m = ⟨some n, true⟩) (s : Store M)
    (hs : s.tmpl m = ⟨none, false⟩) (cur : Path) (w : String)
    (hw : cur ++ [unique s.opened cur n] ++ [w] ∉ s.vars) (rest : Prog M) (cur' : Path) (reuse : Bool) :
    let x := exec cfg (.observe m (.seq (.get w) .raise)) cur false s
    x.1 = .raised ∧ (exec cfg (.observe m (.seq (.get w) rest)) cur' reuse x.2.2).1 = .raised := by
  intro x
  obtain ⟨p, hp⟩ : ∃ p : Path, p = cur ++ [unique s.opened cur n] := ⟨_, rfl⟩
  have hw' : p ++ [w] ∉ s.vars := by rw [hp]; exact hw
  have hx : x = (.raised, [p ++ [w]], Store.close ⟨s.vars ++ [p ++ [w]], p :: s.opened,
      Function.update s.tmpl m ⟨some (p, false), false⟩⟩ p) := by
    show exec cfg _ _ _ _ = _
    rw [observe_first cfg hc _ _ _ _ (by rw [hs])]
    simp only [← hp, hs]
    have hw2 : p ++ [w] ∉ (s.open p).vars := hw'
    simp [exec, getVariable, hw2, finish]
    simp [Store.open]
  rw [hx]
  refine ⟨rfl, ?_⟩
  rw [observe_later cfg hc _ _ _ _ (p := p) (r := false) (by simp [Store.close])]
  simp [exec, getVariable, finish, Store.close, Store.open]

/-! ### A concrete case -/

/-- Two nets of one scope name, both with `reuse_variables`, and a net with the same scope without it. -/
def exampleCfg : Fin 3 → Cfg
  | 0 => ⟨some "model", true⟩
  | 1 => ⟨some "model", true⟩
  | 2 => ⟨some "other", false⟩

/-- A model function of two dense layers, each with its own weights. -/
def layers : Prog (Fin 3) := .seq (.dscope "dense" (.get "kernel")) (.dscope "dense" (.get "kernel"))

def exampleScript : List (Fin 3 × Prog (Fin 3)) :=
  [(0, layers), (2, .get "w"), (1, layers), (0, layers), (2, .get "w")]

theorem example_script : Script exampleCfg exampleScript := by
  constructor
  · intro e he
    simp only [exampleScript, List.mem_cons, List.not_mem_nil, or_false] at he
    rcases he with rfl | rfl | rfl | rfl | rfl <;> simp [Flat, layers]
  · intro e he e' he' h hr
    simp only [exampleScript, List.mem_cons, List.not_mem_nil, or_false] at he he'
    rcases he with rfl | rfl | rfl | rfl | rfl <;> rcases he' with rfl | rfl | rfl | rfl | rfl <;>
      simp_all [exampleCfg]

theorem unique_once {opened : List Path} {cur : Path} {n : String} (h : cur ++ [n] ∈ opened)
    (h1 : cur ++ [numbered n 1] ∉ opened) : unique opened cur n = numbered n 1 := by
  rw [unique, if_neg (not_not.2 h)]
  congr 1
  rw [Nat.find_eq_iff]
  exact ⟨⟨le_rfl, h1⟩, fun k hk h => by omega⟩

/-- The script runs: the two nets get scopes of their own, both calls of the first net get the same variables, and
the second call of the net without `reuse_variables` raises. -/
example : run exampleCfg exampleScript Store.empty =
    [(0, .ok, [["model", "dense", "kernel"], ["model", "dense_1", "kernel"]]),
      (2, .ok, [["other", "w"]]),
      (1, .ok, [["model_1", "dense", "kernel"], ["model_1", "dense_1", "kernel"]]),
      (0, .ok, [["model", "dense", "kernel"], ["model", "dense_1", "kernel"]]),
      (2, .raised, [])] := by
  have hn : ∀ o : List Path, ∀ c : Path, ∀ n : String, c ++ [n] ∉ o → unique o c n = n := fun o c n h => if_pos h
  have hB : ∀ q p : Path, Below q p ↔ (q <+: p ∧ q ≠ p) := fun q p => by
    constructor
    · rintro ⟨x, hx, rfl⟩
      exact ⟨⟨x, rfl⟩, by intro h; exact hx (by simpa using h.symm)⟩
    · rintro ⟨⟨x, rfl⟩, h⟩
      exact ⟨x, by rintro rfl; simp at h, rfl⟩
  have r1 : numbered "dense" 1 = "dense_1" := by decide
  have r2 : numbered "model" 1 = "model_1" := by decide
  simp [run, exampleScript, exec, exampleCfg, layers, Store.empty, Store.open, Store.close, getVariable, finish,
    hB, hn, unique_once, r1, r2, Function.update]

/-- A first call that fails: the hypotheses of `C74_failed_first_call` hold in a fresh graph. -/
example : (exec exampleCfg (.observe 0 (.seq (.get "w") .raise)) [] false Store.empty).1 = .raised :=
  (C74_failed_first_call (cfg := exampleCfg) 0 "model" rfl Store.empty rfl [] "w" (by simp [Store.empty]) .skip []
    false).1

/-- A store after a successful call: the hypotheses of `C74_new_name` and `C74_nothing_new` hold. -/
example : (exec exampleCfg (.observe 0 (.seq (.get "bias") .skip)) [] false
    ⟨[["model", "w"]], [["model"]], fun m => if m = 0 then ⟨some (["model"], false), true⟩ else ⟨none, false⟩⟩).1 =
      .raised :=
  (C74_new_name (cfg := exampleCfg) 0 "model" rfl _ ["model"] false rfl rfl "bias" (by simp) .skip [] false).1

/-- The hypotheses of `C74_scope_without_reuse` hold for a first and a second call in a fresh graph. -/
example : (exec exampleCfg (.observe 2 (.get "w")) [] false
    (exec exampleCfg (.observe 2 (.get "w")) [] false Store.empty).2.2).1 = .raised := by
  refine C74_scope_without_reuse (cfg := exampleCfg) 2 "other" rfl Store.empty _ (.get "w") trivial [] ?_ ?_ ?_ ?_ ?_
  · simp [exec, exampleCfg, getVariable, Store.open, Store.empty]
  · simp [exec, exampleCfg, getVariable, Store.open, Store.empty]
  · simp [Store.empty]
  · intro q hq
    simp [exec, exampleCfg, getVariable, Store.open, Store.close, Store.empty] at hq
    exact hq.2
  · exact fun v h => h

end ZhuSuan.Vars

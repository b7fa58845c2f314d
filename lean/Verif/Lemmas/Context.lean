import Mathlib.Data.List.Nodup
import Verif.Spec.Context

set_option linter.unusedSectionVars false

namespace ZhuSuan.Context

variable {Cls Ctx : Type} [DecidableEq Cls]

theorem owner?_some_own {H : Hierarchy Cls} {s : State Cls Ctx} {c d : Cls}
    (h : owner? H s c = some d) : (s.own d).isSome ∧ d ∈ H.mro c := by
  unfold owner? at h
  exact ⟨by simpa using List.find?_some h, List.mem_of_find?_eq_some h⟩

/-- `s'` extends `s`: classes that had a list still have one, and classes that obtained one had no
list anywhere in their resolution order. -/
structure Extends (H : Hierarchy Cls) (s s' : State Cls Ctx) : Prop where
  keep : ∀ c, (s.own c).isSome → (s'.own c).isSome
  fresh : ∀ c, s.own c = none → (s'.own c).isSome → owner? H s c = none

theorem owner?_eq_none {H : Hierarchy Cls} {s : State Cls Ctx} {c : Cls} :
    owner? H s c = none ↔ ∀ d ∈ H.mro c, s.own d = none := by
  simp [owner?]

/-- Once a class has found an owner, it keeps that owner. -/
theorem Extends.owner {H : Hierarchy Cls} {s s' : State Cls Ctx} (h : Extends H s s') {c d : Cls}
    (hd : owner? H s c = some d) : owner? H s' c = some d := by
  unfold owner? at hd ⊢
  rw [List.find?_eq_some_iff_append] at hd ⊢
  obtain ⟨h1, pre, post, hmro, hpre⟩ := hd
  refine ⟨h.keep d h1, pre, post, hmro, ?_⟩
  intro x hx
  have hxn : s.own x = none := by simpa using hpre x hx
  by_contra hcon
  have hsome : (s'.own x).isSome := by
    cases hh : s'.own x with
    | none => simp [hh] at hcon
    | some _ => rfl
  have hnone := h.fresh x hxn hsome
  obtain ⟨u, v, huv⟩ := List.append_of_mem hx
  have hmx : H.mro x = x :: (v ++ d :: post) := H.linear c u x _ (by rw [hmro, huv]; simp)
  rw [owner?_eq_none] at hnone
  have := hnone d (by rw [hmx]; simp)
  simp [this] at h1

theorem Extends.refl {H : Hierarchy Cls} (s : State Cls Ctx) : Extends H s s :=
  ⟨fun _ h => h, fun c h h' => by simp [h] at h'⟩

theorem Extends.trans {H : Hierarchy Cls} {s s' s'' : State Cls Ctx}
    (h : Extends H s s') (h' : Extends H s' s'') : Extends H s s'' := by
  refine ⟨fun c hc => h'.keep c (h.keep c hc), fun c hc hc'' => ?_⟩
  by_cases hs' : (s'.own c).isSome
  · exact h.fresh c hc hs'
  · have hs'n : s'.own c = none := by simpa using hs'
    have := h'.fresh c hs'n hc''
    rw [owner?_eq_none] at this ⊢
    intro d hd
    by_contra hne
    have h1 : (s.own d).isSome := by
      cases hh : s.own d with
      | none => exact absurd hh hne
      | some _ => rfl
    have h2 := h.keep d h1
    simp [this d hd] at h2

theorem getContexts_spec (H : Hierarchy Cls) (s : State Cls Ctx) (c : Cls) :
    Extends H s (getContexts H s c).2 ∧
    owner? H (getContexts H s c).2 c = some (getContexts H s c).1 ∧
    ∀ c', openContexts H (getContexts H s c).2 c' = openContexts H s c' := by
  unfold getContexts
  cases ho : owner? H s c with
  | some d => exact ⟨Extends.refl s, ho, fun _ => rfl⟩
  | none =>
    have hn := owner?_eq_none.1 ho
    obtain ⟨tl, htl⟩ := H.self_mem c
    have hext : Extends H s ⟨Function.update s.own c (some [])⟩ := by
      refine ⟨fun x hx => ?_, fun x hx hx' => ?_⟩
      · by_cases hxc : x = c
        · subst hxc; simp
        · simpa [Function.update_of_ne hxc] using hx
      · by_cases hxc : x = c
        · subst hxc; exact ho
        · simp [Function.update_of_ne hxc, hx] at hx'
    refine ⟨hext, ?_, ?_⟩
    · simp [owner?, htl]
    · intro c'
      cases ho' : owner? H s c' with
      | some d =>
        have h1 := hext.owner ho'
        have hdc : d ≠ c := by
          rintro rfl
          have := (owner?_some_own ho').1
          have h2 := hn d (by simp [htl])
          simp [h2] at this
        simp [openContexts, ho', h1, Function.update_of_ne hdc]
      | none =>
        simp only [openContexts, ho']
        cases ho2 : owner? H ⟨Function.update s.own c (some ([] : List Ctx))⟩ c' with
        | none => rfl
        | some d =>
          have h3 := owner?_some_own ho2
          by_cases hdc : d = c
          · subst hdc; simp
          · have h4 := owner?_eq_none.1 ho' d h3.2
            simp [Function.update_of_ne hdc, h4] at h3

/-- The state seen by users is unchanged and the stacks are restored. -/
def Restores (H : Hierarchy Cls) (s s' : State Cls Ctx) : Prop :=
  Extends H s s' ∧ ∀ c, openContexts H s' c = openContexts H s c

theorem openContexts_of_owner {H : Hierarchy Cls} {s : State Cls Ctx} {c d : Cls}
    (h : owner? H s c = some d) : openContexts H s c = (s.own d).getD [] := by
  simp [openContexts, h]

theorem owner?_self {H : Hierarchy Cls} {s : State Cls Ctx} {d : Cls} (h : (s.own d).isSome) :
    owner? H s d = some d := by
  obtain ⟨tl, htl⟩ := H.self_mem d
  simp [owner?, htl, h]

theorem update_own {H : Hierarchy Cls} {s : State Cls Ctx} {d : Cls} {l : List Ctx}
    (hd : (s.own d).isSome) :
    Extends H s ⟨Function.update s.own d (some l)⟩ ∧
    ∀ c, owner? H ⟨Function.update s.own d (some l)⟩ c = owner? H s c := by
  constructor
  · refine ⟨fun x hx => ?_, fun x hx hx' => ?_⟩
    · by_cases hxc : x = d
      · subst hxc; simp
      · simpa [Function.update_of_ne hxc] using hx
    · by_cases hxc : x = d
      · subst hxc; simp [hx] at hd
      · simp [Function.update_of_ne hxc, hx] at hx'
  · intro c
    unfold owner?
    congr 1
    funext x
    by_cases hxc : x = d
    · subst hxc; simp [hd]
    · simp [Function.update_of_ne hxc]

theorem exec_restores (H : Hierarchy Cls) (p : Prog Cls Ctx) (s : State Cls Ctx) :
    Restores H s (exec H p s).2 := by
  induction p generalizing s with
  | skip => exact ⟨Extends.refl s, fun _ => rfl⟩
  | raise => exact ⟨Extends.refl s, fun _ => rfl⟩
  | get c =>
    obtain ⟨h1, _, h3⟩ := getContexts_spec H s c
    simp only [exec, getContext]
    split <;> simp_all [Restores]
  | seq p q ihp ihq =>
    simp only [exec]
    have hp := ihp s
    rcases he : exec H p s with ⟨⟨o, t⟩, s1⟩
    rw [he] at hp
    cases o with
    | raised => exact hp
    | ok =>
      have hq := ihq s1
      exact ⟨hp.1.trans hq.1, fun c => (hq.2 c).trans (hp.2 c)⟩
  | tryExcept p q ihp ihq =>
    simp only [exec]
    have hp := ihp s
    rcases he : exec H p s with ⟨⟨o, t⟩, s1⟩
    rw [he] at hp
    cases o with
    | ok => exact hp
    | raised =>
      have hq := ihq s1
      exact ⟨hp.1.trans hq.1, fun c => (hq.2 c).trans (hp.2 c)⟩
  | withBlock c x body ih =>
    obtain ⟨h1, h2, h3⟩ := getContexts_spec H s c
    simp only [exec]
    set d := (getContexts H s c).1 with hd
    set s0 := (getContexts H s c).2 with hs0
    have hown0 := (owner?_some_own h2).1
    have henter : enter H s c x = ⟨Function.update s0.own d (some (x :: (s0.own d).getD []))⟩ := rfl
    set s1 := enter H s c x with hs1
    have hu := update_own (H := H) (s := s0) (d := d) (l := x :: (s0.own d).getD []) hown0
    rw [← henter] at hu
    have hb := ih s1
    set r := exec H body s1 with hr
    have hod1 : owner? H s1 c = some d := by rw [hu.2]; exact h2
    have hod2 : owner? H r.2 c = some d := hb.1.owner hod1
    have hopen : openContexts H r.2 d = x :: (s0.own d).getD [] := by
      rw [hb.2 d]
      have hs1d : s1.own d = some (x :: (s0.own d).getD []) := by rw [henter]; simp
      have : owner? H s1 d = some d := owner?_self (by rw [hs1d]; simp)
      rw [openContexts_of_owner this, hs1d]; rfl
    have hrown : (r.2.own d).getD [] = x :: (s0.own d).getD [] := by
      have h5 := owner?_self (H := H) (owner?_some_own hod2).1
      rw [openContexts_of_owner h5] at hopen
      exact hopen
    have hexit : exit H r.2 c =
        some ⟨Function.update r.2.own d (some ((s0.own d).getD []))⟩ := by
      simp [exit, getContexts, hod2, hrown]
    have hrsome := (owner?_some_own hod2).1
    have hu2 := update_own (H := H) (s := r.2) (d := d) (l := (s0.own d).getD []) hrsome
    rcases hrr : r with ⟨res, s2⟩
    rw [hrr] at hexit hu2 hb hod2 hrown hopen hrsome
    simp only at hexit hu2 hb hod2 hrown hopen hrsome ⊢
    rw [hexit]
    refine ⟨((h1.trans hu.1).trans hb.1).trans hu2.1, fun c' => ?_⟩
    rw [← h3 c']
    -- compare the owner of c'
    cases ho : owner? H s0 c' with
    | some e =>
      have e1 : owner? H s1 c' = some e := by rw [hu.2]; exact ho
      have e2 := hb.1.owner e1
      have e3 : owner? H ⟨Function.update s2.own d (some ((s0.own d).getD []))⟩ c' = some e := by
        rw [hu2.2]; exact e2
      rw [openContexts_of_owner e3, openContexts_of_owner ho]
      by_cases hed : e = d
      · subst hed; simp
      · have := hb.2 c'
        rw [openContexts_of_owner e2, openContexts_of_owner e1] at this
        simp only [Function.update_of_ne hed]
        rw [this, henter]
        simp [Function.update_of_ne hed]
    | none =>
      have e1 : owner? H s1 c' = none := by rw [hu.2]; exact ho
      have hb' := hb.2 c'
      have z1 : openContexts H s1 c' = [] := by simp [openContexts, e1]
      rw [z1] at hb'
      have z0 : openContexts H s0 c' = [] := by simp [openContexts, ho]
      rw [z0]
      unfold openContexts at hb' ⊢
      rw [hu2.2]
      cases hoc : owner? H s2 c' with
      | none => rfl
      | some e =>
        rw [hoc] at hb'
        simp only at hb' ⊢
        by_cases hed : e = d
        · subst hed
          rw [hrown] at hb'
          simp at hb'
        · simpa [Function.update_of_ne hed] using hb'

theorem own_outside (H : Hierarchy Cls) (used : List Cls) (p : Prog Cls Ctx) :
    ∀ (s : State Cls Ctx), (∀ c ∈ p.classes, c ∈ used) → Separate H s used →
      ∀ a, a ∉ used → (exec H p s).2.own a = s.own a := by
  have gc : ∀ (s : State Cls Ctx) (c : Cls), c ∈ used → Separate H s used →
      (getContexts H s c).1 = c ∧
      ∀ a, a ∉ used → (getContexts H s c).2.own a = s.own a := by
    intro s c hc hsep
    unfold getContexts
    cases ho : owner? H s c with
    | none =>
      refine ⟨rfl, fun a ha => ?_⟩
      have : a ≠ c := fun h => ha (h ▸ hc)
      simp [Function.update_of_ne this]
    | some d =>
      refine ⟨?_, fun a _ => rfl⟩
      by_contra hne
      have h1 := owner?_some_own ho
      have := (hsep c hc d h1.2 hne).2
      simp [this] at h1
  induction p with
  | skip => intro s _ _ a _; rfl
  | raise => intro s _ _ a _; rfl
  | get c =>
    intro s hcl hsep a ha
    have := (gc s c (hcl c (by simp [Prog.classes])) hsep).2 a ha
    simp only [exec, getContext]
    split <;> rename_i heq <;> simp only [Prod.mk.injEq] at heq <;> rw [← heq.2] <;> exact this
  | seq p q ihp ihq =>
    intro s hcl hsep a ha
    simp only [Prog.classes, List.mem_append] at hcl
    have hp := ihp s (fun c hc => hcl c (.inl hc)) hsep
    simp only [exec]
    rcases he : exec H p s with ⟨⟨o, t⟩, s1⟩
    rw [he] at hp
    cases o with
    | raised => exact hp a ha
    | ok =>
      have hsep1 : Separate H s1 used := fun c hc b hb hbc =>
        ⟨(hsep c hc b hb hbc).1, by
          have := hp b (hsep c hc b hb hbc).1
          simp only at this
          rw [this]; exact (hsep c hc b hb hbc).2⟩
      have hq := ihq s1 (fun c hc => hcl c (.inr hc)) hsep1 a ha
      exact hq.trans (hp a ha)
  | tryExcept p q ihp ihq =>
    intro s hcl hsep a ha
    simp only [Prog.classes, List.mem_append] at hcl
    have hp := ihp s (fun c hc => hcl c (.inl hc)) hsep
    simp only [exec]
    rcases he : exec H p s with ⟨⟨o, t⟩, s1⟩
    rw [he] at hp
    cases o with
    | ok => exact hp a ha
    | raised =>
      have hsep1 : Separate H s1 used := fun c hc b hb hbc =>
        ⟨(hsep c hc b hb hbc).1, by
          have := hp b (hsep c hc b hb hbc).1
          simp only at this
          rw [this]; exact (hsep c hc b hb hbc).2⟩
      have hq := ihq s1 (fun c hc => hcl c (.inr hc)) hsep1 a ha
      exact hq.trans (hp a ha)
  | withBlock c x body ih =>
    intro s hcl hsep a ha
    have hc : c ∈ used := hcl c (by simp [Prog.classes])
    have hbody : ∀ c' ∈ body.classes, c' ∈ used := fun c' h => hcl c' (by simp [Prog.classes, h])
    have g := gc s c hc hsep
    have hin : ∀ b, b ∉ used → (enter H s c x).own b = s.own b := by
      intro b hb
      have hbc : b ≠ c := fun h => hb (h ▸ hc)
      simp only [enter]
      rw [g.1, Function.update_of_ne hbc]
      exact g.2 b hb
    have hsep1 : Separate H (enter H s c x) used := fun c' hc' b hb hbc =>
      ⟨(hsep c' hc' b hb hbc).1, by
        rw [hin b (hsep c' hc' b hb hbc).1]; exact (hsep c' hc' b hb hbc).2⟩
    have hb := ih (enter H s c x) hbody hsep1
    have hsep2 : Separate H (exec H body (enter H s c x)).2 used := fun c' hc' b hb' hbc =>
      ⟨(hsep1 c' hc' b hb' hbc).1, by
        rw [hb b (hsep1 c' hc' b hb' hbc).1]; exact (hsep1 c' hc' b hb' hbc).2⟩
    have g2 := gc _ c hc hsep2
    simp only [exec]
    rcases he : exec H body (enter H s c x) with ⟨r, s2⟩
    rw [he] at hb g2
    simp only at hb g2 ⊢
    have hac : a ≠ c := fun h => ha (h ▸ hc)
    cases hex : exit H s2 c with
    | none => simp only; rw [hb a ha, hin a ha]
    | some s3 =>
      simp only
      simp only [exit] at hex
      split at hex
      · simp at hex
      · simp only [Option.some.injEq] at hex
        rw [← hex]
        simp only
        rw [g2.1, Function.update_of_ne hac, g2.2 a ha, hb a ha, hin a ha]

theorem Separate.owner_cases {H : Hierarchy Cls} {s : State Cls Ctx} {used : List Cls}
    (h : Separate H s used) {c : Cls} (hc : c ∈ used) :
    openContexts H s c = (s.own c).getD [] := by
  unfold openContexts
  cases ho : owner? H s c with
  | none =>
    obtain ⟨tl, htl⟩ := H.self_mem c
    have := owner?_eq_none.1 ho c (by simp [htl])
    simp [this]
  | some d =>
    have h1 := owner?_some_own ho
    by_cases hdc : d = c
    · subst hdc; rfl
    · have := (h c hc d h1.2 hdc).2
      simp [this] at h1

/-- Adding a level for class `c` is seen by `c` only. -/
theorem enter_open {H : Hierarchy Cls} {s : State Cls Ctx} {used : List Cls}
    (h : Separate H s used) {c : Cls} (hc : c ∈ used) (x : Ctx) :
    Separate H (enter H s c x) used ∧ ∀ c' ∈ used, openContexts H (enter H s c x) c' =
      Function.update (openContexts H s) c (x :: openContexts H s c) c' := by
  obtain ⟨h1, h2, h3⟩ := getContexts_spec H s c
  have hd : (getContexts H s c).1 = c := by
    unfold getContexts
    cases ho : owner? H s c with
    | none => rfl
    | some d =>
      by_contra hne
      have h1 := owner?_some_own ho
      have := (h c hc d h1.2 hne).2
      simp [this] at h1
  have hs0 : ∀ a, a ∉ used → (getContexts H s c).2.own a = s.own a := by
    intro a ha
    unfold getContexts
    cases ho : owner? H s c with
    | none =>
      have : a ≠ c := fun h => ha (h ▸ hc)
      simp [Function.update_of_ne this]
    | some d => rfl
  have hown : (enter H s c x).own = Function.update (getContexts H s c).2.own c
      (some (x :: ((getContexts H s c).2.own c).getD [])) := by
    simp only [enter]; rw [hd]
  have hsep : Separate H (enter H s c x) used := by
    intro c' hc' a ha hac
    have := h c' hc' a ha hac
    refine ⟨this.1, ?_⟩
    have hne : a ≠ c := fun e => this.1 (e ▸ hc)
    rw [hown, Function.update_of_ne hne, hs0 a this.1]
    exact this.2
  have hsep0 : Separate H (getContexts H s c).2 used := by
    intro c' hc' a ha hac
    have := h c' hc' a ha hac
    exact ⟨this.1, by rw [hs0 a this.1]; exact this.2⟩
  refine ⟨hsep, fun c' hc' => ?_⟩
  rw [hsep.owner_cases hc', hown]
  by_cases e : c' = c
  · subst e
    rw [Function.update_self, Function.update_self, ← h3 c', hsep0.owner_cases hc']
    rfl
  · rw [Function.update_of_ne e, Function.update_of_ne e, ← h3 c', hsep0.owner_cases hc']

theorem lexical_congr (p : Prog Cls Ctx) : ∀ (env env' : Cls → List Ctx),
    (∀ c ∈ p.classes, env c = env' c) → lexical env p = lexical env' p := by
  induction p with
  | skip => intros; rfl
  | raise => intros; rfl
  | get c => intro env env' h; simp [lexical, h c (by simp [Prog.classes])]
  | seq p q ihp ihq =>
    intro env env' h
    simp only [Prog.classes, List.mem_append] at h
    simp only [lexical]
    rw [ihp env env' (fun c hc => h c (.inl hc)), ihq env env' (fun c hc => h c (.inr hc))]
  | tryExcept p q ihp ihq =>
    intro env env' h
    simp only [Prog.classes, List.mem_append] at h
    simp only [lexical]
    rw [ihp env env' (fun c hc => h c (.inl hc)), ihq env env' (fun c hc => h c (.inr hc))]
  | withBlock c x body ih =>
    intro env env' h
    simp only [lexical]
    apply ih
    intro c' hc'
    by_cases e : c' = c
    · subst e; simp [h c' (by simp [Prog.classes])]
    · simp [Function.update_of_ne e, h c' (by simp [Prog.classes, hc'])]

theorem Separate.exec {H : Hierarchy Cls} {s : State Cls Ctx} {used : List Cls}
    (h : Separate H s used) (p : Prog Cls Ctx) (hp : ∀ c ∈ p.classes, c ∈ used) :
    Separate H (exec H p s).2 used := fun c hc a ha hac =>
  ⟨(h c hc a ha hac).1, by
    rw [own_outside H used p s hp h a (h c hc a ha hac).1]; exact (h c hc a ha hac).2⟩

theorem exec_eq_lexical (H : Hierarchy Cls) (used : List Cls) (p : Prog Cls Ctx) :
    ∀ (s : State Cls Ctx), (∀ c ∈ p.classes, c ∈ used) → Separate H s used →
      (exec H p s).1 = lexical (openContexts H s) p := by
  induction p with
  | skip => intros; rfl
  | raise => intros; rfl
  | get c =>
    intro s hcl hsep
    obtain ⟨_, h2, h3⟩ := getContexts_spec H s c
    have h4 := h3 c
    rw [openContexts_of_owner h2] at h4
    simp only [Context.exec, getContext, lexical]
    rw [h4]
    cases openContexts H s c <;> rfl
  | seq p q ihp ihq =>
    intro s hcl hsep
    simp only [Prog.classes, List.mem_append] at hcl
    have hp := ihp s (fun c hc => hcl c (.inl hc)) hsep
    have hsp := hsep.exec p (fun c hc => hcl c (.inl hc))
    have hres := (exec_restores H p s).2
    simp only [Context.exec, lexical]
    rw [← hp]
    rcases he : Context.exec H p s with ⟨⟨o, t⟩, s1⟩
    rw [he] at hsp hres
    simp only at hsp hres
    cases o with
    | raised => rfl
    | ok =>
      have hq := ihq s1 (fun c hc => hcl c (.inr hc)) hsp
      have : lexical (openContexts H s1) q = lexical (openContexts H s) q :=
        lexical_congr q _ _ (fun c _ => hres c)
      simp only
      rw [hq, this]
  | tryExcept p q ihp ihq =>
    intro s hcl hsep
    simp only [Prog.classes, List.mem_append] at hcl
    have hp := ihp s (fun c hc => hcl c (.inl hc)) hsep
    have hsp := hsep.exec p (fun c hc => hcl c (.inl hc))
    have hres := (exec_restores H p s).2
    simp only [Context.exec, lexical]
    rw [← hp]
    rcases he : Context.exec H p s with ⟨⟨o, t⟩, s1⟩
    rw [he] at hsp hres
    simp only at hsp hres
    cases o with
    | ok => rfl
    | raised =>
      have hq := ihq s1 (fun c hc => hcl c (.inr hc)) hsp
      have : lexical (openContexts H s1) q = lexical (openContexts H s) q :=
        lexical_congr q _ _ (fun c _ => hres c)
      simp only
      rw [hq, this]
  | withBlock c x body ih =>
    intro s hcl hsep
    have hc : c ∈ used := hcl c (by simp [Prog.classes])
    have hbody : ∀ c' ∈ body.classes, c' ∈ used := fun c' h => hcl c' (by simp [Prog.classes, h])
    obtain ⟨hse, hop⟩ := enter_open hsep hc x
    have hb := ih (enter H s c x) hbody hse
    have hres := (exec_restores H body (enter H s c x)).2 c
    rw [hop c hc, Function.update_self] at hres
    have hs2 := hse.exec body hbody
    simp only [Context.exec, lexical]
    rw [lexical_congr body _ _ (fun c' hc' => (hop c' (hbody c' hc')).symm), ← hb]
    rcases he : Context.exec H body (enter H s c x) with ⟨r, s2⟩
    rw [he] at hres hs2
    simp only at hres hs2
    obtain ⟨_, g2, g3⟩ := getContexts_spec H s2 c
    have g4 := g3 c
    rw [openContexts_of_owner g2, hres] at g4
    simp only [exit]
    rw [g4]

end ZhuSuan.Context

import Verif.Lemmas.Calls
import Verif.Spec.Calls

/-!
# C72: the arguments of a node reach its distribution
-/

set_option autoImplicit false

namespace ZhuSuan.Calls

variable {U : Type}

theorem given_eq (args : Dict String (Val U)) (p : String) (d : Option Lit) :
    given args p d = (args.get? p).or (d.map .lit) := by
  unfold given
  cases args.get? p <;> rfl

theorem bind_ok_iff (ps : Params) (pos : List (Val U)) (kw b e : Dict String (Val U)) :
    bind ps pos kw = .ok (b, e) ↔ pos.length ≤ ps.length ∧
      (∀ k ∈ kw.keys, k ≠ "self" ∧ k ∉ ps.keys.take pos.length) ∧ fill ps (byName ps pos kw) = .ok b ∧
      e = kw.filter fun kv => !ps.keys.contains kv.1 := by
  unfold bind
  by_cases h1 : ps.length < pos.length
  · simp only [h1, if_true, reduceCtorEq, false_iff]; rintro ⟨h, -⟩; omega
  · simp only [h1, if_false]
    by_cases h2 : kw.keys.any (fun k => k == "self" || (ps.keys.take pos.length).contains k) = true
    · simp only [h2, if_true, reduceCtorEq, false_iff]
      rintro ⟨-, h, -⟩
      obtain ⟨k, hk, h'⟩ := List.any_eq_true.1 h2
      simp only [Bool.or_eq_true, beq_iff_eq, List.contains_iff_mem] at h'
      rcases h' with h' | h'
      · exact (h k hk).1 h'
      · exact (h k hk).2 h'
    · rw [if_neg h2]
      have h3 : ∀ k ∈ kw.keys, k ≠ "self" ∧ k ∉ ps.keys.take pos.length := by
        intro k hk
        have : ¬ (k == "self" || (ps.keys.take pos.length).contains k) = true :=
          fun e => h2 (List.any_eq_true.2 ⟨k, hk, e⟩)
        simpa [not_or, List.contains_iff_mem] using this
      split
      · rename_i h; simp [h]
      · rename_i b' h
        simp only [Except.ok.injEq, Prod.mk.injEq, h, Nat.le_of_not_lt h1, true_and]
        exact ⟨fun q => ⟨h3, q.1, q.2.symm⟩, fun q => ⟨q.2.1, q.2.2.symm⟩⟩

/-- The rows that forward every argument under its own name. -/
structure Faithful (w : Wrapper) : Prop where
  pos_eq : w.pos = w.ctor.params.keys.take w.pos.length
  kw_eq : w.kw = w.kw.keys.map fun x => (x, x)
  kw_disj : ∀ k ∈ w.kw.keys, k ∉ w.pos
  kw_ctor : ∀ k ∈ w.kw.keys, k ∈ w.ctor.params.keys
  fwd : ∀ k ∈ w.pos ++ w.kw.keys, k ∈ w.params.keys
  dflt : ∀ k ∈ w.pos ++ w.kw.keys, w.params.get? k = w.ctor.params.get? k
  other : ∀ k ∈ w.params.keys, k ∉ w.pos ++ w.kw.keys → k = "name" ∨ k = "n_samples"
  req : ∀ x ∈ w.ctor.params, x.2 = none → x.1 ∈ w.pos ++ w.kw.keys
  name : w.params.get? "name" = some none ∧ "name" ∉ w.ctor.params.keys
  nsam : "n_samples" ∉ w.ctor.params.keys
  node : (w.node = [("n_samples", "n_samples")] ∧ w.params.get? "n_samples" = some (some .none)) ∨
    (w.node = [] ∧ "n_samples" ∉ w.params.keys)
  res : ∀ k ∈ ["self", "bn", "dist", "observation", "group_event_ndims"], k ∉ w.params.keys
  free : "n_samples" ∉ w.ctor.base

instance (w : Wrapper) : Decidable (Faithful w) :=
  decidable_of_iff
    (w.pos = w.ctor.params.keys.take w.pos.length ∧ (w.kw = w.kw.keys.map fun x => (x, x)) ∧
      (∀ k ∈ w.kw.keys, k ∉ w.pos) ∧ (∀ k ∈ w.kw.keys, k ∈ w.ctor.params.keys) ∧
      (∀ k ∈ w.pos ++ w.kw.keys, k ∈ w.params.keys) ∧
      (∀ k ∈ w.pos ++ w.kw.keys, w.params.get? k = w.ctor.params.get? k) ∧
      (∀ k ∈ w.params.keys, k ∉ w.pos ++ w.kw.keys → k = "name" ∨ k = "n_samples") ∧
      (∀ x ∈ w.ctor.params, x.2 = none → x.1 ∈ w.pos ++ w.kw.keys) ∧
      (w.params.get? "name" = some none ∧ "name" ∉ w.ctor.params.keys) ∧
      "n_samples" ∉ w.ctor.params.keys ∧
      ((w.node = [("n_samples", "n_samples")] ∧ w.params.get? "n_samples" = some (some .none)) ∨
        (w.node = [] ∧ "n_samples" ∉ w.params.keys)) ∧
      (∀ k ∈ ["self", "bn", "dist", "observation", "group_event_ndims"], k ∉ w.params.keys) ∧
      "n_samples" ∉ w.ctor.base)
    ⟨fun ⟨a, b, c, d, e, f, g, h, i, j, k, l, m⟩ => ⟨a, b, c, d, e, f, g, h, i, j, k, l, m⟩,
     fun ⟨a, b, c, d, e, f, g, h, i, j, k, l, m⟩ => ⟨a, b, c, d, e, f, g, h, i, j, k, l, m⟩⟩

theorem bn_faithful : ∀ w ∈ bnMethods, Faithful w := by decide

theorem legacy_faithful : ∀ w ∈ legacyClasses, w.name ≠ "Empirical" → Faithful w := by decide

theorem keys_zip {V : Type} (l : List String) (vs : List V) :
    Dict.keys (List.zip l vs) = l.take vs.length := by
  induction l generalizing vs with
  | nil => simp [Dict.keys]
  | cons x l ih =>
    cases vs with
    | nil => simp [Dict.keys]
    | cons v vs =>
      have := ih vs
      simp only [Dict.keys] at this ⊢
      simp [this]

theorem zip_take {V : Type} (l : List String) (vs : List V) : List.zip l vs = List.zip (l.take vs.length) vs := by
  induction l generalizing vs with
  | nil => simp
  | cons x l ih =>
    cases vs with
    | nil => simp
    | cons v vs => simp [ih vs]

theorem keys_byName (ps : Params) (pos : List (Val U)) (kw : Dict String (Val U)) :
    (byName ps pos kw).keys = ps.keys.take pos.length ++ kw.keys := by
  rw [← keys_zip]
  simp [byName, Dict.keys]

theorem mem_keys_get? {V : Type} {a : Dict String V} {k : String} (h : k ∈ a.keys) : ∃ v, a.get? k = some v :=
  Option.isSome_iff_exists.1 ((get?_isSome_iff a k).2 h)

theorem keys_filter {V : Type} (a : Dict String V) (f : String → Bool) (k : String) :
    k ∈ Dict.keys (a.filter fun kv => f kv.1) ↔ k ∈ a.keys ∧ f k = true := by
  simp only [Dict.keys, List.mem_map, List.mem_filter]
  constructor
  · rintro ⟨x, ⟨h1, h2⟩, rfl⟩; exact ⟨⟨x, h1, rfl⟩, h2⟩
  · rintro ⟨⟨x, h1, rfl⟩, h2⟩; exact ⟨x, ⟨h1, h2⟩, rfl⟩

theorem mem_keys_append {V : Type} (a b : Dict String V) (k : String) :
    k ∈ Dict.keys (a ++ b) ↔ k ∈ a.keys ∨ k ∈ b.keys := by
  simp [Dict.keys]

theorem merge_ok {a e : Dict String (Val U)} (h : ∀ k ∈ a.keys, k ∉ e.keys) : merge a e = .ok (a ++ e) := by
  unfold merge
  rw [if_neg]
  intro hc
  obtain ⟨k, hk, hk'⟩ := List.any_eq_true.1 hc
  exact h k (by simpa using hk') hk

theorem merge_ok_iff {a e m : Dict String (Val U)} (h : merge a e = .ok m) :
    m = a ++ e ∧ ∀ k ∈ e.keys, k ∉ a.keys := by
  unfold merge at h
  split at h
  · simp at h
  · rename_i hc
    simp only [Except.ok.injEq] at h
    exact ⟨h.symm, fun k hk hk' => hc (List.any_eq_true.2 ⟨k, hk, by simpa using hk'⟩)⟩

/-- The node call with the positional arguments the code gives it. -/
theorem initNode_ok (d : Built U) (n : Val U) (kw : Dict String (Val U))
    (h : ∀ k ∈ kw.keys, k ≠ "self" ∧ k ≠ "bn" ∧ k ≠ "name" ∧ k ≠ "dist") :
    initNode d [.net, n, .dist] kw = .ok ⟨n, d, (kw.get? "n_samples").getD (.lit .none),
      (kw.get? "observation").getD (.lit .none)⟩ := by
  set ps : Params := [("bn", none), ("name", none), ("dist", none), ("observation", some .none)] with hps
  obtain ⟨b, hb⟩ := (fill_ok_iff ps (byName ps [.net, n, .dist] kw)).2 (by
    intro p hp
    rw [keys_byName]
    simp only [hps, List.mem_cons, Prod.mk.injEq, reduceCtorEq, and_false, List.not_mem_nil, or_false,
      and_true] at hp
    refine List.mem_append_left _ ?_
    simp only [hps, Dict.keys]
    simpa using hp)
  have hbind := (bind_ok_iff ps [.net, n, .dist] kw b _).2 ⟨by simp [hps], fun k hk => ⟨(h k hk).1, by
    simp only [hps, Dict.keys]
    have := h k hk
    simp [this.2.1, this.2.2.1, this.2.2.2]⟩, hb, rfl⟩
  unfold initNode
  rw [← hps, hbind]
  have g1 : b.get? "name" = some n := by
    rw [fill_get? hb]
    simp [hps, Dict.get?, byName, Dict.keys]
  have g2 : b.get? "observation" = some ((kw.get? "observation").getD (.lit .none)) := by
    rw [fill_get? hb]
    simp only [hps, Dict.get?, byName, Dict.keys]
    simp only [List.map_cons, List.map_nil, List.zip_cons_cons, List.zip_nil_right, get?_append]
    simp only [Dict.get?]
    cases hq : Dict.get? kw "observation" <;> simp
  simp only [g1, g2]
  rw [get?_filter kw (fun k => !ps.keys.contains k)]
  simp [hps, Dict.keys]

theorem call_ok {w : Wrapper} (hf : Faithful w) {pos : List (Val U)} {kw : Dict String (Val U)}
    (ha : Acceptable w pos kw) :
    ∃ r, call w pos kw = .ok r ∧ Expected w (byName w.params pos kw) r := by
  obtain ⟨b, hb⟩ := (fill_ok_iff w.params _).2 ha.present
  have hbind := (bind_ok_iff w.params pos kw b _).2
    ⟨ha.count, fun k hk => ⟨(ha.reserved k hk).1, ha.once k hk⟩, hb, rfl⟩
  set extra : Dict String (Val U) := kw.filter fun kv => !w.params.keys.contains kv.1 with hextra
  have hex : ∀ k ∈ extra.keys, k ∈ kw.keys ∧ k ∉ w.params.keys := by
    intro k hk
    have := (keys_filter kw (fun k => !w.params.keys.contains k) k).1 hk
    simpa using this
  have hbk := fill_keys hb
  obtain ⟨cpos, hc1, hc2, hc3⟩ := evalPos_eq (l := b) (xs := w.pos)
    (fun x hx => hbk ▸ hf.fwd x (List.mem_append_left _ hx))
  obtain ⟨ckw, hk1, hk2, hk3⟩ := evalKw_eq (l := b) (xs := w.kw.keys)
    (fun x hx => hbk ▸ hf.fwd x (List.mem_append_right _ hx))
  rw [← hf.kw_eq] at hk1
  have hm : merge ckw extra = .ok (ckw ++ extra) := merge_ok fun k hk hk' =>
    (hex k hk').2 (hf.fwd k (List.mem_append_right _ (hk2 ▸ hk)))
  have hpos : w.ctor.params.keys.take cpos.length = w.pos := by rw [hc2]; exact hf.pos_eq.symm
  have hlen : cpos.length ≤ w.ctor.params.length := by
    have := congrArg List.length hf.pos_eq
    rw [List.length_take] at this
    simp only [Dict.keys, List.length_map] at this
    omega
  obtain ⟨b2, hb2⟩ := (fill_ok_iff w.ctor.params (byName w.ctor.params cpos (ckw ++ extra))).2 (by
    intro p hp
    rw [keys_byName, hpos]
    rcases List.mem_append.1 (hf.req _ hp rfl) with h | h
    · exact List.mem_append_left _ h
    · exact List.mem_append_right _ ((mem_keys_append _ _ _).2 (Or.inl (hk2 ▸ h))))
  have hbind2 := (bind_ok_iff w.ctor.params cpos (ckw ++ extra) b2 _).2 ⟨hlen, by
    intro k hk
    rw [hpos]
    rcases (mem_keys_append _ _ _).1 hk with hk | hk
    · rw [hk2] at hk
      exact ⟨fun e => hf.res "self" (by simp) (e ▸ hf.fwd k (List.mem_append_right _ hk)), hf.kw_disj k hk⟩
    · exact ⟨(ha.reserved k (hex k hk).1).1, fun h => (hex k hk).2 (hf.fwd k (List.mem_append_left _ h))⟩,
    hb2, rfl⟩
  set rest : Dict String (Val U) := (ckw ++ extra).filter fun kv => !w.ctor.params.keys.contains kv.1 with hrest
  have hre : ∀ k ∈ rest.keys, k ∈ kw.keys ∧ k ∉ w.params.keys ∧ k ∉ w.ctor.params.keys := by
    intro k hk
    have := (keys_filter (ckw ++ extra) (fun k => !w.ctor.params.keys.contains k) k).1 hk
    simp only [Bool.not_eq_true', List.contains_eq_mem, decide_eq_false_iff_not] at this
    rcases (mem_keys_append _ _ _).1 this.1 with h | h
    · exact absurd (hf.kw_ctor k (hk2 ▸ h)) this.2
    · exact ⟨(hex k h).1, (hex k h).2, this.2⟩
  have hcon : construct w.ctor cpos (ckw ++ extra) = .ok ⟨b2, rest⟩ := by
    unfold construct
    rw [hbind2]
    simp only
    rw [if_neg, if_neg]
    · intro h
      have h' := hre "group_event_ndims" (by simpa using h)
      exact (ha.base _ h'.1 h'.2.1 h'.2.2).2 rfl
    · intro h
      obtain ⟨k, hk, hk'⟩ := List.any_eq_true.1 h
      have h' := hre k hk
      exact (ha.base _ h'.1 h'.2.1 h'.2.2).1 (by simpa using hk')
  have hzero : ∀ k, k ∉ w.params.keys → (byName w.params pos kw).get? k = kw.get? k := by
    intro k hk
    unfold byName
    rw [get?_append, (get?_none_iff _ _).2, Option.none_or]
    rw [keys_zip]
    exact fun h => hk (List.mem_of_mem_take h)
  have hname : b.get? "name" = (byName w.params pos kw).get? "name" := by
    rw [fill_get? hb, hf.name.1]; simp
  obtain ⟨n, hn⟩ : ∃ n, b.get? "name" = some n := mem_keys_get? (by
    rw [hbk, ← get?_isSome_iff, hf.name.1]; rfl)
  have hexg : ∀ k, k ∉ w.params.keys → extra.get? k = kw.get? k := by
    intro k hk
    rw [hextra, get?_filter kw (fun k => !w.params.keys.contains k)]
    simp [hk]
  obtain ⟨nkw, hn1, hn2, hn3⟩ : ∃ nkw, evalKw b w.node = .ok nkw ∧ (∀ k ∈ nkw.keys, k = "n_samples" ∧
      "n_samples" ∈ w.params.keys) ∧ some ((Dict.get? (nkw ++ extra) "n_samples").getD (.lit .none)) =
        given (byName w.params pos kw) "n_samples" (some .none) := by
    rcases hf.node with ⟨h1, h2⟩ | ⟨h1, h2⟩
    · have h3 : "n_samples" ∈ w.params.keys := by rw [← get?_isSome_iff, h2]; rfl
      obtain ⟨v, hv⟩ := mem_keys_get? (hbk ▸ h3 : "n_samples" ∈ b.keys)
      refine ⟨[("n_samples", v)], by simp [h1, evalKw, hv], ?_, ?_⟩
      · intro k hk; simp only [Dict.keys, List.map_cons, List.map_nil, List.mem_singleton] at hk
        exact ⟨hk, h3⟩
      · rw [given_eq, get?_append]
        have := fill_get? hb "n_samples"
        rw [h2, hv] at this
        simp only at this
        rw [← this]
        simp [Dict.get?]
    · refine ⟨[], by simp [h1, evalKw], by simp [Dict.keys], ?_⟩
      rw [given_eq, hzero _ h2, List.nil_append, hexg _ h2]
      cases Dict.get? kw "n_samples" <;> rfl
  have hm2 : merge nkw extra = .ok (nkw ++ extra) := merge_ok fun k hk hk' =>
    (hex k hk').2 ((hn2 k hk).1 ▸ (hn2 k hk).2)
  have hexp : ∀ o, (match w.kind with
        | .bn => o = .obs
        | .legacy => some o = given (byName w.params pos kw) "observation" (some .none)) →
      Expected w (byName w.params pos kw) ⟨n, ⟨b2, rest⟩, (Dict.get? (nkw ++ extra) "n_samples").getD (.lit .none), o⟩ := by
    intro o ho
    refine ⟨hname ▸ hn, hn3, ?_, ho, fill_keys hb2⟩
    intro p d hd
    show b2.get? p = _
    rw [fill_get? hb2, hd, given_eq]
    simp only
    have e1 : (byName w.ctor.params cpos (ckw ++ extra)).get? p = if p ∈ w.pos ++ w.kw.keys then b.get? p
        else kw.get? p := by
      have e0 : List.zip w.ctor.params.keys cpos = List.zip w.pos cpos := by
        conv_rhs => rw [← hpos]
        exact zip_take _ _
      unfold byName
      rw [e0, get?_append, get?_append, hc3, hk3]
      by_cases hp1 : p ∈ w.pos
      · obtain ⟨v, hv⟩ := mem_keys_get? (hbk ▸ hf.fwd p (List.mem_append_left _ hp1) : p ∈ b.keys)
        simp [hp1, hv]
      · by_cases hp2 : p ∈ w.kw.keys
        · obtain ⟨v, hv⟩ := mem_keys_get? (hbk ▸ hf.fwd p (List.mem_append_right _ hp2) : p ∈ b.keys)
          simp [hp1, hp2, hv]
        · have hp3 : p ∉ w.params.keys := fun h => by
            have hpk : p ∈ w.ctor.params.keys := by rw [← get?_isSome_iff, hd]; rfl
            rcases hf.other p h (by simp [hp1, hp2]) with rfl | rfl
            · exact hf.name.2 hpk
            · exact hf.nsam hpk
          simp [hp1, hp2, hexg p hp3]
    rw [e1]
    split
    · rename_i hp
      have := hf.dflt p hp
      rw [hd] at this
      rw [fill_get? hb, this]
      simp only [Option.or_assoc, Option.or_self]
    · rename_i hp
      rw [hzero]
      intro h
      have hpk : p ∈ w.ctor.params.keys := by rw [← get?_isSome_iff, hd]; rfl
      rcases hf.other p h hp with rfl | rfl
      · exact hf.name.2 hpk
      · exact hf.nsam hpk
  have hkeys : ∀ k ∈ Dict.keys (nkw ++ extra), k ≠ "self" ∧ k ≠ "bn" ∧ k ≠ "name" ∧ k ≠ "dist" ∧
      (w.kind = .bn → k ≠ "observation") := by
    intro k hk
    rcases (mem_keys_append _ _ _).1 hk with hk | hk
    · rw [(hn2 k hk).1]; simp
    · have h1 := ha.reserved k (hex k hk).1
      refine ⟨h1.1, h1.2.1, fun e => (hex k hk).2 ?_, h1.2.2.1, h1.2.2.2⟩
      rw [e, ← get?_isSome_iff, hf.name.1]; rfl
  unfold call
  simp only [hbind, hc1, hk1, hm, hcon, hn, hn1, hm2]
  cases hkind : w.kind with
  | legacy =>
    simp only
    rw [initNode_ok _ _ _ fun k hk => ⟨(hkeys k hk).1, (hkeys k hk).2.1, (hkeys k hk).2.2.1,
      (hkeys k hk).2.2.2.1⟩]
    refine ⟨_, rfl, hexp _ ?_⟩
    rw [hkind]
    have ho := hf.res "observation" (by simp)
    show some _ = given _ _ _
    rw [given_eq, hzero _ ho, get?_append, hexg _ ho, (get?_none_iff nkw _).2]
    · cases Dict.get? kw "observation" <;> rfl
    · intro hc
      exact absurd (hn2 _ hc).1 (by decide)
  | bn =>
    simp only
    unfold stochastic
    set ps : Params := [("name", none), ("dist", none)] with hps
    have hfill : fill ps (byName ps [n, .dist] (nkw ++ extra)) = .ok [("name", n), ("dist", .dist)] := by
      simp [hps, fill, byName, Dict.keys, Dict.get?]
    rw [(bind_ok_iff ps [n, .dist] (nkw ++ extra) _ _).2 ⟨by simp [hps], fun k hk => ⟨(hkeys k hk).1, by
      have := hkeys k hk
      simp [hps, Dict.keys, this.2.2.1, this.2.2.2.1]⟩, hfill, rfl⟩]
    have hfil : ((nkw ++ extra).filter fun kv => !ps.keys.contains kv.1) = nkw ++ extra := by
      refine List.filter_eq_self.2 fun kv hkv => ?_
      have := hkeys kv.1 (List.mem_map_of_mem hkv)
      simp [hps, Dict.keys, this.2.2.1, this.2.2.2.1]
    rw [hfil]
    have hmo : merge [("observation", Val.obs)] (nkw ++ extra) =
        .ok ([("observation", Val.obs)] ++ (nkw ++ extra)) := merge_ok fun k hk hk' => by
      simp only [Dict.keys, List.map_cons, List.map_nil, List.mem_singleton] at hk
      exact (hkeys k hk').2.2.2.2 hkind hk
    simp only [Dict.get?, if_true, hmo]
    rw [initNode_ok]
    · refine ⟨_, rfl, ?_⟩
      have : Dict.get? ([("observation", Val.obs)] ++ (nkw ++ extra)) "n_samples" =
          Dict.get? (nkw ++ extra) "n_samples" := by simp [Dict.get?]
      rw [this]
      refine hexp _ ?_
      rw [hkind]
      show _ = _
      simp [Dict.get?]
    · intro k hk
      rcases (mem_keys_append _ _ _).1 hk with hk | hk
      · simp only [Dict.keys, List.map_cons, List.map_nil, List.mem_singleton] at hk
        rw [hk]; decide
      · exact ⟨(hkeys k hk).1, (hkeys k hk).2.1, (hkeys k hk).2.2.1, (hkeys k hk).2.2.2.1⟩

theorem initNode_inv {d : Built U} {n : Val U} {kw : Dict String (Val U)} {r : Node U}
    (h : initNode d [.net, n, .dist] kw = .ok r) : ∀ k ∈ kw.keys, k ≠ "bn" ∧ k ≠ "dist" := by
  unfold initNode at h
  split at h
  · simp at h
  · rename_i b e hb
    intro k hk
    have := ((bind_ok_iff _ _ _ _ _).1 hb).2.1 k hk
    simp only [Dict.keys, List.map_cons, List.map_nil, List.length_cons, List.length_nil, List.take_succ_cons,
      List.take_zero, List.mem_cons, List.not_mem_nil, or_false, not_or] at this
    exact ⟨this.2.1, this.2.2.2⟩

theorem stochastic_inv {d : Built U} {n : Val U} {kw : Dict String (Val U)} {r : Node U}
    (h : stochastic d [n, .dist] kw = .ok r) : ∀ k ∈ kw.keys, k ≠ "bn" ∧ k ≠ "dist" ∧ k ≠ "observation" := by
  unfold stochastic at h
  split at h
  · simp at h
  · rename_i b e hb
    have hb' := (bind_ok_iff _ _ _ _ _).1 hb
    split at h
    · simp at h
    · split at h
      · simp at h
      · rename_i kw' hkw'
        obtain ⟨e1, e2⟩ := merge_ok_iff hkw'
        intro k hk
        have h1 := hb'.2.1 k hk
        simp only [Dict.keys, List.map_cons, List.map_nil, List.length_cons, List.length_nil,
          List.take_succ_cons, List.take_zero, List.mem_cons, List.not_mem_nil, or_false, not_or] at h1
        have h2 : k ∈ Dict.keys e := by
          rw [hb'.2.2.2]
          rw [keys_filter kw (fun k => !(Dict.keys [("name", (none : Option Lit)), ("dist", none)]).contains k)]
          refine ⟨hk, ?_⟩
          simp [Dict.keys, h1.2.1, h1.2.2]
        have h3 := initNode_inv h k (by rw [e1]; exact (mem_keys_append _ _ _).2 (Or.inr h2))
        refine ⟨h3.1, h3.2, fun h4 => e2 k h2 ?_⟩
        simp [Dict.keys, h4]

theorem construct_inv {c : Ctor} {pos : List (Val U)} {kw : Dict String (Val U)} {d : Built U}
    (h : construct c pos kw = .ok d) :
    ∀ k ∈ kw.keys, k ∉ c.params.keys → k ∉ c.base ∧ k ≠ "group_event_ndims" := by
  unfold construct at h
  split at h
  · simp at h
  · rename_i b e hb
    have hb' := (bind_ok_iff _ _ _ _ _).1 hb
    split at h
    · simp at h
    · rename_i h1
      split at h
      · simp at h
      · rename_i h2
        intro k hk hk'
        have h3 : k ∈ e.keys := by
          rw [hb'.2.2.2, keys_filter kw (fun k => !c.params.keys.contains k)]
          exact ⟨hk, by simpa using hk'⟩
        refine ⟨fun hc => h1 (List.any_eq_true.2 ⟨k, h3, by simpa using hc⟩), ?_⟩
        rintro rfl
        exact h2 (by simpa using h3)

theorem call_inv {w : Wrapper} (hf : Faithful w) {pos : List (Val U)} {kw : Dict String (Val U)} {r : Node U}
    (h : call w pos kw = .ok r) : Acceptable w pos kw := by
  unfold call at h
  split at h
  · simp at h
  · rename_i b extra hb
    have hb' := (bind_ok_iff _ _ _ _ _).1 hb
    have hex : ∀ k ∈ kw.keys, k ∉ w.params.keys → k ∈ extra.keys := by
      intro k hk hk'
      rw [hb'.2.2.2, keys_filter kw (fun k => !w.params.keys.contains k)]
      exact ⟨hk, by simpa using hk'⟩
    split at h
    · split at h
      · simp at h
      · rename_i ckw hm
        obtain ⟨e1, -⟩ := merge_ok_iff hm
        split at h
        · simp at h
        · rename_i d hd
          have hbase := construct_inv hd
          rw [e1] at hbase
          split at h
          · split at h
            · simp at h
            · rename_i nkw hm2
              obtain ⟨e2, -⟩ := merge_ok_iff hm2
              refine ⟨hb'.1, fun k hk => (hb'.2.1 k hk).2, (fill_ok_iff _ _).1 ⟨_, hb'.2.2.1⟩, ?_, ?_⟩
              · intro k hk
                by_cases hp : k ∈ w.params.keys
                · have : ∀ x ∈ ["self", "bn", "dist", "observation", "group_event_ndims"], k ≠ x :=
                    fun x hx e => hf.res x hx (e ▸ hp)
                  exact ⟨this _ (by simp), this _ (by simp), this _ (by simp), fun _ => this _ (by simp)⟩
                · have hk2 : k ∈ nkw.keys := by
                    rw [e2]; exact (mem_keys_append _ _ _).2 (Or.inr (hex k hk hp))
                  split at h
                  · rename_i hkind
                    have := stochastic_inv h k hk2
                    exact ⟨(hb'.2.1 k hk).1, this.1, this.2.1, fun _ => this.2.2⟩
                  · rename_i hkind
                    have := initNode_inv h k hk2
                    exact ⟨(hb'.2.1 k hk).1, this.1, this.2, fun e => by rw [hkind] at e; cases e⟩
              · intro k hk hk1 hk2
                exact hbase k ((mem_keys_append _ _ _).2 (Or.inr (hex k hk hk1))) hk2
          · simp at h
    · simp at h

/-- **C72.** Every node method of `BayesianNet`: whatever the arguments, if the call succeeds the node has the given
name and number of samples, and the distribution has every given argument under its name and its own default for
the others. -/
theorem C72_methods (w : Wrapper) (hw : w ∈ bnMethods) (pos : List (Val U)) (kw : Dict String (Val U)) (r : Node U)
    (h : call w pos kw = .ok r) : Expected w (byName w.params pos kw) r := by
  obtain ⟨r', h1, h2⟩ := call_ok (bn_faithful w hw) (call_inv (bn_faithful w hw) h)
  rw [h] at h1
  cases h1
  exact h2

/-- **C72.** The call succeeds exactly when no argument is missing, superfluous, given twice or reserved. -/
theorem C72_methods_accept (w : Wrapper) (hw : w ∈ bnMethods) (pos : List (Val U)) (kw : Dict String (Val U)) :
    (∃ r, call w pos kw = .ok r) ↔ Acceptable w pos kw :=
  ⟨fun ⟨_, h⟩ => call_inv (bn_faithful w hw) h, fun h =>
    let ⟨r, h1, _⟩ := call_ok (bn_faithful w hw) h
    ⟨r, h1⟩⟩

/-- **C72** (partial: every legacy class but `Empirical`, of which it is false, see
`C72_empirical_drops_is_continuous`).  The same for the legacy classes. -/
theorem C72_legacy_partial (w : Wrapper) (hw : w ∈ legacyClasses) (hn : w.name ≠ "Empirical")
    (pos : List (Val U)) (kw : Dict String (Val U)) :
    ((∃ r, call w pos kw = .ok r) ↔ Acceptable w pos kw) ∧
      ∀ r, call w pos kw = .ok r → Expected w (byName w.params pos kw) r := by
  have hf := legacy_faithful w hw hn
  refine ⟨⟨fun ⟨_, h⟩ => call_inv hf h, fun h => let ⟨r, h1, _⟩ := call_ok hf h; ⟨r, h1⟩⟩, fun r h => ?_⟩
  obtain ⟨r', h1, h2⟩ := call_ok hf (call_inv hf h)
  rw [h] at h1
  cases h1
  exact h2

/-- **C72** (refutation for the legacy class `Empirical`).  The argument `is_continuous` never reaches the
distribution: whatever the user passes, the distribution gets the default `None`. -/
theorem C72_empirical_drops_is_continuous (pos : List (Val U)) (kw : Dict String (Val U)) (r : Node U)
    (h : call legacyEmpirical pos kw = .ok r) : r.dist.params.get? "is_continuous" = some (.lit .none) := by
  unfold call at h
  split at h
  · simp at h
  · rename_i b extra hb
    have hb' := (bind_ok_iff _ _ _ _ _).1 hb
    have hex : extra.get? "is_continuous" = none := by
      rw [hb'.2.2.2, get?_filter kw (fun k => !legacyEmpirical.params.keys.contains k)]
      simp [legacyEmpirical, Dict.keys]
    have hbk := fill_keys hb'.2.2.1
    obtain ⟨cpos, hc1, hc2, hc3⟩ := evalPos_eq (l := b) (xs := legacyEmpirical.pos) (by rw [hbk]; decide)
    split at h
    · rename_i cpos' ckw' hcp hck
      rw [hc1] at hcp
      cases hcp
      have hkk : ckw'.get? "is_continuous" = none := by
        obtain ⟨x, hx⟩ := mem_keys_get? (a := b) (k := "value_shape") (by rw [hbk]; decide)
        obtain ⟨y, hy⟩ := mem_keys_get? (a := b) (k := "group_ndims") (by rw [hbk]; decide)
        obtain ⟨z, hz⟩ := mem_keys_get? (a := b) (k := "is_continuous") (by rw [hbk]; decide)
        simp only [legacyEmpirical, evalKw, hx, hy, hz, Except.ok.injEq] at hck
        rw [← hck]
        simp [Dict.get?]
      split at h
      · simp at h
      · rename_i ckw hm
        obtain ⟨e1, -⟩ := merge_ok_iff hm
        split at h
        · simp at h
        · rename_i d hd
          have hd2 : d.params.get? "is_continuous" = some (.lit .none) := by
            unfold construct at hd
            split at hd
            · simp at hd
            · rename_i b2 e2 hb2
              have hb2' := (bind_ok_iff _ _ _ _ _).1 hb2
              split at hd
              · simp at hd
              · split at hd
                · simp at hd
                · simp only [Except.ok.injEq] at hd
                  rw [← hd]
                  show b2.get? _ = _
                  rw [fill_get? hb2'.2.2.1]
                  have e3 : (byName legacyEmpirical.ctor.params cpos ckw).get? "is_continuous" = none := by
                    unfold byName
                    rw [get?_append, e1, get?_append, hkk, hex, (get?_none_iff _ _).2]
                    · rfl
                    · rw [keys_zip, hc2]; decide
                  rw [e3]
                  rfl
          have hdist : r.dist = d := by
            split at h
            · split at h
              · simp at h
              · have hk : legacyEmpirical.kind = .legacy := rfl
                rw [hk] at h
                simp only [initNode] at h
                split at h
                · simp at h
                · split at h
                  · simp only [Except.ok.injEq] at h; rw [← h]
                  · simp at h
            · simp at h
          rw [hdist]
          exact hd2
    · simp at h

/-- The call of the finding: `Empirical("x", dtype, shape, is_continuous=u)` succeeds. -/
theorem C72_empirical_call (x t s u : U) : ∃ r : Node U, call legacyEmpirical [.user x, .user t, .user s]
    [("is_continuous", .user u)] = .ok r ∧ r.name = .user x ∧
      r.dist.params.get? "dtype" = some (.user t) ∧ r.dist.params.get? "batch_shape" = some (.user s) ∧
      r.dist.params.get? "is_continuous" = some (.lit .none) ∧
      r.dist.rest = [("is_continous", .user u)] :=
  ⟨_, rfl, rfl, rfl, rfl, rfl, rfl⟩

/-- **C72** (a finding).  A keyword that nothing knows, a misspelt one for instance, is accepted and changes
nothing. -/
theorem C72_unknown_keyword (w : Wrapper) (hw : w ∈ bnMethods) (pos : List (Val U)) (kw : Dict String (Val U))
    (r : Node U) (h : call w pos kw = .ok r) (k : String) (v : Val U) (h1 : k ∉ w.params.keys)
    (h2 : k ∉ w.ctor.params.keys) (h3 : k ∉ w.ctor.base)
    (h4 : k ∉ ["self", "bn", "dist", "observation", "group_event_ndims", "n_samples"]) :
    ∃ r', call w pos (kw ++ [(k, v)]) = .ok r' ∧ r'.name = r.name ∧ r'.nSamples = r.nSamples ∧
      ∀ p, r'.dist.params.get? p = r.dist.params.get? p := by
  have hf := bn_faithful w hw
  have ha := call_inv hf h
  have hE := C72_methods w hw pos kw r h
  simp only [List.mem_cons, List.not_mem_nil, or_false, not_or] at h4
  have hk : ∀ x ∈ Dict.keys (kw ++ [(k, v)]), x ∈ kw.keys ∨ x = k := by
    intro x hx
    rcases (mem_keys_append _ _ _).1 hx with hx | hx
    · exact Or.inl hx
    · simp only [Dict.keys, List.map_cons, List.map_nil, List.mem_singleton] at hx; exact Or.inr hx
  have hb : byName w.params pos (kw ++ [(k, v)]) = byName w.params pos kw ++ [(k, v)] := by
    simp [byName]
  have hg : ∀ p d, p ≠ k → given (byName w.params pos (kw ++ [(k, v)])) p d =
      given (byName w.params pos kw) p d := by
    intro p d hp
    rw [given_eq, given_eq, hb, get?_append]
    have : Dict.get? [(k, v)] p = none := by simp [Dict.get?, hp.symm]
    rw [this, Option.or_none]
  have hacc : Acceptable w pos (kw ++ [(k, v)]) := by
    refine ⟨ha.count, ?_, ?_, ?_, ?_⟩
    · intro x hx
      rcases hk x hx with hx | rfl
      · exact ha.once x hx
      · exact fun hc => h1 (List.mem_of_mem_take hc)
    · intro p hp
      rw [hb]
      exact (mem_keys_append _ _ _).2 (Or.inl (ha.present p hp))
    · intro x hx
      rcases hk x hx with hx | rfl
      · exact ha.reserved x hx
      · exact ⟨h4.1, h4.2.1, h4.2.2.1, fun _ => h4.2.2.2.1⟩
    · intro x hx hx1 hx2
      rcases hk x hx with hx | rfl
      · exact ha.base x hx hx1 hx2
      · exact ⟨h3, h4.2.2.2.2.1⟩
  obtain ⟨r', hr', hE'⟩ := call_ok hf hacc
  refine ⟨r', hr', ?_, ?_, ?_⟩
  · have := hE'.name
    rw [hb, get?_append, hE.name] at this
    simpa using this.symm
  · have e := hE'.nSamples
    rw [hg _ _ (fun e => h4.2.2.2.2.2 e.symm), ← hE.nSamples] at e
    simpa using e
  · intro p
    cases hd : w.ctor.params.get? p with
    | none =>
      have := (get?_none_iff _ _).1 hd
      rw [(get?_none_iff _ _).2 (hE'.only ▸ this), (get?_none_iff _ _).2 (hE.only ▸ this)]
    | some d =>
      rw [hE'.params p d hd, hE.params p d hd, hg]
      rintro rfl
      exact h2 (by rw [← get?_isSome_iff, hd]; rfl)

/-- **C72** (a finding).  Positional arguments: `BayesianNet.normal` takes `group_ndims` before `n_samples`, and
the legacy class `Normal` the other way round, so the same positional call means different things. -/
theorem C72_normal_order (n m s sd ls a b : U) (r r' : Node U)
    (h : call bn_normal [.user n, .user m, .user s, .user sd, .user ls, .user a, .user b] [] = .ok r)
    (h' : call legacyNormal [.user n, .user m, .user s, .user sd, .user ls, .user a, .user b] [] = .ok r') :
    r.dist.params.get? "group_ndims" = some (.user a) ∧ r.nSamples = .user b ∧
      r'.dist.params.get? "group_ndims" = some (.user b) ∧ r'.nSamples = .user a := by
  have e := C72_methods _ (by simp [bnMethods]) _ _ _ h
  have e' := (C72_legacy_partial _ (by simp [legacyClasses]) (by decide) _ _).2 _ h'
  refine ⟨?_, ?_, ?_, ?_⟩
  · rw [e.params "group_ndims" (some .zero) rfl]; rfl
  · exact Option.some.inj (e.nSamples.trans rfl)
  · rw [e'.params "group_ndims" (some .zero) rfl]; rfl
  · exact Option.some.inj (e'.nSamples.trans rfl)

/-- Both calls of `C72_normal_order` succeed. -/
example (n m s sd ls a b : U) :
    (∃ r, call bn_normal [.user n, .user m, .user s, .user sd, .user ls, .user a, .user b] [] = .ok r) ∧
    ∃ r, call legacyNormal [.user n, .user m, .user s, .user sd, .user ls, .user a, .user b] [] = .ok r :=
  ⟨⟨_, rfl⟩, ⟨_, rfl⟩⟩

/-- In every other method with both parameters `n_samples` comes first. -/
theorem C72_order : ∀ w ∈ bnMethods, "n_samples" ∈ w.params.keys →
    (w.params.keys.idxOf "group_ndims" < w.params.keys.idxOf "n_samples" ↔ w.name = "normal") := by
  decide

/-- A concrete call: `bn.normal("x", 1., std=2., n_samples=K, use_path_derivative=True)`. -/
example (x one two k t : U) : ∃ r : Node U, call bn_normal [.user x, .user one]
    [("std", .user two), ("n_samples", .user k), ("use_path_derivative", .user t)] = .ok r ∧
      r.name = .user x ∧ r.nSamples = .user k ∧ r.dist.params = [("mean", .user one), ("_sentinel", .lit .none),
        ("std", .user two), ("logstd", .lit .none), ("group_ndims", .lit .zero),
        ("is_reparameterized", .lit .true), ("use_path_derivative", .user t),
        ("check_numerics", .lit .false)] :=
  ⟨_, rfl, rfl, rfl, rfl⟩

/-- A misspelt keyword: `bn.gamma("x", a, b, n_sample=K)` is accepted; one sample is drawn. -/
example (x a b k : U) : ∃ r : Node U, call bn_gamma [.user x, .user a, .user b] [("n_sample", .user k)] = .ok r ∧
    r.nSamples = .lit .none := ⟨_, rfl, rfl⟩

/-- **C72.** Each method makes the distribution of its name, and each legacy class the one of its own name. -/
theorem C72_constructors : (bnMethods.map fun w => (w.name, w.ctor.name)) =
    [("normal", "Normal"), ("fold_normal", "FoldNormal"), ("bernoulli", "Bernoulli"),
     ("categorical", "Categorical"), ("uniform", "Uniform"), ("gamma", "Gamma"), ("beta", "Beta"),
     ("poisson", "Poisson"), ("binomial", "Binomial"),
     ("multivariate_normal_cholesky", "MultivariateNormalCholesky"),
     ("matrix_variate_normal_cholesky", "MatrixVariateNormalCholesky"), ("multinomial", "Multinomial"),
     ("unnormalized_multinomial", "UnnormalizedMultinomial"), ("onehot_categorical", "OnehotCategorical"),
     ("dirichlet", "Dirichlet"), ("inverse_gamma", "InverseGamma"), ("laplace", "Laplace"),
     ("bin_concrete", "BinConcrete"), ("exp_concrete", "ExpConcrete"), ("concrete", "Concrete")] ∧
    ∀ w ∈ legacyClasses, w.ctor.name = w.name := by
  decide

end ZhuSuan.Calls

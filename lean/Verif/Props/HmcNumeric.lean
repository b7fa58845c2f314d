import Verif.Props.Hmc

/-!
# C51  The acceptance rate and special values

Here numbers are `XF`: reals, the infinities and NaN.
-/

set_option autoImplicit false

namespace ZhuSuan.Hmc
open XF

variable {C ι : Type} [Fintype C] [Fintype ι]

@[simp] theorem xf_ofReal (r : ℝ) : (Flt.ofReal r : XF) = fin r := rfl
@[simp] theorem xf_add (a b : XF) : a + b = XF.add a b := rfl
@[simp] theorem xf_neg (a : XF) : -a = XF.neg a := rfl
@[simp] theorem xf_mul (a b : XF) : a * b = XF.mul a b := rfl
@[simp] theorem xf_div (a b : XF) : a / b = XF.div a b := rfl

/-- C51.  The rate is a number between 0 and 1, whatever the energies and the log density are. -/
theorem C51_range (oldH newH newLogProb : XF) :
    ∃ r : ℝ, acceptanceRate oldH newH newLogProb = fin r ∧ 0 ≤ r ∧ r ≤ 1 := by
  simp only [acceptanceRate]
  split
  · rename_i h
    have h := h.1
    generalize hx : (-newH + oldH : XF) = x at h ⊢
    cases x with
    | fin a => exact ⟨Real.exp (min a 0), rfl, (Real.exp_pos _).le,
        Real.exp_le_one_iff.2 (min_le_right _ _)⟩
    | inf => exact ⟨Real.exp 0, rfl, (Real.exp_pos _).le, by simp⟩
    | ninf => exact ⟨0, rfl, le_rfl, zero_le_one⟩
    | nan => exact absurd h (by simp [Flt.minimum, Flt.exp, Flt.isFinite, XF.minimum, XF.exp, XF.isFinite])
  · exact ⟨0, rfl, le_rfl, zero_le_one⟩

/-- C51.  With finite energies and log density it is `min 1 (exp (H_old - H_new))`. -/
theorem C51_formula (a b c : ℝ) :
    acceptanceRate (fin a) (fin b) (fin c) = fin (min 1 (Real.exp (a - b))) := by
  have e : acceptanceRate (fin a) (fin b) (fin c) = fin (Real.exp (min (-b + a) 0)) :=
    if_pos ⟨trivial, trivial⟩
  rw [e]
  congr 1
  rw [neg_add_eq_sub]
  rcases le_total (a - b) 0 with h | h
  · rw [min_eq_left h, min_eq_right (Real.exp_le_one_iff.2 h)]
  · rw [min_eq_right h, Real.exp_zero, min_eq_left (Real.one_le_exp h)]

omit [Fintype C] in
/-- With positive mass the kinetic energy is never `-inf`. -/
theorem kinetic_ne_ninf (p mass : ι → XF) (hm : ∀ i, ∃ m : ℝ, 0 < m ∧ mass i = fin m) :
    (Flt.ofReal 0.5 * Flt.sum fun i => p i * p i / mass i : XF) ≠ ninf := by
  have h1 : ∀ i, p i * p i / mass i ≠ ninf := by
    intro i
    obtain ⟨m, hm0, hmi⟩ := hm i
    rw [hmi]
    cases p i <;> simp [XF.mul, XF.div, hm0.ne', hm0.le.not_gt]
  have h2 : (Flt.sum fun i => p i * p i / mass i : XF) ≠ ninf := by
    show (∑ i, p i * p i / mass i : XF) ≠ ninf
    refine Finset.sum_induction _ (fun x => x ≠ ninf) ?_ ?_ fun i _ => h1 i
    · intro a b ha hb
      cases a <;> cases b <;> simp_all [XF.add]
    · exact fun h => by cases h
  generalize (Flt.sum fun i => p i * p i / mass i : XF) = k at h2 ⊢
  have h3 : (0 : ℝ) < 0.5 := by norm_num
  cases k <;> simp_all [XF.mul, XF.infSign]

omit [Fintype C] in
/-- C51.  A proposal whose log density or whose energy is NaN or infinite has rate 0 (for positive mass and
whatever the momenta and the old log density are). -/
theorem C51_bad_proposal (oldLogPost newLogPost : XF) (p newP mass : ι → XF)
    (hm : ∀ i, ∃ m : ℝ, 0 < m ∧ mass i = fin m)
    (h : ¬Flt.isFinite newLogPost ∨
      ¬Flt.isFinite (getAcceptanceRate oldLogPost newLogPost p newP mass).newH) :
    (getAcceptanceRate oldLogPost newLogPost p newP mass).rate = fin 0 := by
  have hk := kinetic_ne_ninf newP mass hm
  simp only [getAcceptanceRate, hamiltonian] at h ⊢
  generalize (-oldLogPost + Flt.ofReal 0.5 * Flt.sum fun i => p i * p i / mass i : XF) = oldH
  generalize (Flt.ofReal 0.5 * Flt.sum fun i => newP i * newP i / mass i : XF) = k at hk h ⊢
  cases newLogPost with
  | fin a =>
    cases k with
    | fin b => exact absurd h (by simp [XF.neg, XF.add, Flt.isFinite, XF.isFinite])
    | inf => cases oldH <;> simp [acceptanceRate, XF.neg, XF.add, Flt.minimum, Flt.exp, Flt.isFinite,
        XF.minimum, XF.exp, XF.isFinite]
    | ninf => exact absurd rfl hk
    | nan => cases oldH <;> simp [acceptanceRate, XF.neg, XF.add, Flt.minimum, Flt.exp, Flt.isFinite,
        XF.minimum, XF.exp, XF.isFinite]
  | inf => exact if_neg fun h => h.2
  | ninf => exact if_neg fun h => h.2
  | nan => exact if_neg fun h => h.2

omit [Fintype C] in
/-- C51.  Such a proposal is never accepted: the chain keeps its state. -/
theorem C51_never_accepted (n : ℕ) (mass : ι → XF) (hm : ∀ i, ∃ m : ℝ, 0 < m ∧ mass i = fin m) (eps : XF)
    (logPost : (C → ι → XF) → C → XF) (grad : (C → ι → XF) → C → ι → XF) (q p : C → ι → XF) (u : C → XF)
    (c : C) (hu : ∃ r : ℝ, 0 ≤ r ∧ u c = fin r)
    (h : ¬Flt.isFinite (logPost (leapfrog mass grad n eps (q, p)).1 c) ∨
      ¬Flt.isFinite ((transition n logPost grad mass eps q p u).mh c).newH) :
    (transition n logPost grad mass eps q p u).newQ c = q c := by
  have h0 : ((transition n logPost grad mass eps q p u).mh c).rate = fin 0 :=
    C51_bad_proposal _ _ _ _ mass hm h
  obtain ⟨r, hr, hur⟩ := hu
  funext i
  refine if_neg fun hlt => ?_
  have hlt : Flt.lt (u c) ((transition n logPost grad mass eps q p u).mh c).rate := hlt
  rw [h0, hur] at hlt
  exact hr.not_gt hlt

/-- C51.  An iteration that starts at a state whose log density is NaN or infinite does not finish, if the log density is fetched
with it (C119 for the other runs). -/
theorem C51_bad_start (cfg : Cfg XF) (logPost : (C → ι → XF) → C → XF) (grad : (C → ι → XF) → C → ι → XF)
    (feed : Feed) (z : C → ι → XF) (u : C → XF) (s : State XF C ι) (c : C)
    (h : ¬Flt.isFinite (logPost s.q c)) :
    ∀ s' info, sample cfg logPost grad feed z u s ≠ .ok s' info := by
  intro s' info hs
  simp only [sample] at hs
  split at hs
  · exact absurd hs (by simp)
  · rw [if_neg] at hs
    · exact absurd hs (by simp)
    · intro hall
      apply h
      have := hall c
      simp only [transition, getAcceptanceRate, hamiltonian] at this
      revert this
      cases logPost s.q c <;> exact id

/-- The hypotheses are met: a proposal of log density `-inf`, and one of infinite energy. -/
example : (getAcceptanceRate (ι := Unit) (fin (-1)) ninf (fun _ => fin 1) (fun _ => fin 2)
    fun _ => fin 1).rate = fin 0 :=
  C51_bad_proposal _ _ _ _ _ (fun _ => ⟨1, one_pos, rfl⟩) (Or.inl id)

/-! ## C55: zero variance freezes the sampler -/

/-- C55, finding.  If the mass of one coordinate is infinite then no proposal is ever accepted. -/
theorem frozen (n : ℕ) (mass : ι → XF) (i : ι) (hi : mass i = inf) (eps : XF)
    (logPost : (C → ι → XF) → C → XF) (grad : (C → ι → XF) → C → ι → XF) (q z : C → ι → XF)
    (hz : ∀ c, ∃ r : ℝ, z c i = fin r) (u : C → XF) (hu : ∀ c, ∃ r : ℝ, 0 ≤ r ∧ u c = fin r) :
    (transition n logPost grad mass eps q (randomMomentum z mass) u).newQ = q := by
  classical
  have hp : ∀ c, randomMomentum z mass c i * randomMomentum z mass c i / mass i = (nan : XF) := by
    intro c
    obtain ⟨r, hr⟩ := hz c
    simp only [randomMomentum, hi, hr]
    have e : (fin r * Flt.sqrt (inf : XF) : XF) = infSign r := rfl
    rw [e]
    simp only [infSign]
    split_ifs <;> rfl
  have hs : ∀ c, (∑ j, randomMomentum z mass c j * randomMomentum z mass c j / mass j : XF) = nan := by
    intro c
    rw [← Finset.add_sum_erase _ _ (Finset.mem_univ i), hp c]
    rfl
  have hH : ∀ c, ((transition n logPost grad mass eps q (randomMomentum z mass) u).mh c).oldH = nan := by
    intro c
    simp only [transition, getAcceptanceRate, hamiltonian]
    have e : (Flt.sum fun j => randomMomentum z mass c j * randomMomentum z mass c j / mass j : XF) = nan :=
      hs c
    rw [e]
    have e2 : (Flt.ofReal 0.5 * nan : XF) = nan := rfl
    rw [e2]
    cases logPost q c <;> rfl
  funext c
  have h0 : ((transition n logPost grad mass eps q (randomMomentum z mass) u).mh c).rate = fin 0 := by
    have e : ((transition n logPost grad mass eps q (randomMomentum z mass) u).mh c).rate =
      acceptanceRate ((transition n logPost grad mass eps q (randomMomentum z mass) u).mh c).oldH
        ((transition n logPost grad mass eps q (randomMomentum z mass) u).mh c).newH
        ((transition n logPost grad mass eps q (randomMomentum z mass) u).mh c).newLogProb := rfl
    rw [e, hH]
    refine if_neg fun h => ?_
    have h := h.1
    revert h
    cases ((transition n logPost grad mass eps q (randomMomentum z mass) u).mh c).newH <;>
      simp [XF.neg, XF.add, Flt.minimum, Flt.exp, Flt.isFinite, XF.minimum, XF.exp, XF.isFinite]
  obtain ⟨r, hr, hur⟩ := hu c
  funext j
  refine if_neg fun hlt => ?_
  have hlt : Flt.lt (u c) ((transition n logPost grad mass eps q (randomMomentum z mass) u).mh c).rate := hlt
  rw [h0, hur] at hlt
  exact hr.not_gt hlt

/-- C55, finding.  Once the collection window is over, a variance estimate of zero for any coordinate makes
the mass infinite, and then the state can no longer change. -/
theorem C55_zero_variance_freezes (cfg : Cfg XF) (h1 : cfg.adaptsMass = true)
    (logPost : (C → ι → XF) → C → XF) (grad : (C → ι → XF) → C → ι → XF) (feed : Feed)
    (z : C → ι → XF) (hz : ∀ c i, ∃ r : ℝ, z c i = fin r)
    (u : C → XF) (hu : ∀ c, ∃ r : ℝ, 0 ≤ r ∧ u c = fin r) (s s' : State XF C ι) (info : Info XF C ι)
    (hs : sample cfg logPost grad feed z u s = .ok s' info) (ht : cfg.massCollect ≤ s'.t) (i : ι)
    (hi : s'.ewmv.var i = fin 0) : s'.q = s.q := by
  simp only [sample] at hs
  split at hs
  · exact absurd hs (by simp)
  · rename_i eps heps
    split at hs
    · simp only [Outcome.ok.injEq] at hs
      obtain ⟨rfl, rfl⟩ := hs
      refine frozen _ _ i ?_ _ _ _ _ _ (fun c => hz c i) _ hu
      simp only [h1, Bool.or_true, if_true] at ht hi
      simp only [adaptMass, h1, if_true] at hi ⊢
      rw [if_neg (by omega)]
      simp only [precision, hi]
      show XF.div (fin 1) (fin 0) = inf
      simp [XF.div, XF.infSign]
    · exact absurd hs (by simp)

/-- C55, finding.  In particular, passing `adapt_mass` with the value False from the start (instead of
leaving it out) freezes all chains from iteration `mass_collect_iters` on. -/
theorem C55_off_freezes (cfg : Cfg XF) (h1 : cfg.adaptsMass = true)
    (logPost : (C → ι → XF) → C → XF) (grad : (C → ι → XF) → C → ι → XF) (feed : Feed)
    (h2 : feed.adaptMass = false)
    (z : C → ι → XF) (hz : ∀ c i, ∃ r : ℝ, z c i = fin r)
    (u : C → XF) (hu : ∀ c, ∃ r : ℝ, 0 ≤ r ∧ u c = fin r) (s s' : State XF C ι) (info : Info XF C ι)
    (h3 : s.ewmv = Ewmv.init) (i : ι)
    (hs : sample cfg logPost grad feed z u s = .ok s' info) :
    s'.ewmv = Ewmv.init ∧ (cfg.massCollect ≤ s'.t → s'.q = s.q) := by
  have e : s'.ewmv = Ewmv.init := by
    simp only [sample] at hs
    split at hs
    · exact absurd hs (by simp)
    · split at hs
      · simp only [Outcome.ok.injEq] at hs
        obtain ⟨rfl, rfl⟩ := hs
        simp [adaptMass, h1, h2, h3]
      · exact absurd hs (by simp)
  exact ⟨e, fun ht => C55_zero_variance_freezes cfg h1 logPost grad feed z hz u hu s s' info hs ht i
    (by rw [e]; rfl)⟩

end ZhuSuan.Hmc

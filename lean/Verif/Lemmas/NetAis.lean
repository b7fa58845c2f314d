import Mathlib.MeasureTheory.Constructions.Pi
import Mathlib.MeasureTheory.Measure.Lebesgue.Basic
import Verif.Spec.NetMcmc

/-!
# Integrating over the values of nodes and over the numbers in them
-/

set_option autoImplicit false

namespace ZhuSuan.BN
open MeasureTheory
open scoped ENNReal

variable {X : Type} {k : ℕ} {κ : Fin k → Type} [∀ i, Fintype (κ i)]

/-- The numbers of all variables together, from those of each. -/
def uncurry (v : (i : Fin k) → κ i → ℝ) (p : Σ i, κ i) : ℝ := v p.1 p.2

omit [∀ i, Fintype (κ i)] in
theorem measurable_uncurry : Measurable (uncurry (κ := κ)) :=
  measurable_pi_iff.2 fun p => (measurable_pi_apply p.2).comp (measurable_pi_apply p.1)

theorem map_uncurry : (Measure.pi fun i : Fin k => (volume : Measure (κ i → ℝ))).map uncurry =
    (volume : Measure ((Σ i, κ i) → ℝ)) := by
  symm
  refine Measure.pi_eq fun s hs => ?_
  have hp : uncurry ⁻¹' (Set.univ.pi s) =
      Set.univ.pi fun i => Set.univ.pi fun j => s (⟨i, j⟩ : Σ i, κ i) := by
    ext v
    simp only [Set.mem_preimage, Set.mem_univ_pi, uncurry]
    exact ⟨fun h i j => h ⟨i, j⟩, fun h p => h p.1 p.2⟩
  rw [Measure.map_apply measurable_uncurry (MeasurableSet.univ_pi hs), hp, Measure.pi_pi]
  simp only [volume_pi_pi]
  rw [Fintype.prod_sigma]

variable [MeasurableSpace X]

/-- An integral over the values of nodes as one over the numbers in them. -/
theorem lintegral_flat {T : Type} [Fintype T] (e : Fin k ≃ T) (ν : T → Measure X) [∀ s, SigmaFinite (ν s)]
    (mk : (i : Fin k) → (κ i → ℝ) → X) (hmk : ∀ i, Measurable (mk i))
    (hν : ∀ i, ν (e i) = (volume : Measure (κ i → ℝ)).map (mk i))
    (F : (T → X) → ℝ≥0∞) (hF : Measurable F) :
    ∫⁻ y, F y ∂Measure.pi ν =
      ∫⁻ q : (Σ i, κ i) → ℝ, F (fun s => mk (e.symm s) (fun j => q ⟨e.symm s, j⟩)) := by
  have h1 := (measurePreserving_piCongrLeft (fun s => ν s) e).lintegral_comp hF
  rw [← h1]
  have h2 : (Measure.pi fun i => ν (e i)) =
      (Measure.pi fun i : Fin k => (volume : Measure (κ i → ℝ))).map fun v i => mk i (v i) := by
    have hs : ∀ i, SigmaFinite ((volume : Measure (κ i → ℝ)).map (mk i)) := fun i => by rw [← hν]; infer_instance
    simp only [hν]
    exact (Measure.pi_map_pi fun i => (hmk i).aemeasurable).symm
  have m2 : Measurable fun (v : (i : Fin k) → κ i → ℝ) i => mk i (v i) :=
    measurable_pi_iff.2 fun i => (hmk i).comp (measurable_pi_apply i)
  have m1 : Measurable fun a => F ((MeasurableEquiv.piCongrLeft (fun _ => X) e) a) :=
    hF.comp (MeasurableEquiv.measurable _)
  rw [h2, lintegral_map m1 m2, ← map_uncurry, lintegral_map _ measurable_uncurry]
  · refine lintegral_congr fun v => ?_
    congr 1
    funext s
    obtain ⟨i, rfl⟩ := e.surjective s
    rw [MeasurableEquiv.coe_piCongrLeft, Equiv.piCongrLeft_apply_apply]
    have h3 : ∀ i', i' = i → mk i (v i) = mk i' fun j => v i' j := by rintro _ rfl; rfl
    exact h3 _ (e.symm_apply_apply i)
  · refine hF.comp (measurable_pi_iff.2 fun s => (hmk _).comp (measurable_pi_iff.2 fun j => measurable_pi_apply _))

/-- The places of the latent variables in a program. -/
theorem place_equiv {X : Type} (prog : List (Decl X)) (hwf : WellFormed prog) (names : Fin k → Name)
    (hn : Function.Injective names) (S : Finset ℕ)
    (h1 : ∀ i ∈ S, ∃ d, prog[i]? = some d ∧ ∃ j, names j = d.name)
    (h2 : ∀ j, ∃ i ∈ S, ∃ d, prog[i]? = some d ∧ d.name = names j) :
    ∃ e : Fin k ≃ S, ∀ j, ∃ d, prog[(e j : ℕ)]? = some d ∧ d.name = names j := by
  choose f hf d hd hdn using h2
  have inj : ∀ (i l : ℕ) (d d' : Decl X), prog[i]? = some d → prog[l]? = some d' → d.name = d'.name → i = l := by
    intro i l d d' h3 h4 h5
    obtain ⟨b1, c1⟩ := List.getElem?_eq_some_iff.1 h3
    obtain ⟨b2, c2⟩ := List.getElem?_eq_some_iff.1 h4
    have := (List.nodup_iff_injective_getElem.1 hwf.1)
      (a₁ := ⟨i, by simpa using b1⟩) (a₂ := ⟨l, by simpa using b2⟩) (by simp [c1, c2, h5])
    simpa using this
  refine ⟨Equiv.ofBijective (fun j => ⟨f j, hf j⟩) ⟨fun a b h => hn ?_, fun s => ?_⟩, fun j => ⟨d j, hd j, hdn j⟩⟩
  · have h : f a = f b := congrArg Subtype.val h
    have h3 := hd a
    rw [h, hd b] at h3
    rw [← hdn a, ← hdn b, Option.some.inj h3]
  · obtain ⟨d', h3, j, h4⟩ := h1 s s.2
    exact ⟨j, Subtype.ext (inj _ _ _ _ (hd j) h3 (by rw [hdn j, h4]))⟩

end ZhuSuan.BN

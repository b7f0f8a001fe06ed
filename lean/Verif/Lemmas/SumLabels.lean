import Verif.Spec.TermValue
import Verif.Model.Term

/-!
Changing the labels of a sum over assignments.
-/

namespace Dsrg

section
variable {O R M : Type} [Fintype O] [DecidableEq O] [Inhabited O]

theorem Orbitals.mem_assignments (orb : Orbitals O) (S : Finset Index) (σ : S → O) :
    σ ∈ orb.assignments S ↔ ∀ i : S, orb.In i.1.space (σ i) := by
  simp [Orbitals.assignments, Fintype.mem_piFinset]

theorem extendTo_mem {S : Finset Index} (σ : S → O) {i : Index} (h : i ∈ S) : extendTo σ i = σ ⟨i, h⟩ := by
  simp [extendTo, h]

theorem Orbitals.extend_in {orb : Orbitals O} {S : Finset Index} {σ : S → O} (h : σ ∈ orb.assignments S) {i : Index} (hi : i ∈ S) :
    orb.In i.space (extendTo σ i) := by
  rw [extendTo_mem σ hi]; exact (orb.mem_assignments S σ).1 h ⟨i, hi⟩

variable [AddCommMonoid M]

/-- Replacing labels: `ρ` maps every label to one that runs over fewer orbitals, and the summand vanishes on assignments
that do not come from an assignment of the new labels. -/
theorem sum_pullback₂ (orb orb' : Orbitals O) (S : Finset Index) (ρ : Index → Index) (F : (Index → O) → M)
    (hF : ∀ σ τ : Index → O, (∀ i ∈ S, σ i = τ i) → F σ = F τ)
    (hA : ∀ i ∈ S, ∀ o, orb'.In (ρ i).space o → orb.In i.space o)
    (hB : ∀ σ : Index → O, (∀ i ∈ S, orb.In i.space (σ i)) → F σ ≠ 0 →
      (∀ i ∈ S, orb'.In (ρ i).space (σ i)) ∧ ∀ i ∈ S, ∀ j ∈ S, ρ i = ρ j → σ i = σ j) :
    ∑ σ ∈ orb.assignments S, F (extendTo σ) = ∑ τ ∈ orb'.assignments (S.image ρ), F (fun i => extendTo τ (ρ i)) := by
  classical
  symm
  have hmem : ∀ i : S, ρ i.1 ∈ S.image ρ := fun i => Finset.mem_image_of_mem _ i.2
  refine Finset.sum_of_injOn (fun τ (i : S) => τ ⟨ρ i.1, hmem i⟩) ?_ ?_ ?_ ?_
  · intro τ _ τ' _ h
    funext j
    obtain ⟨j, hj⟩ := j
    obtain ⟨i, hi, rfl⟩ := Finset.mem_image.1 hj
    exact congrFun h ⟨i, hi⟩
  · intro τ hτ
    rw [Finset.mem_coe] at hτ ⊢
    rw [Orbitals.mem_assignments] at hτ ⊢
    intro i
    exact hA i.1 i.2 _ (hτ ⟨ρ i.1, hmem i⟩)
  · intro σ hσ hne
    by_contra hF0
    obtain ⟨h1, h2⟩ := hB (extendTo σ) (fun i hi => Orbitals.extend_in hσ hi) hF0
    apply hne
    choose pre hpre hρ using fun (j : S.image ρ) => Finset.mem_image.1 j.2
    refine ⟨fun j => extendTo σ (pre j), ?_, ?_⟩
    · rw [Finset.mem_coe, Orbitals.mem_assignments]
      intro j
      have := h1 (pre j) (hpre j)
      rwa [hρ j] at this
    · funext i
      have := h2 _ (hpre ⟨ρ i.1, hmem i⟩) i.1 i.2 (hρ ⟨ρ i.1, hmem i⟩)
      simp only []
      rw [this, extendTo_mem σ i.2]
  · intro τ _
    apply hF
    intro i hi
    rw [extendTo_mem _ (Finset.mem_image_of_mem ρ hi), extendTo_mem _ hi]

theorem sum_pullback (orb : Orbitals O) (S : Finset Index) (ρ : Index → Index) (F : (Index → O) → M)
    (hF : ∀ σ τ : Index → O, (∀ i ∈ S, σ i = τ i) → F σ = F τ)
    (hA : ∀ i ∈ S, ∀ o, orb.In (ρ i).space o → orb.In i.space o)
    (hB : ∀ σ : Index → O, (∀ i ∈ S, orb.In i.space (σ i)) → F σ ≠ 0 →
      (∀ i ∈ S, orb.In (ρ i).space (σ i)) ∧ ∀ i ∈ S, ∀ j ∈ S, ρ i = ρ j → σ i = σ j) :
    ∑ σ ∈ orb.assignments S, F (extendTo σ) = ∑ τ ∈ orb.assignments (S.image ρ), F (fun i => extendTo τ (ρ i)) :=
  sum_pullback₂ orb orb S ρ F hF hA hB

end

end Dsrg

import Verif.Lemmas.TermMake
import Verif.Lemmas.Index

/-!
An iteration order of sets, used in examples.
-/

namespace Dsrg

theorem insertionSort_perm_eq (l m : List Index) (h : l.Perm m) : l.insertionSort (· ≤ ·) = m.insertionSort (· ≤ ·) := by
  refine List.Perm.eq_of_pairwise' (r := (· ≤ ·)) (List.pairwise_insertionSort _ _) (List.pairwise_insertionSort _ _) ?_
  exact (List.perm_insertionSort _ _).trans (h.trans (List.perm_insertionSort _ _).symm)

/-- Iterate over sets in increasing order. -/
def SetOrder.sorted : SetOrder where
  indices s := Quotient.liftOn s.1 (fun l => l.insertionSort (· ≤ ·)) insertionSort_perm_eq
  spaces s := moSpace.filter fun x => decide (x ∈ s)

theorem SetOrder.sorted_lawful : SetOrder.sorted.Lawful := by
  refine ⟨?_, ?_, ?_, ?_⟩
  · rintro ⟨s, hs⟩
    induction s using Quotient.inductionOn with
    | h l => exact (List.perm_insertionSort _ l).nodup_iff.2 hs
  · rintro ⟨s, hs⟩ i
    induction s using Quotient.inductionOn with
    | h l => exact (List.perm_insertionSort _ l).mem_iff
  · intro s
    exact List.Nodup.filter _ (by decide)
  · intro s i
    have : ∀ i : Space, i ∈ moSpace := by decide
    simp [SetOrder.sorted, this]

theorem exists_of_map {α β ε : Type} {x : Except ε α} {f : α → β} {b : β} (h : x.map f = .ok b) : ∃ a, x = .ok a ∧ f a = b := by
  cases x with
  | error e => cases h
  | ok a => exact ⟨a, rfl, by injection h⟩

end Dsrg

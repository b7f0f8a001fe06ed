import Mathlib.Data.Finset.Card
import Mathlib.Data.Fintype.Prod
import Mathlib.Data.Fintype.Basic
import Mathlib.Order.Basic

/-!
Specification vocabulary: inversions of a list and antisymmetric functions of lists.
-/

namespace Dsrg

/-- The number of pairs of positions `i < j` whose entries are in the wrong order. -/
def numInversions {α : Type} [LinearOrder α] (l : List α) : Nat :=
  (Finset.univ.filter fun p : Fin l.length × Fin l.length => p.1 < p.2 ∧ l.get p.2 < l.get p.1).card

/-- A function of lists that changes sign when two neighbouring entries of a list without repeats are exchanged. -/
def AntisymmFn {ι M : Type} [Neg M] (F : List ι → M) : Prop :=
  ∀ pre post a b, (pre ++ a :: b :: post).Nodup → F (pre ++ b :: a :: post) = - F (pre ++ a :: b :: post)

end Dsrg

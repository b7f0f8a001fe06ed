import Verif.Model.Tensor

/-!
Linked products of tensors.
-/

namespace Dsrg

/-- The product is linked: however the factors are divided in two groups, a label is shared by a factor of one group and a factor of the
other one. -/
def Linked (ts : List Tensor) : Prop :=
  ∀ a b : List Tensor, ts.Perm (a ++ b) → a ≠ [] → b ≠ [] →
    ∃ x ∈ a, ∃ y ∈ b, ∃ i : Index, (i ∈ x.upper.list ∨ i ∈ x.lower.list) ∧ (i ∈ y.upper.list ∨ i ∈ y.lower.list)

end Dsrg

import Verif.Model.Tensor

/-!
How often a label occurs in a product of tensors and an operator string.
-/

namespace Dsrg

/-- The number of times a label occurs in an operator string and a list of tensors. -/
def occurrences (ts : List Tensor) (op : SqOp) (i : Index) : Nat :=
  op.upper.list.count i + op.lower.list.count i + (ts.map fun t => t.upper.list.count i + t.lower.list.count i).sum

/-- The label is both an upper and a lower label of one of the factors. -/
def DiagonalIn (ts : List Tensor) (op : SqOp) (i : Index) : Prop :=
  (i ∈ op.upper.list ∧ i ∈ op.lower.list) ∨ ∃ t ∈ ts, i ∈ t.upper.list ∧ i ∈ t.lower.list

/-- The labels `lo, lo + 1, …, lo + n - 1` of one space. -/
def consecutive (s : Space) (lo n : Nat) : List Index := (List.range' lo n).map fun k => ⟨s, k⟩

end Dsrg

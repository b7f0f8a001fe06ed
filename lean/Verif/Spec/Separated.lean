import Verif.Spec.TermValue

/-!
The shape of the terms produced by operator contractions, on which simplification is correct.
-/

namespace Dsrg

/-- A delta, or (when those are turned into deltas) a one-body density with a core label. -/
def ActsAsDelta (core : Bool) (t : Tensor) : Prop :=
  t.cls = .kronecker ∨ (core = true ∧ t.cls = .cumulant ∧
    ∃ u l, t.upper.list = [u] ∧ t.lower.list = [l] ∧ (u.space.kind = .c ∨ l.space.kind = .c))

/-- Two factors have no label in common. -/
def NoCommonLabel (a b : Tensor) : Prop := ∀ i ∈ a.upper.list ++ a.lower.list, i ∉ b.upper.list ++ b.lower.list

/-- No label of a delta occurs twice in it, in another delta or density, or as a diagonal label of any factor, and densities of two
and more bodies have labels that can be active. -/
structure Separated (core : Bool) (ts : List Tensor) (op : SqOp) : Prop where
  apart : ts.Pairwise fun a b =>
    (ActsAsDelta core a ∧ (b.cls = .kronecker ∨ b.cls = .cumulant)) ∨ ((a.cls = .kronecker ∨ a.cls = .cumulant) ∧ ActsAsDelta core b) →
      NoCommonLabel a b
  diag : ∀ a ∈ ts, ActsAsDelta core a → ∀ i ∈ a.upper.list ++ a.lower.list,
    (∀ b ∈ ts, ¬ (i ∈ b.upper.list ∧ i ∈ b.lower.list)) ∧ ¬ (i ∈ op.upper.list ∧ i ∈ op.lower.list)
  active : ∀ a ∈ ts, a.cls = .cumulant → a.upper.list.length ≠ 1 → ∀ i ∈ a.upper.list ++ a.lower.list, i.space.kind.Denotes .active

end Dsrg

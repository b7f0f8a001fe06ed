import Verif.Model.Term

/-!
Lists of terms as produced by contractions.
-/

namespace Dsrg

/-- The same term up to the coefficient. -/
def Term.Same (t t' : Term) : Prop := t.tensors = t'.tensors ∧ t.sqOp = t'.sqOp

instance (t t' : Term) : Decidable (t.Same t') := inferInstanceAs (Decidable (_ ∧ _))

/-- Ordinary lists of terms: tensor names contain neither a caret nor a space, a name stands for one kind of tensor (class and
priority), and all labels are of one class. -/
structure Regular (ty : IType) (terms : List Term) : Prop where
  name : ∀ t ∈ terms, ∀ x ∈ t.tensors, '^' ∉ x.name ∧ ' ' ∉ x.name
  kind : ∀ t ∈ terms, ∀ x ∈ t.tensors, ∀ t' ∈ terms, ∀ y ∈ t'.tensors, x.name = y.name → x.cls = y.cls ∧ x.priority = y.priority
  tensor : ∀ t ∈ terms, ∀ x ∈ t.tensors, x.upper.ty = ty ∧ x.lower.ty = ty
  op : ∀ t ∈ terms, t.sqOp.upper.ty = ty ∧ t.sqOp.lower.ty = ty

/-- The total coefficient of the terms that are the same as `t`. -/
def totalCoeff (terms : List Term) (t : Term) : ℚ := ((terms.filter fun t' => t'.Same t).map Term.coeff).sum

/-- What can be seen of a term: coefficient, tensors and operator. -/
def Term.visible (t : Term) : ℚ × List Tensor × SqOp := (t.coeff, t.tensors, t.sqOp)

/-- A coefficient that the code takes for zero although it is not. -/
def Negligible (c : ℚ) : Prop := c ≠ 0 ∧ |c| < 1 / 10 ^ 15

end Dsrg

import Verif.Spec.TermValue
import Verif.Model.Term

/-!
Terms without common labels.
-/

namespace Dsrg

/-- Two terms have no label in common. -/
def DisjointLabels (a b : Term) : Prop := Disjoint (labelsOf a.tensors a.sqOp) (labelsOf b.tensors b.sqOp)

instance (a b : Term) : Decidable (DisjointLabels a b) := by unfold DisjointLabels; infer_instance

end Dsrg

import Verif.Spec.TermValue

/-!
Products whose labels are summed over in pairs and whose densities are kept apart: the shape of the terms that contractions give.
-/

namespace Dsrg

/-- All labels of a product, with repetitions. -/
def labelList (ts : List Tensor) (op : SqOp) : List Index :=
  op.upper.list ++ op.lower.list ++ ts.flatMap fun t => t.upper.list ++ t.lower.list

/-- Densities and deltas. -/
def Tensor.isDensity (x : Tensor) : Bool := decide (x.cls = .cumulant) || decide (x.cls = .hole) || decide (x.cls = .kronecker)

/-- The labels of the densities and of the operator. -/
def outerList (ts : List Tensor) (op : SqOp) : List Index :=
  op.upper.list ++ op.lower.list ++ (ts.filter Tensor.isDensity).flatMap fun x => x.upper.list ++ x.lower.list

/-- Every label occurs twice, the densities and the operator have distinct labels, and cumulants of two and more bodies have labels that
can be active. -/
structure Paired (ts : List Tensor) (op : SqOp) : Prop where
  two : ∀ i ∈ labelList ts op, (labelList ts op).count i = 2
  outer : (outerList ts op).Nodup
  active : ∀ x ∈ ts, x.cls = .cumulant → x.upper.list.length ≠ 1 → ∀ i ∈ x.upper.list ++ x.lower.list, i.space.kind.Denotes .active

end Dsrg

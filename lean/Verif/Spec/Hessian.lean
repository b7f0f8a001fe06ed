import Verif.Model.Hessian
import Verif.Spec.TermValue

/-!
The matrix elements of the operator that a term stands for, and the change of a single amplitude.
-/

namespace Dsrg

section
variable {O R M : Type} [Fintype O] [DecidableEq O] [Inhabited O] [CommRing R] [Algebra ℚ R]

/-- The matrix element of a term: the labels of the operator have the orbitals given by `τ`, the other labels are summed over. -/
def Interp.element (I : Interp O R M) (orb : Orbitals O) (coeff : ℚ) (ts : List Tensor) (op : SqOp) (τ : Index → O) : R :=
  algebraMap ℚ R coeff * ∑ σ ∈ (orb.assignments (labelsOf ts op)).filter (fun σ => ∀ i ∈ op.upper.list ++ op.lower.list, extendTo σ i = τ i),
    I.pval (extendTo σ) ts

/-- The amplitude with the upper orbitals `u` and the lower orbitals `l` is changed by `ε`. -/
def Interp.shiftElement (I : Interp O R M) (ε : R) (u l : List O) : Interp O R M where
  tensor cls name u' l' := I.tensor cls name u' l' + if cls = .cluster ∧ u' = u ∧ l' = l then ε else 0
  op := I.op

end

/-- The coefficient of what `diagonal_hessian_t` returns. -/
def HessianResult.coeff : HessianResult → ℚ
  | .term t => t.coeff
  | .row c _ _ => c

/-- The tensors of what `diagonal_hessian_t` returns. -/
def HessianResult.tensors : HessianResult → List Tensor
  | .term t => t.tensors
  | .row _ ts _ => ts

/-- The operator of what `diagonal_hessian_t` returns. -/
def HessianResult.sqOp : HessianResult → SqOp
  | .term t => t.sqOp
  | .row _ _ op => op

end Dsrg

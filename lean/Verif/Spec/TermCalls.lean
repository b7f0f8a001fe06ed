import Verif.Model.TermObject
import Verif.Spec.Separated
import Verif.Spec.Paired

/-!
Reading histories of calls on one `Term` object.
-/

namespace Dsrg

/-- Calls that do not change the coefficient, with one choice of `remove_active_amplitudes`. -/
def TermCall.UsesFlag (ra : Bool) : TermCall → Prop
  | .simplify r => r = ra
  | .canonicalizeSimple r => r = ra
  | .canonicalize r _ => r = ra
  | .scale _ => False

/-- The factor by which a use multiplies the coefficient. -/
def TermCall.factor : TermCall → ℚ
  | .scale k => k
  | _ => 1

/-- The factor of a sequence of uses. -/
def factorOf (calls : List TermCall) : ℚ := (calls.map TermCall.factor).prod

/-- What is seen of the outcome of a call: the exception, or nothing, or coefficient, tensors and operator of the term returned. -/
def outcome : Except PyErr (Option Term) → PyErr ⊕ Option (ℚ × List Tensor × SqOp)
  | .error e => .inl e
  | .ok r => .inr (r.map fun t => (t.coeff, t.tensors, t.sqOp))

/-- A tensor is kept, or a one-body density with a core label has become a delta with the same labels. -/
def Cored (x y : Tensor) : Prop :=
  y = x ∨ (x.cls = .cumulant ∧ ActsAsDelta true x ∧ y = ⟨.kronecker, ['K'], -1, x.pair⟩)

end Dsrg

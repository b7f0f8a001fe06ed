import Verif.Model.Tensor
import Mathlib.Data.Multiset.AddSub

/-!
The factors of a term that are neither densities nor Kronecker deltas.
-/

namespace Dsrg

/-- Class, name and number of labels of the factors that are neither cumulants, hole densities nor Kronecker deltas, each as often as it
occurs. -/
def properFactors (ts : List Tensor) : Multiset (TCls × PyStr × Nat) :=
  ((ts.filter fun x => decide (x.cls ≠ .cumulant ∧ x.cls ≠ .hole ∧ x.cls ≠ .kronecker)).map fun x =>
    (x.cls, x.name, x.upper.list.length + x.lower.list.length) : List (TCls × PyStr × Nat))

/-- The product has `h` Hamiltonian tensors and `n` amplitudes, and otherwise only cumulants, hole densities and Kronecker deltas. -/
structure OfOrder (h n : Nat) (ts : List Tensor) : Prop where
  hamiltonian : (ts.filter fun x => decide (x.cls = .hamiltonian)).length = h
  amplitude : (ts.filter fun x => decide (x.cls = .cluster)).length = n
  rest : ∀ x ∈ ts, x.cls ≠ .tensor

end Dsrg

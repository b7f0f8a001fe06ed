import Verif.Model.Py

/-!
Nested commutators (phys_op_contraction.py:370-381).
-/

namespace Dsrg

/-- `sympy_nested_commutator_recursive`, phys_op_contraction.py:370-381; `comm` is SymPy's `Commutator`.  The loop over `range(level)[::-1]`
returns in its first turn, with `i = level - 1`. -/
def sympyNested {α : Type} (comm : α → α → α) (level : Int) (a b : α) : α :=
  if level ≤ 1 then comm a b else comm (sympyNested comm (level - 1) a b) b
termination_by level.toNat
decreasing_by omega

end Dsrg

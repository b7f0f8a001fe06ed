import Verif.Model.IndicesPair

/-!
The operators of a string.
-/

namespace Dsrg

/-- How many operators the string has. -/
def nLegs (op : IndicesPair) : Nat := op.upper.list.length + op.lower.list.length

/-- How many operators of the string lower the excitation with respect to a single determinant: creation operators of core orbitals and
annihilation operators of virtual orbitals. -/
def nLowering (op : IndicesPair) : Nat :=
  op.upper.list.countP (fun i => decide (i.space.kind = .c)) + op.lower.list.countP fun i => decide (i.space.kind = .v)

end Dsrg

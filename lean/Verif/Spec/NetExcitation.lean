import Verif.Model.Tensor

/-!
Excitation with respect to a single determinant.
-/

namespace Dsrg

/-- How many operators of the string raise the excitation with respect to a single determinant: creation operators of virtual orbitals and
annihilation operators of core orbitals. -/
def nRaising (op : IndicesPair) : Nat :=
  op.upper.list.countP (fun i => decide (i.space.kind = .v)) + op.lower.list.countP fun i => decide (i.space.kind = .c)

/-- How many labels the amplitudes among the factors have together: two for every amplitude of singles, four for doubles and so on. -/
def amplitudeLegs (ts : List Tensor) : Nat :=
  ((ts.filter fun x => decide (x.cls = .cluster)).map fun x => x.upper.list.length + x.lower.list.length).sum

end Dsrg

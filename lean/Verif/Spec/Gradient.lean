import Verif.Spec.TermValue

/-!
Derivatives with respect to the cluster amplitudes.
-/

namespace Dsrg

/-- All amplitudes changed by `ε` times a given direction.  The direction is read off the operator strings: the amplitude with upper orbitals
`u` and lower orbitals `l` moves along the value of the operator that creates `l` and annihilates `u`. -/
def Interp.shiftAmplitudes {O R : Type} [CommRing R] (I : Interp O R R) (ε : R) : Interp O R R where
  tensor cls name u l := I.tensor cls name u l + if cls = .cluster then ε * I.op l u else 0
  op := I.op

end Dsrg

import Verif.Spec.TermValue
import Mathlib.GroupTheory.Perm.Sign

/-!
Closed-shell (singlet) systems: tensors of spin orbitals that are determined by tensors of spatial orbitals.
-/

namespace Dsrg

/-- The sum over all rearrangements of a list, with the sign of the permutation. -/
def signedSum {X M : Type} [AddCommGroup M] (f : List X → M) (l : List X) : M :=
  ∑ π : Equiv.Perm (Fin l.length), (Equiv.Perm.sign π : ℤ) • f (List.ofFn fun i => l.get (π i))

/-- Every orbital has a partner in the same space with the other spin. -/
structure Orbitals.Paired {O : Type} (orb : Orbitals O) (partner : O → O) : Prop where
  elem : ∀ o, orb.elem (partner o) = orb.elem o
  spin : ∀ o, orb.spin (partner o) = !orb.spin o
  partner : ∀ o, partner (partner o) = o

/-- The alpha orbital of a pair. -/
def Orbitals.spatial {O : Type} (orb : Orbitals O) (partner : O → O) (o : O) : O := if orb.spin o then partner o else o

/-- The spin-dependent values of tensors and operators given by the values for alpha orbitals: `∑_π sgn(π) ∏_i δ(spin u_i, spin l_π(i)) J(u, l_π)`.  For
two bodies: `⟨pq||rs⟩ = ⟨pq|rs⟩ - ⟨pq|sr⟩` for equal spins, `⟨pq|rs⟩` for different spins. -/
def Interp.spinResolved {O R M : Type} [CommRing R] [AddCommGroup M] (J : Interp O R M) (orb : Orbitals O) (partner : O → O) : Interp O R M where
  tensor cls name u l := signedSum (fun l' => if u.map orb.spin = l'.map orb.spin
    then J.tensor cls name (u.map (orb.spatial partner)) (l'.map (orb.spatial partner)) else 0) l
  op u l := signedSum (fun l' => if u.map orb.spin = l'.map orb.spin
    then J.op (u.map (orb.spatial partner)) (l'.map (orb.spatial partner)) else 0) l

/-- Operators do not change when two neighbouring upper orbitals are exchanged together with the lower orbitals at the same positions. -/
def Interp.OpPairSymmetric {O R M : Type} (J : Interp O R M) : Prop := ∀ pre a b post pre' a' b' post', pre.length = pre'.length →
  J.op (pre ++ b :: a :: post) (pre' ++ b' :: a' :: post') = J.op (pre ++ a :: b :: post) (pre' ++ a' :: b' :: post')

end Dsrg

import Verif.Spec.Transformation

/-!
The zeroth-order Hamiltonians as operators, without labels.
-/

namespace Dsrg

section
variable {O R M : Type} [Fintype O] [DecidableEq O] [Inhabited O] [CommRing R] [Algebra ℚ R] [AddCommGroup M] [Module R M]

/-- The spin orbitals in use: all of them, or the core and virtual ones when the reference is one determinant. -/
def Orbitals.used (orb : Orbitals O) (singleRef : Bool) : Finset O :=
  Finset.univ.filter fun o => orb.spin o = false ∧ (singleRef = true → orb.elem o ≠ .active)

/-- The diagonal blocks of the Fock operator: `∑ H^{u}_{l} a^{l}_{u}` over orbitals `u` and `l` that are both core, both active or both virtual. -/
def Interp.diagonalFock (I : Interp O R M) (orb : Orbitals O) (singleRef : Bool) : M :=
  ∑ u ∈ orb.used singleRef, ∑ l ∈ orb.used singleRef, if orb.elem u = orb.elem l then I.tensor .hamiltonian ['H'] [u] [l] • I.op [l] [u] else 0

/-- As many of the orbitals are core, active and virtual on both sides. -/
def SameElems (orb : Orbitals O) {k : Nat} (u l : Fin k → O) : Prop :=
  ∀ e : Elem, (Finset.univ.filter fun j => orb.elem (u j) = e).card = (Finset.univ.filter fun j => orb.elem (l j) = e).card

open Classical in
/-- The two-body interaction that moves no electron between the core, active and virtual orbitals:
`1/4 ∑ H^{u}_{l} a^{l}_{u}` over pairs `u` and `l` with as many orbitals of each kind. -/
noncomputable def Interp.finkInteraction (I : Interp O R M) (orb : Orbitals O) (singleRef : Bool) : M :=
  algebraMap ℚ R (1 / 4) • ∑ u ∈ Fintype.piFinset fun _ : Fin 2 => orb.used singleRef, ∑ l ∈ Fintype.piFinset fun _ : Fin 2 => orb.used singleRef,
    if SameElems orb u l then I.tensor .hamiltonian ['H'] (List.ofFn u) (List.ofFn l) • I.op (List.ofFn l) (List.ofFn u) else 0

end

end Dsrg

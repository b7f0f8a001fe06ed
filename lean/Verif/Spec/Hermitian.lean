import Verif.Spec.Transformation
import Verif.Spec.OpenWindow

/-!
Hermitian conjugation of operators.
-/

namespace Dsrg

section
variable {O R A : Type} [CommRing R] [Ring A] [Algebra R A]

/-- `conj` is the Hermitian conjugation of operators with real coefficients: it reverses products and exchanges the creators and annihilators of
normal-ordered strings. -/
structure Interp.Conjugation (I : Interp O R A) (conj : A →ₗ[R] A) : Prop where
  mul : ∀ x y, conj (x * y) = conj y * conj x
  op : ∀ u l, conj (I.op u l) = I.op l u

/-- The integrals of the Hamiltonian are symmetric. -/
def Interp.SymmetricHamiltonian (I : Interp O R A) : Prop := ∀ u l, I.tensor .hamiltonian ['H'] l u = I.tensor .hamiltonian ['H'] u l

/-- Every operator is a linear combination of normal-ordered strings. -/
def Interp.Spans (I : Interp O R A) : Prop := Submodule.span R (Set.range fun p : List O × List O => I.op p.1 p.2) = ⊤

end

end Dsrg

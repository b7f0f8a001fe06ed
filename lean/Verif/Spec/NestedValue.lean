import Verif.Model.Bch
import Verif.Spec.Bch
import Verif.Spec.NestedWords
import Verif.Spec.Products

/-!
What the terms of a nested commutator should add up to.
-/

namespace Dsrg

/-- The signs and symbols of the amplitudes. -/
def ampSymbols (levels : List Nat) (unitary : Bool) : List (ℤ × OpName) :=
  levels.map (fun k => (1, OpName.T k)) ++ if unitary then levels.map (fun k => (-1, OpName.X k)) else []

/-- The term that a symbol stands for: the Hamiltonian, or an amplitude or its conjugate with labels of any
numbers, which run over core and virtual orbitals for a single-determinant reference and over hole and particle orbitals otherwise. -/
def IsFactor (singleRef : Bool) : OpName → Term → Prop
  | .H k, t => hamiltonianOperator k 0 .spinOrbital = .ok t
  | .T k, t => ∃ start, clusterOperator k start true ['T'] 1 (if singleRef then ⟨.c, false⟩ else ⟨.h, false⟩)
      (if singleRef then ⟨.v, false⟩ else ⟨.p, false⟩) .spinOrbital = .ok t
  | .X k, t => ∃ start, clusterOperator k start false ['T'] 1 (if singleRef then ⟨.c, false⟩ else ⟨.h, false⟩)
      (if singleRef then ⟨.v, false⟩ else ⟨.p, false⟩) .spinOrbital = .ok t

section
variable {O R M : Type} [Fintype O] [DecidableEq O] [Inhabited O] [CommRing R] [Algebra ℚ R] [AddCommGroup M] [Module R M]

/-- `V` is the value of all allowed contractions of the product of the operators that the symbols stand for. -/
def IsWordValue (I : Interp O R M) (orb : Orbitals O) (singleRef : Bool) (maxCu maxOpen minOpen : Int) (w : List OpName) (V : M) : Prop :=
  ∃ terms, List.Forall₂ (IsFactor singleRef) w terms ∧ terms.Pairwise DisjointLabels ∧
    IsContraction I orb (terms.map Term.coeff).prod (allTensors terms) (terms.map Term.sqOp) maxCu maxOpen minOpen V

/-- `F` is the value of the commutator of two terms, with a factor: the difference of the contractions of the two products, or zero when
one of them is a number. -/
def IsCommutatorValue (I : Interp O R M) (orb : Orbitals O) (scale : ℚ) (maxCu maxOpen minOpen : Int) (a b : Term) (F : M) : Prop :=
  (((a.sqOp.upper.list = [] ∧ a.sqOp.lower.list = []) ∨ (b.sqOp.upper.list = [] ∧ b.sqOp.lower.list = [])) ∧ F = 0) ∨
  (¬ ((a.sqOp.upper.list = [] ∧ a.sqOp.lower.list = []) ∨ (b.sqOp.upper.list = [] ∧ b.sqOp.lower.list = [])) ∧
    ∃ V W, IsContraction I orb (scale * (a.coeff * b.coeff)) (a.tensors ++ b.tensors) [a.sqOp, b.sqOp] maxCu maxOpen minOpen V ∧
      IsContraction I orb (scale * (a.coeff * b.coeff)) (b.tensors ++ a.tensors) [b.sqOp, a.sqOp] maxCu maxOpen minOpen W ∧ F = V - W)

end

end Dsrg

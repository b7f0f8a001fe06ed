import Verif.Spec.NestedValue

/-!
What the contractions of a product stand for when only connected contractions are kept (`for_commutator=True`).
-/

namespace Dsrg

section
variable {O R M : Type} [Fintype O] [DecidableEq O] [Inhabited O] [CommRing R] [Algebra ℚ R] [AddCommGroup M] [Module R M]

/-- `V` is the value of all allowed contractions of a product of operators that connect all operators and contain a pair contraction,
multiplied by tensors and a coefficient. -/
def IsConnectedContraction (I : Interp O R M) (orb : Orbitals O) (coeff : ℚ) (tensors : List Tensor) (ops : List SqOp)
    (maxCu maxOpen minOpen : Int) (V : M) : Prop :=
  ∃ (cs : List (List Tensor)) (sign : List Tensor → Int) (rest : List Tensor → SqOp),
    cs.Pairwise (fun a b => ¬ a.Perm b) ∧
    (∀ ts, (∃ c ∈ cs, c.Perm ts) ↔ Allowed ops maxCu maxOpen minOpen ts ∧ ConnectsAll ops ts ∧ HasPair ts) ∧
    (∀ c ∈ cs, IsResult ops c (sign c) (rest c)) ∧
    V = (cs.map fun c => I.value orb (sign c * coeff) (tensors ++ c) (rest c)).sum

/-- `V` is the value of all allowed connected contractions of the product of the operators that the symbols stand for. -/
def IsConnectedWordValue (I : Interp O R M) (orb : Orbitals O) (singleRef : Bool) (maxCu maxOpen minOpen : Int) (w : List OpName) (V : M) : Prop :=
  ∃ terms, List.Forall₂ (IsFactor singleRef) w terms ∧ terms.Pairwise DisjointLabels ∧
    IsConnectedContraction I orb (terms.map Term.coeff).prod (allTensors terms) (terms.map Term.sqOp) maxCu maxOpen minOpen V

end

end Dsrg

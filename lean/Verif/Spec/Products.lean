import Verif.Spec.Composite
import Verif.Spec.TermList
import Verif.Spec.Separated

/-!
Products of terms as they are passed to the contraction routines, and what their contractions stand for.
-/

namespace Dsrg

/-- Ordinary factors of a product: spin-orbital labels, no creation or annihilation operator occurs twice in the product, tensor names
contain neither a caret nor a space, a name stands for one kind of tensor (class and priority), and the names of densities and deltas
are used for those only. -/
structure OrdinaryFactors (terms : List Term) : Prop where
  ops : GoodOps (terms.map Term.sqOp)
  tensor : ∀ t ∈ terms, ∀ x ∈ t.tensors, x.upper.ty = .spinOrbital ∧ x.lower.ty = .spinOrbital
  name : ∀ t ∈ terms, ∀ x ∈ t.tensors, '^' ∉ x.name ∧ ' ' ∉ x.name
  kind : ∀ t ∈ terms, ∀ x ∈ t.tensors, ∀ t' ∈ terms, ∀ y ∈ t'.tensors, x.name = y.name → x.cls = y.cls ∧ x.priority = y.priority
  density : ∀ t ∈ terms, ∀ x ∈ t.tensors, ∀ cls, cls = .cumulant ∨ cls = .hole ∨ cls = .kronecker →
    x.name = cls.defaultName → x.cls = cls ∧ x.priority = cls.defaultPriority

/-- All labels of the operators of a product. -/
def operatorLabels (terms : List Term) : List Index := terms.flatMap fun t => t.sqOp.upper.list ++ t.sqOp.lower.list

/-- All tensors of a product. -/
def allTensors (terms : List Term) : List Tensor := terms.flatMap fun t => t.tensors

/-- The operators of a product that are not empty. -/
def properOps (terms : List Term) : List SqOp :=
  (terms.map Term.sqOp).filter fun op => decide (op.upper.list ≠ [] ∨ op.lower.list ≠ [])

/-- Factors that can be contracted label by label: no label occurs twice in the operators, the deltas and densities are separated from
each other and share no label with the operators, no label of an operator is a diagonal label of a tensor, and there are as many
creation as annihilation operators. -/
structure ContractibleFactors (terms : List Term) : Prop where
  labels : (operatorLabels terms).Nodup
  separated : Separated true (allTensors terms) ⟨⟨.spinOrbital, []⟩, ⟨.spinOrbital, []⟩⟩
  closed : ∀ x ∈ allTensors terms, x.cls = .kronecker ∨ x.cls = .cumulant → ∀ i ∈ x.upper.list ++ x.lower.list, i ∉ operatorLabels terms
  offDiagonal : ∀ x ∈ allTensors terms, ∀ i ∈ operatorLabels terms, ¬ (i ∈ x.upper.list ∧ i ∈ x.lower.list)
  balanced : (terms.map fun t => t.sqOp.upper.list.length).sum = (terms.map fun t => t.sqOp.lower.list.length).sum

section
variable {O R M : Type} [Fintype O] [DecidableEq O] [Inhabited O] [CommRing R] [Algebra ℚ R] [AddCommGroup M] [Module R M]

/-- `V` is the value of all allowed contractions of a product of operators, multiplied by tensors and a coefficient: the sum, over the
sets of elementary contractions without common operators that leave an allowed number of operators, of the tensors, the densities
and the remaining operator, with the sign of the rearrangement. -/
def IsContraction (I : Interp O R M) (orb : Orbitals O) (coeff : ℚ) (tensors : List Tensor) (ops : List SqOp)
    (maxCu maxOpen minOpen : Int) (V : M) : Prop :=
  ∃ (cs : List (List Tensor)) (sign : List Tensor → Int) (rest : List Tensor → SqOp),
    cs.Pairwise (fun a b => ¬ a.Perm b) ∧ (∀ ts, (∃ c ∈ cs, c.Perm ts) ↔ Allowed ops maxCu maxOpen minOpen ts) ∧
    (∀ c ∈ cs, IsResult ops c (sign c) (rest c)) ∧
    V = (cs.map fun c => I.value orb (sign c * coeff) (tensors ++ c) (rest c)).sum

end

end Dsrg

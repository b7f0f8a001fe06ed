import Verif.Spec.TermValue

/-!
Excitation operators: creation labels are particles and annihilation labels are holes.
-/

namespace Dsrg

/-- An orbital that can be empty in the reference: a virtual one, and (several reference determinants) an active one. -/
def Elem.IsParticle (singleRef : Bool) (e : Elem) : Prop := e = .virt ∨ (singleRef = false ∧ e = .active)

/-- An orbital that can be occupied in the reference: a core one, and (several reference determinants) an active one. -/
def Elem.IsHole (singleRef : Bool) (e : Elem) : Prop := e = .core ∨ (singleRef = false ∧ e = .active)

instance (b : Bool) (e : Elem) : Decidable (e.IsParticle b) := by unfold Elem.IsParticle; infer_instance
instance (b : Bool) (e : Elem) : Decidable (e.IsHole b) := by unfold Elem.IsHole; infer_instance

/-- An assignment of orbitals under which the operator is an excitation. -/
def ExcitesUnder {O : Type} (orb : Orbitals O) (singleRef : Bool) (op : SqOp) (σ : Index → O) : Prop :=
  (∀ i ∈ op.upper.list, (orb.elem (σ i)).IsParticle singleRef) ∧ ∀ i ∈ op.lower.list, (orb.elem (σ i)).IsHole singleRef

end Dsrg

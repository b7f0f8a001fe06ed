import Verif.Spec.TermValue

/-!
Spin labelings of spin-orbital expressions: every label becomes an alpha or a beta label.
-/

namespace Dsrg

/-- The label with its spin: beta for the labels in `B`, alpha for the others. -/
def spinLabel (B : Finset Index) (i : Index) : Index := ⟨⟨i.space.kind, decide (i ∈ B)⟩, i.number⟩

/-- The operator with the labels in `B` beta and the others alpha. -/
def spinPair (B : Finset Index) (x : IndicesPair) : IndicesPair :=
  ⟨⟨.spinIntegrated, x.upper.list.map (spinLabel B)⟩, ⟨.spinIntegrated, x.lower.list.map (spinLabel B)⟩⟩

/-- The tensor with the labels in `B` beta and the others alpha. -/
def spinTensor (B : Finset Index) (x : Tensor) : Tensor := ⟨x.cls, x.name, x.priority, spinPair B x.pair⟩

/-- As many upper as lower labels are beta. -/
def ConservesSpin (B : Finset Index) (x : IndicesPair) : Prop :=
  (x.upper.list.countP fun i => decide (i ∈ B)) = x.lower.list.countP fun i => decide (i ∈ B)

instance (B : Finset Index) (x : IndicesPair) : Decidable (ConservesSpin B x) := by unfold ConservesSpin; infer_instance

/-- The consistent, spin-conserving labelings of a product, as sets of beta labels. -/
def IsSpinLabeling (ts : List Tensor) (op : SqOp) (B : Finset Index) : Prop :=
  B ⊆ labelsOf ts op ∧ ConservesSpin B op ∧ ∀ x ∈ ts, ConservesSpin B x.pair

/-- The same orbitals for spin-orbital expressions, whose labels run over orbitals of both spins. -/
def Orbitals.spinOrbital {O : Type} (orb : Orbitals O) : Orbitals O := ⟨orb.elem, fun _ => false⟩

/-- Tensors and operators vanish when their upper and lower orbitals do not have the same number of beta orbitals. -/
structure Interp.SpinConserving {O R M : Type} [Zero R] [Zero M] (I : Interp O R M) (orb : Orbitals O) : Prop where
  tensor : ∀ cls name u l, u.countP orb.spin ≠ l.countP orb.spin → I.tensor cls name u l = 0
  op : ∀ u l, u.countP orb.spin ≠ l.countP orb.spin → I.op u l = 0

end Dsrg

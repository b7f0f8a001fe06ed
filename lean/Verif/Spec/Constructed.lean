import Verif.Model.Tensor

/-!
Objects that come from the constructors.
-/

namespace Dsrg

/-- Index lists accepted by the constructor. -/
def Indices.Constructed (x : Indices) : Prop := Indices.make x.ty x.list = .ok x

/-- Operators accepted by the constructor. -/
def IndicesPair.Constructed (x : IndicesPair) : Prop :=
  x.upper.Constructed ∧ x.lower.Constructed ∧ IndicesPair.make x.upper x.lower = .ok x

/-- Tensors accepted by the constructor. -/
def Tensor.Constructed (x : Tensor) : Prop :=
  x.upper.Constructed ∧ x.lower.Constructed ∧ Tensor.make x.cls x.upper x.lower x.name x.priority = .ok x

end Dsrg

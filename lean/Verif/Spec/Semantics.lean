import Verif.Model.Tensor
import Verif.Spec.Spaces
import Mathlib.Algebra.BigOperators.Pi
import Mathlib.Algebra.Module.Basic

/-!
The meaning of expressions: labels range over orbitals, tensors are functions of orbitals, and a product of tensors and
an operator is summed over all assignments of orbitals to labels.
-/

namespace Dsrg

/-- A finite set of orbitals, each core, active or virtual, and each alpha (`spin = false`) or beta.  In spin-orbital
expressions (lower-case labels only) `spin` is constantly `false`. -/
structure Orbitals (O : Type) where
  elem : O → Elem
  spin : O → Bool

/-- The orbital `o` is one of those a label of space `s` runs over. -/
def Orbitals.In {O : Type} (orb : Orbitals O) (s : Space) (o : O) : Prop := s.kind.Denotes (orb.elem o) ∧ s.beta = orb.spin o

instance {O : Type} (orb : Orbitals O) (s : Space) (o : O) : Decidable (orb.In s o) := by
  unfold Orbitals.In; infer_instance

/-- Values of the tensors and of the operator strings. -/
structure Interp (O R M : Type) where
  tensor : TCls → PyStr → List O → List O → R
  op : List O → List O → M

section
variable {O R M : Type} [DecidableEq O] [CommRing R]

/-- The value of a tensor under an assignment of orbitals to labels. -/
def Interp.tval (I : Interp O R M) (σ : Index → O) (t : Tensor) : R :=
  I.tensor t.cls t.name (t.upper.list.map σ) (t.lower.list.map σ)

/-- The value of a product of tensors. -/
def Interp.pval (I : Interp O R M) (σ : Index → O) (ts : List Tensor) : R := (ts.map (I.tval σ)).prod

/-- Tensors and operator strings change sign when two neighbouring upper or lower orbitals are exchanged. -/
structure Interp.Antisymmetric [Neg M] (I : Interp O R M) : Prop where
  upper : ∀ cls name pre a b post l, I.tensor cls name (pre ++ b :: a :: post) l = - I.tensor cls name (pre ++ a :: b :: post) l
  lower : ∀ cls name u pre a b post, I.tensor cls name u (pre ++ b :: a :: post) = - I.tensor cls name u (pre ++ a :: b :: post)
  opUpper : ∀ pre a b post l, I.op (pre ++ b :: a :: post) l = - I.op (pre ++ a :: b :: post) l
  opLower : ∀ u pre a b post, I.op u (pre ++ b :: a :: post) = - I.op u (pre ++ a :: b :: post)

/-- Tensors do not change when two neighbouring upper orbitals are exchanged together with the lower orbitals at the same positions. -/
def Interp.PairSymmetric (I : Interp O R M) : Prop := ∀ cls name pre a b post pre' a' b' post', pre.length = pre'.length →
  I.tensor cls name (pre ++ b :: a :: post) (pre' ++ b' :: a' :: post') = I.tensor cls name (pre ++ a :: b :: post) (pre' ++ a' :: b' :: post')

/-- Tensors do not change when upper and lower orbitals are exchanged. -/
def Interp.Hermitian (I : Interp O R M) : Prop := ∀ cls name u l, I.tensor cls name l u = I.tensor cls name u l

/-- The symmetry that tensors and operators are taken to have: antisymmetric index lists, or pairs of indices that can be permuted. -/
def Interp.SlotSymmetric [Neg M] (I : Interp O R M) (antisym hermitian : Bool) : Prop :=
  (antisym = true → I.Antisymmetric) ∧ (antisym = false → I.PairSymmetric) ∧ (hermitian = true → I.Hermitian)

/-- The value of an operator string. -/
def Interp.opval (I : Interp O R M) (σ : Index → O) (op : SqOp) : M := I.op (op.upper.list.map σ) (op.lower.list.map σ)

/-- The value of a sum of signed products of tensors and an operator string. -/
def Interp.rowsValue [AddCommGroup M] [Module R M] (I : Interp O R M) (σ : Index → O) (rows : List (Int × List Tensor × SqOp)) : M :=
  (rows.map fun r => (r.1 : R) • I.pval σ r.2.1 • I.opval σ r.2.2).sum

/-- The physical meaning of the special tensors: a Kronecker delta is a delta; the one-body density `L` vanishes unless
both orbitals are holes; the hole density is delta minus the density. -/
structure Interp.Physical (I : Interp O R M) (orb : Orbitals O) : Prop where
  kron : ∀ name a b, I.tensor .kronecker name [a] [b] = if a = b then 1 else 0
  dens : ∀ name a b, orb.elem a = .virt ∨ orb.elem b = .virt → I.tensor .cumulant name [a] [b] = 0
  dens_core : ∀ name a b, orb.elem a = .core ∨ orb.elem b = .core → I.tensor .cumulant name [a] [b] = if a = b then 1 else 0
  dens_spin : ∀ name a b, orb.spin a ≠ orb.spin b → I.tensor .cumulant name [a] [b] = 0
  hole : ∀ name a b, I.tensor .hole name [a] [b] = (if a = b then 1 else 0) - I.tensor .cumulant ['L'] [a] [b]

end

end Dsrg

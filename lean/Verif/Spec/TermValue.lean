import Verif.Spec.Semantics
import Mathlib.Algebra.Algebra.Rat
import Mathlib.Algebra.Algebra.Basic
import Mathlib.Data.Fintype.Pi

/-!
The value of a term: its coefficient times the sum, over all assignments of orbitals to its labels, of the product of its
tensors and its operator string.
-/

namespace Dsrg

/-- The labels occurring in a product of tensors and an operator string. -/
def labelsOf (ts : List Tensor) (op : SqOp) : Finset Index :=
  (op.upper.list ++ op.lower.list ++ ts.flatMap fun t => t.upper.list ++ t.lower.list).toFinset

section
variable {O R M : Type} [Fintype O] [DecidableEq O] [Inhabited O]

/-- All ways of giving every label of `S` an orbital of its space. -/
def Orbitals.assignments (orb : Orbitals O) (S : Finset Index) : Finset (S → O) :=
  Fintype.piFinset fun i => Finset.univ.filter fun o => orb.In i.1.space o

/-- An assignment as a function of all labels (the value on other labels is irrelevant). -/
def extendTo {S : Finset Index} (σ : S → O) (i : Index) : O := if h : i ∈ S then σ ⟨i, h⟩ else default

variable [CommRing R] [Algebra ℚ R] [AddCommGroup M] [Module R M]

/-- The value of a coefficient, a list of tensors and an operator string. -/
def Interp.value (I : Interp O R M) (orb : Orbitals O) (coeff : ℚ) (ts : List Tensor) (op : SqOp) : M :=
  (algebraMap ℚ R coeff) • ∑ σ ∈ orb.assignments (labelsOf ts op), I.pval (extendTo σ) ts • I.opval (extendTo σ) op

/-- Densities of two and more bodies vanish unless all labels are active. -/
def Interp.ActiveCumulants (I : Interp O R M) (orb : Orbitals O) : Prop :=
  ∀ name (u l : List O), u.length ≠ 1 → (∃ o ∈ u ++ l, orb.elem o ≠ .active) → I.tensor .cumulant name u l = 0

/-- Cluster amplitudes vanish when all labels are active. -/
def Interp.NoActiveAmplitudes (I : Interp O R M) (orb : Orbitals O) : Prop :=
  ∀ name (u l : List O), (∀ o ∈ u ++ l, orb.elem o = .active) → I.tensor .cluster name u l = 0

end

end Dsrg

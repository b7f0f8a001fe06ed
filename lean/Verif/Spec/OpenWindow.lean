import Verif.Spec.Wick
import Verif.Spec.TermValue
import Verif.Model.Term

/-!
What is left of an operator when normal-ordered strings with too few or too many operators are ignored.
-/

namespace Dsrg

section
variable {O R A B : Type} [DecidableEq O] [CommRing R] [Ring A] [Algebra R A] [AddCommGroup B] [Module R B]

/-- The linear map `f` ignores all normal-ordered strings with fewer than `minOpen` or more than `maxOpen` operators.  An example is the
expectation value in the reference, for `minOpen = maxOpen = 0`. -/
def Interp.Ignores (I : Interp O R A) (f : A →ₗ[R] B) (maxOpen minOpen : Int) : Prop :=
  ∀ u l : List O, ¬ (minOpen ≤ (u.length + l.length : Nat) ∧ ((u.length + l.length : Nat) : Int) ≤ maxOpen) → f (I.op u l) = 0

/-- The linear map `P` keeps the normal-ordered strings with at least `minOpen` and at most `maxOpen` operators and drops the others. -/
def Interp.Truncates (I : Interp O R A) (P : A →ₗ[R] A) (maxOpen minOpen : Int) : Prop :=
  I.Ignores P maxOpen minOpen ∧
    ∀ u l : List O, minOpen ≤ (u.length + l.length : Nat) → ((u.length + l.length : Nat) : Int) ≤ maxOpen → P (I.op u l) = I.op u l

end

section
variable {R A : Type} [CommRing R] [Algebra ℚ R] [Ring A] [Algebra R A]

/-- Truncated nested commutators: `C₀ = x` and `Cₙ₊₁ = 1 / (n + 1) Pₙ [Cₙ, y]`. -/
def truncatedCommutator (P : Nat → A →ₗ[R] A) (x y : A) : Nat → A
  | 0 => x
  | n + 1 => P n (algebraMap ℚ R (1 / ((n + 1 : Nat) : ℚ)) • (truncatedCommutator P x y n * y - y * truncatedCommutator P x y n))

end

section
variable {α R A : Type} [CommRing R] [Ring A] [Algebra R A]

/-- `contr` gives the cumulants of the expectation values `mean`: the expectation value of a product is the sum over all ways of choosing the
operators that form a cumulant with the first one, of this cumulant times the expectation value of the product of the others, with the sign
of the rearrangement. -/
def IsCumulantOf (contr : List α → R) (field : α → A) (mean : A →ₗ[R] R) : Prop :=
  mean 1 = 1 ∧ ∀ x w, mean ((x :: w).map field).prod = signedChoices w fun S r => contr (x :: S) * mean (r.map field).prod

end

section
variable {O R M : Type} [Fintype O] [DecidableEq O] [Inhabited O] [CommRing R] [Algebra ℚ R]

/-- The number that a term without operators stands for: its coefficient times the sum of the products of its tensors over all orbitals. -/
def Interp.number (I : Interp O R M) (orb : Orbitals O) (t : Term) : R :=
  algebraMap ℚ R t.coeff * ∑ σ ∈ orb.assignments (labelsOf t.tensors t.sqOp), I.pval (extendTo σ) t.tensors

end

end Dsrg

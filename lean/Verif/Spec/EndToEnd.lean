import Verif.Spec.ForteCode

/-!
The arrays that a printed program reads and the operator that it leaves behind.
-/

namespace Dsrg

section
variable {O R M : Type} [Fintype O] [DecidableEq O] [Inhabited O] [CommRing R] [Algebra ℚ R] [AddCommGroup M] [Module R M]

/-- What the caller of a printed program supplies: `Hn`, `Tn` and `Ln` hold the elements of the Hamiltonian, the amplitudes and the cumulants with
`n` upper and `n` lower orbitals, upper orbitals first. -/
def SuppliedArrays (s : Store O R) (I : Interp O R M) : Prop := ∀ u l : List O, u.length = l.length →
  s ('H' :: natStr u.length) (u ++ l) = I.tensor .hamiltonian ['H'] u l ∧
  s ('T' :: natStr u.length) (u ++ l) = I.tensor .cluster ['T'] u l ∧
  s ('L' :: natStr u.length) (u ++ l) = I.tensor .cumulant ['L'] u l

/-- The operator whose antisymmetric amplitudes are the arrays `Cn`, for `n` in `ranks`:
`∑ₙ 1/(n!)² ∑ Cn[l₁…lₙ, u₁…uₙ] {u₁⁺…uₙ⁺ lₙ…l₁}`. -/
def Interp.arraysOperator (I : Interp O R M) (ranks : Finset ℕ) (s : Store O R) : M :=
  ∑ n ∈ ranks, algebraMap ℚ R (1 / (n.factorial : ℚ) ^ 2) • I.operator n n (s ('C' :: natStr n))

/-- The code printed for `terms` computes `value`, if it is run when the arrays are `s`.  The statements of `print_terms_ambit` can be printed, and add
arrays to `C0`, `C1`, … that are the amplitudes of `value`.  If `save_terms_ambit_functions` can write a function, then the function, called with any
factor, leaves the amplitudes of `value` in the arrays of the ranks of the terms, whatever they held before.  No array but the targets and `temp` is
changed. -/
def PrintedCodeComputes (orb : Orbitals O) (I : Interp O R M) (s : Store O R) (terms : List Term) (value : M) : Prop :=
  (∃ prog, printTermsAmbit terms = .ok prog ∧
    (∀ ranks : Finset ℕ, (∀ t ∈ terms, t.sqOp.lower.list.length ∈ ranks) →
      I.arraysOperator ranks (fun nm os => runCode orb s prog nm os - s nm os) = value) ∧
    ∀ nm, (∀ n, nm ≠ 'C' :: natStr n) → nm ≠ tempName → runCode orb s prog nm = s nm) ∧
  ∀ destroyH f, forteMain terms false destroyH = .ok f → ∀ factor : R,
    I.arraysOperator (terms.map fun t => t.sqOp.lower.list.length).toFinset (f.run orb factor s) = value ∧
    ∀ nm, (∀ n, nm ≠ 'C' :: natStr n) → nm ≠ tempName → f.run orb factor s nm = s nm

end

end Dsrg

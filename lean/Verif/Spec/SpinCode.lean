import Verif.Spec.EndToEnd
import Verif.Spec.SpinCases

/-!
The operator that a printed spin-integrated program leaves behind.
-/

namespace Dsrg

section
variable {O R M : Type} [Fintype O] [DecidableEq O] [Inhabited O] [CommRing R] [Algebra ℚ R] [AddCommGroup M] [Module R M]

/-- One over the number of permutations of a list of orbitals that keep the spins: `1 / (a! b!)` for `a` alpha and `b` beta orbitals. -/
def spinShare (orb : Orbitals O) (os : List O) : ℚ :=
  1 / (((os.countP fun o => orb.spin o).factorial * (os.countP fun o => !orb.spin o).factorial : ℕ) : ℚ)

/-- The operator whose amplitudes are the spin blocks of the arrays `Cn`, for `n` in `ranks`, where a block with `a` alpha and `b` beta annihilation
orbitals and `c` alpha and `d` beta creation orbitals counts `1 / (a! b! c! d!)` times. -/
def Interp.spinBlocksOperator (I : Interp O R M) (orb : Orbitals O) (ranks : Finset ℕ) (s : Store O R) : M :=
  ∑ n ∈ ranks, ∑ l : Fin n → O, ∑ u : Fin n → O, s ('C' :: natStr n) (List.ofFn l ++ List.ofFn u) •
    algebraMap ℚ R (spinShare orb (List.ofFn u) * spinShare orb (List.ofFn l)) • I.op (List.ofFn u) (List.ofFn l)

/-- The code printed for the spin-integrated `terms` computes `value`, if it is run when the arrays are `s`.  The statements of `print_terms_ambit` can
be printed, and add arrays to `C0`, `C1`, … whose spin blocks are the amplitudes of `value`.  If `save_terms_ambit_functions` can write a function, then
the function, called with any factor, leaves these spin blocks in the arrays of the ranks of the terms, whatever they held before.  No array but the
targets and `temp` is changed. -/
def SpinCodeComputes (orb : Orbitals O) (I : Interp O R M) (s : Store O R) (terms : List Term) (value : M) : Prop :=
  (∃ prog, printTermsAmbit terms = .ok prog ∧
    (∀ ranks : Finset ℕ, (∀ t ∈ terms, t.sqOp.lower.list.length ∈ ranks) →
      I.spinBlocksOperator orb ranks (fun nm os => runCode orb s prog nm os - s nm os) = value) ∧
    ∀ nm, (∀ n, nm ≠ 'C' :: natStr n) → nm ≠ tempName → runCode orb s prog nm = s nm) ∧
  ∀ destroyH f, forteMain terms false destroyH = .ok f → ∀ factor : R,
    I.spinBlocksOperator orb (terms.map fun t => t.sqOp.lower.list.length).toFinset (f.run orb factor s) = value ∧
    ∀ nm, (∀ n, nm ≠ 'C' :: natStr n) → nm ≠ tempName → f.run orb factor s nm = s nm

end

end Dsrg

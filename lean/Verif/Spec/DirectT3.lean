import Verif.Model.DirectT3
import Verif.Spec.ForteCode

/-!
The meaning of the function for three-body amplitudes.
-/

namespace Dsrg

section
variable {O R M : Type} [Fintype O] [DecidableEq O] [Inhabited O] [CommRing R] [Algebra ℚ R]

/-- Six orbitals that belong to the block `cccvvv`. -/
def IsTriple (orb : Orbitals O) (os : List O) : Prop :=
  List.Forall₂ (fun (sp : Space) o => orb.In sp o) [⟨.c, false⟩, ⟨.c, false⟩, ⟨.c, false⟩, ⟨.v, false⟩, ⟨.v, false⟩, ⟨.v, false⟩] os

omit [Fintype O] [DecidableEq O] [Inhabited O] in
instance (orb : Orbitals O) (os : List O) : Decidable (IsTriple orb os) := by unfold IsTriple; infer_instance

/-- `Fd[i[0]] + Fd[i[1]] + Fd[i[2]] - Fd[i[3]] - Fd[i[4]] - Fd[i[5]]`. -/
def tripleDelta (Fd : O → R) (os : List O) : R := ((os.take 3).map Fd).sum - ((os.drop 3).map Fd).sum

/-- Execution of one statement of the template; the state is the arrays and the array whose norm `rms_t3` is.  `ren` is
`renormalized_denominator` and `dmp x` is `exp(-s x²)`.  The arrays `T3`, `C3` and `temp` hold the block `cccvvv` only; the elements outside it are
never changed. -/
def T3Stmt.exec (orb : Orbitals O) (Fd : O → R) (ren dmp : R → R) (s : Store O R × (List O → R)) : T3Stmt → Store O R × (List O → R)
  | .renormalize nm => (Function.update s.1 nm fun os => if IsTriple orb os then s.1 nm os * ren (tripleDelta Fd os) else s.1 nm os, s.2)
  | .damp nm => (Function.update s.1 nm fun os => if IsTriple orb os then s.1 nm os * dmp (tripleDelta Fd os) else s.1 nm os, s.2)
  | .assign dst srcs => (Function.update s.1 dst fun os => if IsTriple orb os then (srcs.map fun nm => s.1 nm os).sum else s.1 dst os, s.2)
  | .subtract dst src => (Function.update s.1 dst fun os => if IsTriple orb os then s.1 dst os - s.1 src os else s.1 dst os, s.2)
  | .rms nm => (s.1, s.1 nm)

/-- A call with the arrays of the same names: the parameters refer to the arguments, `C3` and `temp` are local and zero.  The second component is the
array whose norm `rms_t3` is. -/
def DirectT3.run (orb : Orbitals O) (Fd : O → R) (ren dmp : R → R) (f : DirectT3) (s : Store O R) : Store O R × (List O → R) :=
  let fin := f.update.foldl (T3Stmt.exec orb Fd ren dmp) (runCode orb (localStore f.params f.params s) f.body, 0)
  (fun nm => if nm ∈ f.params then fin.1 nm else s nm, fin.2)

end

/-- The arrays a statement of the template mentions. -/
def T3Stmt.mentions : T3Stmt → List PyStr
  | .renormalize nm => [nm]
  | .damp nm => [nm]
  | .assign dst srcs => dst :: srcs
  | .subtract dst src => [dst, src]
  | .rms nm => [nm]

/-- Every array of the function is a parameter or one of the local arrays `C3` and `temp`. -/
def DirectT3.Declared (f : DirectT3) : Prop :=
  (∀ st ∈ f.body, ∀ nm ∈ st.mentions, nm ∈ f.params ∨ nm = c3Name ∨ nm = tempName) ∧
    ∀ st ∈ f.update, ∀ nm ∈ st.mentions, nm ∈ f.params ∨ nm = c3Name ∨ nm = tempName

end Dsrg

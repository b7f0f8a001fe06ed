import Verif.Model.Forte
import Verif.Spec.AmbitCode
import Verif.Spec.Constructed

/-!
The meaning of the generated C++ functions.
-/

namespace Dsrg

/-- A term a program can be written for: made by the constructor, with antisymmetric labels, no diagonal label, and as many creation as
annihilation operators. -/
def Printable (t : Term) : Prop :=
  ∃ ts op c, Term.make ts op c = .ok t ∧ op.Constructed ∧ (∀ x ∈ ts, x.Constructed) ∧ op.upper.ty.isAntisym = true ∧ t.diag = ∅ ∧
    op.upper.list.length = op.lower.list.length

section
variable {O R : Type} [Fintype O] [DecidableEq O] [Inhabited O] [CommRing R] [Algebra ℚ R]

/-- A list of `2n` orbitals that belong to the general space `g`. -/
def IsGeneral (orb : Orbitals O) (n : Nat) (os : List O) : Prop := os.length = 2 * n ∧ ∀ o ∈ os, orb.In ⟨.g, false⟩ o

omit [Fintype O] [DecidableEq O] [Inhabited O] in
instance (orb : Orbitals O) (n : Nat) (os : List O) : Decidable (IsGeneral orb n os) := by unfold IsGeneral; infer_instance

/-- The arrays a function sees: its parameters, which refer to the arguments, and fresh local arrays. -/
def localStore (params args : List PyStr) (s : Store O R) : Store O R := fun nm =>
  match (params.zip args).lookup nm with
  | some a => s a
  | none => fun _ => 0

/-- A call: the body runs on the parameters; afterwards the arguments hold what the parameters hold, and nothing else has changed. -/
def callFunction (orb : Orbitals O) (params args : List PyStr) (body : List AmbitStmt) (s : Store O R) : Store O R := fun nm =>
  match (args.zip params).lookup nm with
  | some p => runCode orb (localStore params args s) body p
  | none => s nm

/-- Execution of one statement of the main function; `factor` is its first argument. -/
def MainStmt.exec (orb : Orbitals O) (factor : R) (s : Store O R) : MainStmt → Store O R
  | .zero nm => Function.update s nm 0
  | .scale nm => Function.update s nm fun os => factor * s nm os
  | .call f args => callFunction orb (f.tensors ++ [f.target]) args f.body s
  | .double nm => Function.update s nm fun os => 2 * s nm os
  | .declareTemp => s
  | .buildTemp _ => Function.update s tempName 0
  | .copy dst src n => Function.update s dst fun os => if IsGeneral orb n os then s src os else s dst os
  | .addTranspose dst src n => Function.update s dst fun os =>
      if IsGeneral orb n os then s dst os + s src (os.drop n ++ os.take n) else s dst os

/-- Execution of the main function. -/
def MainFunction.run (orb : Orbitals O) (factor : R) (s : Store O R) (f : MainFunction) : Store O R := f.body.foldl (MainStmt.exec orb factor) s

end

/-- The rank of the array a term is added to: half the number of its operators. -/
def Term.openRank (t : Term) : Nat := (t.sqOp.lower.list.length + t.sqOp.upper.list.length) / 2

/-! ### Names -/

/-- The names `save_terms_ambit_functions` knows: `H1` to `H9`, `T1` to `T9`, `C0` to `C9`. -/
def KnownName (nm : PyStr) : Prop :=
  (∃ k, 1 ≤ k ∧ k ≤ 9 ∧ (nm = 'H' :: natStr k ∨ nm = 'T' :: natStr k)) ∨ ∃ k, k ≤ 9 ∧ nm = 'C' :: natStr k

/-- The arrays a statement of a block function mentions. -/
def AmbitStmt.mentions : AmbitStmt → List PyStr
  | .comment => []
  | .build _ => [tempName]
  | .zero => [tempName]
  | .update lhs _ _ rhs => lhs.name :: rhs.map ArrayRef.name

/-- Every array of a block function is a parameter or a declared local array. -/
def BlockFunction.Closed (f : BlockFunction) : Prop :=
  ∀ st ∈ f.body, ∀ nm ∈ st.mentions, nm ∈ f.tensors ∨ nm = f.target ∨ nm = tempName ∧ f.declaresTemp = true

/-- The arrays a statement of the main function mentions. -/
def MainStmt.mentions : MainStmt → List PyStr
  | .zero nm => [nm]
  | .scale nm => [nm]
  | .call _ args => args
  | .double nm => [nm]
  | .declareTemp => []
  | .buildTemp _ => [tempName]
  | .copy dst src _ => [dst, src]
  | .addTranspose dst src _ => [dst, src]

/-- Starting with the declared names `env`, every name is declared before it is used. -/
def DeclaredBeforeUse (env : List PyStr) : List MainStmt → Prop
  | [] => True
  | .declareTemp :: rest => DeclaredBeforeUse (tempName :: env) rest
  | st :: rest => (∀ nm ∈ st.mentions, nm ∈ env) ∧ DeclaredBeforeUse env rest

end Dsrg

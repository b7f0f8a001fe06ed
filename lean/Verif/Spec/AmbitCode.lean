import Verif.Model.Ambit
import Verif.Spec.TermValue

/-!
The meaning of the generated code: every array is a function of a list of orbitals; `lhs += c * r1 * r2 ...` adds, for every assignment
of orbitals (of the right spaces) to the labels of the statement, `c` times the product of the elements on the right to the element on the
left.
-/

namespace Dsrg

/-- The contents of the arrays, by name. -/
abbrev Store (O R : Type) := PyStr → List O → R

section
variable {O R M : Type} [Fintype O] [DecidableEq O] [Inhabited O] [CommRing R] [Algebra ℚ R] [AddCommGroup M] [Module R M]

/-- The labels of a statement. -/
def statementLabels (lhs : ArrayRef) (rhs : List ArrayRef) : Finset Index := (lhs.labels ++ rhs.flatMap ArrayRef.labels).toFinset

/-- Execution of one statement.  (`ambit` arrays only hold the blocks they were built for; the elements outside are never changed.) -/
def AmbitStmt.exec (orb : Orbitals O) (s : Store O R) : AmbitStmt → Store O R
  | .comment => s
  | .build _ => Function.update s tempName 0
  | .zero => Function.update s tempName 0
  | .update lhs plus c rhs => Function.update s lhs.name fun os => s lhs.name os + (if plus then 1 else -1) * (algebraMap ℚ R c *
      ∑ σ ∈ orb.assignments (statementLabels lhs rhs),
        if lhs.labels.map (extendTo σ) = os then (rhs.map fun r => s r.name (r.labels.map (extendTo σ))).prod else 0)

/-- Execution of a program. -/
def runCode (orb : Orbitals O) (s : Store O R) (prog : List AmbitStmt) : Store O R := prog.foldl (AmbitStmt.exec orb) s

/-- The arrays of the factors hold their elements, upper orbitals first. -/
def ArraysHold (s : Store O R) (I : Interp O R M) (ts : List Tensor) : Prop :=
  ∀ x ∈ ts, ∀ u l : List O, u.length = x.upper.list.length → l.length = x.lower.list.length →
    s x.arrayName (u ++ l) = I.tensor x.cls x.name u l

/-- The operator with the amplitudes `A`, the annihilation orbitals first: the sum over all orbitals of the amplitude times the operator
string. -/
def Interp.operator (I : Interp O R M) (nAnn nCre : Nat) (A : List O → R) : M :=
  ∑ l : Fin nAnn → O, ∑ u : Fin nCre → O, A (List.ofFn l ++ List.ofFn u) • I.op (List.ofFn u) (List.ofFn l)

/-- An array over `n` annihilation and `m` creation orbitals changes sign when two neighbouring annihilation orbitals or two neighbouring
creation orbitals of the same spin are exchanged. -/
def AntisymmetricArray (orb : Orbitals O) (n m : Nat) (A : List O → R) : Prop :=
  ∀ (P Q : List O) (x y : O), orb.spin x = orb.spin y →
    (∀ u : List O, P.length + Q.length + 2 = n → u.length = m → A ((P ++ y :: x :: Q) ++ u) = - A ((P ++ x :: y :: Q) ++ u)) ∧
    ∀ l : List O, l.length = n → P.length + Q.length + 2 = m → A (l ++ (P ++ y :: x :: Q)) = - A (l ++ (P ++ x :: y :: Q))

end

/-- The creation labels of the operator are all upper or all lower labels of a factor, and so are the annihilation labels: a factor never
holds two labels of one side of the operator on its two sides. -/
def OneSided (ts : List Tensor) (op : SqOp) : Prop :=
  ∀ x ∈ ts, (∀ i ∈ op.upper.list, ∀ j ∈ op.upper.list, i ∈ x.upper.list → j ∉ x.lower.list) ∧
    ∀ i ∈ op.lower.list, ∀ j ∈ op.lower.list, i ∈ x.upper.list → j ∉ x.lower.list

/-- The number of ways of permuting alpha labels among themselves and beta labels among themselves. -/
def spinPermutations (l : List Index) : Nat := (l.countP Index.isBeta).factorial * (l.countP fun i => !i.isBeta).factorial

end Dsrg

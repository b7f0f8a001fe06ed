import Verif.Spec.Library
import Verif.Spec.Transformation

/-!
Computations that a user does with the library, and the operators that they stand for.
-/

namespace Dsrg

/-- Operators built from the Hamiltonian and the amplitudes. -/
inductive OpExpr
  | hamiltonian (k : Nat)
  | excitation (singleRef : Bool) (k : Nat)
  | deexcitation (singleRef : Bool) (k : Nat)
  | scaled (c : ℚ) (x : OpExpr)
  | add (x y : OpExpr)
  | mul (x y : OpExpr)
  | commutator (x y : OpExpr)

section
variable {O R A : Type} [Fintype O] [DecidableEq O] [Inhabited O] [CommRing R] [Algebra ℚ R] [Ring A] [Algebra R A]

/-- The operator that an expression stands for. -/
def OpExpr.operator (orb : Orbitals O) (I : Interp O R A) : OpExpr → A
  | .hamiltonian k => I.hamiltonianPart (Finset.univ.filter fun o => orb.spin o = false) k
  | .excitation singleRef k => I.excitation orb singleRef k
  | .deexcitation singleRef k => I.deexcitation orb singleRef k
  | .scaled c x => algebraMap ℚ R c • x.operator orb I
  | .add x y => x.operator orb I + y.operator orb I
  | .mul x y => x.operator orb I * y.operator orb I
  | .commutator x y => x.operator orb I * y.operator orb I - y.operator orb I * x.operator orb I

end

/-- The pairs of a term of the first list and a term of the second list. -/
def termPairs (a b : List Term) : List (Term × Term) := a.flatMap fun x => b.map fun y => (x, y)

/-- `Computes m maxCu e ts`: the list `ts` of terms can be the result of computing the expression `e` with the library.  Products and commutators of
sums are computed term by term, by `contract_terms` and `single_commutator` with the cumulants up to `maxCu` and without a limit on the open labels; the factors
have no labels in common.  Between these calls the user may at any time combine like terms, canonicalize terms and drop those that vanish, and
expand terms in blocks.  No coefficient is so small that the library takes it for zero. -/
inductive Computes (m : Machine) (maxCu : Int) : OpExpr → List Term → Prop
  | hamiltonian (k start : Nat) (t : Term) : 1 ≤ k → hamiltonianOperator k start .spinOrbital = .ok t → Computes m maxCu (.hamiltonian k) [t]
  | excitation (k start : Nat) (scale : ℚ) (singleRef : Bool) (t : Term) : 1 ≤ k →
      clusterOperator k start true ['T'] scale (if singleRef then ⟨.c, false⟩ else ⟨.h, false⟩)
        (if singleRef then ⟨.v, false⟩ else ⟨.p, false⟩) .spinOrbital = .ok t → Computes m maxCu (.scaled scale (.excitation singleRef k)) [t]
  | deexcitation (k start : Nat) (scale : ℚ) (singleRef : Bool) (t : Term) : 1 ≤ k →
      clusterOperator k start false ['T'] scale (if singleRef then ⟨.c, false⟩ else ⟨.h, false⟩)
        (if singleRef then ⟨.v, false⟩ else ⟨.p, false⟩) .spinOrbital = .ok t → Computes m maxCu (.scaled scale (.deexcitation singleRef k)) [t]
  | add (x y : OpExpr) (a b : List Term) : Computes m maxCu x a → Computes m maxCu y b → Computes m maxCu (.add x y) (a ++ b)
  | opposite (x : OpExpr) (a b : List Term) : Computes m maxCu x a → (a.mapM fun t => t.fromTerm true false) = .ok b → Computes m maxCu (.scaled (-1) x) b
  | mul (x y : OpExpr) (a b : List Term) (o : Options) (scale : ℚ) (outs : List (List Term)) : Computes m maxCu x a → Computes m maxCu y b →
      1 ≤ o.nProcess → o.forCommutator = false → o.maxCu = maxCu → o.minOpen ≤ 0 →
      (∀ p ∈ termPairs a b, DisjointLabels p.1 p.2 ∧ ¬ Negligible (scale * (p.1.coeff * p.2.coeff)) ∧ (nOperators [p.1.sqOp, p.2.sqOp] : Int) ≤ o.maxOpen) →
      List.Forall₂ (fun p out => ContractRun m o [p.1, p.2] scale out) (termPairs a b) outs → Computes m maxCu (.scaled scale (.mul x y)) outs.flatten
  | commutator (x y : OpExpr) (a b : List Term) (o : Options) (scale : ℚ) (outs : List (List Term)) : Computes m maxCu x a → Computes m maxCu y b →
      1 ≤ o.nProcess → o.maxCu = maxCu → o.minOpen ≤ 0 →
      (∀ p ∈ termPairs a b, DisjointLabels p.1 p.2 ∧ ¬ Negligible (scale * (p.1.coeff * p.2.coeff)) ∧ (nOperators [p.1.sqOp, p.2.sqOp] : Int) ≤ o.maxOpen + 2) →
      List.Forall₂ (fun p out => CommutatorRun m o p.1 p.2 scale out) (termPairs a b) outs → Computes m maxCu (.scaled scale (.commutator x y)) outs.flatten
  | combined (x : OpExpr) (a b : List Term) : Computes m maxCu x a → (∀ t ∈ a, ¬ Negligible (totalCoeff a t)) → combineTerms a = .ok b →
      Computes m maxCu x b
  | canonical (x : OpExpr) (a b : List Term) (removeActive hermitian : Bool) : Computes m maxCu x a → (∀ t ∈ a, ¬ Negligible t.coeff) →
      (a.mapM fun t => t.canonicalizeSympy m.canon m.ord true removeActive hermitian) = .ok b → Computes m maxCu x (b.filter fun t => t.coeff ≠ 0)
  | blocks (x : OpExpr) (a : List Term) (rows : List (List Term)) (start : Nat) : Computes m maxCu x a →
      (a.mapM fun t => t.expandCompositeIndices m.ord false start) = .ok rows → Computes m maxCu x rows.flatten

end Dsrg

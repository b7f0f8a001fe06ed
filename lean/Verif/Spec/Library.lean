import Verif.Model.Bch
import Verif.Model.TermOps
import Verif.Spec.Bch

/-!
The terms that a user can build with the library.
-/

namespace Dsrg

/-- Terms built from the amplitudes and Hamiltonians of the library by any sequence of calls: the contraction of products, commutators, as long as
the factors have no labels in common, combination of like terms, copies and Hermitian conjugates, canonicalization, the expansion in blocks, the
excitation part, the diagonal part and gradients; the operators that are the start have at least one body. -/
inductive LibraryTerm (m : Machine) : Term → Prop
  /-- `cluster_operator(k, start, excitation, scale_factor=…)` with the labels of `cluster_operators`. -/
  | amplitude (k start : Nat) (excitation : Bool) (scale : ℚ) (singleRef : Bool) (t : Term) : 1 ≤ k →
      clusterOperator k start excitation ['T'] scale (if singleRef then ⟨.c, false⟩ else ⟨.h, false⟩)
        (if singleRef then ⟨.v, false⟩ else ⟨.p, false⟩) .spinOrbital = .ok t → LibraryTerm m t
  /-- `hamiltonian_operator(k, start)`. -/
  | hamiltonian (k start : Nat) (t : Term) : 1 ≤ k → hamiltonianOperator k start .spinOrbital = .ok t → LibraryTerm m t
  /-- A block of the Hamiltonian. -/
  | block (k : Nat) (out : List Term) (t : Term) : 1 ≤ k → expandedHamiltonian m.ord k = .ok out → t ∈ out → LibraryTerm m t
  /-- A term returned by `contract_terms`. -/
  | contracted (o : Options) (terms : List Term) (scale : ℚ) (out : List Term) (t : Term) : 1 ≤ o.nProcess →
      (∀ x ∈ terms, LibraryTerm m x) → terms.Pairwise DisjointLabels → ContractRun m o terms scale out → t ∈ out → LibraryTerm m t
  /-- A term returned by `single_commutator`. -/
  | commutator (o : Options) (left right : Term) (scale : ℚ) (out : List Term) (t : Term) : 1 ≤ o.nProcess →
      LibraryTerm m left → LibraryTerm m right → DisjointLabels left right → CommutatorRun m o left right scale out → t ∈ out → LibraryTerm m t
  /-- A term returned by `combine_terms`. -/
  | combined (terms out : List Term) (t : Term) : (∀ x ∈ terms, LibraryTerm m x) → combineTerms terms = .ok out → t ∈ out → LibraryTerm m t
  /-- What `from_term` returns: a copy, the opposite, or the term with the operator conjugated. -/
  | copied (flipSign hermitianConjugate : Bool) (t r : Term) : LibraryTerm m t → t.fromTerm flipSign hermitianConjugate = .ok r → LibraryTerm m r
  /-- What `canonicalize_sympy` returns, unless it is zero. -/
  | canonical (removeActive hermitian : Bool) (t r : Term) : LibraryTerm m t →
      t.canonicalizeSympy m.canon m.ord true removeActive hermitian = .ok r → r.coeff ≠ 0 → LibraryTerm m r
  /-- A block of a term: a term returned by `make_ddca`, or by `expand_composite_indices`, which calls it. -/
  | expanded (maxCore maxVirt : Int) (singleRef : Bool) (start : Nat) (t : Term) (rows : List Term) (r : Term) : LibraryTerm m t →
      t.makeDdca m.ord maxCore maxVirt singleRef start = .ok rows → r ∈ rows → LibraryTerm m r
  /-- What `make_excitation` returns, unless it is zero. -/
  | excitation (singleRef : Bool) (t r : Term) : LibraryTerm m t → t.makeExcitation m.canon m.ord singleRef = .ok r → r.coeff ≠ 0 → LibraryTerm m r
  /-- A term returned by `make_one_body_diagonal`, unless it is zero. -/
  | diagonal (singleRef : Bool) (t : Term) (rows : List Term) (r : Term) : LibraryTerm m t →
      t.makeOneBodyDiagonal m.canon m.ord singleRef = .ok rows → r ∈ rows → r.coeff ≠ 0 → LibraryTerm m r
  /-- A term of the gradient of a term without densities, unless it is zero. -/
  | gradient (t : Term) (rows : List Term) (r : Term) : LibraryTerm m t → (∀ x ∈ t.tensors, x.cls = .hamiltonian ∨ x.cls = .cluster) →
      t.gradientT m.canon m.ord = .ok rows → r ∈ rows → r.coeff ≠ 0 → LibraryTerm m r

end Dsrg

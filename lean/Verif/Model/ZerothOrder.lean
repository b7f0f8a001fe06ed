import Verif.Model.TermOps

/-!
The zeroth-order Hamiltonians (Term.py:36-70).
-/

namespace Dsrg

/-- `diagonal_fock_operator`, Term.py:36-42. -/
def diagonalFockOperator (canon : CanonFn) (ord : SetOrder) (singleRef : Bool) : Except PyErr (List Term) := do
  let h ← hamiltonianOperator 1 0 .spinOrbital
  h.makeOneBodyDiagonal canon ord singleRef

/-- `dyall_hamiltonian`, Term.py:45-51. -/
def dyallHamiltonian (canon : CanonFn) (ord : SetOrder) : Except PyErr (List Term) := do
  let up ← Indices.ofNames .spinOrbital (labelNames ⟨.a, false⟩ 2 2)
  let lo ← Indices.ofNames .spinOrbital (labelNames ⟨.a, false⟩ 0 2)
  let tensor ← Tensor.make .hamiltonian up lo ['H'] 0
  let op ← IndicesPair.make lo up
  let v ← Term.make [tensor] op (1 / 4)
  let h ← hamiltonianOperator 1 0 .spinOrbital
  let h1 ← h.makeOneBodyDiagonal canon ord false
  pure (h1 ++ [v])

/-- `upper_count == lower_count`, Term.py:63-68: two `defaultdict`s that count the spaces of the labels; a space has an entry when a label
has it. -/
def sameSpaceCounts (op : SqOp) : Bool :=
  (op.upper.list ++ op.lower.list).all fun i =>
    op.upper.list.countP (fun j => decide (j.space = i.space)) = op.lower.list.countP fun j => decide (j.space = i.space)

/-- `fink_hamiltonian`, Term.py:54-70. -/
def finkHamiltonian (canon : CanonFn) (ord : SetOrder) (singleRef : Bool) : Except PyErr (List Term) := do
  let h ← hamiltonianOperator 1 0 .spinOrbital
  let h1 ← h.makeOneBodyDiagonal canon ord singleRef
  let v ← hamiltonianOperator 2 0 .spinOrbital
  let rows ← v.expandCompositeIndices ord singleRef 0
  pure (h1 ++ rows.filter fun t => sameSpaceCounts t.sqOp)

end Dsrg

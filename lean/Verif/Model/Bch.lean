import Verif.Model.PhysOp
import Verif.Model.Nested
import Mathlib.Algebra.FreeAlgebra

/-!
Model of the Baker-Campbell-Hausdorff expansions, `dsrg_generator/phys_op_contraction.py:184-223, 303-367, 384-450`.

As in `Verif/Model/PhysOp.lean` a call is a relation between its arguments and what it can return.  The relations also record the
arguments of the calls of `single_commutator` and `contract_terms`.
-/

namespace Dsrg

/-- The label of holes, phys_op_contraction.py:193, 411. -/
def holeSpace (singleRef : Bool) : Space := if singleRef then ⟨.c, false⟩ else ⟨.h, false⟩

/-- The label of particles, phys_op_contraction.py:194, 412. -/
def particleSpace (singleRef : Bool) : Space := if singleRef then ⟨.v, false⟩ else ⟨.p, false⟩

/-- `cluster_operators`, phys_op_contraction.py:184-201. -/
def clusterOperators (levels : List Nat) (start : Nat) (unitary singleRef : Bool) : Except PyErr (List Term) := do
  let amps ← levels.mapM fun k => clusterOperator k start true ['T'] 1 (holeSpace singleRef) (particleSpace singleRef) .spinOrbital
  if unitary then do
    let conj ← levels.mapM fun k => clusterOperator k start false ['T'] (-1) (holeSpace singleRef) (particleSpace singleRef) .spinOrbital
    pure (amps ++ conj)
  else pure amps

/-- `linear_commutator_amp`, phys_op_contraction.py:204-223. -/
def LinearCommutatorAmpRun (m : Machine) (o : Options) (lefts : List Term) (levels : List Nat) (start : Nat) (unitary singleRef : Bool) (scale : ℚ)
    (out : List Term) : Prop :=
  ∃ amps, clusterOperators levels start unitary singleRef = .ok amps ∧ LinearCommutatorRun m o lefts amps scale out

/-- `combine_terms([x for x in hamiltonian_operator(k).expand_composite_indices(True)])`, phys_op_contraction.py:347-348, 350-351. -/
def expandedHamiltonian (ord : SetOrder) (k : Nat) : Except PyErr (List Term) := do
  let h ← hamiltonianOperator k 0 .spinOrbital
  combineTerms (← h.expandCompositeIndices ord true 0)

/-- `out[0]`, and the first `left_pool`, phys_op_contraction.py:347-348, 350-351. -/
def bchStart (ord : SetOrder) : Except PyErr (List Term) := do
  let h1 ← expandedHamiltonian ord 1
  let h2 ← expandedHamiltonian ord 2
  pure (h1 ++ h2)

/-- The loop over the levels of `bch_cc_rsc`, phys_op_contraction.py:353-365, from level `i + 1`; the amplitudes of the level are made
before the loop, phys_op_contraction.py:342-344.  A limit is
`(max_cu, (min_n_open, max_n_open))`; `calls` are the arguments of `single_commutator` and `outs` the lists of the levels. -/
def BchLevels (m : Machine) (o : Options) (levels : List Nat) (unitary singleRef : Bool) (maxAmp : Nat) :
    Nat → List Term → List (Int × Int × Int) → List (List (Term × Term)) → List (List Term) → Prop
  | _, _, [], calls, outs => calls = [] ∧ outs = []
  | i, pool, (maxCu, minOpen, maxOpen) :: rest, calls, outs => ∃ amps all copies out pool' calls' outs',
    clusterOperators levels (i * maxAmp + 4) unitary singleRef = .ok amps ∧
    CommutatorsRun m { o with maxCu := maxCu, maxOpen := maxOpen, minOpen := minOpen } (1 / ((i + 1 : Nat) : ℚ))
      (pool.flatMap fun l => amps.map fun r => (l, r)) all ∧
    (all.mapM fun t => t.fromTerm false false) = .ok copies ∧ combineTerms copies = .ok out ∧
    (out.mapM fun t => t.fromTerm false false) = .ok pool' ∧
    BchLevels m o levels unitary singleRef maxAmp (i + 1) pool' rest calls' outs' ∧
    calls = (pool.flatMap fun l => amps.map fun r => (l, r)) :: calls' ∧ outs = out :: outs'

/-- `bch_cc_rsc`, phys_op_contraction.py:303-367, with one limit per level; `outs` are the lists of the levels, from level 0.
Simplification: the limits of `o` are not used, the checks of the types and lengths of the arguments are not represented, and
`max([])` gives no result. -/
def BchRun (m : Machine) (o : Options) (levels : List Nat) (unitary singleRef : Bool) (limits : List (Int × Int × Int))
    (calls : List (List (Term × Term))) (outs : List (List Term)) : Prop :=
  ∃ maxLevel start rest, levels.max? = some maxLevel ∧ bchStart m.ord = .ok start ∧
    BchLevels m o levels unitary singleRef (maxLevel * 2) 0 start limits calls rest ∧ outs = start :: rest

/-! ### The expansion of the nested commutator -/

/-- The symbols of `nested_commutator_cc`: `H`, `T` and the conjugate `X` of `T`, with their number of bodies,
phys_op_contraction.py:415-417, 423-434. -/
inductive OpName
  | H (k : Nat)
  | T (k : Nat)
  | X (k : Nat)
deriving DecidableEq

/-- The sum `t` and, when unitary, `t - Dagger(t)`, phys_op_contraction.py:415-417. -/
noncomputable def symbolicAmplitude (levels : List Nat) (unitary : Bool) : FreeAlgebra ℤ OpName :=
  (levels.map fun k => FreeAlgebra.ι ℤ (OpName.T k)).sum - if unitary then (levels.map fun k => FreeAlgebra.ι ℤ (OpName.X k)).sum else 0

/-- The nested commutator, phys_op_contraction.py:416, 419; SymPy's symbols do not commute. -/
noncomputable def symbolicCommutator (level : Int) (levels : List Nat) (unitary : Bool) : FreeAlgebra ℤ OpName :=
  sympyNested (fun x y => x * y - y * x) level (FreeAlgebra.ι ℤ (OpName.H 1) + FreeAlgebra.ι ℤ (OpName.H 2))
    (symbolicAmplitude levels unitary)

/-- SymPy's `expand().args`, phys_op_contraction.py:419-434: different products of symbols, powers being written out, with integer
coefficients that are not zero, which add up to the expression. -/
structure IsExpansion (e : List (ℤ × List OpName)) (x : FreeAlgebra ℤ OpName) : Prop where
  words : (e.map Prod.snd).Nodup
  coeff : ∀ p ∈ e, p.1 ≠ 0
  sum : (e.map fun p => p.1 • (p.2.map (FreeAlgebra.ι ℤ)).prod).sum = x

/-- The loop over the names of a product, phys_op_contraction.py:436-445. -/
def nestedFactors (singleRef : Bool) : Nat → List OpName → Except PyErr (List Term)
  | _, [] => pure []
  | start, .T k :: rest => do
    let t ← clusterOperator k start true ['T'] 1 (holeSpace singleRef) (particleSpace singleRef) .spinOrbital
    let ts ← nestedFactors singleRef (start + k) rest
    pure (t :: ts)
  | start, .X k :: rest => do
    let t ← clusterOperator k start false ['T'] 1 (holeSpace singleRef) (particleSpace singleRef) .spinOrbital
    let ts ← nestedFactors singleRef (start + k) rest
    pure (t :: ts)
  | start, .H k :: rest => do
    let t ← hamiltonianOperator k 0 .spinOrbital
    let ts ← nestedFactors singleRef start rest
    pure (t :: ts)

/-- The loop over the products, phys_op_contraction.py:419-448; `calls` are the products and factors passed to `contract_terms`. -/
def NestedLoop (m : Machine) (o : Options) (singleRef : Bool) (scale : ℚ) :
    List (ℤ × List OpName) → List (List Term × ℚ) → List Term → Prop
  | [], calls, out => calls = [] ∧ out = []
  | (c, names) :: rest, calls, out => ∃ terms out₁ calls' out₂, nestedFactors singleRef 0 names = .ok terms ∧
    ContractRun m o terms (scale * c) out₁ ∧ NestedLoop m o singleRef scale rest calls' out₂ ∧
    calls = (terms, scale * c) :: calls' ∧ out = out₁ ++ out₂

/-- `nested_commutator_cc`, phys_op_contraction.py:384-450; `expansion` is what SymPy finds.  The checks of the types of the
arguments are not represented. -/
def NestedRun (m : Machine) (o : Options) (level : Nat) (levels : List Nat) (unitary singleRef : Bool)
    (expansion : List (ℤ × List OpName)) (calls : List (List Term × ℚ)) (out : List Term) : Prop :=
  ∃ all, IsExpansion expansion (symbolicCommutator level levels unitary) ∧
    NestedLoop m o singleRef (1 / (level.factorial : ℚ)) expansion calls all ∧ combineTerms all = .ok out

end Dsrg

import Verif.Model.Contract
import Verif.Model.Combine
import Verif.Model.Sympy

/-!
Model of the contraction of terms and of commutators, `dsrg_generator/phys_op_contraction.py`.

A call is modelled by the relation between its arguments and the lists it can return: the enumeration of contractions picks
elements of sets in any order, and worker processes deliver their results in any order.  An exception ends a run without result.
-/

namespace Dsrg

/-- SymPy's `canonicalize`: array form of the product, ranges of names, symmetries; `none` stands for the answer `0`. -/
abbrev SympyCanon := List Nat → List (Nat × Nat) → List SlotGroup → Option (List Nat)

/-- A contraction `(sign, densities, sq_op)`. -/
abbrev Row := Int × List Tensor × SqOp

/-- What all calls have in common: SymPy, the iteration order of sets, and `multiprocessing.cpu_count()`.  Simplification: the
iteration order of a set is a function of the set, the same in all processes. -/
structure Machine where
  canon : SympyCanon
  ord : SetOrder
  cpus : Nat

/-- The options of `contract_terms` and `single_commutator`, phys_op_contraction.py:30-31, 158-159. -/
structure Options where
  maxCu : Int
  maxOpen : Int
  minOpen : Int
  forCommutator : Bool
  expandHole : Bool
  nProcess : Nat
  hermitian : Bool

/-- `Term(tensors + densities, sq_op, sign * coeff).canonicalize_sympy(hermitian_tensor=...)`,
phys_op_contraction.py:26-27, 117-118; the other arguments have their defaults `True` (Term.py:681-682). -/
def canonicalizeRow (m : Machine) (tensors : List Tensor) (coeff : ℚ) (hermitian : Bool) (row : Row) : Except PyErr Term := do
  let t ← Term.make (tensors ++ row.2.1) row.2.2 (row.1 * coeff)
  t.canonicalizeSympy m.canon m.ord true true hermitian

/-- `canonicalize_contractions_batch`, phys_op_contraction.py:100-127: `out` is a list it can return.  With one process the
results come in order, otherwise in any order (`imap_unordered`). -/
def BatchRun (m : Machine) (nProcess : Nat) (rows : List Row) (tensors : List Tensor) (coeff : ℚ) (simplify hermitian : Bool)
    (out : List Term) : Prop :=
  if rows.length = 0 then out = [] else
  ∃ results temp, rows.mapM (canonicalizeRow m tensors coeff hermitian) = .ok results ∧
    (if nProcess = 1 then temp = results else temp.Perm results) ∧
    (if simplify then combineTerms temp = .ok out else out = temp)

/-- The loop over the batches of contractions and the final batch, phys_op_contraction.py:76-95.  `pending` is `contractions`,
whose length is `count`. -/
def LoopRun (m : Machine) (o : Options) (nProcess : Nat) (tensors : List Tensor) (coeff : ℚ) :
    List Row → List (List Row) → List Term → Prop
  | pending, [], out => BatchRun m nProcess pending tensors coeff false o.hermitian out
  | pending, batch :: rest, out =>
    if (pending ++ batch).length < 10000 * max 1 (nProcess / 2) then LoopRun m o nProcess tensors coeff (pending ++ batch) rest out
    else ∃ out₁ out₂, BatchRun m nProcess (pending ++ batch) tensors coeff true o.hermitian out₁ ∧
      LoopRun m o nProcess tensors coeff [] rest out₂ ∧ out = out₁ ++ out₂

/-- `compute_operator_contractions`, sqop_contraction.py:403-422, called with one process. -/
def ContractionsRun (ops : List SqOp) (o : Options) (batches : List (List Row)) : Prop :=
  if o.forCommutator then ConnectedRun ops o.maxCu o.maxOpen o.minOpen o.expandHole false batches
  else GeneralRun ops o.maxCu o.maxOpen o.minOpen o.expandHole false batches

/-- `coeff`, phys_op_contraction.py:50, 56. -/
def productCoeff (terms : List Term) (scale : ℚ) : ℚ := terms.foldl (fun c t => c * t.coeff) scale

/-- `tensors`, phys_op_contraction.py:51, 57. -/
def productTensors (terms : List Term) : List Tensor := terms.flatMap Term.tensors

/-- `sq_ops_to_be_contracted`, phys_op_contraction.py:52, 58-59. -/
def productOps (terms : List Term) : List SqOp := (terms.map Term.sqOp).filter fun op => decide (op.size ≠ 0)

/-- `contract_terms`, phys_op_contraction.py:30-97: `out` is a list it can return. -/
def ContractRun (m : Machine) (o : Options) (terms : List Term) (scale : ℚ) (out : List Term) : Prop :=
  match terms with
  | [] => False
  | first :: _ =>
    if (productOps terms).length < 2 then
      ∃ t, Term.make (productTensors terms) ((productOps terms).headD first.sqOp) (productCoeff terms scale) = .ok t ∧ out = [t]
    else ∃ batches all, ContractionsRun (productOps terms) o batches ∧
      LoopRun m o (min o.nProcess m.cpus) (productTensors terms) (productCoeff terms scale) [] batches all ∧
      combineTerms all = .ok out

/-- `single_commutator`, phys_op_contraction.py:158-181. -/
def CommutatorRun (m : Machine) (o : Options) (left right : Term) (scale : ℚ) (out : List Term) : Prop :=
  if o.forCommutator = true ∧ (left.sqOp.size = 0 ∨ right.sqOp.size = 0) then out = [] else
  ∃ out₁ out₂, ContractRun m o [left, right] scale out₁ ∧ ContractRun m o [right, left] (-scale) out₂ ∧
    combineTerms (out₁ ++ out₂) = .ok out

/-- The double loop over a pool of left terms and a list of right terms, phys_op_contraction.py:241-245, 358-361. -/
def CommutatorsRun (m : Machine) (o : Options) (scale : ℚ) : List (Term × Term) → List Term → Prop
  | [], out => out = []
  | p :: rest, out => ∃ out₁ out₂, CommutatorRun m o p.1 p.2 scale out₁ ∧ CommutatorsRun m o scale rest out₂ ∧ out = out₁ ++ out₂

/-- `linear_commutator`, phys_op_contraction.py:226-246; `expand_hole` has its default `True`. -/
def LinearCommutatorRun (m : Machine) (o : Options) (lefts rights : List Term) (scale : ℚ) (out : List Term) : Prop :=
  ∃ all, CommutatorsRun m { o with expandHole := true } scale (lefts.flatMap fun l => rights.map fun r => (l, r)) all ∧
    combineTerms all = .ok out

/-- The loop over the levels of `recursive_single_commutator`, phys_op_contraction.py:286-298: `levels` are the right terms with
`max_cu` and the limits `(min, max)` of open labels, `outs` the lists of the levels. -/
def RecursiveRun (m : Machine) (o : Options) : List Term → List (Term × Int × Int × Int) → List (List Term) → Prop
  | _, [], outs => outs = []
  | pool, (right, maxCu, minOpen, maxOpen) :: rest, outs => ∃ all out outs',
    CommutatorsRun m { o with maxCu := maxCu, maxOpen := maxOpen, minOpen := minOpen } 1 (pool.map fun l => (l, right)) all ∧
    combineTerms all = .ok out ∧ RecursiveRun m o out rest outs' ∧ outs = out :: outs'

end Dsrg

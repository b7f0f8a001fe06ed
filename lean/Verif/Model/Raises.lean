import Verif.Model.Bch

/-!
The runs of `dsrg_generator/phys_op_contraction.py` that end in an exception.

`Verif/Model/PhysOp.lean` and `Verif/Model/Bch.lean` relate the arguments of a call to the lists it can return; the predicates below say
that a run can raise an exception, whatever the choices made before it.  They follow the same lines of the code.
-/

namespace Dsrg

/-- `canonicalize_contractions_batch` raises, phys_op_contraction.py:100-127: the constructor or the canonicalization of a row raises,
here or in a worker process, or the combination of the results raises. -/
def BatchRaises (m : Machine) (nProcess : Nat) (rows : List Row) (tensors : List Tensor) (coeff : ℚ) (simplify hermitian : Bool) : Prop :=
  rows.length ≠ 0 ∧
    ((∃ row ∈ rows, ∃ e, canonicalizeRow m tensors coeff hermitian row = .error e) ∨
      ∃ results temp e, rows.mapM (canonicalizeRow m tensors coeff hermitian) = .ok results ∧
        (if nProcess = 1 then temp = results else temp.Perm results) ∧ simplify = true ∧ combineTerms temp = .error e)

/-- The loop over the batches raises, phys_op_contraction.py:76-95. -/
def LoopRaises (m : Machine) (o : Options) (nProcess : Nat) (tensors : List Tensor) (coeff : ℚ) : List Row → List (List Row) → Prop
  | pending, [] => BatchRaises m nProcess pending tensors coeff false o.hermitian
  | pending, batch :: rest =>
    if (pending ++ batch).length < 10000 * max 1 (nProcess / 2) then LoopRaises m o nProcess tensors coeff (pending ++ batch) rest
    else BatchRaises m nProcess (pending ++ batch) tensors coeff true o.hermitian ∨
      ∃ out, BatchRun m nProcess (pending ++ batch) tensors coeff true o.hermitian out ∧ LoopRaises m o nProcess tensors coeff [] rest

/-- `compute_operator_contractions_general` raises, sqop_contraction.py:681-740 (see `GeneralRun`). -/
def GeneralRaises (ops : List SqOp) (maxCu maxOpen minOpen : Int) (expand : Bool) : Prop :=
  (∃ e, elementaryList ops (checkMaxCu ops maxCu) = .error e) ∨
  ∃ ele, elementaryList ops (checkMaxCu ops maxCu) = .ok ele ∧
    ((∃ e, compatibleList ele = .error e) ∨
      ∃ rows, compatibleList ele = .ok rows ∧
        ((minOpen ≤ ((baseOrderMap ops).length : Int) ∧ ((baseOrderMap ops).length : Int) ≤ maxOpen ∧ ∃ e, uncontracted ops = .error e) ∨
          ∃ out a' c' d, BtRun ⟨compatOf rows, fun i => 2 * ((ele[i]?.map fun t => t.upper.size).getD 0),
            (baseOrderMap ops).length - maxOpen, (baseOrderMap ops).length - minOpen⟩ (Finset.range ele.length) ∅ 0 out a' c' d ∧
            ∃ s ∈ out, ∃ con : List Nat, con.Nodup ∧ con.toFinset = s ∧ ∃ e, processComposite ops ele con expand = .error e))

/-- `compute_operator_contractions_connected` raises, sqop_contraction.py:425-491, 612-662 (see `ConnectedRun`). -/
def ConnectedRaises (ops : List SqOp) (maxCu maxOpen minOpen : Int) (expand : Bool) : Prop :=
  (∃ e, elementaryCategorized ops (checkMaxCu ops maxCu) = .error e) ∨
  ∃ d, elementaryCategorized ops (checkMaxCu ops maxCu) = .ok d ∧ d.length ≠ 0 ∧
    let x : EleCon Tensor := ⟨d, sortCategories (d.map Prod.fst)⟩
    ((∃ e, x.compatible = .error e) ∨
      ∃ rows, x.compatible = .ok rows ∧
        ∃ comCat ∈ macroSearch ((baseOrderMap ops).length - maxOpen) ((baseOrderMap ops).length - minOpen) x.cats
            (ops.map fun op => op.upper.size) (ops.map fun op => op.lower.size),
          ∃ out target', x.CompositeRun (compatOf rows) (counterKeys comCat) (fun c => comCat.count c) out target' ∧
            ∃ coded ∈ out, ∃ e, processCategorizedOne ops x comCat coded expand = .error e)

/-- `compute_operator_contractions` raises, sqop_contraction.py:403-422. -/
def ContractionsRaise (ops : List SqOp) (o : Options) : Prop :=
  if o.forCommutator then ConnectedRaises ops o.maxCu o.maxOpen o.minOpen o.expandHole
  else GeneralRaises ops o.maxCu o.maxOpen o.minOpen o.expandHole

/-- `contract_terms` raises, phys_op_contraction.py:30-97: on an empty list (lines 45-46), when the constructor raises (line 63), when the
number of processes is 0 (the division in line 77), when the enumeration or a batch raises, or when the combination raises. -/
def ContractRaises (m : Machine) (o : Options) (terms : List Term) (scale : ℚ) : Prop :=
  match terms with
  | [] => True
  | first :: _ =>
    if (productOps terms).length < 2 then
      ∃ e, Term.make (productTensors terms) ((productOps terms).headD first.sqOp) (productCoeff terms scale) = .error e
    else min o.nProcess m.cpus = 0 ∨ ContractionsRaise (productOps terms) o ∨
      ∃ batches, ContractionsRun (productOps terms) o batches ∧
        (LoopRaises m o (min o.nProcess m.cpus) (productTensors terms) (productCoeff terms scale) [] batches ∨
          ∃ all e, LoopRun m o (min o.nProcess m.cpus) (productTensors terms) (productCoeff terms scale) [] batches all ∧
            combineTerms all = .error e)

/-- `single_commutator` raises, phys_op_contraction.py:158-181. -/
def CommutatorRaises (m : Machine) (o : Options) (left right : Term) (scale : ℚ) : Prop :=
  ¬ (o.forCommutator = true ∧ (left.sqOp.size = 0 ∨ right.sqOp.size = 0)) ∧
    (ContractRaises m o [left, right] scale ∨
      ∃ out₁, ContractRun m o [left, right] scale out₁ ∧
        (ContractRaises m o [right, left] (-scale) ∨
          ∃ out₂ e, ContractRun m o [right, left] (-scale) out₂ ∧ combineTerms (out₁ ++ out₂) = .error e))

/-- The double loop over the pairs raises, phys_op_contraction.py:241-245, 358-361. -/
def CommutatorsRaise (m : Machine) (o : Options) (scale : ℚ) : List (Term × Term) → Prop
  | [] => False
  | p :: rest => CommutatorRaises m o p.1 p.2 scale ∨ ∃ out, CommutatorRun m o p.1 p.2 scale out ∧ CommutatorsRaise m o scale rest

/-- `linear_commutator` raises, phys_op_contraction.py:226-246. -/
def LinearCommutatorRaises (m : Machine) (o : Options) (lefts rights : List Term) (scale : ℚ) : Prop :=
  CommutatorsRaise m { o with expandHole := true } scale (lefts.flatMap fun l => rights.map fun r => (l, r)) ∨
    ∃ all e, CommutatorsRun m { o with expandHole := true } scale (lefts.flatMap fun l => rights.map fun r => (l, r)) all ∧
      combineTerms all = .error e

/-- The loop over the levels of `recursive_single_commutator` raises, phys_op_contraction.py:286-298. -/
def RecursiveRaises (m : Machine) (o : Options) : List Term → List (Term × Int × Int × Int) → Prop
  | _, [] => False
  | pool, (right, maxCu, minOpen, maxOpen) :: rest =>
    CommutatorsRaise m { o with maxCu := maxCu, maxOpen := maxOpen, minOpen := minOpen } 1 (pool.map fun l => (l, right)) ∨
    ∃ all, CommutatorsRun m { o with maxCu := maxCu, maxOpen := maxOpen, minOpen := minOpen } 1 (pool.map fun l => (l, right)) all ∧
      ((∃ e, combineTerms all = .error e) ∨ ∃ out, combineTerms all = .ok out ∧ RecursiveRaises m o out rest)

/-- The loop over the levels of `bch_cc_rsc` raises, phys_op_contraction.py:353-365 (see `BchLevels`). -/
def BchLevelsRaise (m : Machine) (o : Options) (levels : List Nat) (unitary singleRef : Bool) (maxAmp : Nat) :
    Nat → List Term → List (Int × Int × Int) → Prop
  | _, _, [] => False
  | i, pool, (maxCu, minOpen, maxOpen) :: rest =>
    (∃ e, clusterOperators levels (i * maxAmp + 4) unitary singleRef = .error e) ∨
    ∃ amps, clusterOperators levels (i * maxAmp + 4) unitary singleRef = .ok amps ∧
      (CommutatorsRaise m { o with maxCu := maxCu, maxOpen := maxOpen, minOpen := minOpen } (1 / ((i + 1 : Nat) : ℚ))
          (pool.flatMap fun l => amps.map fun r => (l, r)) ∨
        ∃ all, CommutatorsRun m { o with maxCu := maxCu, maxOpen := maxOpen, minOpen := minOpen } (1 / ((i + 1 : Nat) : ℚ))
            (pool.flatMap fun l => amps.map fun r => (l, r)) all ∧
          ((∃ e, (all.mapM fun t => t.fromTerm false false) = .error e) ∨
            ∃ copies, (all.mapM fun t => t.fromTerm false false) = .ok copies ∧
              ((∃ e, combineTerms copies = .error e) ∨
                ∃ out, combineTerms copies = .ok out ∧
                  ((∃ e, (out.mapM fun t => t.fromTerm false false) = .error e) ∨
                    ∃ pool', (out.mapM fun t => t.fromTerm false false) = .ok pool' ∧
                      BchLevelsRaise m o levels unitary singleRef maxAmp (i + 1) pool' rest))))

/-- `bch_cc_rsc` raises, phys_op_contraction.py:303-367 (see `BchRun`): `max([])`, the Hamiltonian or a level. -/
def BchRaises (m : Machine) (o : Options) (levels : List Nat) (unitary singleRef : Bool) (limits : List (Int × Int × Int)) : Prop :=
  levels.max? = none ∨ ∃ maxLevel, levels.max? = some maxLevel ∧
    ((∃ e, bchStart m.ord = .error e) ∨
      ∃ start, bchStart m.ord = .ok start ∧ BchLevelsRaise m o levels unitary singleRef (maxLevel * 2) 0 start limits)

/-- The loop over the products raises, phys_op_contraction.py:419-448. -/
def NestedLoopRaises (m : Machine) (o : Options) (singleRef : Bool) (scale : ℚ) : List (ℤ × List OpName) → Prop
  | [] => False
  | (c, names) :: rest => (∃ e, nestedFactors singleRef 0 names = .error e) ∨
    ∃ terms, nestedFactors singleRef 0 names = .ok terms ∧
      (ContractRaises m o terms (scale * c) ∨ ∃ out, ContractRun m o terms (scale * c) out ∧ NestedLoopRaises m o singleRef scale rest)

/-- `nested_commutator_cc` raises, phys_op_contraction.py:384-450, when SymPy finds `expansion`. -/
def NestedRaises (m : Machine) (o : Options) (level : Nat) (levels : List Nat) (unitary singleRef : Bool)
    (expansion : List (ℤ × List OpName)) : Prop :=
  IsExpansion expansion (symbolicCommutator level levels unitary) ∧
    (NestedLoopRaises m o singleRef (1 / (level.factorial : ℚ)) expansion ∨
      ∃ calls all e, NestedLoop m o singleRef (1 / (level.factorial : ℚ)) expansion calls all ∧ combineTerms all = .error e)

end Dsrg

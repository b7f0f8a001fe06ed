import Verif.Model.Sympy
import Verif.Model.Combine
import Mathlib.Data.Nat.Factorial.Basic

/-!
The generated tensor-contraction code (Term.py:357-462, phys_op_contraction.py:453-484).

The text is represented by the list of its statements.  A reference `name["labels"]` is the name and the list of labels; a comment keeps
no text.  The printed coefficient is the rational number it stands for (see `formatCoeff` for the text).
-/

namespace Dsrg

/-! ### Partitions of the open labels -/

/-- The dictionary `cat` of `_perm_part_atomic`, its keys sorted by priority, Term.py:454-459. -/
def spaceBlocks (l : List Index) : List (List Index) :=
  ((l.map Index.space).dedup.insertionSort fun s s' => s.priority ≤ s'.priority).map fun s => l.filter fun i => decide (i.space = s)

/-- `sorted(indices_set & ops.indices_set)`, Term.py:446-449. -/
def sharedLabels (ops : List Index) (labels : List Index) : List Index :=
  (labels.filter fun i => decide (i ∈ ops)).dedup.insertionSort (· ≤ ·)

/-- `_perm_part_atomic`, Term.py:421-462. -/
def permPartAtomic (ops : List Index) (sets : List (List Index)) : List (List Index) :=
  match ops with
  | [] => [[]]
  | [i] => [[i]]
  | _ =>
    let processed := (sets.map (sharedLabels ops)).filter fun o => decide (o.length ≠ 0)
    (processed.flatMap spaceBlocks).insertionSort fun x y => (!(pyListLt (fun a b => decide (a < b)) y x)) = true

/-- `perm_partition_open`, Term.py:410-419. -/
def Term.permPartitionOpen (t : Term) : List (List Index) × List (List Index) :=
  let sets := t.tensors.map fun x => x.pair.indices
  (permPartAtomic t.sqOp.upper.list sets, permPartAtomic t.sqOp.lower.list sets)

/-! ### Statements -/

/-- `name["labels"]`. -/
structure ArrayRef where
  name : PyStr
  labels : List Index
  deriving DecidableEq, Repr

/-- The statements written by `Term.ambit`: a comment, `temp = ambit::BlockedTensor::build(...)` with the blocks named by a string of
spaces, `temp.zero()`, and `lhs += coeff * r1 * r2 ...` or `lhs -= ...`. -/
inductive AmbitStmt
  | comment
  | build (spaces : List Space)
  | zero
  | update (lhs : ArrayRef) (plus : Bool) (coeff : ℚ) (rhs : List ArrayRef)
  deriving DecidableEq, Repr

/-- The name of the intermediate array, Term.py:391. -/
def tempName : PyStr := ['t', 'e', 'm', 'p']

/-- The array name of a factor, Tensor.py:125-127. -/
def Tensor.arrayName (x : Tensor) : PyStr :=
  if x.upper.size = x.lower.size then x.name ++ natStr x.upper.size
  else x.name ++ ['_'] ++ natStr x.upper.size ++ ['_'] ++ natStr x.lower.size

/-- The labels of a factor, IndicesPair.py:130-140; de-excitation amplitudes are read with the lower labels first, Tensor.py:302-303. -/
def Tensor.arrayLabels (x : Tensor) : List Index :=
  if x.cls = .cluster ∧ x.excitation = false then x.lower.list ++ x.upper.list else x.upper.list ++ x.lower.list

/-- `Tensor.ambit`, Tensor.py:119-127, 302-303. -/
def Tensor.arrayRef (x : Tensor) : ArrayRef := ⟨x.arrayName, x.arrayLabels⟩

/-- `real_name`, Term.py:379. -/
def targetName (name : PyStr) (op : SqOp) : PyStr :=
  if op.lower.size = op.upper.size then name ++ natStr op.lower.size
  else name ++ ['_'] ++ natStr op.lower.size ++ ['_'] ++ natStr op.upper.size

/-- The labels of `sq_op.ambit(cre_first=False)`. -/
def openRef (op : SqOp) : List Index := op.lower.list ++ op.upper.list

/-- `Term.ambit`, Term.py:357-408. -/
def Term.ambit (t : Term) (name : PyStr) (ignore initTemp declared : Bool) : Except PyErr (List AmbitStmt) := do
  let op := t.sqOp
  let out := if t.diag.card ≠ 0 then [AmbitStmt.comment] else []
  let factor := op.upper.size.factorial * op.lower.size.factorial
  let p := t.permPartitionOpen
  let n ← op.nMultisetPermutation p.1 p.2
  let c := t.coeff * (factor : ℚ) / (n : ℚ)
  let rhs := t.tensors.map Tensor.arrayRef
  let target := targetName name op
  if !(← op.existPermuteFormat p.1 p.2) then pure (out ++ [.update ⟨target, openRef op⟩ true c rhs])
  else if !(ignore || initTemp || declared) then pure (out ++ [.update ⟨target, openRef op⟩ true c rhs])
  else
    let out := if initTemp then out ++ [.build ((openRef op).map Index.space)] else out
    let declared := initTemp || declared
    if ignore then pure (out ++ [.update ⟨if declared then tempName else target, openRef op⟩ true c rhs])
    else do
      let rows ← op.permuteIndices p.1 p.2 false
      if declared then
        pure (out ++ [.update ⟨tempName, openRef op⟩ true c rhs] ++
          rows.map fun r => .update ⟨target, r.2.1 ++ r.2.2⟩ (decide (r.1 = 1)) 1 [⟨tempName, openRef op⟩])
      else
        pure (out ++ rows.map fun r => .update ⟨target, r.2.1 ++ r.2.2⟩ (decide (r.1 = 1)) c rhs)

/-! ### Buckets -/

/-- `Indices.latex_permute_format`, Indices.py:318-325, 457-469: the number of permutations and the printed partition.  The text is
represented by the list of partitions in it (none or one). -/
def Indices.latexPermuteFormat (x : Indices) (part : List (List Index)) : Except PyErr (Nat × List (List (List Index))) := do
  x.isValidPartition part
  if x.ty.isAntisym then
    let n ← x.nMultisetPermutation part
    if n = 1 then pure (1, []) else pure (n, [part])
  else pure (1, [])

/-- `SecondQuantizedOperator.latex_permute_format`, SQOperator.py:107-119, without the text of the operator. -/
def IndicesPair.latexPermuteFormat (x : SqOp) (pCre pAnn : List (List Index)) : Except PyErr (Nat × List (List (List Index))) :=
  if x.isEmpty then .ok (1, [])
  else do
    let a ← x.upper.latexPermuteFormat pCre
    let b ← x.lower.latexPermuteFormat pAnn
    pure (a.1 * b.1, a.2 ++ b.2)

/-- The key of a term, phys_op_contraction.py:460-462: the spaces of its open labels and its permutation string. -/
def Term.bucketKey (t : Term) : Except PyErr (List Space × List (List (List Index))) := do
  let p := t.permPartitionOpen
  let r ← t.sqOp.latexPermuteFormat p.1 p.2
  pure ((openRef t.sqOp).map Index.space, r.2)

/-- The terms by key, phys_op_contraction.py:459-462. -/
def bucketEvents (terms : List Term) : Except PyErr (List ((List Space × List (List (List Index))) × Term)) :=
  terms.mapM fun t => do pure (← t.bucketKey, t)

/-- A dictionary of dictionaries: {indices spaces: {permutation: list of terms}}. -/
abbrev Buckets := Dict (List Space) (Dict (List (List (List Index))) (List Term))

/-- The inner dictionary `out[k]`; every key looked up is present. -/
def Buckets.inner (d : Buckets) (k : List Space) : Dict (List (List (List Index))) (List Term) := dictGet d k

/-- `out[k[0]][k[1]] = sorted(terms)`, phys_op_contraction.py:465-466. -/
def Buckets.store (d : Buckets) (e : (List Space × List (List (List Index))) × List Term) : Except PyErr Buckets := do
  let l ← sortTerms e.2
  pure (dictSet d e.1.1 (dictSet (d.inner e.1.1) e.1.2 l))

/-- `categorize_contractions`, phys_op_contraction.py:453-467. -/
def categorizeContractions (terms : List Term) : Except PyErr Buckets := do
  let groups := dictCollect (← bucketEvents terms)
  let out : Buckets := groups.foldl (fun d e => dictSet d e.1.1 [(e.1.2, [])]) []
  groups.foldlM Buckets.store out

end Dsrg

import Verif.Model.Index
import Verif.Model.Itertools

/-!
Model of `dsrg_generator/Indices.py`.
-/

namespace Dsrg

/-- `merge_and_count_split_inversion`, Indices.py:25-53.  The loop state `(i, j)` is represented by the remaining
parts `left[i:]`, `right[j:]`, so `n_left - i` is the length of the remaining left part. -/
def mergeCount {α : Type} [LE α] [DecidableLE α] : List α → List α → List α × Nat
  | [], right => (right, 0)
  | x :: left, [] => (x :: left, 0)
  | x :: left, y :: right =>
    if x ≤ y then
      let r := mergeCount left (y :: right)
      (x :: r.1, r.2)
    else
      let r := mergeCount (x :: left) right
      (y :: r.1, r.2 + (x :: left).length)
termination_by l r => l.length + r.length

/-- `sort_and_count_inversions`, Indices.py:10-22. -/
def sortCount {α : Type} [LE α] [DecidableLE α] (array : List α) : List α × Nat :=
  if _h : array.length ≤ 1 then (array, 0)
  else
    let nHalf := array.length / 2
    let l := sortCount (array.take nHalf)
    let r := sortCount (array.drop nHalf)
    let m := mergeCount l.1 r.1
    (m.1, l.2 + r.2 + m.2)
termination_by array.length
decreasing_by
  · rw [List.length_take]; omega
  · rw [List.length_drop]; omega

/-- The registered classes of indices, Indices.py:57-62, 367, 426, 496, 531; `plain` is the base class. -/
inductive IType
  | plain | spinAdapted | antisym | spinOrbital | spinIntegrated
  deriving DecidableEq, Repr

/-- `isinstance(self, IndicesAntisymmetric)`, Indices.py:427, 497, 532. -/
def IType.isAntisym : IType → Bool
  | .plain => false
  | .spinAdapted => false
  | .antisym => true
  | .spinOrbital => true
  | .spinIntegrated => true

/-- An `Indices` object: its class and the list `_indices` (Indices.py:114); the cached `_size`, `_indices_set`,
`_alpha_indices`, `_beta_indices` are functions of the list. -/
structure Indices where
  ty : IType
  list : List Index
  deriving DecidableEq, Repr

/-- `Indices.__init__` for a list of `Index` objects, Indices.py:78-120, 498-506, 533-549 (elements with equal
(space, number) are taken to be equal set elements, see C05).  The string parsing of lines 93-107 is modelled in
`Indices.ofNames`. -/
def Indices.make (ty : IType) (l : List Index) : Except PyErr Indices :=
  if ¬ l.Nodup then .error .valueError
  else if ty = .spinOrbital ∧ l.any Index.isBeta = true then .error .valueError
  else .ok ⟨ty, l⟩

/-- `Indices.__init__` for a list of names, Indices.py:95-107: a name that is not a valid index raises `ValueError`
(an empty string raises the uncaught `IndexError` of Index.py:15). -/
def Indices.ofNames (ty : IType) (names : List PyStr) : Except PyErr Indices := do
  let l ← names.mapM NamedIndex.parse
  if setSize l ≠ l.length then throw .valueError
  match ty with
  | .spinOrbital => if l.any NamedIndex.isBeta then throw .valueError else pure ⟨ty, l.map NamedIndex.toIndex⟩
  | _ => pure ⟨ty, l.map NamedIndex.toIndex⟩

/-- `size`, Indices.py:126-128. -/
def Indices.size (x : Indices) : Nat := x.list.length

/-- `_is_valid_operand`, Indices.py:137-139. -/
def Indices.checkOperand (x y : Indices) : Except PyErr Unit :=
  if x.ty = y.ty then .ok () else .error .typeError

/-- `__eq__`, Indices.py:146-148 (when the classes agree). -/
def Indices.eqCore (x y : Indices) : Bool := x.size == y.size && x.list == y.list

/-- `__lt__`, Indices.py:154-156 (when the classes agree). -/
def Indices.ltCore (x y : Indices) : Bool :=
  if x.size = y.size then pyListLt Index.pyLt x.list y.list else decide (x.size < y.size)

/-- `__le__`, Indices.py:158-160 (when the classes agree). -/
def Indices.leCore (x y : Indices) : Bool :=
  if x.size = y.size then pyListLe Index.pyLe x.list y.list else decide (x.size ≤ y.size)

/-- `__eq__`, Indices.py:146-148. -/
def Indices.pyEq (x y : Indices) : Except PyErr Bool := do x.checkOperand y; pure (x.eqCore y)
/-- `__ne__`, Indices.py:150-152. -/
def Indices.pyNe (x y : Indices) : Except PyErr Bool := do x.checkOperand y; pure (!x.eqCore y)
/-- `__lt__`, Indices.py:154-156. -/
def Indices.pyLt (x y : Indices) : Except PyErr Bool := do x.checkOperand y; pure (x.ltCore y)
/-- `__le__`, Indices.py:158-160. -/
def Indices.pyLe (x y : Indices) : Except PyErr Bool := do x.checkOperand y; pure (x.leCore y)
/-- `__gt__`, Indices.py:162-164. -/
def Indices.pyGt (x y : Indices) : Except PyErr Bool := do x.checkOperand y; pure (y.ltCore x)
/-- `__ge__`, Indices.py:166-168. -/
def Indices.pyGe (x y : Indices) : Except PyErr Bool := do x.checkOperand y; pure (y.leCore x)

/-- `__add__`, Indices.py:194-197. -/
def Indices.add (x y : Indices) : Except PyErr Indices := Indices.make x.ty (x.list ++ y.list)

/-- `is_permutation`, Indices.py:203-210: equality of the index sets. -/
def Indices.isPermutation (x y : Indices) : Bool := decide (x.list.toFinset = y.list.toFinset)

/-- `count_permutations`, Indices.py:212-232. -/
def Indices.countPermutations (x y : Indices) : Except PyErr Nat :=
  if x.isPermutation y then .ok (invCount (y.list.map fun v => x.list.idxOf v))
  else .error .valueError

/-- `count_index_space`, Indices.py:249-261 (for valid labels). -/
def Indices.countIndexSpace (x : Indices) (spaces : List Space) : Nat :=
  (spaces.map fun s => x.list.countP fun i => decide (i.space = s)).sum

/-- `canonicalize`, Indices.py:263-268 and 435-444. -/
def Indices.canonicalize (x : Indices) : Indices × Int :=
  if x.ty.isAntisym then
    if x.size ≤ 1 then (x, 1)
    else
      let r := sortCount x.list
      (⟨x.ty, r.1⟩, signPow r.2)
  else (x, 1)

/-- `any_overlap`, Indices.py:270-277. -/
def Indices.anyOverlap (x y : Indices) : Except PyErr Bool := do
  x.checkOperand y
  pure (x.list.any fun i => decide (i ∈ y.list))

/-- `_is_valid_partition`, Indices.py:279-287. -/
def Indices.isValidPartition (x : Indices) (part : List (List Index)) : Except PyErr Unit :=
  if part.all fun block => block.all fun i => decide (i ∈ x.list) then .ok () else .error .valueError

/-- `exist_permute_format`, Indices.py:309-316 and 446-455. -/
def Indices.existPermuteFormat (x : Indices) (part : List (List Index)) : Except PyErr Bool := do
  x.isValidPartition part
  if x.ty.isAntisym then
    if x.size = 0 then pure false else pure (decide (part.length > 1))
  else pure false

/-- The list `[0]*len(part[0]) + [1]*len(part[1]) + ...`, Indices.py:303-306, 480-483. -/
def blockWord (part : List (List Index)) : List Nat :=
  (part.mapIdx fun i b => List.replicate b.length i).flatten

/-- `n_multiset_permutation`, Indices.py:289-307. -/
def Indices.nMultisetPermutation (x : Indices) (part : List (List Index)) : Except PyErr Nat := do
  x.isValidPartition part
  if !(← x.existPermuteFormat part) then pure 1
  else pure (multisetPerms (blockWord part)).length

/-- Lines 485-489 of Indices.py: replace each block number by the next unused label of that block.  `part` holds the
labels not used yet; running out of labels would be an `IndexError`. -/
def fillWord : List (List Index) → List Nat → Except PyErr (List Index)
  | _, [] => .ok []
  | part, i :: word =>
    match part[i]? with
    | some (lab :: rest) => do pure (lab :: (← fillWord (part.set i rest) word))
    | _ => .error .indexError

/-- `ambit_permute_format`, Indices.py:327-334 and 471-493: (sign, rearranged labels).  The joined string of the
labels is represented by the list of labels. -/
def Indices.ambitPermuteFormat (x : Indices) (part : List (List Index)) : Except PyErr (List (Int × List Index)) := do
  x.isValidPartition part
  if x.ty.isAntisym then
    let spin := x.list.map Index.isBeta
    let rows ← (multisetPerms (blockWord part)).mapM fun perm => do
      let l ← fillWord part perm
      if spin ≠ l.map Index.isBeta then pure none
      else
        let permuted ← Indices.make x.ty l
        let n ← x.countPermutations permuted
        pure (some (signPow n, l))
    pure (rows.filterMap id)
  else pure [(1, x.list)]

/-- `n_beta`, Indices.py:355-356. -/
def Indices.nBeta (x : Indices) : Nat := x.list.countP Index.isBeta

/-- `alpha_indices` of spin-integrated indices, Indices.py:542-547. -/
def Indices.alphaIndices (x : Indices) : List Index := x.list.filter fun i => !i.isBeta

/-- `beta_indices` of spin-integrated indices, Indices.py:542-547. -/
def Indices.betaIndices (x : Indices) : List Index := x.list.filter fun i => i.isBeta

/-- Line 516 of Indices.py: relabel position by position. -/
def applySpins (l : List Index) (spins : List Bool) : List Index :=
  List.zipWith (fun i s => if s then i.toBeta else i) l spins

/-- Lines 523-527 of Indices.py: flip the listed positions. -/
def flipPositions (l : List Index) (pos : List Nat) : List Index :=
  pos.foldl (fun acc k => acc.modify k Index.toBeta) l

/-- `generate_spin_cases`, Indices.py:508-528 (base class: 358-364 raises `TypeError`).  `nBeta = none` is the default;
a negative number makes `itertools.combinations` raise `ValueError`. -/
def Indices.generateSpinCases (x : Indices) (nBeta : Option Int) : Except PyErr (List Indices) :=
  if x.ty = .spinOrbital then
    match nBeta with
    | none => ((pyProduct (x.list.map fun _ => [false, true])).map (applySpins x.list)).mapM
        (Indices.make .spinIntegrated)
    | some n =>
      if n > x.size then .error .valueError
      else if n < 0 then .error .valueError
      else ((pyCombinations (List.range x.size) n.toNat).map (flipPositions x.list)).mapM
        (Indices.make .spinIntegrated)
  else .error .typeError

end Dsrg

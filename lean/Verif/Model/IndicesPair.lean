import Verif.Model.Indices

/-!
Model of `dsrg_generator/IndicesPair.py` (the SymPy group machinery of lines 244-321 is not modelled) and of
`dsrg_generator/SQOperator.py`.
-/

namespace Dsrg

/-- `IndicesPair`, IndicesPair.py:9-27; also a `SecondQuantizedOperator` (SQOperator.py:5-13): upper = creation,
lower = annihilation. -/
structure IndicesPair where
  upper : Indices
  lower : Indices
  deriving DecidableEq, Repr

/-- `SecondQuantizedOperator`, SQOperator.py:5-13. -/
abbrev SqOp := IndicesPair

/-- `IndicesPair.__init__` for two `Indices` objects, IndicesPair.py:10-27: different classes raise `TypeError`. -/
def IndicesPair.make (upper lower : Indices) : Except PyErr IndicesPair :=
  if upper.ty ≠ lower.ty then .error .typeError else .ok ⟨upper, lower⟩

/-- `n_upper` / `n_cre`, IndicesPair.py:37-39, SQOperator.py:27-29. -/
def IndicesPair.nUpper (x : IndicesPair) : Nat := x.upper.size
/-- `n_lower` / `n_ann`, IndicesPair.py:41-43, SQOperator.py:31-33. -/
def IndicesPair.nLower (x : IndicesPair) : Nat := x.lower.size
/-- `size` / `n_ops`, IndicesPair.py:45-47, SQOperator.py:35-37. -/
def IndicesPair.size (x : IndicesPair) : Nat := x.nUpper + x.nLower
/-- `n_body`, IndicesPair.py:49-53. -/
def IndicesPair.nBody (x : IndicesPair) : Except PyErr Nat :=
  if x.nLower ≠ x.nUpper then .error .valueError else .ok x.nLower
/-- `indices()`, IndicesPair.py:59-63 (upper first). -/
def IndicesPair.indices (x : IndicesPair) : List Index := x.upper.list ++ x.lower.list
/-- `is_empty`, IndicesPair.py:69-70, SQOperator.py:66-68. -/
def IndicesPair.isEmpty (x : IndicesPair) : Bool := x.size == 0
/-- `clone`, IndicesPair.py:72-81. -/
def IndicesPair.clone (x : IndicesPair) (hc : Bool) : Except PyErr IndicesPair :=
  if hc then IndicesPair.make x.lower x.upper else IndicesPair.make x.upper x.lower

/-- `_is_valid_operand_indices`, IndicesPair.py:83-86. -/
def IndicesPair.checkOperand (x y : IndicesPair) : Except PyErr Unit :=
  if x.upper.ty = y.upper.ty then .ok () else .error .typeError
/-- Tuple equality of IndicesPair.py:95 (classes agree). -/
def IndicesPair.eqCore (x y : IndicesPair) : Bool := x.upper.eqCore y.upper && x.lower.eqCore y.lower
/-- Tuple `<` of IndicesPair.py:103 (classes agree). -/
def IndicesPair.ltCore (x y : IndicesPair) : Bool :=
  if x.upper.eqCore y.upper then x.lower.ltCore y.lower else x.upper.ltCore y.upper
/-- Tuple `<=` of IndicesPair.py:107 (classes agree). -/
def IndicesPair.leCore (x y : IndicesPair) : Bool :=
  if x.upper.eqCore y.upper then x.lower.leCore y.lower else x.upper.leCore y.upper
/-- `__eq__`, IndicesPair.py:93-95. -/
def IndicesPair.pyEq (x y : IndicesPair) : Except PyErr Bool := do x.checkOperand y; pure (x.eqCore y)
/-- `__ne__`, IndicesPair.py:97-99. -/
def IndicesPair.pyNe (x y : IndicesPair) : Except PyErr Bool := do x.checkOperand y; pure (!x.eqCore y)
/-- `__lt__`, IndicesPair.py:101-103. -/
def IndicesPair.pyLt (x y : IndicesPair) : Except PyErr Bool := do x.checkOperand y; pure (x.ltCore y)
/-- `__le__`, IndicesPair.py:105-107. -/
def IndicesPair.pyLe (x y : IndicesPair) : Except PyErr Bool := do x.checkOperand y; pure (x.leCore y)
/-- `__gt__`, IndicesPair.py:109-111. -/
def IndicesPair.pyGt (x y : IndicesPair) : Except PyErr Bool := do x.checkOperand y; pure (y.ltCore x)
/-- `__ge__`, IndicesPair.py:113-115. -/
def IndicesPair.pyGe (x y : IndicesPair) : Except PyErr Bool := do x.checkOperand y; pure (y.leCore x)

/-- `diagonal_indices`, IndicesPair.py:142-147. -/
def IndicesPair.diagonalIndices (x : IndicesPair) : Finset Index := x.upper.list.toFinset ∩ x.lower.list.toFinset

/-- `generate_spin_cases_indices`, IndicesPair.py:158-178. -/
def IndicesPair.generateSpinCases (x : IndicesPair) (particleConserving : Bool) :
    Except PyErr (List (Indices × Indices)) :=
  if x.upper.ty ≠ .spinOrbital then .error .typeError
  else if particleConserving = true ∧ x.nUpper ≠ x.nLower then .error .valueError
  else do
    let uppers ← x.upper.generateSpinCases none
    if particleConserving then
      let rows ← uppers.mapM fun u => do
        let lowers ← x.lower.generateSpinCases (some u.nBeta)
        pure (lowers.map fun l => (u, l))
      pure rows.flatten
    else
      let rows ← uppers.mapM fun u => do
        let lowers ← x.lower.generateSpinCases none
        pure (lowers.map fun l => (u, l))
      pure rows.flatten

/-- `is_spin_conserving`, IndicesPair.py:221-225. -/
def IndicesPair.isSpinConserving (x : IndicesPair) : Except PyErr Bool :=
  if x.nUpper = x.nLower then .ok (x.upper.nBeta == x.lower.nBeta) else .error .valueError

/-- `canonicalize_indices`, IndicesPair.py:235-242, and `canonicalize`, IndicesPair.py:227-233, SQOperator.py:169-175. -/
def IndicesPair.canonicalize (x : IndicesPair) : IndicesPair × Int :=
  let u := x.upper.canonicalize
  let l := x.lower.canonicalize
  (⟨u.1, l.1⟩, u.2 * l.2)

/-- `generate_singlet_adaptation`, IndicesPair.py:180-219, for spin-integrated indices.  `replacement` is the python
dictionary, here a function.  The result rows are (sign, upper labels, lower labels). -/
def IndicesPair.singletAdaptation (x : IndicesPair) (replacement : Index → Index) (alphaMajor : Bool) :
    Except PyErr (List (Int × List Index × List Index)) :=
  if x.upper.nBeta ≠ x.lower.nBeta then .error .valueError
  else do
    let c := x.canonicalize
    let u := c.1.upper
    let l := c.1.lower
    let sign := c.2
    let na := u.alphaIndices.length
    let nb := u.betaIndices.length
    let (i1, i2) := if (alphaMajor && decide (nb > na)) || (!alphaMajor && decide (na > nb))
      then (u.betaIndices, u.alphaIndices) else (u.alphaIndices, u.betaIndices)
    let iUpper := (i1 ++ i2).map replacement
    let n ← x.nBody
    if n < 2 then pure [(sign, iUpper, l.list.map replacement)]
    else
      let na := l.alphaIndices.length
      let nb := l.betaIndices.length
      let (j1, j2) := if (alphaMajor && decide (nb > na)) || (!alphaMajor && decide (na > nb))
        then (l.betaIndices, l.alphaIndices) else (l.alphaIndices, l.betaIndices)
      pure ((pyPermutations (List.range j1.length)).flatMap fun a =>
        (pyPermutations (List.range j2.length)).map fun b =>
          (signPow (invCount a) * signPow (invCount b) * sign, iUpper,
            (a.filterMap fun k => j1[k]?.map replacement) ++ (b.filterMap fun k => j2[k]?.map replacement)))

/-- `is_possible_excitation`, SQOperator.py:70-83. -/
def IndicesPair.isPossibleExcitation (x : SqOp) : Bool :=
  if x.upper.list.any fun i => i.space.kind == .c then false
  else if x.lower.list.any fun i => i.space.kind == .v then false
  else if decide ((x.indices.map fun i => i.space.kind).toFinset = {.a}) then false
  else true

/-- `exist_permute_format`, SQOperator.py:89-96 (python's `or` does not evaluate the second test when the first is
true). -/
def IndicesPair.existPermuteFormat (x : SqOp) (pCre pAnn : List (List Index)) : Except PyErr Bool := do
  if ← x.upper.existPermuteFormat pCre then pure true else x.lower.existPermuteFormat pAnn

/-- `n_multiset_permutation`, SQOperator.py:98-105. -/
def IndicesPair.nMultisetPermutation (x : SqOp) (pCre pAnn : List (List Index)) : Except PyErr Nat := do
  let a ← x.upper.nMultisetPermutation pCre
  let b ← x.lower.nMultisetPermutation pAnn
  pure (a * b)

/-- `permute_indices`, SQOperator.py:121-144: rows (sign, first label list, second label list). -/
def IndicesPair.permuteIndices (x : SqOp) (pCre pAnn : List (List Index)) (creFirst : Bool) :
    Except PyErr (List (Int × List Index × List Index)) :=
  if x.isEmpty then .ok [(1, [], [])]
  else
    let (first, second) := if creFirst then (x.upper, x.lower) else (x.lower, x.upper)
    let (p1, p2) := if creFirst then (pCre, pAnn) else (pAnn, pCre)
    do
      let rows1 ← first.ambitPermuteFormat p1
      let rows ← rows1.mapM fun r1 => do
        let rows2 ← second.ambitPermuteFormat p2
        pure (rows2.map fun r2 => (r1.1 * r2.1, r1.2, r2.2))
      pure rows.flatten

/-- `void`, SQOperator.py:177-179. -/
def IndicesPair.void (x : SqOp) : SqOp := ⟨⟨x.upper.ty, []⟩, ⟨x.upper.ty, []⟩⟩

end Dsrg

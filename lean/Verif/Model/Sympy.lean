import Verif.Model.Term
import Verif.Spec.DoubleCoset

/-!
Model of `canonicalize_sympy`, Term.py:681-793, and of the symmetry groups of IndicesPair.py:244-321, SQOperator.py:181-192.  SymPy's
`canonicalize` is a parameter; `get_symmetric_group_sgs`, `bsgs_direct_product`, `schreier_sims` and `get_minimal_bsgs` are taken to
keep the group that their input generates.
-/

namespace Dsrg

/-- The array form of `Permutation(i, j)` on `n` points. -/
def swapArray (n i j : Nat) : List Nat := (List.range n).map (Equiv.swap i j)

/-- The array form of `Permutation(i, j)(n - 2, n - 1)`: an exchange of two slots that changes the sign. -/
def signedSwapArray (n i j : Nat) : List Nat := (List.range n).map fun k => Equiv.swap i j (Equiv.swap (n - 2) (n - 1) k)

/-- The loop `p[i] = j; p[j] = i` for the two halves, IndicesPair.py:285-289, 311-315. -/
def halvesArray (n : Nat) : List Nat :=
  (List.range' n n) ++ (List.range n) ++ [2 * n, 2 * n + 1]

/-- Generators of `sym_bsgs`, IndicesPair.py:266-292.  Without `hermitian` the last generator is the identity. -/
def symGens (n : Nat) (hermitian : Bool) : List (List Nat) :=
  ((List.range (n - 1)).map fun i => (List.range (2 * n + 2)).map fun k => Equiv.swap i (i + 1) (Equiv.swap (i + n) (i + 1 + n) k)) ++
    [if hermitian then halvesArray n else List.range (2 * n + 2)]

/-- Generators of `asym_bsgs`, IndicesPair.py:294-321: neighbours among the first `n_upper` slots and among the following `n_lower`
slots are exchanged with a sign; the two halves are exchanged if `hermitian`. -/
def asymGens (nU nL : Nat) (hermitian : Bool) : List (List Nat) :=
  ((List.range (nU - 1)).map fun i => signedSwapArray (nU + nL + 2) i (i + 1)) ++
  ((List.range (nL - 1)).map fun i => signedSwapArray (nU + nL + 2) (nU + i) (nU + i + 1)) ++
  if hermitian then [halvesArray nU] else []

/-- `base_strong_generating_set`, IndicesPair.py:244-264.  `bsgs_direct_product` raises `IndexError` when one of the groups has no
generators, i.e. on an empty list of labels. -/
def IndicesPair.bsgs (x : IndicesPair) (hermitian noSym : Bool) : Except PyErr (List (List Nat)) :=
  if x.size = 0 then .error .valueError
  else if noSym then do
    let n ← x.nBody
    pure [List.range (2 * n + 2)]
  else if x.upper.ty.isAntisym = false then
    if x.nLower ≠ x.nUpper then .error .valueError else .ok (symGens x.nUpper hermitian)
  else if hermitian = false then
    if x.nUpper = 0 ∨ x.nLower = 0 then .error .indexError else .ok (asymGens x.nUpper x.nLower false)
  else if x.nUpper ≠ x.nLower then .error .valueError
  else .ok (asymGens x.nUpper x.nLower true)

/-- `SecondQuantizedOperator.base_strong_generating_set`, SQOperator.py:181-192, called without arguments. -/
def IndicesPair.opBsgs (x : SqOp) : Except PyErr (List (List Nat)) :=
  if x.upper.ty.isAntisym then x.bsgs false false else x.bsgs true true

/-- `dummies`, Term.py:743-747: the ranges of names of the labels of one space. -/
def dummyRanges (start : Nat) : List (List Index) → List (Nat × Nat)
  | [] => []
  | grp :: rest => (2 * start, 2 * (start + grp.length)) :: dummyRanges (start + grp.length) rest

/-- `groupby(dummy_indices, key=lambda x: x.space)`, Term.py:743. -/
def spaceGroups (l : List Index) : List (List Index) := l.splitBy fun a b => decide (a.space = b.space)

/-- The loop filling `g`, Term.py:753-758; `tracker` is `indices_tracker`. -/
def slotNames (ρ : Index → Except PyErr Index) : (Index → Nat) → List Index → Except PyErr (List Nat)
  | _, [] => .ok []
  | tracker, i :: l => do
    let m ← ρ i
    let rest ← slotNames ρ (Function.update tracker m (tracker m + 1)) l
    pure (tracker m :: rest)

/-- The labels in the order of the slots: the operator first, lower labels first, Term.py:754-755. -/
def slotLabels (ts : List Tensor) (op : SqOp) : List Index :=
  (op.lower.list ++ op.upper.list) ++ ts.flatMap fun t => t.lower.list ++ t.upper.list

/-- `groupby(self.list_of_tensors, key=lambda x: (x.name, x.n_body))`, Term.py:763-764, for tensors whose `n_body` does not raise. -/
def tensorGroups (ts : List Tensor) : List (List Tensor) :=
  ts.splitBy fun a b => decide (a.name = b.name ∧ a.pair.nLower = b.pair.nLower)

/-- One entry of `bsgs_list` for a group of tensors, Term.py:766-769. -/
def groupEntry (hermitian : Bool) (grp : List Tensor) : Except PyErr SlotGroup :=
  match grp with
  | [] => .error .indexError
  | t :: _ => do
    let gens ← t.pair.bsgs hermitian false
    pure ⟨gens, t.pair.size, grp.length⟩

/-- `bsgs_list`, Term.py:762-769. -/
def bsgsList (ts : List Tensor) (op : SqOp) (hermitian : Bool) : Except PyErr (List SlotGroup) := do
  let first ← if op.size = 0 then pure [] else do
    let gens ← op.opBsgs
    pure [(⟨gens, op.size, 1⟩ : SlotGroup)]
  let _ ← ts.mapM fun t => t.pair.nBody
  let rest ← (tensorGroups ts).mapM (groupEntry hermitian)
  pure (first ++ rest)

/-- `dummy_indices[n // 2]`, Term.py:775-784. -/
def dummyAt (dummy : List Index) (n : Nat) : Except PyErr Index :=
  match dummy[n / 2]? with
  | some i => .ok i
  | none => .error .indexError

/-- The loop over the tensors, Term.py:779-787.  Simplification: slices are taken of the list of names, so a list that is too short
would not raise; SymPy's answer has the length of its input. -/
def rebuildTensors (dummy : List Index) : List Tensor → List Nat → Except PyErr (List Tensor)
  | [], _ => .ok []
  | t :: ts, names => do
    let lo ← Indices.make t.upper.ty (← (names.take t.pair.nLower).mapM (dummyAt dummy))
    let up ← Indices.make t.upper.ty (← ((names.drop t.pair.nLower).take t.pair.nUpper).mapM (dummyAt dummy))
    let x ← Tensor.make t.cls up lo t.name t.priority
    let xs ← rebuildTensors dummy ts (names.drop t.pair.size)
    pure (x :: xs)

/-- The new operator, Term.py:775-777. -/
def rebuildOp (dummy : List Index) (op : SqOp) (names : List Nat) : Except PyErr SqOp := do
  let ann ← Indices.make op.upper.ty (← (names.take op.nLower).mapM (dummyAt dummy))
  let cre ← Indices.make op.upper.ty (← ((names.drop op.nLower).take op.nUpper).mapM (dummyAt dummy))
  IndicesPair.make cre ann

/-- `sorted(minimal_indices_map.values())`, Term.py:740. -/
def sortedDummies (d : Dict Index Index) : List Index := (d.map Prod.snd).insertionSort (· ≤ ·)

/-- `canonicalize_sympy`, Term.py:681-793; `canon` is SymPy's `canonicalize`.  Its answer `0` cannot be sliced (`TypeError`),
and `Permutation(g)` raises `ValueError` unless `g` is a permutation. -/
def Term.canonicalizeSympy (canon : List Nat → List (Nat × Nat) → List SlotGroup → Option (List Nat)) (ord : SetOrder) (t : Term)
    (core removeActive hermitian : Bool) : Except PyErr Term := do
  let s ← t.simplify ord core removeActive
  if s.isVoid then s.void
  else do
    let dummy := sortedDummies s.minimalIndices
    let names ← slotNames (dictFind s.minimalIndices) (fun m => 2 * dummy.idxOf m) (slotLabels s.tensors s.sqOp)
    let g := names ++ [names.length, names.length + 1]
    let v ← bsgsList s.tensors s.sqOp hermitian
    if g.Perm (List.range g.length) then
    match canon g (dummyRanges 0 (spaceGroups dummy)) v with
    | none => .error .typeError
    | some gc => do
      let op ← rebuildOp dummy s.sqOp gc
      let ts ← rebuildTensors dummy s.tensors (gc.drop s.sqOp.size)
      let sign : ℚ := if g.getLastD 0 ≠ gc.getLastD 0 then -1 else 1
      Term.make ts op (sign * s.coeff)
    else .error .valueError

/-- `canonicalize`, Term.py:643-661. -/
def Term.canonicalize (canon : List Nat → List (Nat × Nat) → List SlotGroup → Option (List Nat)) (ord : SetOrder) (t : Term)
    (core removeActive hermitian : Bool) : Except PyErr Term :=
  if t.diag.card ≠ 0 then .error .notImplemented else t.canonicalizeSympy canon ord core removeActive hermitian

end Dsrg

import Verif.Model.Tensor

/-!
Model of `SpaceCounter.py` (the module outside the package).
-/

namespace Dsrg

/-- An argument of the constructor: a `Tensor`, a `SecondQuantizedOperator`, or anything else. -/
inductive CounterArg
  | tensor (t : Tensor)
  | op (o : SqOp)
  | other
  deriving DecidableEq, Repr

/-- The upper and lower labels of a tensor or operator, SpaceCounter.py:30-31. -/
def CounterArg.pair? : CounterArg → Option IndicesPair
  | .tensor t => some t.pair
  | .op o => some o
  | .other => none

/-- The public names defined by the class `IndicesPair` (IndicesPair.py:9-320), by `Tensor` (Tensor.py:5-163) and by
`SecondQuantizedOperator` (SQOperator.py:5-184). -/
def attrNames : List String :=
  ["upper_indices", "lower_indices", "n_upper", "n_lower", "size", "n_body", "indices_set", "indices", "indices_type", "is_empty", "clone",
   "latex", "ambit", "diagonal_indices", "generate_spin_cases", "generate_spin_cases_indices", "generate_singlet_adaptation",
   "is_spin_conserving", "canonicalize", "canonicalize_indices", "base_strong_generating_set", "sym_bsgs", "asym_bsgs", "subclasses",
   "subclasses_alias", "register_subclass", "make_tensor", "name", "priority", "from_indices", "comparison_tuple", "downgrade_indices",
   "any_overlapped_indices", "make_empty", "cre_ops", "ann_ops", "n_cre", "n_ann", "n_ops", "is_possible_excitation",
   "is_particle_conserving", "exist_permute_format", "n_multiset_permutation", "latex_permute_format", "permute_indices",
   "ambit_permute_format", "void"]

/-- `x.<name>` in SpaceCounter.py:21-25: `AttributeError` when there is no such attribute; the class of the labels for `indices_type`
(IndicesPair.py:65-67).  (The values of the other attributes are not used by the constructor; they are not represented.) -/
def classAttr (name : String) (p : IndicesPair) : Except PyErr IType :=
  if name ∈ attrNames then
    if name = "indices_type" then .ok p.upper.ty else .error .notImplemented
  else .error .attributeError

/-- The counter, SpaceCounter.py:27-28; the numbers `_n_upper` and `_n_lower` (lines 38-39) are the sums of the lists. -/
structure SpaceCounter where
  upper : List Nat
  lower : List Nat
  deriving DecidableEq, Repr

/-- `n_upper`, SpaceCounter.py:38, 49-51. -/
def SpaceCounter.nUpper (c : SpaceCounter) : Nat := c.upper.sum

/-- `n_lower`, SpaceCounter.py:39, 53-55. -/
def SpaceCounter.nLower (c : SpaceCounter) : Nat := c.lower.sum

/-- `counts[priority[index.space]] += 1` for every label, SpaceCounter.py:33-36; a space that is not a key of the dictionary (which has the
first `length` spaces) raises `KeyError`. -/
def countSpaces (length : Nat) : List Nat → List Index → Except PyErr (List Nat)
  | counts, [] => .ok counts
  | counts, i :: l =>
    if i.space.priority < length then countSpaces length (counts.modify i.space.priority (· + 1)) l else .error .keyError

/-- `SpaceCounter.__init__`, SpaceCounter.py:9-39.  `attr` is the name of the attribute read in lines 21-25 (in the code `type_of_indices`).
A set is represented by the list of its elements. -/
def SpaceCounter.make (attr : String) (a b : CounterArg) : Except PyErr SpaceCounter := do
  match a.pair?, b.pair? with
  | some p, some q =>
    let s ← classAttr attr p
    let t ← classAttr attr q
    if s ≠ t then throw .valueError
    let length := if s = .spinOrbital then 6 else 12
    let upper ← countSpaces length (List.replicate length 0) (p.upper.list.filter fun i => decide (i ∈ q.lower.list))
    let lower ← countSpaces length (List.replicate length 0) (p.lower.list.filter fun i => decide (i ∈ q.upper.list))
    pure ⟨upper, lower⟩
  | _, _ => throw .typeError

/-- `SpaceCounter(a, b)` as it is written, SpaceCounter.py:21. -/
def SpaceCounter.construct (a b : CounterArg) : Except PyErr SpaceCounter := SpaceCounter.make "type_of_indices" a b

/-- `size`, SpaceCounter.py:57-59. -/
def SpaceCounter.size (c : SpaceCounter) : Nat := c.nUpper + c.nLower

/-- `_is_valid_operand`, SpaceCounter.py:61-65, for another counter. -/
def SpaceCounter.checkOperand (c d : SpaceCounter) : Except PyErr Unit :=
  if c.upper.length = d.upper.length then .ok () else .error .valueError

/-- `<` of two tuples (size, upper, lower). -/
def SpaceCounter.ltCore (c d : SpaceCounter) : Bool :=
  if c.size = d.size then
    if c.upper = d.upper then pyListLt (fun a b => decide (a < b)) c.lower d.lower else pyListLt (fun a b => decide (a < b)) c.upper d.upper
  else decide (c.size < d.size)

/-- `<=` of two tuples (size, upper, lower). -/
def SpaceCounter.leCore (c d : SpaceCounter) : Bool :=
  if c.size = d.size then
    if c.upper = d.upper then pyListLe (fun a b => decide (a ≤ b)) c.lower d.lower else pyListLe (fun a b => decide (a ≤ b)) c.upper d.upper
  else decide (c.size ≤ d.size)

/-- `__eq__`, SpaceCounter.py:67-69. -/
def SpaceCounter.pyEq (c d : SpaceCounter) : Except PyErr Bool := do
  c.checkOperand d; pure (decide (c.upper = d.upper) && decide (c.lower = d.lower))
/-- `__ne__`, SpaceCounter.py:71-73. -/
def SpaceCounter.pyNe (c d : SpaceCounter) : Except PyErr Bool := do
  c.checkOperand d; pure (!(decide (c.upper = d.upper) && decide (c.lower = d.lower)))
/-- `__lt__`, SpaceCounter.py:75-77. -/
def SpaceCounter.pyLt (c d : SpaceCounter) : Except PyErr Bool := do c.checkOperand d; pure (c.ltCore d)
/-- `__le__`, SpaceCounter.py:79-81. -/
def SpaceCounter.pyLe (c d : SpaceCounter) : Except PyErr Bool := do c.checkOperand d; pure (c.leCore d)
/-- `__gt__`, SpaceCounter.py:83-85. -/
def SpaceCounter.pyGt (c d : SpaceCounter) : Except PyErr Bool := do c.checkOperand d; pure (d.ltCore c)
/-- `__ge__`, SpaceCounter.py:87-89. -/
def SpaceCounter.pyGe (c d : SpaceCounter) : Except PyErr Bool := do c.checkOperand d; pure (d.leCore c)

/-- `transpose`, SpaceCounter.py:94-98. -/
def SpaceCounter.transpose (c : SpaceCounter) : SpaceCounter := ⟨c.lower, c.upper⟩

end Dsrg

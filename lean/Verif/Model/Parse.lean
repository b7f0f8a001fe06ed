import Verif.Model.ForteText
import Verif.Model.Tensor

/-!
Model of the constructors that convert their arguments: `Indices` from text or lists (Indices.py:55-120), `IndicesPair`,
`SecondQuantizedOperator` and `Tensor` from anything `Indices` can be made of (IndicesPair.py:10-27, SQOperator.py:6-13, Tensor.py:6-68), and the
selection of a class by its name.
-/

namespace Dsrg

/-- `Indices.subclasses_alias` with the classes registered under the names, Indices.py:58-62, 367, 426, 496, 531. -/
def itypeAliases : List (PyStr × IType) :=
  [(['a', 'n', 't', 'i', 's', 'y', 'm', 'm', 'e', 't', 'r', 'i', 'c'], .antisym), (['a', 's', 'y', 'm', 'm'], .antisym),
   (['s', 'p', 'i', 'n', '-', 'o', 'r', 'b', 'i', 't', 'a', 'l'], .spinOrbital), (['s', 'o'], .spinOrbital),
   (['s', 'p', 'i', 'n', '-', 'i', 'n', 't', 'e', 'g', 'r', 'a', 't', 'e', 'd'], .spinIntegrated), (['s', 'i'], .spinIntegrated),
   (['s', 'p', 'i', 'n', '-', 'a', 'd', 'a', 'p', 't', 'e', 'd'], .spinAdapted), (['s', 'a'], .spinAdapted)]

/-- The class selected by a name, Indices.py:73-76: an unknown name raises `KeyError`. -/
def itypeOf (typeName : PyStr) : Except PyErr IType :=
  match itypeAliases.find? fun e => decide (e.1 = typeName) with
  | some e => .ok e.2
  | none => .error .keyError

/-- An element of a list of labels: an `Index` object, a string, or anything else, Indices.py:97-107. -/
inductive LabelEntry
  | index (i : NamedIndex)
  | name (s : PyStr)
  | other
  deriving DecidableEq, Repr

/-- One round of the loop Indices.py:97-107: the `ValueError` and the `TypeError` of `Index(i)` become `ValueError`, the `IndexError` for the
empty string (Index.py:15) is not caught. -/
def LabelEntry.toIndex : LabelEntry → Except PyErr NamedIndex
  | .index i => .ok i
  | .name s =>
    match NamedIndex.parse s with
    | .ok i => .ok i
    | .error .indexError => .error .indexError
    | .error _ => .error .valueError
  | .other => .error .valueError

/-- What can be given for labels: an `Indices` object, a string, a list, a tuple, or something that is not a sequence. -/
inductive LabelArg
  | object (x : Indices)
  | text (s : PyStr)
  | list (l : List LabelEntry)
  | tuple (l : List LabelEntry)
  | other
  deriving DecidableEq, Repr

/-- Python's `type` of such an argument. -/
inductive ArgType
  | indices (ty : IType)
  | str
  | list
  | tuple
  | other
  deriving DecidableEq, Repr

/-- `type(x)`, IndicesPair.py:22. -/
def LabelArg.type : LabelArg → ArgType
  | .object x => .indices x.ty
  | .text _ => .str
  | .list _ => .list
  | .tuple _ => .tuple
  | .other => .other

/-- The rest of the constructor once the entries are known, Indices.py:95-120, 504-506. -/
def Indices.ofEntries (ty : IType) (entries : List LabelEntry) : Except PyErr Indices := do
  let l ← entries.mapM LabelEntry.toIndex
  if setSize l ≠ l.length then throw .valueError
  if ty = .spinOrbital ∧ l.any NamedIndex.isBeta = true then throw .valueError
  pure ⟨ty, l.map NamedIndex.toIndex⟩

/-- The entries of a string, Indices.py:92-93. -/
def textEntries (s : PyStr) : List PyStr := if s.length = 0 then [] else (pySplit ',' s).map pyStrip

/-- `Indices.__init__` of the class `ty`, Indices.py:78-120: `Indices` objects are no sequences (the class is not registered as one). -/
def Indices.construct (ty : IType) : LabelArg → Except PyErr Indices
  | .text s => Indices.ofEntries ty ((textEntries s).map .name)
  | .list l => Indices.ofEntries ty l
  | .tuple l => Indices.ofEntries ty l
  | .object _ => .error .typeError
  | .other => .error .typeError

/-- `Indices.make_indices`, Indices.py:71-76. -/
def makeIndices (arg : LabelArg) (typeName : PyStr) : Except PyErr Indices := do
  let ty ← itypeOf typeName
  Indices.construct ty arg

/-- The conversion of one argument, IndicesPair.py:17-20. -/
def LabelArg.toIndices (arg : LabelArg) (typeName : PyStr) : Except PyErr Indices :=
  match arg with
  | .object x => .ok x
  | _ => makeIndices arg typeName

/-- `IndicesPair.__init__`, IndicesPair.py:10-27, and `SecondQuantizedOperator.__init__`, SQOperator.py:6-13: the types of the arguments, not of
the converted labels, are compared. -/
def IndicesPair.construct (upper lower : LabelArg) (typeName : PyStr) : Except PyErr IndicesPair := do
  let u ← upper.toIndices typeName
  let l ← lower.toIndices typeName
  if upper.type ≠ lower.type then throw .typeError
  pure ⟨u, l⟩

/-- `Tensor.subclasses_alias` with the registered classes, Tensor.py:8-13, 165, 199, 241, 266, 312. -/
def tclsAliases : List (PyStr × TCls) :=
  [(['c', 'u', 'm', 'u', 'l', 'a', 'n', 't'], .cumulant), (['l', 'a', 'm', 'b', 'd', 'a'], .cumulant), (['L'], .cumulant),
   (['h', 'o', 'l', 'e', '_', 'd', 'e', 'n', 's', 'i', 't', 'y'], .hole), (['e', 't', 'a'], .hole), (['C'], .hole),
   (['K', 'r', 'o', 'n', 'e', 'c', 'k', 'e', 'r'], .kronecker), (['d', 'e', 'l', 't', 'a'], .kronecker), (['K'], .kronecker),
   (['c', 'l', 'u', 's', 't', 'e', 'r', '_', 'a', 'm', 'p', 'l', 'i', 't', 'u', 'd', 'e'], .cluster), (['T'], .cluster), (['t'], .cluster),
   (['H', 'a', 'm', 'i', 'l', 't', 'o', 'n', 'i', 'a', 'n', 'T', 'e', 'n', 's', 'o', 'r'], .hamiltonian),
   (['H', 'a', 'm', 'i', 'l', 't', 'o', 'n', 'i', 'a', 'n'], .hamiltonian), (['H'], .hamiltonian)]

/-- The constructor of a class of tensors, Tensor.py:28-45, 167-170, 201-206, 243-248, 268-300, 314-317: the labels are converted first. -/
def Tensor.construct (cls : TCls) (upper lower : LabelArg) (typeName name : PyStr) (priority : Int) : Except PyErr Tensor := do
  let pair ← IndicesPair.construct upper lower typeName
  Tensor.make cls pair.upper pair.lower name priority

/-- `Tensor.make_tensor(tensor_type, upper, lower, indices_type)`, Tensor.py:22-26 (name and priority are the defaults of the class). -/
def makeTensor (tensorType : PyStr) (upper lower : LabelArg) (typeName : PyStr) : Except PyErr Tensor :=
  match tclsAliases.find? fun e => decide (e.1 = tensorType) with
  | some e => Tensor.construct e.2 upper lower typeName e.2.defaultName e.2.defaultPriority
  | none => .error .keyError

/-- `str(x)` of an `Indices` object, Indices.py:134-135. -/
def Indices.text (x : Indices) : PyStr := joinWith [',', ' '] (x.list.map Index.name)

/-- `Indices.clone`, Indices.py:199-201. -/
def Indices.clone (x : Indices) : Except PyErr Indices := Indices.make x.ty x.list

/-- `Tensor.clone`, Tensor.py:55-57: `indices_type` is not given, so it is `'so'`; it is not used as the labels are objects. -/
def Tensor.clone (t : Tensor) : Except PyErr Tensor :=
  Tensor.construct t.cls (.object t.upper) (.object t.lower) ['s', 'o'] t.name t.priority

/-- `Tensor.from_indices`, Tensor.py:59-67. -/
def Tensor.fromIndices (t : Tensor) (upper lower : LabelArg) (typeName : PyStr) : Except PyErr Tensor :=
  Tensor.construct t.cls upper lower typeName t.name t.priority

end Dsrg

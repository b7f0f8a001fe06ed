import Verif.Spec.Spaces
import Verif.Model.Parse
import Mathlib.Data.Nat.Digits.Defs

/-!
The written forms of label lists.
-/

namespace Dsrg

/-- White space: blank, tabulators, line and page ends. -/
def whiteSpace : List Char := [' ', '\n', '\t', '\r', '\x0b', '\x0c']

/-- `s` is `name` between white space. -/
def PaddedName (s name : PyStr) : Prop := ∃ before after, (∀ c ∈ before, c ∈ whiteSpace) ∧ (∀ c ∈ after, c ∈ whiteSpace) ∧ s = before ++ name ++ after

/-- `s` lists the names, separated by commas, each between white space; the empty text lists no name. -/
inductive ListsNames : PyStr → List PyStr → Prop
  | none : ListsNames [] []
  | one {s name : PyStr} : PaddedName s name → ListsNames s [name]
  | more {s name rest : PyStr} {names : List PyStr} : PaddedName s name → names ≠ [] → ListsNames rest names →
      ListsNames (s ++ ',' :: rest) (name :: names)

/-- `name` is a name of the label: its letter followed by digits of its number. -/
def NamesLabel (name : PyStr) (i : Index) : Prop :=
  ∃ digits, name = i.space.toChar :: digits ∧ digits ≠ [] ∧ (∀ c ∈ digits, '0' ≤ c ∧ c ≤ '9') ∧
    i.number = Nat.ofDigits 10 ((digits.map fun c => c.toNat - '0'.toNat).reverse)

/-- The documented names of the classes of labels. -/
def classNames : IType → List PyStr
  | .plain => []
  | .antisym => [['a', 'n', 't', 'i', 's', 'y', 'm', 'm', 'e', 't', 'r', 'i', 'c'], ['a', 's', 'y', 'm', 'm']]
  | .spinOrbital => [['s', 'p', 'i', 'n', '-', 'o', 'r', 'b', 'i', 't', 'a', 'l'], ['s', 'o']]
  | .spinIntegrated => [['s', 'p', 'i', 'n', '-', 'i', 'n', 't', 'e', 'g', 'r', 'a', 't', 'e', 'd'], ['s', 'i']]
  | .spinAdapted => [['s', 'p', 'i', 'n', '-', 'a', 'd', 'a', 'p', 't', 'e', 'd'], ['s', 'a']]

/-- The documented names of the classes of tensors. -/
def tensorNames : TCls → List PyStr
  | .tensor => []
  | .cumulant => [['c', 'u', 'm', 'u', 'l', 'a', 'n', 't'], ['l', 'a', 'm', 'b', 'd', 'a'], ['L']]
  | .hole => [['h', 'o', 'l', 'e', '_', 'd', 'e', 'n', 's', 'i', 't', 'y'], ['e', 't', 'a'], ['C']]
  | .kronecker => [['K', 'r', 'o', 'n', 'e', 'c', 'k', 'e', 'r'], ['d', 'e', 'l', 't', 'a'], ['K']]
  | .cluster => [['c', 'l', 'u', 's', 't', 'e', 'r', '_', 'a', 'm', 'p', 'l', 'i', 't', 'u', 'd', 'e'], ['T'], ['t']]
  | .hamiltonian => [['H', 'a', 'm', 'i', 'l', 't', 'o', 'n', 'i', 'a', 'n', 'T', 'e', 'n', 's', 'o', 'r'], ['H', 'a', 'm', 'i', 'l', 't', 'o', 'n', 'i', 'a', 'n'], ['H']]

/-- The letter a class of tensors is printed with. -/
def defaultTensorName : TCls → PyStr
  | .tensor => ['T', 'e', 'n', 's', 'o', 'r']
  | .cumulant => ['L']
  | .hole => ['C']
  | .kronecker => ['K']
  | .cluster => ['T']
  | .hamiltonian => ['H']

/-- The position of a class when tensors are sorted: deltas, Hamiltonian, amplitudes, densities. -/
def defaultTensorPriority : TCls → Int
  | .kronecker => -1
  | .hamiltonian => 0
  | .tensor => 0
  | .cluster => 1
  | .cumulant => 2
  | .hole => 2

/-- Labels a list of the class may hold: no label twice, and only alpha labels for spin orbitals. -/
def ListLabels (ty : IType) (l : List Index) : Prop := l.Nodup ∧ (ty = .spinOrbital → ∀ i ∈ l, i.space.beta = false)

/-- An entry of a list stands for a label: a name of the label, or an object with this name and label. -/
inductive EntryNames : LabelEntry → PyStr → Index → Prop
  | name {s : PyStr} {i : Index} : NamesLabel s i → EntryNames (.name s) s i
  | index {j : NamedIndex} : EntryNames (.index j) j.name ⟨j.space, j.number⟩

/-- The class is selected by `typeName`, the names are different, and the labels are `l`, all alpha for spin orbitals. -/
def NamedList (typeName : PyStr) (pairs : List (PyStr × Index)) (x : Indices) : Prop :=
  typeName ∈ classNames x.ty ∧ (pairs.map Prod.fst).Nodup ∧ pairs.map Prod.snd = x.list ∧ (x.ty = .spinOrbital → ∀ i ∈ x.list, i.space.beta = false)

/-- The argument stands for the label list `x`. -/
def DenotesLabels (arg : LabelArg) (typeName : PyStr) (x : Indices) : Prop :=
  match arg with
  | .object y => y = x
  | .text s => ∃ pairs, NamedList typeName pairs x ∧ ListsNames s (pairs.map Prod.fst) ∧ ∀ p ∈ pairs, NamesLabel p.1 p.2
  | .list l => ∃ pairs, NamedList typeName pairs x ∧ List.Forall₂ (fun e p => EntryNames e p.1 p.2) l pairs
  | .tuple l => ∃ pairs, NamedList typeName pairs x ∧ List.Forall₂ (fun e p => EntryNames e p.1 p.2) l pairs
  | .other => False

/-- The `Index` objects in the argument have names of their labels (as the constructor of `Index` gives them). -/
def ProperObjects : LabelArg → Prop
  | .list l => ∀ j, .index j ∈ l → NamesLabel j.name ⟨j.space, j.number⟩
  | .tuple l => ∀ j, .index j ∈ l → NamesLabel j.name ⟨j.space, j.number⟩
  | _ => True

/-- Both arguments are given in the same way: as objects of one class, as texts, as lists or as tuples. -/
def SameFormat : LabelArg → LabelArg → Prop
  | .object x, .object y => x.ty = y.ty
  | .text _, .text _ => True
  | .list _, .list _ => True
  | .tuple _, .tuple _ => True
  | _, _ => False

end Dsrg

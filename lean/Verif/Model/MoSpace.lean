import Verif.Model.Py
import Mathlib.Data.Finset.Basic
import Mathlib.Data.Fintype.Prod

/-!
Model of `dsrg_generator/mo_space.py`.
-/

namespace Dsrg

/-- The six spin-free orbital labels, mo_space.py:2. -/
inductive Kind
  | g | p | h | v | c | a
  deriving DecidableEq, Repr

instance : Fintype Kind := ⟨{.g, .p, .h, .v, .c, .a}, by intro k; cases k <;> decide⟩

/-- A space label: lower case (`beta = false`) or upper case (`beta = true`) letter, mo_space.py:2,14,22. -/
structure Space where
  kind : Kind
  beta : Bool
  deriving DecidableEq, Repr

instance : Fintype Space :=
  Fintype.ofEquiv (Kind × Bool) ⟨fun x => ⟨x.1, x.2⟩, fun s => (s.kind, s.beta), fun _ => rfl, fun _ => rfl⟩

/-- `so_space`, mo_space.py:2. -/
def soSpace : List Kind := [.g, .p, .h, .v, .c, .a]

/-- `mo_space = so_space + mo_space_b`, mo_space.py:14,22. -/
def moSpace : List Space := soSpace.map (⟨·, false⟩) ++ soSpace.map (⟨·, true⟩)

/-- `space_priority`: the position in `mo_space`, mo_space.py:23. -/
def Space.priority (s : Space) : Nat := moSpace.idxOf s

/-- `space_relation`: the elementary labels making up a label, mo_space.py:4-7,16-19,24. -/
def Space.relation (s : Space) : Finset Space :=
  match s.kind with
  | .c => {⟨.c, s.beta⟩}
  | .a => {⟨.a, s.beta⟩}
  | .v => {⟨.v, s.beta⟩}
  | .p => {⟨.a, s.beta⟩, ⟨.v, s.beta⟩}
  | .h => {⟨.c, s.beta⟩, ⟨.a, s.beta⟩}
  | .g => {⟨.c, s.beta⟩, ⟨.a, s.beta⟩, ⟨.v, s.beta⟩}

/-- The letter of a label (mo_space.py:2,14). -/
def Space.toChar (s : Space) : Char :=
  match s.kind, s.beta with
  | .g, false => 'g' | .p, false => 'p' | .h, false => 'h'
  | .v, false => 'v' | .c, false => 'c' | .a, false => 'a'
  | .g, true => 'G' | .p, true => 'P' | .h, true => 'H'
  | .v, true => 'V' | .c, true => 'C' | .a, true => 'A'

/-- The label of a letter; `none` when the letter is not a key of `space_priority` (mo_space.py:23). -/
def Space.ofChar? (ch : Char) : Option Space := moSpace.find? (fun s => s.toChar == ch)

/-- `find_space_label`, mo_space.py:27-52.  `first` is `next(iter(space_set))`, whose choice python leaves open.
The result `none` is python's `None` (no branch of lines 46-50 returns).  Simplification: the input is a set of
valid labels, so the `ValueError` of lines 33-35 for unknown strings is not represented. -/
def findSpaceLabel (s : Finset Space) (first : Space) : Except PyErr (Option Space) :=
  if s.card = 0 then .error .valueError
  else if s.card = 1 then .ok (some first)
  else if s.card = 2 then
    if ⟨.v, false⟩ ∈ s ∨ ⟨.v, true⟩ ∈ s then .ok (some ⟨.p, first.beta⟩)
    else if ⟨.c, false⟩ ∈ s ∨ ⟨.c, true⟩ ∈ s then .ok (some ⟨.h, first.beta⟩)
    else .ok none
  else .ok (some ⟨.g, first.beta⟩)

/-- `MOSpaceCounter`, mo_space.py:55-130.  `raw` is `_input_counter` as a finite map on lower-case labels. -/
structure MOSpaceCounter where
  raw : Kind → Option Int
  parsed : List Int
  overall : Int

/-- Lines 70-79: the three counters `idict['v'], idict['c'], idict['a']` after processing the items. -/
def mosParse : List (Space × Int) → Int × Int × Int
  | [] => (0, 0, 0)
  | (k, n) :: rest =>
    let (v, c, a) := mosParse rest
    match k.kind with
    | .c => (v, c + n, a)
    | .a => (v, c, a + n)
    | .v => (v + n, c, a)
    | .h => (v, c + n, a)
    | .g => (v + n, c, a)
    | .p => (v + n, c, a)

/-- Line 81: `{k.lower(): v for k, v in input_counter.items()}`; a later item overwrites an earlier one. -/
def mosRaw (items : List (Space × Int)) (k : Kind) : Option Int :=
  (items.reverse.find? (fun kv => kv.1.kind == k)).map (·.2)

/-- `MOSpaceCounter.__init__`, mo_space.py:62-84, on the items of the input dictionary in insertion order.
Simplification: keys are valid labels (the `ValueError` of line 67-68 is not represented). -/
def MOSpaceCounter.make (items : List (Space × Int)) : MOSpaceCounter :=
  let (v, c, a) := mosParse items
  { raw := mosRaw items, parsed := [v, c, a], overall := v + c + a }

/-- `__eq__`, mo_space.py:108-110 (dictionary equality). -/
def MOSpaceCounter.pyEq (x y : MOSpaceCounter) : Bool := decide (∀ k, x.raw k = y.raw k)

/-- The tuple `(overall_scaling, parsed_counter)` flattened; both lists have three entries. -/
def MOSpaceCounter.key (x : MOSpaceCounter) : List Int := x.overall :: x.parsed

/-- `__lt__`, mo_space.py:116-118. -/
def MOSpaceCounter.pyLt (x y : MOSpaceCounter) : Bool := pyListLt (fun a b => decide (a < b)) x.key y.key

/-- `__le__`, mo_space.py:120-122. -/
def MOSpaceCounter.pyLe (x y : MOSpaceCounter) : Bool := pyListLe (fun a b => decide (a ≤ b)) x.key y.key

/-- `__gt__`, mo_space.py:124-126. -/
def MOSpaceCounter.pyGt (x y : MOSpaceCounter) : Bool := pyListLt (fun a b => decide (a < b)) y.key x.key

/-- `__ge__`, mo_space.py:128-130. -/
def MOSpaceCounter.pyGe (x y : MOSpaceCounter) : Bool := pyListLe (fun a b => decide (a ≤ b)) y.key x.key

end Dsrg

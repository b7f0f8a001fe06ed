import Verif.Model.MoSpace
import Mathlib.Data.Prod.Lex
import Mathlib.Order.Lattice

/-!
Model of `dsrg_generator/Index.py`.

`NamedIndex` is the python object (it keeps its name).  `Index` is the (space, number) pair used by the rest of
the model; C03/C05 relate the two.
-/

namespace Dsrg

/-- The python `Index` object, Index.py:26-28. -/
structure NamedIndex where
  name : PyStr
  space : Space
  number : Nat
  deriving DecidableEq, Repr

/-- `Index.__init__`, Index.py:5-29, for a `str` argument (the `TypeError` for other types is not represented). -/
def NamedIndex.parse (name : PyStr) : Except PyErr NamedIndex :=
  match name with
  | [] => .error .indexError
  | s :: n =>
    match Space.ofChar? s with
    | none => .error .valueError
    | some sp =>
      if isDigitStr n then .ok { name := name, space := sp, number := intOfDigits n }
      else .error .valueError

/-- `__eq__`, Index.py:51-53. -/
def NamedIndex.pyEq (i j : NamedIndex) : Bool := i.space == j.space && i.number == j.number

/-- `__hash__`, Index.py:75-76: the hash is a function of the name only; the model uses the name itself, i.e.
assumes an ideal (injective) string hash. -/
def NamedIndex.hashKey (i : NamedIndex) : PyStr := i.name

/-- Python `x in s` / set insertion test: same hash and equal. -/
def NamedIndex.sameSetElement (i j : NamedIndex) : Bool := i.hashKey == j.hashKey && i.pyEq j

/-- `len(set(l))` for a list of `Index` objects (Indices.py:110-112). -/
def setSize : List NamedIndex → Nat
  | [] => 0
  | i :: l => if l.any (fun j => j.sameSetElement i) then setSize l else setSize l + 1

/-- An index as (space, number). -/
structure Index where
  space : Space
  number : Nat
  deriving DecidableEq, Repr

/-- The (space, number) view of the object. -/
def NamedIndex.toIndex (i : NamedIndex) : Index := ⟨i.space, i.number⟩

/-- f"{space}{number}" (Term.py:473, 27-30, 89-90). -/
def Index.name (i : Index) : PyStr := i.space.toChar :: natStr i.number

/-- `__lt__`, Index.py:59-61: `(priority, number) < (priority, number)`. -/
def Index.pyLt (i j : Index) : Bool :=
  pyListLt (fun a b => decide (a < b)) [i.space.priority, i.number] [j.space.priority, j.number]

/-- `__le__`, Index.py:63-65. -/
def Index.pyLe (i j : Index) : Bool :=
  pyListLe (fun a b => decide (a ≤ b)) [i.space.priority, i.number] [j.space.priority, j.number]

/-- `__gt__`, Index.py:67-69. -/
def Index.pyGt (i j : Index) : Bool :=
  pyListLt (fun a b => decide (a < b)) [j.space.priority, j.number] [i.space.priority, i.number]

/-- `__ge__`, Index.py:71-73. -/
def Index.pyGe (i j : Index) : Bool :=
  pyListLe (fun a b => decide (a ≤ b)) [j.space.priority, j.number] [i.space.priority, i.number]

/-- `is_beta`, Index.py:84-85. -/
def Index.isBeta (i : Index) : Bool := i.space.beta

/-- `to_beta`, Index.py:87-88 (upper-casing the name changes the letter only). -/
def Index.toBeta (i : Index) : Index := { i with space := { i.space with beta := true } }

/-- `to_alpha`, Index.py:90-91. -/
def Index.toAlpha (i : Index) : Index := { i with space := { i.space with beta := false } }

/-- `str.upper` on one ASCII character. -/
def upperChar (ch : Char) : Char := if 97 ≤ ch.toNat ∧ ch.toNat ≤ 122 then Char.ofNat (ch.toNat - 32) else ch

/-- `str.lower` on one ASCII character. -/
def lowerChar (ch : Char) : Char := if 65 ≤ ch.toNat ∧ ch.toNat ≤ 90 then Char.ofNat (ch.toNat + 32) else ch

/-- `to_beta` on the object: `Index(self.name.upper())`, Index.py:87-88. -/
def NamedIndex.toBeta (i : NamedIndex) : Except PyErr NamedIndex := NamedIndex.parse (i.name.map upperChar)

/-- `to_alpha` on the object: `Index(self.name.lower())`, Index.py:90-91. -/
def NamedIndex.toAlpha (i : NamedIndex) : Except PyErr NamedIndex := NamedIndex.parse (i.name.map lowerChar)

/-- `is_beta` on the object, Index.py:84-85. -/
def NamedIndex.isBeta (i : NamedIndex) : Bool := i.space.beta

/-- `latex`, Index.py:78-82 with `dollar=False`: f"{space}_{{{number}}}". -/
def Index.latex (i : Index) : PyStr := i.space.toChar :: '_' :: '{' :: (natStr i.number ++ ['}'])

/-- Priorities of the twelve labels are distinct. -/
theorem Space.priority_injective : Function.Injective Space.priority := by decide

/-- The order key of an index. -/
def Index.key (i : Index) : ℕ ×ₗ ℕ := toLex (i.space.priority, i.number)

theorem Index.key_injective : Function.Injective Index.key := by
  intro i j h
  have h' : (i.space.priority, i.number) = (j.space.priority, j.number) := h
  have h1 : i.space.priority = j.space.priority := congrArg Prod.fst h'
  have h2 : i.number = j.number := congrArg Prod.snd h'
  have := Space.priority_injective h1
  cases i; cases j; simp_all

/-- Linear order on indices; C04 shows that python's comparison methods are this order. -/
instance : LinearOrder Index := LinearOrder.lift' Index.key Index.key_injective

end Dsrg

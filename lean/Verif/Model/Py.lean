/-!
Python-level basics used by the model: exceptions as values, strings as character lists,
lexicographic comparison of sequences, and decimal numerals.
-/

namespace Dsrg

/-- Python exception classes raised by the modelled code. -/
inductive PyErr
  | typeError | valueError | indexError | keyError | notImplemented | attributeError | recursionError
  deriving DecidableEq, Repr

/-- Python `str`, as the list of its characters. -/
abbrev PyStr := List Char

/-- Python's `<` on lists/tuples: the first position where the elements differ decides, else the shorter
is smaller.  (CPython semantics, used for the tuple comparisons in Index.py:61, Indices.py:156, Tensor.py:88,
Term.py:263 and mo_space.py:118.) -/
def pyListLt {α : Type} [DecidableEq α] (lt : α → α → Bool) : List α → List α → Bool
  | [], [] => false
  | [], _ :: _ => true
  | _ :: _, [] => false
  | a :: as, b :: bs => if a = b then pyListLt lt as bs else lt a b

/-- Python's `<=` on lists/tuples: the first position where the elements differ decides (with `<=`), else the
lengths are compared. -/
def pyListLe {α : Type} [DecidableEq α] (le : α → α → Bool) : List α → List α → Bool
  | [], [] => true
  | [], _ :: _ => true
  | _ :: _, [] => false
  | a :: as, b :: bs => if a = b then pyListLe le as bs else le a b

/-- The character of a decimal digit `0..9`. -/
def digitChar (d : Nat) : Char := Char.ofNat (48 + d)

/-- `str(n)` / f-string formatting of a non-negative int. -/
def natStr (n : Nat) : PyStr :=
  if n < 10 then [digitChar n] else natStr (n / 10) ++ [digitChar (n % 10)]
termination_by n

/-- `str.isdigit` on one character.  Simplification: only ASCII digits (python also accepts other unicode digits). -/
def isDigitChar (ch : Char) : Bool := 48 ≤ ch.toNat && ch.toNat ≤ 57

/-- `str.isdigit`: non-empty and all digits (ASCII). -/
def isDigitStr (s : PyStr) : Bool := !s.isEmpty && s.all isDigitChar

/-- `int(s)` for a string of ASCII digits. -/
def intOfDigits (s : PyStr) : Nat := s.foldl (fun acc ch => acc * 10 + (ch.toNat - 48)) 0

end Dsrg

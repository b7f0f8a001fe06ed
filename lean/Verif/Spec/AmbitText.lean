import Verif.Model.Ambit

/-!
Reading C++ text, independently of the code that writes it: a text is cut into words, string literals and punctuation; statements end with
semicolons.
-/

namespace Dsrg

/-- Cuts a list at every occurrence of `x`. -/
def cutAt {α : Type} [DecidableEq α] (x : α) : List α → List (List α)
  | [] => [[]]
  | y :: ys =>
    if y = x then [] :: cutAt x ys
    else match cutAt x ys with
      | [] => [[y]]
      | w :: ws => (y :: w) :: ws

/-- Blanks and line ends. -/
def isBlank (c : Char) : Bool := c = ' ' || c = '\n'

/-- The characters of names and numbers. -/
def isWordChar (c : Char) : Bool := c.isAlphanum || c = '_' || c = '.'

/-- The words, string literals (with their quotation marks) and punctuation characters of a text.  Comments from `//` to the end of the line
are left out. -/
def lexemes : PyStr → List PyStr
  | [] => []
  | c :: s =>
    if isBlank c then lexemes s
    else if c = '"' then (c :: s.takeWhile (· ≠ '"') ++ ['"']) :: lexemes ((s.dropWhile (· ≠ '"')).drop 1)
    else if isWordChar c then (c :: s.takeWhile isWordChar) :: lexemes (s.dropWhile isWordChar)
    else if c = '/' ∧ s.head? = some '/' then lexemes (s.dropWhile (· ≠ '\n'))
    else [c] :: lexemes s
termination_by s => s.length
decreasing_by
  · simp
  · have := (List.dropWhile_sublist (· ≠ '"') (l := s)).length_le
    simp only [List.length_drop, List.length_cons]
    omega
  · have := (List.dropWhile_sublist isWordChar (l := s)).length_le
    simp only [List.length_cons]
    omega
  · have := (List.dropWhile_sublist (· ≠ '\n') (l := s)).length_le
    simp only [List.length_cons]
    omega
  · simp

/-- A decimal numeral. -/
def readNat (s : PyStr) : Option Nat :=
  if s ≠ [] ∧ ∀ c ∈ s, c.isDigit = true then some (s.foldl (fun n c => 10 * n + (c.toNat - 48)) 0) else none

/-- The orbital space of a letter. -/
def readSpace (c : Char) : Option Space :=
  if c = 'g' then some ⟨.g, false⟩ else if c = 'p' then some ⟨.p, false⟩ else if c = 'h' then some ⟨.h, false⟩
  else if c = 'v' then some ⟨.v, false⟩ else if c = 'c' then some ⟨.c, false⟩ else if c = 'a' then some ⟨.a, false⟩
  else if c = 'G' then some ⟨.g, true⟩ else if c = 'P' then some ⟨.p, true⟩ else if c = 'H' then some ⟨.h, true⟩
  else if c = 'V' then some ⟨.v, true⟩ else if c = 'C' then some ⟨.c, true⟩ else if c = 'A' then some ⟨.a, true⟩
  else none

/-- A label such as `c0`. -/
def readLabel : PyStr → Option Index
  | [] => none
  | c :: s => do
    let sp ← readSpace c
    let n ← readNat s
    pure ⟨sp, n⟩

/-- The content of a string literal. -/
def unquote (s : PyStr) : Option PyStr :=
  match s with
  | '"' :: r => if r.getLast? = some '"' then some r.dropLast else none
  | _ => none

/-- A name begins with a letter. -/
def isName (s : PyStr) : Bool :=
  match s with
  | [] => false
  | c :: _ => c.isAlpha

/-- Names of arrays: a letter, then letters, digits and underscores. -/
def CppName (n : PyStr) : Prop := isName n = true ∧ ∀ c ∈ n, (c.isAlphanum || c = '_') = true

/-- A number such as `3.0`. -/
def readDecimal (s : PyStr) : Option ℚ :=
  match cutAt '.' s with
  | [n, f] => if f = ['0'] then (readNat n).map fun k => (k : ℚ) else none
  | _ => none

/-- `name` or `name["label,label"]`. -/
def readRef (l : List PyStr) : Option ArrayRef :=
  match l with
  | [n] => if isName n then some ⟨n, []⟩ else none
  | [n, a, s, b] =>
    if isName n ∧ a = ['['] ∧ b = [']'] then do
      let u ← unquote s
      let labels ← (cutAt ',' u).mapM readLabel
      pure ⟨n, labels⟩
    else none
  | _ => none

/-- `3.0`, `-3.0`, `(1.0 / 2.0)` or `(-1.0 / 2.0)`. -/
def readNumber (l : List PyStr) : Option ℚ :=
  match l with
  | [w] => readDecimal w
  | [m, w] => if m = ['-'] then (readDecimal w).map fun x => -x else none
  | [o, w, s, d, c] => if o = ['('] ∧ s = ['/'] ∧ c = [')'] then do pure ((← readDecimal w) / (← readDecimal d)) else none
  | [o, m, w, s, d, c] => if o = ['('] ∧ m = ['-'] ∧ s = ['/'] ∧ c = [')'] then do pure (-(← readDecimal w) / (← readDecimal d)) else none
  | _ => none

/-- A product of arrays, which may begin with a number. -/
def readProduct (l : List PyStr) : Option (ℚ × List ArrayRef) :=
  match cutAt ['*'] l with
  | [] => none
  | f :: fs =>
    match readNumber f with
    | some c => (fs.mapM readRef).map fun rs => (c, rs)
    | none => ((f :: fs).mapM readRef).map fun rs => (1, rs)

/-- `temp = ambit::BlockedTensor::build(ambit::CoreTensor, "temp", {`. -/
def buildWords : List PyStr :=
  [['t', 'e', 'm', 'p'], ['='], ['a', 'm', 'b', 'i', 't'], [':'], [':'], ['B', 'l', 'o', 'c', 'k', 'e', 'd', 'T', 'e', 'n', 's', 'o', 'r'], [':'], [':'],
   ['b', 'u', 'i', 'l', 'd'], ['('], ['a', 'm', 'b', 'i', 't'], [':'], [':'], ['C', 'o', 'r', 'e', 'T', 'e', 'n', 's', 'o', 'r'], [','],
   ['"', 't', 'e', 'm', 'p', '"'], [','], ['{']]

/-- `lhs += product` and `lhs -= product`. -/
def readUpdate (l : List PyStr) : Option AmbitStmt :=
  match cutAt ['='] l with
  | [lhs, rhs] =>
    if lhs.getLast? = some ['+'] then do
      let a ← readRef lhs.dropLast
      let p ← readProduct rhs
      pure (.update a true p.1 p.2)
    else if lhs.getLast? = some ['-'] then do
      let a ← readRef lhs.dropLast
      let p ← readProduct rhs
      pure (.update a false p.1 p.2)
    else none
  | _ => none

/-- One statement: `temp.zero()`, `temp = ambit::BlockedTensor::build(ambit::CoreTensor, "temp", {"spaces"})` or an update of an array. -/
def readStatement (l : List PyStr) : Option AmbitStmt :=
  if l = [['t', 'e', 'm', 'p', '.', 'z', 'e', 'r', 'o'], ['('], [')']] then some .zero
  else if l.take 18 = buildWords then
    match l.drop 18 with
    | [s, b, p] => if b = ['}'] ∧ p = [')'] then do
        let u ← unquote s
        let spaces ← u.mapM readSpace
        pure (.build spaces)
      else none
    | _ => none
  else readUpdate l

/-- The statements of a list of words: each is followed by a semicolon. -/
def statements (l : List PyStr) : Option (List (List PyStr)) :=
  if (cutAt [';'] l).getLast? = some [] then some (cutAt [';'] l).dropLast else none

/-- A text as a list of statements. -/
def readProgram (text : PyStr) : Option (List AmbitStmt) := do
  let l ← statements (lexemes text)
  l.mapM readStatement

/-- Terms whose code can be read: there is a tensor, the names of the tensors are names of the language, and no tensor has labels on one side
only. -/
def Readable (t : Term) : Prop :=
  t.tensors ≠ [] ∧ ∀ x ∈ t.tensors, CppName x.name ∧ (x.upper.list = [] ↔ x.lower.list = [])

end Dsrg

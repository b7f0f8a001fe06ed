import Verif.Spec.AmbitText
import Verif.Model.Forte

/-!
Reading C++ files: a function with its parameters and statements, and a set of files as a program.
-/

namespace Dsrg

/-- A function: the class it belongs to, its name, its parameters (type and name) and the words of its statements. -/
structure CppFunction where
  scope : PyStr
  name : PyStr
  params : List (PyStr × PyStr)
  body : List (List PyStr)
  deriving DecidableEq, Repr

/-- `double`. -/
def doubleWord : PyStr := ['d', 'o', 'u', 'b', 'l', 'e']

/-- `BlockedTensor`. -/
def tensorWord : PyStr := ['B', 'l', 'o', 'c', 'k', 'e', 'd', 'T', 'e', 'n', 's', 'o', 'r']

/-- `void`. -/
def voidWord : PyStr := ['v', 'o', 'i', 'd']

/-- `type name` or `type& name`; a parameter of the second kind refers to the argument (the type is written with the `&`). -/
def readParam (l : List PyStr) : Option (PyStr × PyStr) :=
  match l with
  | [ty, n] => if isName ty ∧ isName n then some (ty, n) else none
  | [ty, a, n] => if isName ty ∧ a = ['&'] ∧ isName n then some (ty ++ ['&'], n) else none
  | _ => none

/-- Parameters between parentheses. -/
def readParams (l : List PyStr) : Option (List (PyStr × PyStr)) := if l = [] then some [] else (cutAt [','] l).mapM readParam

/-- `void name(parameters);` -/
def readDeclaration (l : List PyStr) : Option (PyStr × List (PyStr × PyStr)) :=
  match l with
  | v :: n :: o :: rest =>
    if v = voidWord ∧ isName n ∧ o = ['('] ∧ rest.getLast? = some [')'] then (readParams rest.dropLast).map fun ps => (n, ps) else none
  | _ => none

/-- `void scope::name(parameters) { statements }`. -/
def readFunction (l : List PyStr) : Option CppFunction :=
  match l with
  | v :: sc :: c1 :: c2 :: n :: o :: rest =>
    if v = voidWord ∧ isName sc ∧ c1 = [':'] ∧ c2 = [':'] ∧ isName n ∧ o = ['('] then do
      let ps ← readParams (rest.takeWhile (· ≠ [')']))
      match rest.dropWhile (· ≠ [')']) with
      | _ :: b :: body =>
        if b = ['{'] ∧ body.getLast? = some ['}'] then do
          let sts ← statements body.dropLast
          pure ⟨sc, n, ps, sts⟩
        else none
      | _ => none
    else none
  | _ => none

/-- `using namespace psi; namespace forte {`. -/
def openingWords : List PyStr :=
  [['u', 's', 'i', 'n', 'g'], ['n', 'a', 'm', 'e', 's', 'p', 'a', 'c', 'e'], ['p', 's', 'i'], [';'],
   ['n', 'a', 'm', 'e', 's', 'p', 'a', 'c', 'e'], ['f', 'o', 'r', 't', 'e'], ['{']]

/-- A file with `#include "header"` and one function in the namespace `forte`: the header and the function. -/
def readFile (text : PyStr) : Option (PyStr × CppFunction) :=
  match lexemes text with
  | h :: i :: s :: rest =>
    if h = ['#'] ∧ i = ['i', 'n', 'c', 'l', 'u', 'd', 'e'] ∧ rest.take 7 = openingWords ∧ rest.getLast? = some ['}'] then do
      let header ← unquote s
      let f ← readFunction (rest.drop 7).dropLast
      pure (header, f)
    else none
  | _ => none

/-! ### Block functions -/

/-- `BlockedTensor temp`. -/
def declareWords : List PyStr := [tensorWord, ['t', 'e', 'm', 'p']]

/-- The block of spaces in the name `func_block`; `0` stands for no spaces. -/
def readBlockName (func name : PyStr) : Option (List Space) :=
  if func ++ ['_'] <+: name then
    let b := name.drop (func.length + 1)
    if b = ['0'] then some [] else if b = [] then none else b.mapM readSpace
  else none

/-- A function for one block: the last parameter is the target, which is a number if it is called `C0`; all others are tensors. -/
def readBlockFunction (func : PyStr) (f : CppFunction) : Option BlockFunction := do
  let block ← readBlockName func f.name
  let (ty, target) ← f.params.getLast?
  if (ty = if target = ['C', '0'] then doubleWord ++ ['&'] else tensorWord ++ ['&']) ∧ ∀ p ∈ f.params.dropLast, p.1 = tensorWord ++ ['&'] then
    match f.body with
    | d :: rest =>
      if d = declareWords then do pure ⟨block, f.params.dropLast.map Prod.snd, target, true, ← rest.mapM readStatement⟩
      else do pure ⟨block, f.params.dropLast.map Prod.snd, target, false, ← f.body.mapM readStatement⟩
    | [] => some ⟨block, f.params.dropLast.map Prod.snd, target, false, []⟩
  else none

/-! ### The main function -/

/-- The label `g` with a number. -/
def generalLabel (n : Nat) : Index := ⟨⟨.g, false⟩, n⟩

/-- A statement of the main function.  Functions are found in `lib`. -/
def readMainStatement (lib : PyStr → Option BlockFunction) (l : List PyStr) : Option MainStmt :=
  if l = declareWords then some .declareTemp
  else if l.take 18 = buildWords then
    match l.drop 18 with
    | [s, b, p] => do
      let u ← unquote s
      if b = ['}'] ∧ p = [')'] ∧ u = List.replicate (2 * (u.length / 2)) 'g' then some (.buildTemp (u.length / 2)) else none
    | _ => none
  else match l with
  | [w, o, c] =>
    if o = ['('] ∧ c = [')'] then
      match cutAt '.' w with
      | [n, z] => if isName n ∧ z = ['z', 'e', 'r', 'o'] then some (.zero n) else none
      | _ => none
    else if o = ['='] ∧ c = ['0', '.', '0'] ∧ w = ['C', '0'] then some (.zero w)
    else none
  | [w, a, b, c] => if w = ['C', '0'] ∧ a = ['*'] ∧ b = ['='] ∧ c = ['2', '.', '0'] then some (.double w) else
      readCall lib w [a, b, c]
  | w :: rest =>
    if ['='] ∈ rest then
      match cutAt ['='] l with
      | [lhs, rhs] =>
        if lhs.getLast? = some ['+'] then do
          let a ← readRef lhs.dropLast
          let b ← readRef rhs
          let n := a.labels.length / 2
          if a.labels = (List.range (2 * n)).map generalLabel ∧ b.labels = (List.range' n n ++ List.range n).map generalLabel then
            some (.addTranspose a.name b.name n)
          else none
        else do
          let a ← readRef lhs
          let b ← readRef rhs
          let n := a.labels.length / 2
          if a.labels = (List.range (2 * n)).map generalLabel ∧ b.labels = a.labels then some (.copy a.name b.name n) else none
      | _ => none
    else readCall lib w rest
  | [] => none
where
  /-- `name(argument, argument)`. -/
  readCall (lib : PyStr → Option BlockFunction) (name : PyStr) (rest : List PyStr) : Option MainStmt :=
    match rest with
    | o :: args =>
      if o = ['('] ∧ args.getLast? = some [')'] then do
        let f ← lib name
        let as ← (cutAt [','] args.dropLast).mapM fun a => match a with | [x] => some x | _ => none
        pure (.call f as)
      else none
    | [] => none

/-- The main function: the first parameter is the factor. -/
def readMainFunction (lib : PyStr → Option BlockFunction) (f : CppFunction) : Option MainFunction :=
  match f.params with
  | p :: ps =>
    if p = (doubleWord, ['f', 'a', 'c', 't', 'o', 'r']) ∧ ∀ q ∈ ps, q.1 = if q.2 = ['C', '0'] then doubleWord ++ ['&'] else tensorWord ++ ['&'] then do
      pure ⟨ps.map Prod.snd, ← f.body.mapM (readMainStatement lib)⟩
    else none
  | [] => none

/-- The function with a given name in files. -/
def findFunction (files : List (PyStr × PyStr)) (name : PyStr) : Option CppFunction :=
  (files.filterMap fun f => (readFile f.2).map Prod.snd).find? fun f => decide (f.name = name)

/-- A set of files as a program: the function `func`; the functions it calls are found in the files. -/
def readProject (func : PyStr) (files : List (PyStr × PyStr)) : Option MainFunction := do
  let main ← findFunction files func
  readMainFunction (fun n => do readBlockFunction func (← findFunction files n)) main

/-- A header file: the names and parameters of the declared functions. -/
def readHeader (text : PyStr) : Option (List (PyStr × List (PyStr × PyStr))) := do (← statements (lexemes text)).mapM readDeclaration

/-- The header that belongs to a class: `mrdsrg-so/ns.h` with the name of the class in lower case. -/
def includePath (ns : PyStr) : PyStr := ['m', 'r', 'd', 's', 'r', 'g', '-', 's', 'o', '/'] ++ ns.map Char.toLower ++ ['.', 'h']

end Dsrg

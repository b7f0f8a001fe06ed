import Verif.Model.AmbitText
import Verif.Model.DirectT3

/-!
The files written by write_forte_functions.py.
-/

namespace Dsrg

/-! ### Strings -/

/-- `s.split(c)` for a single character. -/
def pySplit (c : Char) : PyStr → List PyStr
  | [] => [[]]
  | x :: s =>
    if x = c then [] :: pySplit c s
    else match pySplit c s with
      | [] => [[x]]
      | w :: ws => (x :: w) :: ws

/-- `str.isspace` on one character (ASCII). -/
def isSpaceChar (c : Char) : Bool := c = ' ' || c = '\n' || c = '\t' || c = '\r' || c = '\x0b' || c = '\x0c'

/-- `s.strip()`. -/
def pyStrip (s : PyStr) : PyStr := (((s.dropWhile isSpaceChar).reverse).dropWhile isSpaceChar).reverse

/-- `s.lower()` (ASCII). -/
def pyLower (s : PyStr) : PyStr := s.map Char.toLower

/-- `re.sub(key, value, s)` for a key of letters and underscores and a value without backslashes: all occurrences from left to right are
replaced. -/
def pySub (key value : PyStr) (s : PyStr) : PyStr :=
  match s with
  | [] => []
  | c :: r => if key ≠ [] ∧ key.isPrefixOf (c :: r) then value ++ pySub key value (r.drop (key.length - 1)) else c :: pySub key value r
termination_by s.length
decreasing_by
  · simp only [List.length_drop, List.length_cons]; omega
  · simp

/-- `multi_gsub`, helper/file_utils.py:6-9. -/
def multiGsub (subs : List (PyStr × PyStr)) (s : PyStr) : PyStr := subs.foldl (fun s kv => pySub kv.1 kv.2 s) s

/-! ### Templates -/

/-- `HEADERS`. -/
def headersKey : PyStr := ['H', 'E', 'A', 'D', 'E', 'R', 'S']

/-- `CPP_FUNCTIONS`. -/
def functionsKey : PyStr := ['C', 'P', 'P', '_', 'F', 'U', 'N', 'C', 'T', 'I', 'O', 'N', 'S']

/-- forte_templates/ambit_template:2-6. -/
def templateMiddle : PyStr :=
  ['\n', '\n', 'u', 's', 'i', 'n', 'g', ' ', 'n', 'a', 'm', 'e', 's', 'p', 'a', 'c', 'e', ' ', 'p', 's', 'i', ';', '\n', '\n',
   'n', 'a', 'm', 'e', 's', 'p', 'a', 'c', 'e', ' ', 'f', 'o', 'r', 't', 'e', ' ', '{', '\n', '\n']

/-- forte_templates/ambit_template:8-9. -/
def templateEnd : PyStr := ['\n', '\n', '}', ' ', '/', '/', ' ', 'n', 'a', 'm', 'e', 's', 'p', 'a', 'c', 'e', ' ', 'f', 'o', 'r', 't', 'e']

/-- forte_templates/ambit_template. -/
def ambitTemplate : PyStr := headersKey ++ templateMiddle ++ functionsKey ++ templateEnd

/-- `f'#include "mrdsrg-so/{namespace}.h"'.lower()`, write_forte_functions.py:86, 149, 193. -/
def headerText (ns : PyStr) : PyStr :=
  pyLower (['#', 'i', 'n', 'c', 'l', 'u', 'd', 'e', ' ', '"', 'm', 'r', 'd', 's', 'r', 'g', '-', 's', 'o', '/'] ++ ns ++ ['.', 'h', '"'])

/-- write_forte_functions.py:85-86, 147-149. -/
def fillTemplate (ns code : PyStr) : PyStr := multiGsub [(headersKey, headerText ns), (functionsKey, code)] ambitTemplate

/-! ### Block functions -/

/-- `indent = "\n    "`. -/
def indentText : PyStr := ['\n', ' ', ' ', ' ', ' ']

/-- `BlockedTensor temp;`, write_forte_functions.py:66, 143. -/
def declareText : PyStr := ['B', 'l', 'o', 'c', 'k', 'e', 'd', 'T', 'e', 'n', 's', 'o', 'r', ' ', 't', 'e', 'm', 'p', ';']

/-- `temp.zero();\n`, write_forte_functions.py:130, 181. -/
def zeroText : PyStr := ['t', 'e', 'm', 'p', '.', 'z', 'e', 'r', 'o', '(', ')', ';', '\n']

/-- `indent + indent.join(ambit.split('\n')).strip()`, write_forte_functions.py:133-134, 184-185. -/
def indented (ambit : PyStr) : PyStr := indentText ++ pyStrip (joinWith indentText (pySplit '\n' ambit))

/-- The terms of one bucket, write_forte_functions.py:122-134 and 177-185; `pre` is written before the code of the first term. -/
def blockTermsText (limit : ℚ → Nat → ℚ) (pre : PyStr) : List Term → Except PyErr PyStr
  | [] => .ok []
  | [t] => do pure (indented (pre ++ (← t.ambitText limit ['C'] false false true)))
  | t :: t' :: rest => do
    let a ← t.ambitText limit ['C'] true false true
    let b ← blockTermsText limit [] (t' :: rest)
    pure (indented (pre ++ a) ++ b)

/-- The statements of a block, write_forte_functions.py:117-135 and 172-186; the flag is `initiate_temp`. -/
def blockBodyText (limit : ℚ → Nat → ℚ) (block : PyStr) : Bool → List (List (List (List Index)) × List Term) → Except PyErr PyStr
  | _, [] => .ok []
  | initiate, e :: rest => do
    let pre := if e.1 = [] then [] else if initiate then buildText block else zeroText
    let code ← blockTermsText limit pre e.2
    let more ← blockBodyText limit block (initiate && decide (e.1 = [])) rest
    pure (code ++ ['\n'] ++ more)

/-- The name of a block in file and function names, write_forte_functions.py:108-109. -/
def blockText (block : List Space) : PyStr := if block = [] then ['0'] else block.map Space.toChar

/-- `BlockedTensor& `. -/
def tensorRef : PyStr := ['B', 'l', 'o', 'c', 'k', 'e', 'd', 'T', 'e', 'n', 's', 'o', 'r', '&', ' ']

/-- `double& `. -/
def doubleRef : PyStr := ['d', 'o', 'u', 'b', 'l', 'e', '&', ' ']

/-- `C0`. -/
def scalarName : PyStr := ['C', '0']

/-- `tensor_types[i] + '& ' + i`, write_forte_functions.py:21, 41. -/
def paramText (x : PyStr) : PyStr := if x = scalarName then doubleRef ++ x else tensorRef ++ x

/-- `void ns::name(footprint) {`, write_forte_functions.py:44 and 141. -/
def functionHead (ns name footprint : PyStr) : PyStr := ['v', 'o', 'i', 'd', ' '] ++ ns ++ [':', ':'] ++ name ++ ['('] ++ footprint ++ [')', ' ', '{']

/-- What `save_terms_blocks_ambit_function` writes and returns: the file, the call and the declaration. -/
structure BlockFile where
  tensors : List PyStr
  file : PyStr × PyStr
  call : PyStr
  declare : PyStr
  deriving DecidableEq, Repr

/-- `save_terms_blocks_ambit_function`, write_forte_functions.py:96-156. -/
def blockFile (limit : ℚ → Nat → ℚ) (block : List Space) (permTerms : List (List (List (List Index)) × List Term)) (func ns dir : PyStr) :
    Except PyErr BlockFile := do
  let target := 'C' :: natStr (block.length / 2)
  let b := blockText block
  let names ← (permTerms.flatMap fun e => e.2.flatMap Term.tensors).mapM Tensor.forteName
  let out ← blockBodyText limit b true permTerms
  let tensors ← sortNames names
  let footprint := joinWith [',', ' '] (tensors.map fun i => tensorRef ++ i) ++ [',', ' '] ++ (if target = scalarName then doubleRef ++ scalarName else tensorRef ++ target)
  let head := functionHead ns (func ++ ['_'] ++ b) footprint
  let head := if permTerms.any fun e => decide (e.1 ≠ []) then head ++ indentText ++ declareText ++ ['\n'] else head
  pure { tensors := tensors,
         file := (dir ++ ['/'] ++ func ++ ['_'] ++ b ++ ['.', 'c', 'c'], fillTemplate ns (head ++ out ++ ['}'])),
         call := func ++ ['_'] ++ b ++ ['('] ++ joinWith [',', ' '] (tensors ++ [target]) ++ [')', ';'],
         declare := ['v', 'o', 'i', 'd', ' '] ++ func ++ ['_'] ++ b ++ ['('] ++ footprint ++ [')', ';'] }

/-! ### The main function -/

/-- `','.join(f'g{i}' for i in range(a, b))`, write_forte_functions.py:60-61. -/
def generalText (a b : Nat) : PyStr := joinWith [','] ((List.range' a (b - a)).map fun i => 'g' :: natStr i)

/-- `f'{name}["{first},{second}"]'`. -/
def namedBracket (name first second : PyStr) : PyStr := name ++ bracketText first second

/-- `prefix`, write_forte_functions.py:48-53 (the statements in `scale` are not used by the code). -/
def zeroTargetText (n : Nat) : PyStr :=
  if n = 0 then ['C', '0', ' ', '=', ' ', '0', '.', '0', ';'] else ('C' :: natStr n) ++ ['.', 'z', 'e', 'r', 'o', '(', ')', ';']

/-- `suffix` for one target, write_forte_functions.py:58-75. -/
def transposeText (destroy : Bool) (n : Nat) : List PyStr :=
  let i := 'C' :: natStr n
  let upper := generalText 0 n
  let lower := generalText n (2 * n)
  if n = 0 then ['C', '0', ' ', '*', '=', ' ', '2', '.', '0', ';'] :: if destroy then [] else [declareText]
  else
    let name := if destroy then 'H' :: natStr n else tempName
    (if destroy then [] else [(buildText (List.replicate (2 * n) 'g')).dropLast]) ++
      [namedBracket name upper lower ++ [' ', '=', ' '] ++ namedBracket i upper lower ++ [';'],
       namedBracket i upper lower ++ [' ', '+', '=', ' '] ++ namedBracket name lower upper ++ [';']]

/-- `save_terms_ambit_functions`, write_forte_functions.py:6-93: the names and contents of the files, in the order in which they are written.
Targets are named by their ranks, as in `forteMain`. -/
def forteFiles (limit : ℚ → Nat → ℚ) (terms : List Term) (func ns dir : PyStr) (addTDagger destroyH : Bool) : Except PyErr (List (PyStr × PyStr)) := do
  let blocks ← categorizeContractions terms
  let parts ← blocks.mapM fun e => blockFile limit e.1 e.2 func ns dir
  let used := parts.flatMap BlockFile.tensors
  let ranks := ((blocks.map fun e => e.1.length / 2).dedup).insertionSort (· ≤ ·)
  let destroy := destroyH && !(ranks.any fun n => decide (n ≠ 0) && !decide (('H' :: natStr n) ∈ used))
  let tensors ← sortNames used
  let targets ← sortNames (ranks.map fun n => 'C' :: natStr n)
  let footprint := ['d', 'o', 'u', 'b', 'l', 'e', ' ', 'f', 'a', 'c', 't', 'o', 'r', ',', ' '] ++ joinWith [',', ' '] ((tensors ++ targets).map paramText)
  let suffix := if addTDagger then ranks.flatMap (transposeText destroy) else []
  let code := functionHead ns func footprint ++ indentText ++ joinWith indentText (ranks.map zeroTargetText) ++ ['\n'] ++ indentText ++
    joinWith indentText (parts.map BlockFile.call) ++ ['\n'] ++ (if suffix ≠ [] then indentText else []) ++ joinWith indentText suffix ++ ['\n', '}']
  pure (parts.map BlockFile.file ++
    [(dir ++ ['/'] ++ func ++ ['.', 'c', 'c'], fillTemplate ns code),
     (dir ++ ['/'] ++ func ++ ['_', 'f', 'u', 'n', 'c', 't', 'i', 'o', 'n', 's', '.', 'h'],
      ['v', 'o', 'i', 'd', ' '] ++ func ++ ['('] ++ footprint ++ [')', ';', '\n'] ++ joinWith ['\n'] (parts.map BlockFile.declare))])

/-! ### Direct T3 -/

/-- `NAMESPACE`. -/
def namespaceKey : PyStr := ['N', 'A', 'M', 'E', 'S', 'P', 'A', 'C', 'E']

/-- `FUNC_NAME`. -/
def funcNameKey : PyStr := ['F', 'U', 'N', 'C', '_', 'N', 'A', 'M', 'E']

/-- `FUNC_VARIABLES`. -/
def variablesKey : PyStr := ['F', 'U', 'N', 'C', '_', 'V', 'A', 'R', 'I', 'A', 'B', 'L', 'E', 'S']

/-- `CPP_EXPRESSIONS`. -/
def expressionsKey : PyStr := ['C', 'P', 'P', '_', 'E', 'X', 'P', 'R', 'E', 'S', 'S', 'I', 'O', 'N', 'S']

/-- forte_templates/direct_t3_template:1-7, between `HEADERS` and `NAMESPACE`. -/
def t3Text1 : PyStr :=
  ['\n', '\n', 'u', 's', 'i', 'n', 'g', ' ', 'n', 'a', 'm', 'e', 's', 'p', 'a', 'c', 'e', ' ', 'p', 's', 'i', ';', '\n', '\n', 'n', 'a',
   'm', 'e', 's', 'p', 'a', 'c', 'e', ' ', 'f', 'o', 'r', 't', 'e', ' ', '{', '\n', '\n', 'v', 'o', 'i', 'd', ' ']

/-- forte_templates/direct_t3_template:7, between `FUNC_NAME` and `FUNC_VARIABLES`. -/
def t3Text2 : PyStr := ['_', 'd', 'i', 'r', 'e', 'c', 't', '_', 't', '3', '(']

/-- forte_templates/direct_t3_template:7-11, between `FUNC_VARIABLES` and `CPP_EXPRESSIONS`. -/
def t3Text3 : PyStr :=
  [')', ' ', '{', '\n', ' ', ' ', ' ', ' ', 'B', 'l', 'o', 'c', 'k', 'e', 'd', 'T', 'e', 'n', 's', 'o', 'r', ' ', 'C', '3', ' ', '=',
   ' ', 'a', 'm', 'b', 'i', 't', ':', ':', 'B', 'l', 'o', 'c', 'k', 'e', 'd', 'T', 'e', 'n', 's', 'o', 'r', ':', ':', 'b', 'u', 'i', 'l',
   'd', '(', 'a', 'm', 'b', 'i', 't', ':', ':', 'C', 'o', 'r', 'e', 'T', 'e', 'n', 's', 'o', 'r', ',', ' ', '"', 'T', '3', ' ', 'n', 'e',
   'w', '"', ',', ' ', '{', '"', 'c', 'c', 'c', 'v', 'v', 'v', '"', '}', ')', ';', '\n', ' ', ' ', ' ', ' ', 'B', 'l', 'o', 'c', 'k', 'e',
   'd', 'T', 'e', 'n', 's', 'o', 'r', ' ', 't', 'e', 'm', 'p', ' ', '=', ' ', 'a', 'm', 'b', 'i', 't', ':', ':', 'B', 'l', 'o', 'c', 'k',
   'e', 'd', 'T', 'e', 'n', 's', 'o', 'r', ':', ':', 'b', 'u', 'i', 'l', 'd', '(', 'a', 'm', 'b', 'i', 't', ':', ':', 'C', 'o', 'r', 'e',
   'T', 'e', 'n', 's', 'o', 'r', ',', ' ', '"', 't', 'e', 'm', 'p', '"', ',', ' ', '{', '"', 'c', 'c', 'c', 'v', 'v', 'v', '"', '}', ')',
   ';', '\n', '\n', ' ', ' ', ' ', ' ']

/-- forte_templates/direct_t3_template:11-34, after `CPP_EXPRESSIONS`. -/
def t3Text4 : PyStr :=
  ['\n', '\n', ' ', ' ', ' ', ' ', 'C', '3', '.', 'i', 't', 'e', 'r', 'a', 't', 'e', '(', '[', '&', ']', '(', 'c', 'o', 'n', 's', 't',
   ' ', 's', 't', 'd', ':', ':', 'v', 'e', 'c', 't', 'o', 'r', '<', 's', 'i', 'z', 'e', '_', 't', '>', '&', ' ', 'i', ',', ' ', 'c', 'o',
   'n', 's', 't', ' ', 's', 't', 'd', ':', ':', 'v', 'e', 'c', 't', 'o', 'r', '<', 'S', 'p', 'i', 'n', 'T', 'y', 'p', 'e', '>', '&', ',',
   ' ', 'd', 'o', 'u', 'b', 'l', 'e', '&', ' ', 'v', 'a', 'l', 'u', 'e', ')', ' ', '{', '\n', ' ', ' ', ' ', ' ', ' ', ' ', ' ', ' ', 'v',
   'a', 'l', 'u', 'e', ' ', '*', '=', ' ', 'r', 'e', 'n', 'o', 'r', 'm', 'a', 'l', 'i', 'z', 'e', 'd', '_', 'd', 'e', 'n', 'o', 'm', 'i',
   'n', 'a', 't', 'o', 'r', '(', 'F', 'd', '[', 'i', '[', '0', ']', ']', ' ', '+', ' ', 'F', 'd', '[', 'i', '[', '1', ']', ']', ' ', '+',
   ' ', 'F', 'd', '[', 'i', '[', '2', ']', ']', ' ', '-', ' ', 'F', 'd', '[', 'i', '[', '3', ']', ']', ' ', '-', ' ', 'F', 'd', '[', 'i',
   '[', '4', ']', ']', ' ', '-', '\n', ' ', ' ', ' ', ' ', ' ', ' ', ' ', ' ', ' ', ' ', ' ', ' ', ' ', ' ', ' ', ' ', ' ', ' ', ' ', ' ',
   ' ', ' ', ' ', ' ', ' ', ' ', ' ', ' ', ' ', ' ', ' ', ' ', ' ', ' ', ' ', ' ', ' ', ' ', ' ', ' ', ' ', ' ', 'F', 'd', '[', 'i', '[',
   '5', ']', ']', ')', ';', '\n', ' ', ' ', ' ', ' ', '}', ')', ';', '\n', '\n', ' ', ' ', ' ', ' ', 't', 'e', 'm', 'p', '[', '"', 'i',
   'j', 'k', 'a', 'b', 'c', '"', ']', ' ', '=', ' ', 'T', '3', '[', '"', 'i', 'j', 'k', 'a', 'b', 'c', '"', ']', ';', '\n', '\n', ' ',
   ' ', ' ', ' ', 'T', '3', '.', 'i', 't', 'e', 'r', 'a', 't', 'e', '(', '[', '&', ']', '(', 'c', 'o', 'n', 's', 't', ' ', 's', 't', 'd',
   ':', ':', 'v', 'e', 'c', 't', 'o', 'r', '<', 's', 'i', 'z', 'e', '_', 't', '>', '&', ' ', 'i', ',', ' ', 'c', 'o', 'n', 's', 't', ' ',
   's', 't', 'd', ':', ':', 'v', 'e', 'c', 't', 'o', 'r', '<', 'S', 'p', 'i', 'n', 'T', 'y', 'p', 'e', '>', '&', ',', ' ', 'd', 'o', 'u',
   'b', 'l', 'e', '&', ' ', 'v', 'a', 'l', 'u', 'e', ')', ' ', '{', '\n', ' ', ' ', ' ', ' ', ' ', ' ', ' ', ' ', 'd', 'o', 'u', 'b', 'l',
   'e', ' ', 'd', 'e', 'l', 't', 'a', ' ', '=', ' ', 'F', 'd', '[', 'i', '[', '0', ']', ']', ' ', '+', ' ', 'F', 'd', '[', 'i', '[', '1',
   ']', ']', ' ', '+', ' ', 'F', 'd', '[', 'i', '[', '2', ']', ']', ' ', '-', ' ', 'F', 'd', '[', 'i', '[', '3', ']', ']', ' ', '-', ' ',
   'F', 'd', '[', 'i', '[', '4', ']', ']', ' ', '-', ' ', 'F', 'd', '[', 'i', '[', '5', ']', ']', ';', '\n', ' ', ' ', ' ', ' ', ' ', ' ',
   ' ', ' ', 'v', 'a', 'l', 'u', 'e', ' ', '*', '=', ' ', 's', 't', 'd', ':', ':', 'e', 'x', 'p', '(', '-', 's', '_', ' ', '*', ' ', 'd',
   'e', 'l', 't', 'a', ' ', '*', ' ', 'd', 'e', 'l', 't', 'a', ')', ';', '\n', ' ', ' ', ' ', ' ', '}', ')', ';', '\n', '\n', ' ', ' ',
   ' ', ' ', 'C', '3', '[', '"', 'i', 'j', 'k', 'a', 'b', 'c', '"', ']', ' ', '-', '=', ' ', 'T', '3', '[', '"', 'i', 'j', 'k', 'a', 'b',
   'c', '"', ']', ';', '\n', ' ', ' ', ' ', ' ', 'r', 'm', 's', '_', 't', '3', ' ', '=', ' ', 'C', '3', '.', 'n', 'o', 'r', 'm', '(', ')',
   ';', '\n', '\n', ' ', ' ', ' ', ' ', 'T', '3', '[', '"', 'i', 'j', 'k', 'a', 'b', 'c', '"', ']', ' ', '=', ' ', 'C', '3', '[', '"',
   'i', 'j', 'k', 'a', 'b', 'c', '"', ']', ' ', '+', ' ', 't', 'e', 'm', 'p', '[', '"', 'i', 'j', 'k', 'a', 'b', 'c', '"', ']', ';', '\n',
   '\n', ' ', ' ', ' ', ' ', '/', '/', ' ', 'n', 'o', 'r', 'm', ' ', 'a', 'n', 'd', ' ', 'm', 'a', 'x', '\n', ' ', ' ', ' ', ' ', 'T',
   '3', 'm', 'a', 'x', ' ', '=', ' ', 'T', '3', '.', 'n', 'o', 'r', 'm', '(', '0', ')', ',', ' ', 'T', '3', 'n', 'o', 'r', 'm', ' ', '=',
   ' ', 'T', '3', '.', 'n', 'o', 'r', 'm', '(', ')', ';', '\n', '}', '\n', '\n', '}', ' ', '/', '/', ' ', 'n', 'a', 'm', 'e', 's', 'p',
   'a', 'c', 'e', ' ', 'f', 'o', 'r', 't', 'e']

/-- forte_templates/direct_t3_template. -/
def directT3Template : PyStr :=
  headersKey ++ t3Text1 ++ namespaceKey ++ [':', ':'] ++ funcNameKey ++ t3Text2 ++ variablesKey ++ t3Text3 ++ expressionsKey ++ t3Text4

/-- The text of the file written by `save_direct_t3`, write_forte_functions.py:159-197. -/
def directT3Text (limit : ℚ → Nat → ℚ) (permTerms : List (List (List (List Index)) × List Term)) (func ns : PyStr) : Except PyErr PyStr := do
  let names ← (permTerms.flatMap fun e => e.2.flatMap Term.tensors).mapM Tensor.forteName
  let code ← blockBodyText limit [] false permTerms
  let vars := joinWith [',', ' '] ((names.dedup.insertionSort (· ≤ ·)).map fun i => tensorRef ++ i)
  pure (multiGsub [(headersKey, headerText ns), (namespaceKey, ns), (funcNameKey, func), (variablesKey, vars), (expressionsKey, code)] directT3Template)

end Dsrg

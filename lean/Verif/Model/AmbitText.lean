import Verif.Model.Latex
import Verif.Model.Forte

/-!
The text of the generated code (IndicesPair.py:130-140, Tensor.py:119-127, Term.py:357-408, phys_op_contraction.py:471-484).
-/

namespace Dsrg

/-- `Indices.ambit`, Indices.py:245-247: the names of the labels with commas. -/
def Indices.ambitText (x : Indices) : PyStr := joinWith [','] (x.list.map Index.name)

/-- `f'["{first},{second}"]'`, IndicesPair.py:139-140 and SQOperator.py:156. -/
def bracketText (first second : PyStr) : PyStr := ['[', '"'] ++ first ++ [','] ++ second ++ ['"', ']']

/-- `IndicesPair.ambit`, IndicesPair.py:130-140. -/
def IndicesPair.ambitText (x : IndicesPair) (upperFirst : Bool) : PyStr :=
  if x.isEmpty then []
  else if !upperFirst then bracketText x.lower.ambitText x.upper.ambitText
  else bracketText x.upper.ambitText x.lower.ambitText

/-- `Tensor.ambit`, Tensor.py:119-127; cluster amplitudes pass `upper_first = self._excitation`, Tensor.py:302-303. -/
def Tensor.ambitText (x : Tensor) : PyStr :=
  x.arrayName ++ x.pair.ambitText (if x.cls = .cluster then x.excitation else true)

/-- The comment, Term.py:369. -/
def commentText : PyStr :=
  ['/', '/', ' ', 'E', 'r', 'r', 'o', 'r', ':', ' ', 'd', 'i', 'a', 'g', 'o', 'n', 'a', 'l', ' ', 'i', 'n', 'd', 'i', 'c', 'e', 's', ' ', 'a', 'r', 'e', ' ', 'n', 'o', 't', ' ',
   's', 'u', 'p', 'p', 'o', 'r', 't', 'e', 'd', ' ', 'b', 'y', ' ', 'a', 'm', 'b', 'i', 't', '.', '\n']

/-- `f'temp = ambit::BlockedTensor::build(ambit::CoreTensor, "temp", {{"{space_str}"}});\n'`, Term.py:393 and
write_forte_functions.py:128. -/
def buildText (spaces : PyStr) : PyStr :=
  ['t', 'e', 'm', 'p', ' ', '=', ' ', 'a', 'm', 'b', 'i', 't', ':', ':', 'B', 'l', 'o', 'c', 'k', 'e', 'd', 'T', 'e', 'n', 's', 'o', 'r', ':', ':', 'b', 'u', 'i', 'l', 'd', '(',
   'a', 'm', 'b', 'i', 't', ':', ':', 'C', 'o', 'r', 'e', 'T', 'e', 'n', 's', 'o', 'r', ',', ' ', '"', 't', 'e', 'm', 'p', '"', ',', ' ', '{', '"'] ++ spaces ++
  ['"', '}', ')', ';', '\n']

/-- `f"{lhs} += {coeff_str} * {tensors_str};"`, Term.py:384, 388, 399, 403 and 408; `plus` is the sign. -/
def updateText (lhs : PyStr) (plus : Bool) (coeff tensors : PyStr) : PyStr :=
  lhs ++ [' ', if plus then '+' else '-', '=', ' '] ++ coeff ++ [' ', '*', ' '] ++ tensors ++ [';']

/-- `Term.ambit`, Term.py:357-408, as text.  The coefficient is exact here (a floating-point number in the code); `limit` is as in
`formatCoeff`. -/
def Term.ambitText (limit : ℚ → Nat → ℚ) (t : Term) (name : PyStr) (ignore initTemp declared : Bool) : Except PyErr PyStr := do
  let op := t.sqOp
  let out := if t.diag.card ≠ 0 then commentText else []
  let factor := op.upper.size.factorial * op.lower.size.factorial
  let p := t.permPartitionOpen
  let n ← op.nMultisetPermutation p.1 p.2
  let coeff := formatCoeff limit (t.coeff * (factor : ℚ) / (n : ℚ)) true
  let tensors := joinWith [' ', '*', ' '] (t.tensors.map Tensor.ambitText)
  let realName := targetName name op
  let labels := IndicesPair.ambitText op false
  if !(← op.existPermuteFormat p.1 p.2) then pure (out ++ updateText (realName ++ labels) true coeff tensors)
  else if !(ignore || initTemp || declared) then pure (out ++ updateText (realName ++ labels) true coeff tensors ++ ['\n'])
  else
    let out := if initTemp then out ++ buildText ((op.lower.list.map fun i => i.space.toChar) ++ op.upper.list.map fun i => i.space.toChar) else out
    let declared := initTemp || declared
    let tName := if declared then tempName else realName
    if ignore then pure (out ++ updateText (tName ++ labels) true coeff tensors)
    else do
      let rows ← op.permuteIndices p.1 p.2 false
      let lhs (r : Int × List Index × List Index) : PyStr :=
        realName ++ bracketText (joinWith [','] (r.2.1.map Index.name)) (joinWith [','] (r.2.2.map Index.name))
      if declared then
        pure (out ++ updateText (tempName ++ labels) true coeff tensors ++ ['\n'] ++
          (rows.map fun r => lhs r ++ [' ', if r.1 = 1 then '+' else '-', '=', ' '] ++ tempName ++ labels ++ [';', '\n']).flatten)
      else pure (out ++ (rows.map fun r => updateText (lhs r) (decide (r.1 = 1)) coeff tensors).flatten)

/-- The lines printed for one bucket, phys_op_contraction.py:479-482. -/
def ambitTermsText (limit : ℚ → Nat → ℚ) (init : Bool) : List Term → Except PyErr PyStr
  | [] => .ok []
  | [t] => do pure ((← t.ambitText limit ['C'] false init true) ++ ['\n'])
  | t :: t' :: rest => do
    let a ← t.ambitText limit ['C'] true init true
    let b ← ambitTermsText limit false (t' :: rest)
    pure (a ++ ['\n'] ++ b)

/-- What `print_terms_ambit` prints, phys_op_contraction.py:471-484. -/
def printTermsAmbitText (limit : ℚ → Nat → ℚ) (terms : List Term) : Except PyErr PyStr := do
  let blocks ← categorizeContractions terms
  let parts ← blocks.mapM fun e => do
    let ps ← e.2.mapM fun f => do
      let text ← ambitTermsText limit true f.2
      pure (if f.1 = [] then text ++ ['\n'] else text)
    pure ps.flatten
  pure parts.flatten

end Dsrg

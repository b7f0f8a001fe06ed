import Verif.Model.Forte

/-!
The function for three-body amplitudes (write_forte_functions.py:159-197 and forte_templates/direct_t3_template).
-/

namespace Dsrg

/-- The statements of the template after the expressions, forte_templates/direct_t3_template:13-32: `X.iterate(... value *=
renormalized_denominator(delta))`, `X.iterate(... value *= std::exp(-s_ * delta * delta))`, `X["ijkabc"] = Y["ijkabc"] + ...`,
`X["ijkabc"] -= Y["ijkabc"]` and `rms_t3 = X.norm()`.  The statement that stores the norm and the largest element of `T3` is not represented. -/
inductive T3Stmt
  | renormalize (name : PyStr)
  | damp (name : PyStr)
  | assign (dst : PyStr) (srcs : List PyStr)
  | subtract (dst src : PyStr)
  | rms (name : PyStr)
  deriving DecidableEq, Repr

/-- The array that holds the amplitudes. -/
def t3Name : PyStr := ['T', '3']

/-- The array of the new amplitudes, which is local to the function. -/
def c3Name : PyStr := ['C', '3']

/-- forte_templates/direct_t3_template:13-29. -/
def t3Template : List T3Stmt :=
  [.renormalize c3Name, .assign tempName [t3Name], .damp t3Name, .subtract c3Name t3Name, .rms c3Name, .assign t3Name [c3Name, tempName]]

/-- The function: parameters, the statements of the terms, and the statements of the template. -/
structure DirectT3 where
  params : List PyStr
  body : List AmbitStmt
  update : List T3Stmt
  deriving DecidableEq, Repr

/-- `save_direct_t3`, write_forte_functions.py:159-197, without the file operations.  The local arrays `C3` and `temp` are declared by the
template; each bucket with permutations begins with `temp.zero()`. -/
def directT3 (permTerms : List (List (List (List Index)) × List Term)) : Except PyErr DirectT3 := do
  let names ← (permTerms.flatMap fun e => e.2.flatMap Term.tensors).mapM Tensor.forteName
  let body ← blockBody [] false permTerms
  pure { params := names.dedup.insertionSort (· ≤ ·), body := body, update := t3Template }

end Dsrg

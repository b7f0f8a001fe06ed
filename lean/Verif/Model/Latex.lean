import Verif.Model.Ambit
import Verif.Model.Format

/-!
Model of the LaTeX output (`dsrg_generator/Term.py`, `Indices.py`, `SQOperator.py`, `phys_op_contraction.py`).
-/

namespace Dsrg

/-- `sep.join(strings)`. -/
def joinWith (sep : PyStr) : List PyStr → PyStr
  | [] => []
  | [s] => s
  | s :: rest => s ++ sep ++ joinWith sep rest

/-- The text `{\cal P} ( i j / k )` of a partition, Indices.py:468-469. -/
def partitionText (part : List (List Index)) : PyStr :=
  ['{', '\\', 'c', 'a', 'l', ' ', 'P', '}', ' ', '(', ' '] ++ joinWith [' ', '/', ' '] (part.map fun g => joinWith [' '] (g.map Index.latex)) ++ [' ', ')']

/-- `Indices.latex_permute_format`, Indices.py:318-325, 457-469. -/
def Indices.latexPermuteText (x : Indices) (part : List (List Index)) : Except PyErr (Nat × PyStr) := do
  x.isValidPartition part
  if x.ty.isAntisym then
    let n ← x.nMultisetPermutation part
    if n = 1 then pure (1, []) else pure (n, partitionText part)
  else pure (1, [])

/-- `SecondQuantizedOperator.latex_permute_format`, SQOperator.py:107-119. -/
def SqOp.latexPermuteText (x : SqOp) (pCre pAnn : List (List Index)) : Except PyErr (Nat × PyStr × PyStr) :=
  if x.isEmpty then .ok (1, [], [])
  else do
    let a ← x.upper.latexPermuteText pCre
    let b ← x.lower.latexPermuteText pAnn
    let white := if a.2 ≠ [] ∧ b.2 ≠ [] then [' '] else []
    pure (a.1 * b.1, a.2 ++ white ++ b.2, SqOp.latex x)

/-- `Term.latex`, Term.py:325-355.  The coefficient divided by the number of permutations is exact here (a floating-point number in the
code); `limit` is as in `formatCoeff`. -/
def Term.latex (limit : ℚ → Nat → ℚ) (t : Term) (dollar permute delimiter backslash : Bool) : Except PyErr PyStr := do
  let tensors := ' ' :: joinWith [' '] (t.tensors.map Tensor.latex)
  let p := t.permPartitionOpen
  let (n, perm, op) ← if permute then t.sqOp.latexPermuteText p.1 p.2 else pure (1, [], SqOp.latex t.sqOp)
  let coeff := formatCoeff limit (t.coeff / (n : ℚ)) false
  let coeff := if delimiter then coeff ++ [' ', '&'] else coeff
  let perm := if perm ≠ [] then ' ' :: perm else perm
  let op := if op ≠ [] then ' ' :: op else op
  let op := if backslash then op ++ [' ', '\\', '\\'] else op
  let out := coeff ++ perm ++ tensors ++ op
  pure (if dollar then '$' :: (out ++ ['$']) else out)

/-- The lines of one list of terms, phys_op_contraction.py:496-499. -/
def latexLines (limit : ℚ → Nat → ℚ) : List Term → Except PyErr PyStr
  | [] => .ok []
  | t :: rest => do
    let line ← t.latex limit false true true (!rest.isEmpty)
    let more ← latexLines limit rest
    pure (line ++ '\n' :: more)

/-- The lines of a block, phys_op_contraction.py:495-500. -/
def latexBlock (limit : ℚ → Nat → ℚ) (perms : List (List Term)) : Except PyErr PyStr := do
  let ls ← perms.mapM (latexLines limit)
  pure (['\\', 'b', 'e', 'g', 'i', 'n', '{', 'a', 'l', 'i', 'g', 'n', '}', '\n'] ++ ls.flatten ++ ['\\', 'e', 'n', 'd', '{', 'a', 'l', 'i', 'g', 'n', '}', '\n', '\n'])

/-- `print_terms_latex`, phys_op_contraction.py:487-500: the text written. -/
def printTermsLatex (limit : ℚ → Nat → ℚ) (terms : List Term) : Except PyErr PyStr := do
  let blocks ← categorizeContractions terms
  let bs ← blocks.mapM fun e => latexBlock limit (e.2.map Prod.snd)
  pure bs.flatten

end Dsrg

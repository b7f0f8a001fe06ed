import Verif.Model.Ambit

/-!
Printed programs and generated C++ functions (phys_op_contraction.py:471-484, write_forte_functions.py:6-156).

The text of a function is represented by its parameters and its statements.
-/

namespace Dsrg

/-- The code of the terms of one bucket: all but the last term only fill `temp`, the last one also distributes it,
phys_op_contraction.py:480-482 (`init = true`) and write_forte_functions.py:122-134 (`init = false`). -/
def ambitTerms (init : Bool) : List Term → Except PyErr (List AmbitStmt)
  | [] => .ok []
  | [t] => t.ambit ['C'] false init true
  | t :: t' :: rest => do
    let a ← t.ambit ['C'] true init true
    let b ← ambitTerms false (t' :: rest)
    pure (a ++ b)

/-- `print_terms_ambit`, phys_op_contraction.py:471-484 (blank lines are dropped). -/
def printTermsAmbit (terms : List Term) : Except PyErr (List AmbitStmt) := do
  let blocks ← categorizeContractions terms
  let parts ← blocks.mapM fun e => do
    let ps ← e.2.mapM fun f => ambitTerms true f.2
    pure ps.flatten
  pure parts.flatten

/-- `tensor_ordering`, write_forte_functions.py:18-20. -/
def tensorOrdering : List (PyStr × Nat) :=
  ((List.range' 1 9).map fun i => ('H' :: natStr i, i)) ++ ((List.range' 1 9).map fun i => ('T' :: natStr i, i + 100)) ++
    ((List.range 10).map fun i => ('C' :: natStr i, i + 200))

/-- `tensor_ordering[x]`. -/
def forteOrder (x : PyStr) : Except PyErr Nat :=
  match tensorOrdering.find? (fun e => e.1 = x) with
  | some e => .ok e.2
  | none => .error .keyError

/-- `sorted(set, key=lambda x: tensor_ordering[x])`: an unknown name raises `KeyError`; the keys of different names differ. -/
def sortNames (l : List PyStr) : Except PyErr (List PyStr) := do
  let keyed ← l.dedup.mapM fun x => do pure (← forteOrder x, x)
  pure ((keyed.insertionSort fun a b => a.1 ≤ b.1).map Prod.snd)

/-- `f"{tensor.name}{tensor.n_body}"`, write_forte_functions.py:120; `n_body` raises `ValueError` for unbalanced labels. -/
def Tensor.forteName (x : Tensor) : Except PyErr PyStr :=
  if x.upper.size ≠ x.lower.size then .error .valueError else .ok (x.name ++ natStr x.upper.size)

/-- A generated function for one block of spaces: parameters, whether a local `BlockedTensor temp` is declared, and the statements. -/
structure BlockFunction where
  block : List Space
  tensors : List PyStr
  target : PyStr
  declaresTemp : Bool
  body : List AmbitStmt
  deriving DecidableEq, Repr

/-- The statements of a block function, write_forte_functions.py:117-135.  The flag is `initiate_temp`. -/
def blockBody (block : List Space) : Bool → List (List (List (List Index)) × List Term) → Except PyErr (List AmbitStmt)
  | _, [] => .ok []
  | initiate, e :: rest => do
    let code ← ambitTerms false e.2
    if e.1 ≠ [] then
      let more ← blockBody block false rest
      pure ((if initiate then AmbitStmt.build block else AmbitStmt.zero) :: code ++ more)
    else
      let more ← blockBody block initiate rest
      pure (code ++ more)

/-- `save_terms_blocks_ambit_function`, write_forte_functions.py:96-156.  The buckets hold at least one term each. -/
def blockFunction (block : List Space) (permTerms : List (List (List (List Index)) × List Term)) : Except PyErr BlockFunction := do
  let names ← (permTerms.flatMap fun e => e.2.flatMap Term.tensors).mapM Tensor.forteName
  let body ← blockBody block true permTerms
  let tensors ← sortNames names
  pure { block := block, tensors := tensors, target := 'C' :: natStr (block.length / 2),
         declaresTemp := permTerms.any fun e => decide (e.1 ≠ []), body := body }

/-- The statements of the main function: `C0 = 0.0;` or `Cn.zero();`, `C0 *= factor;` or `Cn.scale(factor);`, a call of a block function, `C0 *= 2.0;`, `BlockedTensor temp;`,
`temp = ambit::BlockedTensor::build(...)`, `name["g0,..;..g(2n-1)"] = Cn["..."];`, and `Cn["upper,lower"] += name["lower,upper"];`. -/
inductive MainStmt
  | zero (name : PyStr)
  | scale (name : PyStr)
  | call (f : BlockFunction) (args : List PyStr)
  | double (name : PyStr)
  | declareTemp
  | buildTemp (n : Nat)
  | copy (dst src : PyStr) (n : Nat)
  | addTranspose (dst src : PyStr) (n : Nat)
  deriving DecidableEq, Repr

/-- The main function: parameters (after `double factor`) and statements. -/
structure MainFunction where
  params : List PyStr
  body : List MainStmt
  deriving DecidableEq, Repr

/-- The statements that add the transposed array of one target, write_forte_functions.py:58-75; `n` is `int(i[1:])`. -/
def transposeCode (destroy : Bool) (n : Nat) : List MainStmt :=
  let name := 'C' :: natStr n
  if n = 0 then [.double name] ++ (if destroy then [] else [.declareTemp])
  else if destroy then [.copy ('H' :: natStr n) name n, .addTranspose name ('H' :: natStr n) n]
  else [.buildTemp n, .copy tempName name n, .addTranspose name tempName n]

/-- `save_terms_ambit_functions`, write_forte_functions.py:6-93, without the file operations.  Targets are named by their ranks, which are
sorted; ranks above nine raise `KeyError`. -/
def forteMain (terms : List Term) (addTDagger destroyH : Bool) : Except PyErr MainFunction := do
  let blocks ← categorizeContractions terms
  let funcs ← blocks.mapM fun e => blockFunction e.1 e.2
  let used := funcs.flatMap BlockFunction.tensors
  let ranks := ((blocks.map fun e => e.1.length / 2).dedup).insertionSort (· ≤ ·)
  let destroy := destroyH && !(ranks.any fun n => decide (n ≠ 0) && !decide (('H' :: natStr n) ∈ used))
  let tensors ← sortNames used
  let targets ← sortNames (ranks.map fun n => 'C' :: natStr n)
  let pre := ranks.map fun n => MainStmt.zero ('C' :: natStr n)
  let _scale := ranks.map fun n => MainStmt.scale ('C' :: natStr n)
  let calls := funcs.map fun f => MainStmt.call f (f.tensors ++ [f.target])
  let suffix := if addTDagger then ranks.flatMap (transposeCode destroy) else []
  pure { params := tensors ++ targets, body := pre ++ calls ++ suffix }

end Dsrg

import Verif.Model.Term

/-!
Model of the comparison and hashing of terms (`dsrg_generator/Term.py`) and of `combine_terms`
(`dsrg_generator/phys_op_contraction.py`).
-/

namespace Dsrg

/-- `" ".join(strings)`. -/
def joinSpace : List PyStr → PyStr
  | [] => []
  | [s] => s
  | s :: rest => s ++ ' ' :: joinSpace rest

/-- `Indices.latex`, Indices.py:234-243 (without dollar). -/
def Indices.latex (x : Indices) : PyStr := '{' :: ' ' :: (joinSpace (x.list.map Index.latex) ++ [' ', '}'])

/-- `IndicesPair.latex`, IndicesPair.py:123-128. -/
def IndicesPair.latex (x : IndicesPair) : PyStr := '^' :: (x.upper.latex ++ '_' :: x.lower.latex)

/-- `Tensor.latex`, Tensor.py:108-117, which is `str(tensor)`. -/
def Tensor.latex (t : Tensor) : PyStr := t.name ++ t.pair.latex

/-- `SecondQuantizedOperator.latex`, SQOperator.py:47-56, which is `str(sq_op)`. -/
def SqOp.latex (op : SqOp) : PyStr := 'a' :: IndicesPair.latex op

/-- `hash_term`, Term.py:283-284. -/
def Term.hashTerm (t : Term) : PyStr := joinSpace (t.tensors.map Tensor.latex) ++ ' ' :: SqOp.latex t.sqOp

/-- `==` on lists of tensors (classes of indices agree). -/
def tensorsEq : List Tensor → List Tensor → Bool
  | [], [] => true
  | a :: as, b :: bs => a.eqCore b && tensorsEq as bs
  | _, _ => false

/-- `<` on lists of tensors (classes of indices agree): the first unequal elements decide. -/
def tensorsLt : List Tensor → List Tensor → Bool
  | [], [] => false
  | [], _ :: _ => true
  | _ :: _, [] => false
  | a :: as, b :: bs => if a.eqCore b then tensorsLt as bs else a.ltCore b

/-- `<=` on lists of tensors (classes of indices agree). -/
def tensorsLe : List Tensor → List Tensor → Bool
  | [], [] => true
  | [], _ :: _ => true
  | _ :: _, [] => false
  | a :: as, b :: bs => if a.eqCore b then tensorsLe as bs else a.leCore b

/-- `comparison_tuple <`, Term.py:231-233, 261-263 (classes of indices agree). -/
def Term.ltCore (x y : Term) : Bool :=
  if x.sqOp.eqCore y.sqOp then
    if x.tensors.length = y.tensors.length then
      if tensorsEq x.tensors y.tensors then
        if |x.coeff| = |y.coeff| then decide (x.coeff < y.coeff) else decide (|x.coeff| < |y.coeff|)
      else tensorsLt x.tensors y.tensors
    else decide (x.tensors.length < y.tensors.length)
  else x.sqOp.ltCore y.sqOp

/-- `comparison_tuple <=`, Term.py:231-233, 265-267 (classes of indices agree). -/
def Term.leCore (x y : Term) : Bool :=
  if x.sqOp.eqCore y.sqOp then
    if x.tensors.length = y.tensors.length then
      if tensorsEq x.tensors y.tensors then
        if |x.coeff| = |y.coeff| then decide (x.coeff ≤ y.coeff) else decide (|x.coeff| ≤ |y.coeff|)
      else tensorsLe x.tensors y.tensors
    else decide (x.tensors.length ≤ y.tensors.length)
  else x.sqOp.leCore y.sqOp

/-- Comparing operators (or tensors) whose labels have different classes raises `TypeError`, IndicesPair.py:83-86. -/
def Term.checkOperand (x y : Term) : Except PyErr Unit := x.sqOp.checkOperand y.sqOp

/-- `math.isclose(a, b, abs_tol=1e-15)`, Term.py:244, 256; the relative tolerance has its default value `1e-9`. -/
def isClose (a b : ℚ) : Bool := decide (|a - b| ≤ max (1 / 10 ^ 9 * max |a| |b|) (1 / 10 ^ 15))

/-- `comparison_tuple_weak ==`, Term.py:235-236. -/
def Term.weakEqCore (x y : Term) : Bool := x.sqOp.eqCore y.sqOp && tensorsEq x.tensors y.tensors

/-- `__eq__`, Term.py:243-248. -/
def Term.pyEq (x y : Term) : Except PyErr Bool :=
  if isClose x.coeff y.coeff then do x.checkOperand y; pure (x.weakEqCore y) else pure false

/-- `almost_equal`, Term.py:250-252. -/
def Term.almostEqual (x y : Term) : Except PyErr Bool := do x.checkOperand y; pure (x.weakEqCore y)

/-- `__ne__`, Term.py:254-259. -/
def Term.pyNe (x y : Term) : Except PyErr Bool :=
  if isClose x.coeff y.coeff then do x.checkOperand y; pure (!x.weakEqCore y) else pure true

/-- `__lt__`, Term.py:261-263. -/
def Term.pyLt (x y : Term) : Except PyErr Bool := do x.checkOperand y; pure (x.ltCore y)
/-- `__le__`, Term.py:265-267. -/
def Term.pyLe (x y : Term) : Except PyErr Bool := do x.checkOperand y; pure (x.leCore y)
/-- `__gt__`, Term.py:269-271. -/
def Term.pyGt (x y : Term) : Except PyErr Bool := do x.checkOperand y; pure (y.ltCore x)
/-- `__ge__`, Term.py:273-275. -/
def Term.pyGe (x y : Term) : Except PyErr Bool := do x.checkOperand y; pure (y.leCore x)

/-- `sorted(terms)`.  A comparison sort compares terms of different index classes when there are any, which raises
`TypeError`. -/
def sortTerms (terms : List Term) : Except PyErr (List Term) :=
  if terms.any fun t => terms.any fun t' => decide (t.sqOp.upper.ty ≠ t'.sqOp.upper.ty) then .error .typeError
  else .ok (terms.insertionSort fun x y => (!(y.ltCore x)) = true)

/-- The last term for every hash, phys_op_contraction.py:143-147. -/
def lastTerms (terms : List Term) : Dict PyStr Term := terms.foldl (fun d t => dictSet d t.hashTerm t) []

/-- The coefficients for every hash, phys_op_contraction.py:142-148. -/
def termCoeffs (terms : List Term) : Dict PyStr (List ℚ) := dictCollect (terms.map fun t => (t.hashTerm, t.coeff))

/-- `combine_terms`, phys_op_contraction.py:130-155.  The change of the input terms (line 152) is modelled in
`combineOverwrites`. -/
def combineTerms (terms : List Term) : Except PyErr (List Term) :=
  sortTerms (((lastTerms terms).map fun e => { e.2 with coeff := (dictGet (termCoeffs terms) e.1).sum }).filter fun t => !t.isVoid)

/-- The terms in the list passed to `combine_terms` after the call, when they are different objects: the last one of every
hash has got the total coefficient, phys_op_contraction.py:147, 151-152. -/
def combineOverwrites (terms : List Term) : List Term :=
  (List.range terms.length).zip terms |>.map fun e =>
    if (terms.drop (e.1 + 1)).any fun t => decide (t.hashTerm = e.2.hashTerm) then e.2
    else { e.2 with coeff := (dictGet (termCoeffs terms) e.2.hashTerm).sum }

end Dsrg

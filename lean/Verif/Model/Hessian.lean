import Verif.Model.TermOps

/-!
The diagonal of the Hessian with respect to the amplitudes (Term.py:1170-1200).
-/

namespace Dsrg

/-- The loop over the tensors, Term.py:1171-1180: `cluster` and `rest` are what has been found so far.  `n_body` raises `ValueError` when there
are not as many upper as lower labels. -/
def hessianSplit (op : SqOp) : Option Tensor → List Tensor → List Tensor → Except PyErr (Option Tensor × List Tensor)
  | cluster, rest, [] => pure (cluster, rest)
  | cluster, rest, x :: ts =>
    if x.cls = .cluster then do
      let n ← x.pair.nBody
      let m ← op.nBody
      if n = m then
        match cluster with
        | some _ => throw .notImplemented
        | none => hessianSplit op (some x) rest ts
      else hessianSplit op cluster (rest ++ [x]) ts
    else hessianSplit op cluster (rest ++ [x]) ts

/-- The dictionary `replacement`, Term.py:1185-1192: the last assignment to a key counts. -/
def hessianMap (labels : Finset Index) (pairs : List (Index × Index)) (i : Index) : Except PyErr Index :=
  match pairs.reverse.find? fun e => decide (e.1 = i) with
  | some e => .ok e.2
  | none => if i ∈ labels then .ok i else .error .keyError

/-- The result of `diagonal_hessian_t`: a term, or a tuple when the tensors do not form a valid term, Term.py:1196-1200. -/
inductive HessianResult
  | term (t : Term)
  | row (coeff : ℚ) (tensors : List Tensor) (op : SqOp)

/-- `diagonal_hessian_t`, Term.py:1170-1200. -/
def Term.diagonalHessianT (t : Term) : Except PyErr HessianResult := do
  let r ← hessianSplit t.sqOp none [] t.tensors
  match r.1 with
  | none => pure (.row 0 [] t.sqOp.void)
  | some x =>
    let pairs :=
      if x.upper.list.map Index.space = t.sqOp.upper.list.map Index.space then x.pair.indices.zip t.sqOp.indices
      else x.pair.indices.zip (t.sqOp.lower.list ++ t.sqOp.upper.list)
    let ts ← replaceTensors (hessianMap t.indicesSet pairs) r.2
    match Term.make ts t.sqOp t.coeff with
    | .ok u => pure (.term u)
    | .error .valueError => pure (.row t.coeff ts t.sqOp)
    | .error e => throw e

end Dsrg

import Verif.Model.Ambit
import Verif.Model.TermOps

/-!
Model of the singlet adaptation of terms, `dsrg_generator/Term.py:1006-1037`.
-/

namespace Dsrg

/-- The loop that gives beta labels new alpha labels, Term.py:1017-1020; the list is the set of labels in the order of its iteration. -/
def singletLoop : List Index → (Space → Nat) → (Index → Index) → Index → Index
  | [], _, ρ => ρ
  | i :: rest, next, ρ =>
    if i.isBeta then
      let g := generateNextIndex ⟨i.space.kind, false⟩ next
      singletLoop rest g.2 (Function.update ρ i g.1)
    else singletLoop rest next ρ

/-- `replacement`, Term.py:1016-1020.  Simplification: a function, although the dictionary has only the labels of the term as keys. -/
def Term.singletReplacement (ord : SetOrder) (t : Term) : Index → Index := singletLoop (ord.indices t.indicesSet) t.nextNum id

/-- One of the yielded terms, Term.py:1027-1037: `pairs` are the sign, the upper and the lower labels of the operator and of the tensors. -/
def Term.singletRow (canon : CanonFn) (ord : SetOrder) (t : Term) (nPerm : Nat) (signPerm : Int) (pairs : List (Int × List Index × List Index)) :
    Except PyErr Term :=
  match pairs with
  | [] => .error .indexError
  | p :: rest => do
    let op ← IndicesPair.make (← Indices.make .spinAdapted p.2.1) (← Indices.make .spinAdapted p.2.2)
    let ts ← (t.tensors.zip rest).mapM fun x => do
      Tensor.make x.1.cls (← Indices.make .spinAdapted x.2.2.1) (← Indices.make .spinAdapted x.2.2.2) x.1.name x.1.priority
    let sign := signPerm * p.1 * (rest.map Prod.fst).prod
    let r ← Term.make ts op (sign * t.coeff / nPerm)
    r.canonicalize canon ord true true true

/-- `generate_singlet_adaptation`, Term.py:1006-1037. -/
def Term.generateSingletAdaptation (canon : CanonFn) (ord : SetOrder) (t : Term) (alphaMajor : Bool) : Except PyErr (List Term) := do
  if t.sqOp.upper.ty ≠ .spinIntegrated then throw .typeError
  let p := t.permPartitionOpen
  let nPerm ← t.sqOp.nMultisetPermutation p.1 p.2
  let perms ← t.sqOp.permuteIndices p.1 p.2 true
  let rows ← perms.mapM fun q => do
    let op ← IndicesPair.make (← Indices.make .spinIntegrated q.2.1) (← Indices.make .spinIntegrated q.2.2)
    let adapted ← (op :: t.tensors.map fun x => x.pair).mapM fun x => x.singletAdaptation (t.singletReplacement ord) alphaMajor
    (pyProduct adapted).mapM fun pairs => t.singletRow canon ord nPerm q.1 pairs
  pure rows.flatten

end Dsrg

import Verif.Model.ExpandHole
import Verif.Model.MacroSearch

/-!
Model of the assembly of contractions, sqop_contraction.py:403-491, 612-740, 743-769, 819-866.
-/

namespace Dsrg

/-- A creation (`true`, prefix "u") or annihilation (`false`, prefix "l") operator with its label; stands for the strings
f"u{name}", f"l{name}" of sqop_contraction.py:632-635, 763-764. -/
abbrev Leg := Bool × Index

/-- The creation operators `a^p ...` of a list of labels. -/
def creLegs (l : List Index) : List Leg := l.map fun i => (true, i)
/-- The annihilation operators of a list of labels. -/
def annLegs (l : List Index) : List Leg := l.map fun i => (false, i)

/-- The operators of one string: creation operators, then annihilation operators in reverse, sqop_contraction.py:763-764. -/
def opLegs (op : SqOp) : List Leg := creLegs op.upper.list ++ annLegs op.lower.list.reverse

/-- `base_order_indices`, sqop_contraction.py:760-765. -/
def baseOrder (ops : List SqOp) : List Leg := ops.flatMap opLegs

/-- `base_order_map`, sqop_contraction.py:768: `{v: i for i, v in enumerate(base_order_indices)}`. -/
def baseOrderMap (ops : List SqOp) : Dict Leg Nat := (baseOrder ops).zipIdx.foldl (fun d e => dictSet d e.1 e.2) []

/-- `d[k]`, raising `KeyError`. -/
def dictLookup {κ ν : Type} [DecidableEq κ] (d : Dict κ ν) (k : κ) : Except PyErr ν :=
  match d.find? fun e => decide (e.1 = k) with
  | some e => .ok e.2
  | none => .error .keyError

/-- The operators of one elementary contraction, in order, sqop_contraction.py:631-635, 839-843. -/
def tensorLegs (t : Tensor) : List Leg :=
  if t.cls = .hole then annLegs (t.lower.list.take 1) ++ creLegs (t.upper.list.take 1)
  else creLegs t.upper.list ++ annLegs t.lower.list.reverse

/-- `sorted(Index(i[1:]) for i in s - contracted)` where `s` is the set of all creation (annihilation) operators,
sqop_contraction.py:640-641, 849-850. -/
def openLabels (cre : Bool) (base contracted : List Leg) : List Index :=
  ((base.dedup.filter fun x => decide (x.1 = cre ∧ x ∉ contracted)).map Prod.snd).insertionSort (· ≤ ·)

/-- `(-1) ** Permutation(l).inversions()`; SymPy raises `ValueError` unless `l` is a rearrangement of `0 .. n-1`. -/
def permutationSign (l : List Nat) : Except PyErr Int :=
  if l.Perm (List.range l.length) then .ok (signPow (invCount l)) else .error .valueError

/-- The order of the operators and the remaining operator, sqop_contraction.py:637-648, 846-856. -/
def currentOrder (ops : List SqOp) (contractions : List Tensor) (nOpen : Int) : Except PyErr (List Leg × SqOp) :=
  let con := contractions.flatMap tensorLegs
  if nOpen ≠ 0 then do
    let u ← Indices.make .spinOrbital (openLabels true (baseOrder ops) con)
    let l ← Indices.make .spinOrbital (openLabels false (baseOrder ops) con)
    let op ← IndicesPair.make u l
    pure (con ++ opLegs op, op)
  else pure (con, ⟨⟨.spinOrbital, []⟩, ⟨.spinOrbital, []⟩⟩)

/-- The part common to `process_composite_contractions` (sqop_contraction.py:846-866) and
`process_composite_categorized` (sqop_contraction.py:637-660). -/
def assemble (ops : List SqOp) (contractions : List Tensor) (nOpen : Int) (expand : Bool) :
    Except PyErr (List (Int × List Tensor × SqOp)) := do
  let cur ← currentOrder ops contractions nOpen
  let positions ← cur.1.mapM (dictLookup (baseOrderMap ops))
  let sign ← permutationSign positions
  let rows := if expand then expandHoleDensities contractions else [(1, contractions)]
  pure (rows.map fun r => (sign * r.1, r.2, cur.2))

/-- `l[k]`, raising `IndexError`. -/
def listGet {α : Type} (l : List α) (k : Nat) : Except PyErr α :=
  match l[k]? with
  | some a => .ok a
  | none => .error .indexError

/-- `process_composite_contractions`, sqop_contraction.py:819-866; `con` is the set of elementary contractions in the order
in which python iterates over it. -/
def processComposite (ops : List SqOp) (ele : List Tensor) (con : List Nat) (expand : Bool) :
    Except PyErr (List (Int × List Tensor × SqOp)) := do
  let contractions ← con.mapM (listGet ele)
  let nOpen : Int := (baseOrderMap ops).length - 2 * (contractions.map fun t => t.upper.size).sum
  assemble ops contractions nOpen expand

/-- The body of the loop of `process_composite_categorized`, sqop_contraction.py:626-660, for one composite contraction. -/
def processCategorizedOne (ops : List SqOp) (x : EleCon Tensor) (comCat : List (List Nat)) (coded : List Nat) (expand : Bool) :
    Except PyErr (List (Int × List Tensor × SqOp)) := do
  let nOpen : Int := (baseOrderMap ops).length - (comCat.map List.length).sum
  let contractions ← coded.mapM x.decode
  assemble ops contractions nOpen expand

/-- The un-contracted term of the general mode, sqop_contraction.py:702-710. -/
def uncontracted (ops : List SqOp) : Except PyErr (List (Int × List Tensor × SqOp)) := do
  let u ← Indices.make .spinOrbital (openLabels true (baseOrder ops) [])
  let l ← Indices.make .spinOrbital (openLabels false (baseOrder ops) [])
  let op ← IndicesPair.make u l
  let positions ← (opLegs op).mapM (dictLookup (baseOrderMap ops))
  let sign ← permutationSign positions
  pure [(sign, [], op)]

/-- `j in compatible[i]` for the list of pairs recorded. -/
def compatOf (rows : List (Nat × Nat)) (i j : Nat) : Bool := decide ((i, j) ∈ rows)

/-- A run of `compute_operator_contractions_general`, sqop_contraction.py:681-740: the batches it yields.  The set
operations may pick elements in any order; an exception ends the run without result (in python it comes after the batches
already yielded); with several processes (lines 725-740) the batches may come in any order. -/
def GeneralRun (ops : List SqOp) (maxCu maxOpen minOpen : Int) (expand : Bool) (parallel : Bool)
    (batches : List (List (Int × List Tensor × SqOp))) : Prop :=
  ∃ ele rows first out a' c' d orders rest,
    elementaryList ops (checkMaxCu ops maxCu) = .ok ele ∧ compatibleList ele = .ok rows ∧
    (if minOpen ≤ ((baseOrderMap ops).length : Int) ∧ ((baseOrderMap ops).length : Int) ≤ maxOpen then
      ∃ r, uncontracted ops = .ok r ∧ first = [r] else first = []) ∧
    BtRun ⟨compatOf rows, fun i => 2 * ((ele[i]?.map fun t => t.upper.size).getD 0), (baseOrderMap ops).length - maxOpen,
      (baseOrderMap ops).length - minOpen⟩ (Finset.range ele.length) ∅ 0 out a' c' d ∧
    List.Forall₂ (fun (l : List Nat) s => l.Nodup ∧ l.toFinset = s) orders out ∧
    orders.mapM (fun con => processComposite ops ele con expand) = .ok rest ∧
    (if parallel then ∃ rest', rest'.Perm rest ∧ batches = first ++ rest' else batches = first ++ rest)

/-- The keys of `Counter(l)`, in order of first occurrence. -/
def counterKeys (l : List (List Nat)) : List (List Nat) := l.reverse.dedup.reverse

/-- One batch of `process_composite_categorized`, sqop_contraction.py:612-662: all selections for one multiset of
categories. -/
def CategorizedBatch (ops : List SqOp) (x : EleCon Tensor) (rows : List (Nat × Nat)) (comCat : List (List Nat)) (expand : Bool)
    (batch : List (Int × List Tensor × SqOp)) : Prop :=
  ∃ out target' results,
    x.CompositeRun (compatOf rows) (counterKeys comCat) (fun c => comCat.count c) out target' ∧
    out.mapM (fun coded => processCategorizedOne ops x comCat coded expand) = .ok results ∧ batch = results.flatten

/-- A run of `compute_operator_contractions_connected`, sqop_contraction.py:425-491. -/
def ConnectedRun (ops : List SqOp) (maxCu maxOpen minOpen : Int) (expand : Bool) (parallel : Bool)
    (batches : List (List (Int × List Tensor × SqOp))) : Prop :=
  ∃ d, elementaryCategorized ops (checkMaxCu ops maxCu) = .ok d ∧
    if d.length = 0 then batches = [] else
    ∃ rows rest,
      let x : EleCon Tensor := ⟨d, sortCategories (d.map Prod.fst)⟩
      x.compatible = .ok rows ∧
      List.Forall₂ (fun comCat batch => CategorizedBatch ops x rows comCat expand batch)
        (macroSearch ((baseOrderMap ops).length - maxOpen) ((baseOrderMap ops).length - minOpen) x.cats
          (ops.map fun op => op.upper.size) (ops.map fun op => op.lower.size)) rest ∧
      (if parallel then batches.Perm rest else batches = rest)

end Dsrg

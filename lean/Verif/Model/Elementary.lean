import Verif.Model.Tensor
import Verif.Model.IntegerPartition

/-!
Model of the elementary contractions, sqop_contraction.py:62-261.
-/

namespace Dsrg

/-- A python `dict` as the list of its items in insertion order (each key once). -/
abbrev Dict (κ ν : Type) := List (κ × ν)

/-- `d[k].append(v)` on a `defaultdict(list)` (sqop_contraction.py:136, 146, 189). -/
def dictAppend {κ ν : Type} [DecidableEq κ] (d : Dict κ (List ν)) (k : κ) (v : ν) : Dict κ (List ν) :=
  match d with
  | [] => [(k, [v])]
  | (k', vs) :: rest => if k' = k then (k', vs ++ [v]) :: rest else (k', vs) :: dictAppend rest k v

/-- The `defaultdict(list)` after a sequence of `d[k].append(v)`. -/
def dictCollect {κ ν : Type} [DecidableEq κ] (events : List (κ × ν)) : Dict κ (List ν) :=
  events.foldl (fun d e => dictAppend d e.1 e.2) []

/-- `d[k]` on a `defaultdict(list)`. -/
def dictGet {κ ν : Type} [DecidableEq κ] (d : Dict κ (List ν)) (k : κ) : List ν :=
  match d with
  | [] => []
  | (k', vs) :: rest => if k' = k then vs else dictGet rest k

/-- `d[k] = v`. -/
def dictSet {κ ν : Type} [DecidableEq κ] (d : Dict κ ν) (k : κ) (v : ν) : Dict κ ν :=
  match d with
  | [] => [(k, v)]
  | (k', v') :: rest => if k' = k then (k', v) :: rest else (k', v') :: dictSet rest k v

/-- `d.update(e)` (sqop_contraction.py:95). -/
def dictUpdate {κ ν : Type} [DecidableEq κ] (d e : Dict κ ν) : Dict κ ν := e.foldl (fun d kv => dictSet d kv.1 kv.2) d

/-- `Indices.count_index_space(["c", "v"])` subtracted from the size, summed over operators; sqop_contraction.py:107-109. -/
def nValid (ls : List Indices) : Int :=
  (ls.map fun x => (x.size : Int) - (x.countIndexSpace [⟨.c, false⟩, ⟨.v, false⟩] : Int)).sum

/-- `check_max_cu`, sqop_contraction.py:100-114. -/
def checkMaxCu (ops : List SqOp) (maxCu : Int) : Int :=
  let allowed := max 1 (min (nValid (ops.map IndicesPair.upper)) (nValid (ops.map IndicesPair.lower)))
  if maxCu < 1 ∨ maxCu > allowed then allowed else maxCu

/-- `Tensor.make_tensor('lambda' | 'eta', upper, lower, 'so')` for lists of indices, Tensor.py:22-26, 167-170, 201-206,
Indices.py:78-120. -/
def makeDensity (cls : TCls) (upper lower : List Index) : Except PyErr Tensor := do
  let u ← Indices.make .spinOrbital upper
  let l ← Indices.make .spinOrbital lower
  Tensor.make cls u l cls.defaultName cls.defaultPriority

/-- `len(space_relation[a] & space_relation[b]) != 0`, sqop_contraction.py:134, 145. -/
def spacesMeet (a b : Space) : Bool := decide ((a.relation ∩ b.relation).card ≠ 0)

/-- The body of the double loop, sqop_contraction.py:128-146, for the pair of operators number `i` and `j`: what is
appended under which key, in order. -/
def pairEvents (i j : Nat) (left right : SqOp) : List (List Nat × TCls × Index × Index) :=
  ((left.upper.list.filter fun u => decide (u.space ≠ ⟨.v, false⟩)).flatMap fun u =>
    ((right.lower.list.filter fun l => decide (l.space ≠ ⟨.v, false⟩)).filter fun l => spacesMeet u.space l.space).map
      fun l => ([i, j], .cumulant, u, l)) ++
  ((left.lower.list.filter fun l => decide (l.space ≠ ⟨.c, false⟩)).flatMap fun l =>
    ((right.upper.list.filter fun u => decide (u.space ≠ ⟨.c, false⟩)).filter fun u => spacesMeet u.space l.space).map
      fun u => ([j, i], .hole, u, l))

/-- The double loop, sqop_contraction.py:125-126. -/
def pairwiseEvents (ops : List SqOp) : List (List Nat × TCls × Index × Index) :=
  ops.zipIdx.flatMap fun left => (ops.zipIdx.drop (left.2 + 1)).flatMap fun right =>
    pairEvents left.2 right.2 left.1 right.1

/-- `compute_elementary_contractions_pairwise`, sqop_contraction.py:117-148. -/
def pairwiseContractions (ops : List SqOp) : Except PyErr (Dict (List Nat) (List Tensor)) := do
  let events ← (pairwiseEvents ops).mapM fun e => do pure (e.1, ← makeDensity e.2.1 [e.2.2.1] [e.2.2.2])
  pure (dictCollect events)

/-- `list(integer_partition(k))`.  The fuel `2 ^ k` suffices by C20. -/
def intPartitions (k : Nat) : Except PyErr (List (List Nat)) :=
  (integerPartition k (2 ^ k)).getD (.error .recursionError)

/-- `range(a, b)` for natural numbers. -/
def natRange (a b : Nat) : List Nat := List.range' a (b - a)

/-- The loops of sqop_contraction.py:242-259 for one distribution `legs` of the legs over chosen operators.  The lists
`sub_indices[i][n]` (lines 239-240) are `combinations(range(size), n)`; `n` never exceeds the size here (lines 252-253). -/
def halfRows (sizes : List Nat) (legs : List Nat) : List (List (Nat × Nat)) :=
  ((pyCombinations (List.range sizes.length) legs.length).filter fun macros =>
    ! (macros.zip legs).any fun p => decide (sizes.getD p.1 0 < p.2)).flatMap fun macros =>
    (pyProduct ((macros.zip legs).map fun p => pyCombinations (List.range (sizes.getD p.1 0)) p.2)).map fun micros =>
      (macros.zip micros).flatMap fun p => p.2.map fun m => (p.1, m)

/-- `compute_elementary_contractions_half_cumulant`, sqop_contraction.py:194-261, as (cumulant level, legs) in the order
of the appends; the argument holds the number of indices of each operator. -/
def halfCumulant (sizes : List Nat) (maxCu : Nat) : Except PyErr (List (Nat × List (Nat × Nat))) := do
  let parts ← (natRange 2 (maxCu + 1)).mapM intPartitions
  let unique := parts.flatten.filter fun p => decide (p.length ≤ sizes.length)
  pure (unique.flatMap fun p => (multisetPerms p).flatMap fun legs => (halfRows sizes legs).map fun r => (p.sum, r))

/-- `results[k]`, sqop_contraction.py:232, 258. -/
def halfLevel (rows : List (Nat × List (Nat × Nat))) (k : Nat) : List (List (Nat × Nat)) :=
  (rows.filter fun r => decide (r.1 = k)).map Prod.snd

/-- `[lists[i][m] for i, m in legs]`, sqop_contraction.py:176, 187. -/
def fetchLegs (lists : List (List Index)) (legs : List (Nat × Nat)) : Except PyErr (List Index) :=
  legs.mapM fun p =>
    match (lists.getD p.1 [])[p.2]? with
    | some i => .ok i
    | none => .error .indexError

/-- `i_sq_op.count(i_sq_op[0]) == len(i_sq_op)`, sqop_contraction.py:174, 182. -/
def allSame (l : List Nat) : Bool :=
  match l with
  | [] => true
  | x :: xs => (x :: xs).count x == (x :: xs).length

/-- The test of sqop_contraction.py:184. -/
def skipCumulant (cre ann : List Nat) : Bool := allSame cre && allSame ann && cre.head? == ann.head?

/-- The (creation legs, annihilation legs) combined by the loops of sqop_contraction.py:170-185. -/
def cumulantPairs (creRows annRows : List (Nat × List (Nat × Nat))) (maxCu : Nat) :
    List (List (Nat × Nat) × List (Nat × Nat)) :=
  (natRange 2 (maxCu + 1)).flatMap fun k => (halfLevel creRows k).flatMap fun cre =>
    ((halfLevel annRows k).filter fun ann => ! skipCumulant (cre.map Prod.fst) (ann.map Prod.fst)).map fun ann => (cre, ann)

/-- The indices of an operator string that may enter a cumulant, sqop_contraction.py:162-164. -/
def activeLike (x : Indices) : List Index :=
  x.list.filter fun i => decide (i.space ∉ [(⟨.c, false⟩ : Space), ⟨.v, false⟩])

/-- `compute_elementary_contractions_cumulant`, sqop_contraction.py:151-191. -/
def cumulantContractions (ops : List SqOp) (maxCu : Nat) : Except PyErr (Dict (List Nat) (List Tensor)) := do
  let creLists := ops.map fun op => activeLike op.upper
  let annLists := ops.map fun op => activeLike op.lower
  let annRows ← halfCumulant (annLists.map List.length) maxCu
  let creRows ← halfCumulant (creLists.map List.length) maxCu
  let events ← (cumulantPairs creRows annRows maxCu).mapM fun e => do
    let cre ← fetchLegs creLists e.1
    let ann ← fetchLegs annLists e.2
    pure (e.1.map Prod.fst ++ e.2.map Prod.fst, ← makeDensity .cumulant cre ann)
  pure (dictCollect events)

/-- The operand check, sqop_contraction.py:79-84. -/
def requireSpinOrbital (ops : List SqOp) : Except PyErr Unit :=
  if ops.all fun op => decide (op.upper.ty = .spinOrbital) then .ok () else .error .notImplemented

/-- `compute_elementary_contractions_categorized`, sqop_contraction.py:72-97. -/
def elementaryCategorized (ops : List SqOp) (maxCu : Int) : Except PyErr (Dict (List Nat) (List Tensor)) := do
  requireSpinOrbital ops
  let allowed := checkMaxCu ops maxCu
  let out ← pairwiseContractions ops
  if allowed < 2 then pure out
  else
    let cu ← cumulantContractions ops allowed.toNat
    pure (dictUpdate out cu)

/-- `compute_elementary_contractions_list`, sqop_contraction.py:62-69. -/
def elementaryList (ops : List SqOp) (maxCu : Int) : Except PyErr (List Tensor) := do
  let d ← elementaryCategorized ops maxCu
  pure (d.map Prod.snd).flatten

end Dsrg

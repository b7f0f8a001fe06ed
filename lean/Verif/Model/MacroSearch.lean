import Verif.Model.Backtrack

/-!
Model of the search over categories of contractions, sqop_contraction.py:494-609.
-/

namespace Dsrg

/-- `temp[:n_body]`, the operators the creation operators of a category come from, sqop_contraction.py:546, 603. -/
def catCre (c : List Nat) : List Nat := c.take (c.length / 2)

/-- `temp[n_body:]`, the operators the annihilation operators of a category come from, sqop_contraction.py:546, 605. -/
def catAnn (c : List Nat) : List Nat := c.drop (c.length / 2)

/-- `update_op_available`, first result, sqop_contraction.py:586-593; the counter is `Counter(part)`. -/
def updateAvailable (avail part : List Nat) : List Nat := avail.mapIdx fun k v => v - part.count k

/-- `update_op_available`, second result (`zero_count_id`), sqop_contraction.py:586-593. -/
def zeroIds (avail part : List Nat) : List Nat := part.filter fun k => (updateAvailable avail part).getD k 0 == 0

/-- `_prune_available_contracted_operator`, first result, sqop_contraction.py:575-609. -/
def pruneAvailable (available : List (List Nat)) (cre ann creCount annCount : List Nat) : List (List Nat) :=
  if (zeroIds cre creCount).length = 0 ∧ (zeroIds ann annCount).length = 0 then available
  else available.filter fun c =>
    !(catCre c).any (fun k => decide (k ∈ zeroIds cre creCount)) && !(catAnn c).any (fun k => decide (k ∈ zeroIds ann annCount))

/-- `all(avail[k] - v >= 0 for k, v in Counter(part).items())`, sqop_contraction.py:551-552.  The keys are operator
numbers; an unknown number would raise `IndexError`, here it counts as 0 available. -/
def fits (avail part : List Nat) : Bool := part.all fun k => decide (part.count k ≤ avail.getD k 0)

/-- `len(available[-1]) == 2 if n_con_so_far == 0 else not all_cu_so_far`, sqop_contraction.py:539. -/
def mayExplore (n : Nat) (temp : List Nat) (allCu : Bool) : Bool := if n = 0 then temp.length == 2 else !allCu

/-- `contracted_operator_backtrack_macro`, sqop_contraction.py:494-572: the yielded snapshots of `chosen`.  The list
`available` is stored in reverse, so that `available[-1]` is the head.  The first number is fuel; C30 shows that the fuel
used below suffices. -/
def macroAux (lo hi : Int) : Nat → List (List Nat) → List (List Nat) → Nat → List Nat → List Nat → Finset Nat → Bool →
    List (List (List Nat))
  | 0, _, _, _, _, _, _, _ => []
  | _ + 1, [], chosen, n, cre, _, ops, _ =>
    if ops.card = cre.length ∧ lo ≤ (n : Int) ∧ (n : Int) ≤ hi then [chosen] else []
  | fuel + 1, temp :: rest, chosen, n, cre, ann, ops, allCu =>
    if (n : Int) < hi ∧ mayExplore n temp allCu = true then
      (if ((∃ k ∈ temp, k ∈ ops) ∨ n = 0) ∧ fits cre (catCre temp) = true ∧ fits ann (catAnn temp) = true then
        macroAux lo hi fuel (pruneAvailable (temp :: rest) cre ann (catCre temp) (catAnn temp)) (chosen ++ [temp])
          (n + 2 * (temp.length / 2)) (updateAvailable cre (catCre temp)) (updateAvailable ann (catAnn temp))
          (ops ∪ temp.toFinset) (allCu && decide (temp.length / 2 > 1))
      else []) ++
      macroAux lo hi fuel rest chosen n cre ann ops allCu
    else macroAux lo hi fuel [] chosen n cre ann ops allCu

/-- A number of recursive calls that suffices. -/
def macroFuel (available : List (List Nat)) (cre ann : List Nat) : Nat := cre.sum + ann.sum + available.length + 2

/-- The top-level call of `contracted_operator_backtrack_macro`, sqop_contraction.py:468-470, 475-479. -/
def macroSearch (lo hi : Int) (available : List (List Nat)) (cre ann : List Nat) : List (List (List Nat)) :=
  macroAux lo hi (macroFuel available cre ann) available.reverse [] 0 cre ann ∅ true

/-- `sorted(keys, key=lambda x: (len(x), x), reverse=True)`, sqop_contraction.py:452. -/
def sortCategories (keys : List (List Nat)) : List (List Nat) :=
  keys.insertionSort fun x y => decide (y.length < x.length) || (decide (x.length = y.length) && ! pyListLt (fun a b => decide (a < b)) x y)

end Dsrg

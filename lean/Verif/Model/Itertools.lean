import Mathlib.Data.List.Basic
import Mathlib.Data.List.Sort
import Mathlib.Data.List.Dedup
import Mathlib.Data.List.Perm.Basic

/-!
The library iterators used by the package (itertools and SymPy), as functions returning the list of everything the
iterator yields, in order.  `Lemmas/Itertools.lean` proves that they enumerate what their documentation says.
-/

namespace Dsrg

/-- `itertools.product(*pools)`: the rightmost pool varies fastest (used in Indices.py:514, IndicesPair.py:214,
Term.py:1133, 1148, sqop_contraction.py:171, 641, 881, phys_op_contraction.py). -/
def pyProduct {α : Type} : List (List α) → List (List α)
  | [] => [[]]
  | pool :: rest => pool.flatMap fun x => (pyProduct rest).map (x :: ·)

/-- `itertools.combinations(l, k)` in lexicographic order of positions (used in Indices.py:523,
sqop_contraction.py:139, 230, 252, Term.py). -/
def pyCombinations {α : Type} : List α → Nat → List (List α)
  | _, 0 => [[]]
  | [], _ + 1 => []
  | x :: xs, k + 1 => (pyCombinations xs k).map (x :: ·) ++ pyCombinations xs (k + 1)

/-- All ways of taking one element out of a list: (element, remaining list), from left to right. -/
def picks {α : Type} : List α → List (α × List α)
  | [] => []
  | x :: xs => (x, xs) :: (picks xs).map fun p => (p.1, x :: p.2)

/-- `itertools.permutations(l)` in lexicographic order of positions (used in IndicesPair.py:214).  The fuel is the
length. -/
def pyPermutationsAux {α : Type} : Nat → List α → List (List α)
  | 0, _ => [[]]
  | n + 1, l => (picks l).flatMap fun p => (pyPermutationsAux n p.2).map (p.1 :: ·)

/-- `itertools.permutations(l)`. -/
def pyPermutations {α : Type} (l : List α) : List (List α) := pyPermutationsAux l.length l

/-- `sympy.utilities.iterables.multiset_permutations(l)` for a list of ints: distinct rearrangements in lexicographic
order (used in Indices.py:307, 484).  The first argument is the number of elements. -/
def multisetPermsAux : Nat → List Nat → List (List Nat)
  | 0, _ => [[]]
  | n + 1, l => (l.dedup.insertionSort (· ≤ ·)).flatMap fun v => (multisetPermsAux n (l.erase v)).map (v :: ·)

/-- `multiset_permutations(l)`. -/
def multisetPerms (l : List Nat) : List (List Nat) := multisetPermsAux l.length l

/-- Inversion number of a list: for every element, the number of smaller elements after it.
Models `sympy.combinatorics.Permutation(l).inversions()` (used in Indices.py:232, sqop_contraction.py:656, 860). -/
def invCount {α : Type} [LT α] [DecidableLT α] : List α → Nat
  | [] => 0
  | x :: xs => xs.countP (fun y => decide (y < x)) + invCount xs

/-- `(-1) ** n`. -/
def signPow (n : Nat) : Int := (-1) ^ n

end Dsrg

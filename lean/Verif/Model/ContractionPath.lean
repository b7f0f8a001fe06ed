import Verif.Model.Term
import Verif.Model.MoSpace
import Verif.Spec.ContractionTree

/-!
Contraction paths (Term.py:1202-1281).
-/

namespace Dsrg

/-- `Counter([i.space.lower() for i in s])`, as a list of items.  The order of the items depends on the iteration order of the set in python;
`MOSpaceCounter` does not depend on it. -/
def spaceCounter (s : Finset Index) : List (Space × Int) :=
  (soSpace.filter fun k => (s.filter fun i => i.space.kind = k).card ≠ 0).map fun k =>
    (⟨k, false⟩, ((s.filter fun i => i.space.kind = k).card : Int))

/-- `_contraction_cost`, Term.py:1244-1261. -/
def contractionCost (s1 s2 : Finset Index) : MOSpaceCounter × MOSpaceCounter × Finset Index :=
  (MOSpaceCounter.make (spaceCounter (s2 ∪ s1)), MOSpaceCounter.make (spaceCounter (symmDiff s1 s2)), symmDiff s1 s2)

/-- One element and the other elements, for all elements in order. -/
def pickOne {α : Type} : List α → List (α × List α)
  | [] => []
  | x :: xs => (x, xs) :: (pickOne xs).map fun p => (p.1, x :: p.2)

/-- `left[i]`, `left[j]` and `[left[n] for n in range(size) if n != i and n != j]` for all `i < j` in the order of the two loops,
Term.py:1227-1241. -/
def pickPairs {α : Type} : List α → List (α × α × List α)
  | [] => []
  | x :: xs => ((pickOne xs).map fun p => (x, p.1, p.2)) ++ (pickPairs xs).map fun p => (p.1, p.2.1, x :: p.2.2)

/-- A result: largest computational cost, largest memory cost, contraction path.  Nested python tuples are `CTree`s. -/
abbrev PathCost := MOSpaceCounter × MOSpaceCounter × Option CTree

/-- `path = ij_tensors if path is None or size == 2 else (path, ij_tensors)`, Term.py:1238. -/
def nextPath (path : Option CTree) (size : Nat) (ij : CTree) : CTree :=
  match path with
  | none => ij
  | some p => if size = 2 then ij else .node p ij

/-- The costs and the path after one more contraction, Term.py:1229-1238. -/
def stepCost (soFar : PathCost) (size : Nat) (x y : Finset Index × CTree) : PathCost :=
  let cost := contractionCost x.1 y.1
  (if cost.1.pyGt soFar.1 then cost.1 else soFar.1,
   if cost.2.1.pyGt soFar.2.1 then cost.2.1 else soFar.2.1,
   some (nextPath soFar.2.2 size (.node x.2 y.2)))

/-- `_contraction_path`, Term.py:1214-1242.  The first argument is `len(tensors_left)`, which drops by one in every call; the results of the
generator are collected in a list. -/
def contractionPath : Nat → List (Finset Index × CTree) → PathCost → List PathCost
  | 0, _, _ => []
  | 1, _, soFar => [soFar]
  | n + 2, left, soFar => (pickPairs left).flatMap fun p =>
      contractionPath (n + 1) (p.2.2 ++ [((contractionCost p.1.1 p.2.1.1).2.2, .node p.1.2 p.2.1.2)]) (stepCost soFar (n + 2) p.1 p.2.1)

/-- The initial cost, Term.py:1207-1208. -/
def initialCost (ts : List Tensor) : MOSpaceCounter :=
  match ts with
  | [t] => MOSpaceCounter.make (spaceCounter (tensorLabels t))
  | _ => MOSpaceCounter.make [(⟨.v, false⟩, 0), (⟨.c, false⟩, 0)]

/-- `contraction_paths`, Term.py:1202-1212.  For a single tensor the start of the path is the tensor in the code's list, and the path it
yields is `None`. -/
def Term.contractionPaths (t : Term) : List PathCost :=
  contractionPath t.tensors.length (t.tensors.map fun x => (tensorLabels x, .leaf x)) (initialCost t.tensors, initialCost t.tensors, none)

/-- `if best is None or cost < best[0]: best = (cost, path)`, Term.py:1275-1279. -/
def keepBest (best : Option (MOSpaceCounter × Option CTree)) (x : MOSpaceCounter × Option CTree) : Option (MOSpaceCounter × Option CTree) :=
  match best with
  | none => some x
  | some b => if x.1.pyLt b.1 then some x else some b

/-- `optimal_contraction_cost`, Term.py:1263-1281. -/
def Term.optimalContractionCost (t : Term) : Option (MOSpaceCounter × Option CTree) × Option (MOSpaceCounter × Option CTree) :=
  match t.tensors with
  | [x] => (some (MOSpaceCounter.make (spaceCounter (tensorLabels x)), none), some (MOSpaceCounter.make (spaceCounter (tensorLabels x)), none))
  | _ => (t.contractionPaths.foldl (fun b p => keepBest b (p.1, p.2.2)) none, t.contractionPaths.foldl (fun b p => keepBest b (p.2.1, p.2.2)) none)

end Dsrg

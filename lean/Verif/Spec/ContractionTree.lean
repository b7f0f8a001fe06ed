import Verif.Model.Tensor
import Verif.Model.MoSpace
import Mathlib.Data.Prod.Lex
import Mathlib.Data.Finset.SymmDiff
import Mathlib.Order.SymmDiff

/-!
Specification: ways to multiply a product of tensors two at a time, and what they cost.
-/

namespace Dsrg

/-- The labels of a tensor. -/
def tensorLabels (t : Tensor) : Finset Index := (t.upper.list ++ t.lower.list).toFinset

/-- A way to multiply tensors two at a time: at every node the results of the two sides are contracted with each other. -/
inductive CTree
  | leaf (t : Tensor)
  | node (l r : CTree)
  deriving DecidableEq, Repr

/-- The tensors that are multiplied. -/
def CTree.tensors : CTree → List Tensor
  | .leaf t => [t]
  | .node l r => l.tensors ++ r.tensors

/-- The labels of the result: a label shared by the two sides is summed over. -/
def CTree.openLabels : CTree → Finset Index
  | .leaf t => tensorLabels t
  | .node l r => symmDiff l.openLabels r.openLabels

/-- How the size of an array, or the length of a loop nest, over a set of labels scales: the number of labels; if these are equal the number
of virtual labels (v, and p and g counted as virtual), then of core labels (c, and h counted as core), then of active labels. -/
abbrev Scaling := Nat ×ₗ (Nat ×ₗ (Nat ×ₗ Nat))

/-- The scaling of a set of labels; the spin does not matter. -/
def scaling (s : Finset Index) : Scaling :=
  toLex (s.card, toLex ((s.filter fun i => i.space.kind ∈ [Kind.v, Kind.p, Kind.g]).card,
    toLex ((s.filter fun i => i.space.kind ∈ [Kind.c, Kind.h]).card, (s.filter fun i => i.space.kind = Kind.a).card)))

/-- The most expensive contraction: it loops over all labels of the two sides. -/
def CTree.compute : CTree → Scaling
  | .leaf _ => scaling ∅
  | .node l r => max (max l.compute r.compute) (scaling (l.openLabels ∪ r.openLabels))

/-- The largest array that is produced. -/
def CTree.storage : CTree → Scaling
  | .leaf _ => scaling ∅
  | .node l r => max (max l.storage r.storage) (scaling (symmDiff l.openLabels r.openLabels))

/-- Two ways that differ only in the order of the two sides of contractions. -/
inductive CTree.Same : CTree → CTree → Prop
  | leaf (t : Tensor) : CTree.Same (.leaf t) (.leaf t)
  | node {l r l' r' : CTree} : CTree.Same l l' → CTree.Same r r' → CTree.Same (.node l r) (.node l' r')
  | swap {l r l' r' : CTree} : CTree.Same l l' → CTree.Same r r' → CTree.Same (.node l r) (.node r' l')

/-- `t` multiplies exactly the given tensors, each as often as it occurs. -/
def CTree.Multiplies (t : CTree) (ts : List Tensor) : Prop := t.tensors.Perm ts

/-- A counter object shows the given scaling. -/
def MOSpaceCounter.Shows (x : MOSpaceCounter) (s : Scaling) : Prop :=
  x.overall = ((ofLex s).1 : Int) ∧
  x.parsed = [((ofLex (ofLex s).2).1 : Int), ((ofLex (ofLex (ofLex s).2).2).1 : Int), ((ofLex (ofLex (ofLex s).2).2).2 : Int)]

end Dsrg

import Verif.Model.Tensor
import Verif.Spec.Spaces

/-!
What the elementary contractions of a product of operator strings are.
-/

namespace Dsrg

/-- The density tensor with the given upper and lower labels. -/
def density (cls : TCls) (upper lower : List Index) : Tensor :=
  ⟨cls, cls.defaultName, cls.defaultPriority, ⟨⟨.spinOrbital, upper⟩, ⟨.spinOrbital, lower⟩⟩⟩

/-- `t` contracts a creation and an annihilation operator of two different strings; `key` is (number of the string with
the creation operator, number of the string with the annihilation operator).  It is a one-body cumulant when the
creation operator stands to the left and both labels can refer to a common core or active orbital; it is a hole density
when the annihilation operator stands to the left and both labels can refer to a common active or virtual orbital. -/
def PairContraction (ops : List SqOp) (key : List Nat) (t : Tensor) : Prop :=
  ∃ i j left right, i < j ∧ ops[i]? = some left ∧ ops[j]? = some right ∧
    ((∃ u ∈ left.upper.list, ∃ l ∈ right.lower.list,
        (∃ e : Elem, e ≠ .virt ∧ u.space.kind.Denotes e ∧ l.space.kind.Denotes e) ∧
        key = [i, j] ∧ t = density .cumulant [u] [l]) ∨
      (∃ l ∈ left.lower.list, ∃ u ∈ right.upper.list,
        (∃ e : Elem, e ≠ .core ∧ u.space.kind.Denotes e ∧ l.space.kind.Denotes e) ∧
        key = [j, i] ∧ t = density .hole [u] [l]))

/-- All operators of one kind (creation or annihilation) of the product that are neither core nor virtual, from left to
right, each with the number of the string it belongs to. -/
def cumulantLegs (part : SqOp → List Index) (ops : List SqOp) : List (Nat × Index) :=
  ops.zipIdx.flatMap fun op => ((part op.1).filter fun i => decide (i.space.kind ≠ .c ∧ i.space.kind ≠ .v)).map fun i => (op.2, i)

/-- `t` is a cumulant of level 2 to `maxCu` of equally many creation and annihilation operators, none of them core or
virtual, in the order in which they stand in the product, not all from one string; `key` lists the strings they belong
to. -/
def CumulantContraction (ops : List SqOp) (maxCu : Nat) (key : List Nat) (t : Tensor) : Prop :=
  ∃ cre ann : List (Nat × Index), cre.Sublist (cumulantLegs (fun op => op.upper.list) ops) ∧
    ann.Sublist (cumulantLegs (fun op => op.lower.list) ops) ∧
    cre.length = ann.length ∧ 2 ≤ cre.length ∧ cre.length ≤ maxCu ∧
    (¬ ∃ i, ∀ x ∈ cre ++ ann, x.1 = i) ∧
    key = cre.map Prod.fst ++ ann.map Prod.fst ∧ t = density .cumulant (cre.map Prod.snd) (ann.map Prod.snd)

end Dsrg

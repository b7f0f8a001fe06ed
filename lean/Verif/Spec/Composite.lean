import Verif.Props.Backtrack

/-!
What the contraction of a product of operator strings is meant to return.
-/

namespace Dsrg

/-- A product of operator strings of spin-orbital labels in which no creation and no annihilation operator occurs twice. -/
structure GoodOps (ops : List SqOp) : Prop where
  so : ∀ op ∈ ops, SpinOrbitalOp op
  upper : (ops.flatMap fun op => op.upper.list).Nodup
  lower : (ops.flatMap fun op => op.lower.list).Nodup

instance (ops : List SqOp) : Decidable (GoodOps ops) :=
  decidable_of_iff ((∀ op ∈ ops, SpinOrbitalOp op) ∧ (ops.flatMap fun op => op.upper.list).Nodup ∧
    (ops.flatMap fun op => op.lower.list).Nodup) ⟨fun h => ⟨h.1, h.2.1, h.2.2⟩, fun h => ⟨h.1, h.2, h.3⟩⟩

/-- `t` is one of the elementary contractions of the product when cumulants up to level `maxCu` are requested. -/
def Elementary (ops : List SqOp) (maxCu : Int) (t : Tensor) : Prop :=
  ∃ key, PairContraction ops key t ∨ CumulantContraction ops (checkMaxCu ops maxCu).toNat key t

/-- The number of creation and annihilation operators of the product. -/
def nOperators (ops : List SqOp) : Nat := (ops.map fun op => op.upper.size + op.lower.size).sum

/-- The composite contractions a caller may expect: a set of elementary contractions without common operators that leaves
a number of operators inside the window.  The empty set is the uncontracted product. -/
structure Allowed (ops : List SqOp) (maxCu maxOpen minOpen : Int) (ts : List Tensor) : Prop where
  nodup : ts.Nodup
  elementary : ∀ t ∈ ts, Elementary ops maxCu t
  share : ts.Pairwise ShareNothing
  window : minOpen ≤ (nOperators ops : Int) - 2 * ((ts.map fun t => t.upper.size).sum : Nat) ∧
    (nOperators ops : Int) - 2 * ((ts.map fun t => t.upper.size).sum : Nat) ≤ maxOpen

/-- The contraction `t` uses an operator of the string number `k`. -/
def Involves (ops : List SqOp) (k : Nat) (t : Tensor) : Prop :=
  ∃ op, ops[k]? = some op ∧ ((∃ i ∈ t.upper.list, i ∈ op.upper.list) ∨ ∃ i ∈ t.lower.list, i ∈ op.lower.list)

/-- The contractions connect all strings: however the strings are divided in two groups, some contraction joins the
groups. -/
def ConnectsAll (ops : List SqOp) (ts : List Tensor) : Prop :=
  ∀ S : Finset Nat, (∃ k < ops.length, k ∈ S) → (∃ k < ops.length, k ∉ S) →
    ∃ t ∈ ts, (∃ k ∈ S, Involves ops k t) ∧ ∃ k, k ∉ S ∧ Involves ops k t

/-- One of the contractions is a pair contraction (a one-body density or hole density). -/
def HasPair (ts : List Tensor) : Prop := ∃ t ∈ ts, t.upper.size = 1

/-- A string as a word of creation (`true`) and annihilation (`false`) operators: the creation operators in order, then
the annihilation operators in reverse order. -/
def stringWord (op : SqOp) : List (Bool × Index) :=
  op.upper.list.map (fun i => (true, i)) ++ op.lower.list.reverse.map (fun i => (false, i))

/-- The product of strings as a word. -/
def productWord (ops : List SqOp) : List (Bool × Index) := ops.flatMap stringWord

/-- The operators paired by a contraction, as a word: a hole density pairs an annihilation operator with a creation
operator to the right of it, a cumulant creation operators with annihilation operators to the right of them. -/
def contractionWord (t : Tensor) : List (Bool × Index) :=
  match t.cls with
  | .hole => t.lower.list.map (fun i => (false, i)) ++ t.upper.list.map (fun i => (true, i))
  | _ => t.upper.list.map (fun i => (true, i)) ++ t.lower.list.reverse.map (fun i => (false, i))

/-- The labels of a tensor, creation operators marked `true`. -/
def marked (x : IndicesPair) : List (Bool × Index) :=
  x.upper.list.map (fun i => (true, i)) ++ x.lower.list.map (fun i => (false, i))

/-- The signed remaining operator of the contraction `ts` of the product: no operator is lost or used twice, the remaining
labels are in increasing order, and the sign is the one picked up when the anticommuting operators of the product are
rearranged into the pairs of the contractions followed by the remaining string. -/
structure IsResult (ops : List SqOp) (ts : List Tensor) (sign : Int) (op : SqOp) : Prop where
  word : (ts.flatMap contractionWord ++ stringWord op).Perm (productWord ops)
  upperTy : op.upper.ty = .spinOrbital
  lowerTy : op.lower.ty = .spinOrbital
  upperSorted : op.upper.list.Pairwise (· ≤ ·)
  lowerSorted : op.lower.list.Pairwise (· ≤ ·)
  unit : sign = 1 ∨ sign = -1
  sign : ∀ (M : Type) [AddCommGroup M] (F : List (Bool × Index) → M), AntisymmFn F →
    F (productWord ops) = sign • F (ts.flatMap contractionWord ++ stringWord op)

end Dsrg

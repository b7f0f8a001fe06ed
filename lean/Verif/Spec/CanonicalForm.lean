import Verif.Model.Term
import Verif.Spec.TermValue
import Verif.Spec.DoubleCoset
import Mathlib.Data.List.Perm.Basic

/-!
When two products of tensors and an operator string are the same up to notation, and what it means for SymPy's `canonicalize` that its
answer is a canonical form.
-/

namespace Dsrg

/-- A factor with other labels. -/
def Tensor.withLabels (x : Tensor) (u l : List Index) : Tensor :=
  ⟨x.cls, x.name, x.priority, ⟨⟨x.upper.ty, u⟩, ⟨x.lower.ty, l⟩⟩⟩

/-- An operator string with other labels. -/
def SqOp.withLabels (op : SqOp) (u l : List Index) : SqOp := ⟨⟨op.upper.ty, u⟩, ⟨op.lower.ty, l⟩⟩

/-- A change of notation of a coefficient, a list of tensors and an operator string: other names for the summation labels, another order of
the factors, an exchange of neighbouring upper or lower labels of an antisymmetric factor or of the operator with a change of sign, and the
exchange of upper and lower labels of a factor if `hermitian`. -/
inductive Rewrites (hermitian : Bool) : ℚ → List Tensor → SqOp → ℚ → List Tensor → SqOp → Prop
  | rename (c : ℚ) (ts : List Tensor) (op : SqOp) (f : Index → Index) :
      (∀ i ∈ labelsOf ts op, ∀ j ∈ labelsOf ts op, f i = f j → i = j) → (∀ i ∈ labelsOf ts op, (f i).space = i.space) →
      Rewrites hermitian c ts op c (ts.map fun x => x.withLabels (x.upper.list.map f) (x.lower.list.map f))
        (op.withLabels (op.upper.list.map f) (op.lower.list.map f))
  | reorder (c : ℚ) (ts ts' : List Tensor) (op : SqOp) : ts.Perm ts' → Rewrites hermitian c ts op c ts' op
  | upper (c : ℚ) (ts₁ ts₂ : List Tensor) (x : Tensor) (op : SqOp) (l₁ l₂ : List Index) (i j : Index) : x.upper.list = l₁ ++ i :: j :: l₂ →
      Rewrites hermitian c (ts₁ ++ x :: ts₂) op (-c) (ts₁ ++ x.withLabels (l₁ ++ j :: i :: l₂) x.lower.list :: ts₂) op
  | lower (c : ℚ) (ts₁ ts₂ : List Tensor) (x : Tensor) (op : SqOp) (l₁ l₂ : List Index) (i j : Index) : x.lower.list = l₁ ++ i :: j :: l₂ →
      Rewrites hermitian c (ts₁ ++ x :: ts₂) op (-c) (ts₁ ++ x.withLabels x.upper.list (l₁ ++ j :: i :: l₂) :: ts₂) op
  | adjoint (c : ℚ) (ts₁ ts₂ : List Tensor) (x : Tensor) (op : SqOp) : hermitian = true →
      Rewrites hermitian c (ts₁ ++ x :: ts₂) op c (ts₁ ++ x.withLabels x.lower.list x.upper.list :: ts₂) op
  | opUpper (c : ℚ) (ts : List Tensor) (op : SqOp) (l₁ l₂ : List Index) (i j : Index) : op.upper.list = l₁ ++ i :: j :: l₂ →
      Rewrites hermitian c ts op (-c) ts (op.withLabels (l₁ ++ j :: i :: l₂) op.lower.list)
  | opLower (c : ℚ) (ts : List Tensor) (op : SqOp) (l₁ l₂ : List Index) (i j : Index) : op.lower.list = l₁ ++ i :: j :: l₂ →
      Rewrites hermitian c ts op (-c) ts (op.withLabels op.upper.list (l₁ ++ j :: i :: l₂))

/-- Any number of changes of notation. -/
def SameUpToNotation (hermitian : Bool) (c : ℚ) (ts : List Tensor) (op : SqOp) (c' : ℚ) (ts' : List Tensor) (op' : SqOp) : Prop :=
  Relation.ReflTransGen (fun a b : ℚ × List Tensor × SqOp => Rewrites hermitian a.1 a.2.1 a.2.2 b.1 b.2.1 b.2.2) (c, ts, op) (c', ts', op')

/-- A product of factors with antisymmetric labels, as many upper as lower ones, in which `simplify` has nothing to contract: no Kronecker
delta, cumulants with active labels only, and no label that is upper and lower label of one factor.  Factors of one name are of one kind. -/
structure PlainProduct (ts : List Tensor) (op : SqOp) : Prop where
  delta : ∀ x ∈ ts, x.cls ≠ .kronecker
  active : ∀ x ∈ ts, x.cls = .cumulant → ∀ i, i ∈ x.upper.list ∨ i ∈ x.lower.list → i.space.kind = .a
  apart : ∀ x ∈ ts, ∀ i ∈ x.upper.list, i ∉ x.lower.list
  opApart : ∀ i ∈ op.upper.list, i ∉ op.lower.list
  balanced : ∀ x ∈ ts, x.upper.list.length = x.lower.list.length
  opBalanced : op.upper.list.length = op.lower.list.length
  kind : ∀ x ∈ ts, ∀ y ∈ ts, x.name = y.name → x.cls = y.cls
  classes : ∀ x ∈ ts, x.lower.ty = x.upper.ty
  opClasses : op.lower.ty = op.upper.ty
  antisym : op.upper.ty.isAntisym = true

/-- A symmetry that is its own inverse and at most exchanges the two entries for the sign. -/
def SlotGroup.Proper (e : SlotGroup) : Prop :=
  ∀ p ∈ e.gens, ∃ q : List Nat, (p = q ++ [e.size, e.size + 1] ∨ p = q ++ [e.size + 1, e.size]) ∧ q.length = e.size ∧
    (∀ k ∈ q, k < e.size) ∧ ∀ k < e.size, q.getD (q.getD k 0) 0 = k

/-- The answer of `canonicalize` is a canonical form: products that are carried into each other by symmetries get the same answer, and the
answer to the negative of a product is the negative of the answer. -/
structure CanonUnique (canon : List Nat → List (Nat × Nat) → List SlotGroup → Option (List Nat)) : Prop where
  same : ∀ g g' dummies v, (∀ e ∈ v, e.Proper) → g.Perm (List.range g.length) → Relation.ReflTransGen (SymStep dummies v) g g' →
    canon g' dummies v = canon g dummies v
  negative : ∀ g dummies v, (∀ e ∈ v, e.Proper) → g.Perm (List.range g.length) →
    canon (flipSign g) dummies v = (canon g dummies v).map flipSign

/-- No two terms of the list differ in notation only. -/
def Collected (hermitian : Bool) (l : List Term) : Prop :=
  l.Pairwise fun x y => ∀ c c' : ℚ, c ≠ 0 → ¬ SameUpToNotation hermitian c x.tensors x.sqOp c' y.tensors y.sqOp

end Dsrg

import Mathlib.Data.List.Basic
import Mathlib.Logic.Relation
import Mathlib.Logic.Equiv.Basic

/-!
The contract of SymPy's `canonicalize` (sympy/combinatorics/tensor_can.py): a product of tensors is given by the list of the names
in its slots, followed by two entries for the sign; the answer is reached from it by symmetries of the slots and renamings of the
summation names, i.e. it lies in the double coset of the input.  SymPy answers `0` when the product vanishes.
-/

namespace Dsrg

/-- The list with entries `x[p[0]], x[p[1]], ...`: a permutation in array form acting on slots. -/
def permuteSlots (p x : List Nat) : List Nat := p.map fun k => x.getD k 0

/-- A tuple `(base, gens, n, 0)` describing `n` consecutive equal, commuting tensors with `size` slots each; `gens` are permutations in
array form of `size + 2` entries, the last two for the sign. -/
structure SlotGroup where
  gens : List (List Nat)
  size : Nat
  count : Nat
  deriving DecidableEq, Repr

/-- Tensor number `k` of the entry `e` occupies the slots from `off`. -/
def SlotGroup.At (v : List SlotGroup) (e : SlotGroup) (k off : Nat) : Prop :=
  ∃ v₁ v₂, v = v₁ ++ e :: v₂ ∧ k < e.count ∧ off = (v₁.map fun e => e.count * e.size).sum + k * e.size

/-- One symmetry.  `dummies` are the ranges of interchangeable names; the names `2i`, `2i+1` are the two ends of one summation. -/
inductive SymStep (dummies : List (Nat × Nat)) (v : List SlotGroup) : List Nat → List Nat → Prop
  | slots (e : SlotGroup) (k : Nat) (p : List Nat) (before b b' after : List Nat) (s s' r r' : Nat) : e.At v k before.length → p ∈ e.gens →
      b.length = e.size → permuteSlots p (b ++ [s, s']) = b' ++ [r, r'] → SymStep dummies v (before ++ b ++ after ++ [s, s']) (before ++ b' ++ after ++ [r, r'])
  | exchange (e : SlotGroup) (k : Nat) (before b b' after : List Nat) (s s' : Nat) : e.At v k before.length → k + 1 < e.count →
      b.length = e.size → b'.length = e.size → SymStep dummies v (before ++ b ++ b' ++ after ++ [s, s']) (before ++ b' ++ b ++ after ++ [s, s'])
  | ends (d : Nat × Nat) (i : Nat) (g : List Nat) (s s' : Nat) : d ∈ dummies → d.1 ≤ 2 * i → 2 * i + 1 < d.2 →
      SymStep dummies v (g ++ [s, s']) (g.map (Equiv.swap (2 * i) (2 * i + 1)) ++ [s, s'])
  | rename (d : Nat × Nat) (i j : Nat) (g : List Nat) (s s' : Nat) : d ∈ dummies → d.1 ≤ 2 * i → 2 * i + 1 < d.2 → d.1 ≤ 2 * j → 2 * j + 1 < d.2 →
      SymStep dummies v (g ++ [s, s']) (g.map (fun n => Equiv.swap (2 * i) (2 * j) (Equiv.swap (2 * i + 1) (2 * j + 1) n)) ++ [s, s'])

/-- The input with the opposite sign. -/
def flipSign (g : List Nat) : List Nat := g.take (g.length - 2) ++ (g.drop (g.length - 2)).reverse

/-- The contract of `canonicalize`; `none` stands for the answer `0`, given when the product equals its own negative. -/
structure CanonContract (canon : List Nat → List (Nat × Nat) → List SlotGroup → Option (List Nat)) : Prop where
  reach : ∀ g dummies v gc, canon g dummies v = some gc → Relation.ReflTransGen (SymStep dummies v) g gc
  zero : ∀ g dummies v, canon g dummies v = none ↔ Relation.ReflTransGen (SymStep dummies v) g (flipSign g)

end Dsrg

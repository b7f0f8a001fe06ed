import Mathlib.Data.Int.Basic

/-!
The products of a nested commutator, written out: `[X, A] = X A - A X`.
-/

namespace Dsrg

/-- The products, with their signs, of `[[..[H, A], ..], A]` with `n` copies of the sum `A` of the symbols `amps`, `H` being the sum of
the symbols `hs`. -/
def nestedWords {α : Type} (hs : List α) (amps : List (ℤ × α)) : Nat → List (ℤ × List α)
  | 0 => hs.map fun h => (1, [h])
  | n + 1 => (nestedWords hs amps n).flatMap fun p => amps.flatMap fun a => [(p.1 * a.1, p.2 ++ [a.2]), (-(p.1 * a.1), a.2 :: p.2)]

end Dsrg

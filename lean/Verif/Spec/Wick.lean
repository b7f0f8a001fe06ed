import Mathlib.Algebra.Algebra.Basic
import Verif.Spec.TermValue

/-!
Fermion operators and normal ordering with respect to a correlated reference (Kutzelnigg and Mukherjee).
-/

namespace Dsrg

section
variable {α M : Type} [AddCommGroup M]

/-- The sum of `G S r` over all ways of choosing a part `S` of the list `w`, with the sign of moving `S` to the front of the remaining
entries `r`. -/
def signedChoices : List α → (List α → List α → M) → M
  | [], G => G [] []
  | a :: w, G => signedChoices w (fun S r => G (a :: S) r) + signedChoices w fun S r => (-1 : ℤ) ^ S.length • G S (a :: r)

end

section
variable {α R A : Type} [CommRing R] [Ring A] [Algebra R A]

/-- Normal ordering of a word of length at most `n`, when `field x` are the operators and `contr` gives the values of the contractions: the
normal-ordered product of `x` and `w` is the product of `x` with the normal-ordered product of `w`, less all contractions of `x` with
some of the operators in `w`. -/
def normalOrderUpTo (field : α → A) (contr : List α → R) : Nat → List α → A
  | _, [] => 1
  | 0, _ => 1
  | n + 1, x :: w => field x * normalOrderUpTo field contr n w -
      signedChoices w fun S r => contr (x :: S) • normalOrderUpTo field contr n r

/-- The normal-ordered product. -/
def normalOrder (field : α → A) (contr : List α → R) (w : List α) : A := normalOrderUpTo field contr w.length w

end

/-- Creation operators `(true, x)` and annihilation operators `(false, x)` of the orbitals `x`, with the canonical anticommutation relations. -/
structure Fermions {O A : Type} [DecidableEq O] [Ring A] (field : Bool × O → A) : Prop where
  same : ∀ b x y, field (b, x) * field (b, y) + field (b, y) * field (b, x) = 0
  mixed : ∀ x y, field (false, x) * field (true, y) + field (true, y) * field (false, x) = if x = y then 1 else 0

section
variable {O R A : Type} [DecidableEq O] [CommRing R] [Ring A] [Algebra R A]

/-- The orbitals of the creation operators (`true`) or annihilation operators (`false`) of a word, in their order. -/
def orbitalsOf (b : Bool) (w : List (Bool × O)) : List O := w.filterMap fun x => if x.1 = b then some x.2 else none

/-- The number of pairs of an annihilation operator and a creation operator to the right of it. -/
def disorder : List (Bool × O) → Nat
  | [] => 0
  | x :: w => (if x.1 then 0 else (orbitalsOf true w).length) + disorder w

/-- The value of a contraction of the operators of a word: the density `L` for a creation and an annihilation operator, the hole density `C` for
an annihilation and a creation operator, and for more operators the cumulant, with the sign of moving the creation operators to the left;
there must be as many creation as annihilation operators. -/
def Interp.contraction {M : Type} (I : Interp O R M) : List (Bool × O) → R
  | [(true, x), (false, y)] => I.tensor .cumulant ['L'] [x] [y]
  | [(false, x), (true, y)] => I.tensor .hole ['C'] [y] [x]
  | w => if 4 ≤ w.length ∧ (orbitalsOf true w).length = (orbitalsOf false w).length then
      (-1) ^ disorder w * I.tensor .cumulant ['L'] (orbitalsOf true w) (orbitalsOf false w).reverse
    else 0

/-- Cumulants above the level `maxCu` vanish; there is no such level when `maxCu < 1`. -/
def Interp.CumulantsUpTo {M : Type} (I : Interp O R M) (maxCu : Int) : Prop :=
  1 ≤ maxCu → ∀ name (u l : List O), maxCu < u.length → I.tensor .cumulant name u l = 0

/-- The operator strings of the interpretation are the normal-ordered products of the given fermion operators. -/
def Interp.NormalOrdered (I : Interp O R A) (field : Bool × O → A) : Prop := ∀ u l : List O,
  I.op u l = normalOrder field I.contraction (u.map (fun x => (true, x)) ++ l.reverse.map fun x => (false, x))

end

end Dsrg

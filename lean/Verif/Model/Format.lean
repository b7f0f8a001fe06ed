import Verif.Model.Py
import Mathlib.Algebra.Order.Ring.Rat

/-!
Number formatting (Term.py:312-323).
-/

namespace Dsrg

/-- `str(i)` of an integer. -/
def intStr (i : Int) : PyStr := if i < 0 then '-' :: natStr i.natAbs else natStr i.natAbs

/-- `Fraction.__str__`: the denominator is omitted when it is one. -/
def fractionStr (r : ℚ) : PyStr := if r.den = 1 then intStr r.num else intStr r.num ++ ['/'] ++ natStr r.den

/-- `format_coeff`, Term.py:312-323.  `limit` is `Fraction.limit_denominator` of python's library; the value is the exact value of the
floating-point number. -/
def formatCoeff (limit : ℚ → Nat → ℚ) (value : ℚ) (ambit : Bool) : PyStr :=
  let fraction := limit value 1000000000
  if ambit then
    if '/' ∉ fractionStr fraction then intStr fraction.num ++ ['.', '0']
    else ['('] ++ intStr fraction.num ++ ['.', '0', ' ', '/', ' '] ++ natStr fraction.den ++ ['.', '0', ')']
  else fractionStr fraction

end Dsrg

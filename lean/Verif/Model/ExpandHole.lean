import Verif.Model.Tensor

/-!
Model of `expand_hole_densities`, sqop_contraction.py:869-887.
-/

namespace Dsrg

/-- The loop of lines 875-880: ordinary tensors and the expansions of the hole densities. -/
def splitHoles (ts : List Tensor) : List Tensor × List (List Tensor) :=
  (ts.filter fun t => decide (t.cls ≠ .hole), (ts.filter fun t => decide (t.cls = .hole)).map Tensor.expandHole)

/-- `expand_hole_densities`, sqop_contraction.py:869-887. -/
def expandHoleDensities (ts : List Tensor) : List (Int × List Tensor) :=
  let s := splitHoles ts
  if s.2.length = 0 then [(1, ts)]
  else (pyProduct s.2).map fun expanded => (signPow (expanded.countP fun t => decide (t.cls = .cumulant)), s.1 ++ expanded)

end Dsrg

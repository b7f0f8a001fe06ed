import Verif.Model.Py

/-!
Model of `dsrg_generator/helper/integer_partition.py`.
-/

namespace Dsrg

/-- The inner loop, integer_partition.py:24-27, on the state `(x, h, t)`.  The guard `0 < r` only serves termination:
`r = x[h-1] - 1` is at least 2 whenever the loop is entered.  Writing past the end of `x` is an `IndexError`. -/
def zsInner (r : Nat) (x : List Nat) (h t : Nat) : Except PyErr (List Nat × Nat × Nat) :=
  if _hc : r ≤ t ∧ 0 < r then
    if h < x.length then zsInner r (x.set h r) (h + 1) (t - r) else .error .indexError
  else .ok (x, h, t)
termination_by t
decreasing_by omega

/-- One iteration of the outer loop after the test of line 13, integer_partition.py:16-34, on the state `(x, m, h)`.
`h = 0` would make python read `x[-1]`, i.e. the last element. -/
def zsStep (x : List Nat) (m h : Nat) : Except PyErr (List Nat × Nat × Nat) :=
  match (if h = 0 then x.getLast? else x[h - 1]?) with
  | none => .error .indexError
  | some last =>
    if last = 2 then .ok (x.set (h - 1) 1, m + 1, h - 1)
    else
      let r := last - 1
      match zsInner r (x.set (h - 1) r) h (m - h + 1) with
      | .error e => .error e
      | .ok (x, h, t) =>
        if t = 0 then .ok (x, h, h)
        else if t > 1 then
          if h < x.length then .ok (x.set h t, h + 1, h + 1) else .error .indexError
        else .ok (x, h + 1, h)

/-- The outer loop, integer_partition.py:12-35: the list of yielded values.  `none` means that the loop has not finished
within `fuel` iterations. -/
def zsLoop (n : Nat) : Nat → List Nat → Nat → Nat → Option (Except PyErr (List (List Nat)))
  | 0, _, _, _ => none
  | fuel + 1, x, m, h =>
    match x[0]? with
    | none => some (.error .indexError)
    | some x0 =>
      if x0 = 1 then some (.ok [])
      else
        match zsStep x m h with
        | .error e => some (.error e)
        | .ok (x', m', h') =>
          (zsLoop n fuel x' m' h').map fun r => r.map fun rest =>
            (if x0 = n then [x.take 1] else []) ++ x'.take m' :: rest

/-- `integer_partition`, integer_partition.py:1-35. -/
def integerPartition (n fuel : Nat) : Option (Except PyErr (List (List Nat))) :=
  if n = 0 then some (.error .indexError)
  else zsLoop n fuel ((List.replicate n 1).set 0 n) 1 1

/-- `range(a, b)`. -/
def pyRangeUp (a b : Int) : List Int := (List.range (b - a).toNat).map fun (k : Nat) => a + k
/-- `range(a, b, -1)`. -/
def pyRangeDown (a b : Int) : List Int := (List.range (a - b).toNat).map fun (k : Nat) => a - k

/-- `integer_separation`, integer_partition.py:38-45. -/
def integerSeparation (n : Int) (includeZero : Bool) : List (Int × Int) :=
  let start : Int := if includeZero then 0 else 1
  let stop : Int := if includeZero then 1 else 0
  (pyRangeUp start (n + stop)).zip (pyRangeDown (n - start) (0 - stop))

end Dsrg

import Verif.Model.Elementary
import Mathlib.Data.Finset.Sort

/-!
Model of the enumeration of composite contractions: `ElementaryContractionCategorized` (sqop_contraction.py:264-400), the
general backtracking (sqop_contraction.py:772-816).
-/

namespace Dsrg

/-! ### Codes -/

/-- `ElementaryContractionCategorized`, sqop_contraction.py:264-277.  The element type is arbitrary. -/
structure EleCon (α : Type) where
  /-- `_ele_con` -/
  ele : Dict (List Nat) (List α)
  /-- `_categories` -/
  cats : List (List Nat)

variable {α : Type}

/-- `ele_con[c]` -/
def EleCon.get (x : EleCon α) (c : List Nat) : List α := dictGet x.ele c

/-- `_i_start`, sqop_contraction.py:276: `[0] + list(accumulate(lengths of all categories but the last))`. -/
def EleCon.iStart (x : EleCon α) : List Nat := (x.cats.dropLast.map fun c => (x.get c).length).scanl (· + ·) 0

/-- `_i_start_map[c]`, sqop_contraction.py:277 (the categories are distinct); a missing key raises `KeyError`. -/
def EleCon.start (x : EleCon α) (c : List Nat) : Except PyErr Nat :=
  match (x.cats.zip x.iStart).find? fun p => decide (p.1 = c) with
  | some p => .ok p.2
  | none => .error .keyError

/-- `size`, sqop_contraction.py:287-290. -/
def EleCon.size (x : EleCon α) : Nat :=
  match x.cats.getLast? with
  | none => 0
  | some c => (x.iStart.getLast?).getD 0 + (x.get c).length

/-- `encode`, sqop_contraction.py:292-299. -/
def EleCon.encode (x : EleCon α) (c : List Nat) (shift : Nat) : Except PyErr Nat := do pure ((← x.start c) + shift)

/-- The library function `bisect.bisect_right(l, v)` on a sorted list: the first position whose element exceeds `v`. -/
def bisectRight (l : List Nat) (v : Nat) : Nat := (l.takeWhile fun x => decide (x ≤ v)).length

/-- `find_category`, sqop_contraction.py:301-308 (`_i_start[0] = 0`, so the position is at least 0). -/
def EleCon.findCategory (x : EleCon α) (code : Nat) : Except PyErr (List Nat) :=
  match x.cats[bisectRight x.iStart code - 1]? with
  | some c => .ok c
  | none => .error .indexError

/-- `category_range`, sqop_contraction.py:310-312. -/
def EleCon.categoryRange (x : EleCon α) (c : List Nat) : Except PyErr (List Nat) := do
  pure (List.range' (← x.start c) (x.get c).length)

/-- `decode`, sqop_contraction.py:314-323. -/
def EleCon.decode (x : EleCon α) (code : Nat) : Except PyErr α :=
  let i := bisectRight x.iStart code - 1
  match x.cats[i]? with
  | none => .error .indexError
  | some c =>
    match (x.get c)[code - x.iStart.getD i 0]? with
    | some e => .ok e
    | none => .error .indexError

/-! ### Compatibility -/

/-- `Tensor.any_overlapped_indices`, Tensor.py:136-144. -/
def Tensor.anyOverlapped (x y : Tensor) : Except PyErr Bool := do
  x.pair.checkOperand y.pair
  if ← x.upper.anyOverlap y.upper then pure true else x.lower.anyOverlap y.lower

/-- `compute_compatible_elementary_contractions_list`, sqop_contraction.py:772-784: all `(i, j)` with
`j in compatible_elementary[i]`, in the order in which they are added. -/
def compatibleList (ts : List Tensor) : Except PyErr (List (Nat × Nat)) := do
  let rows ← (ts.zipIdx.flatMap fun a => (ts.zipIdx.drop (a.2 + 1)).map fun b => (a, b)).mapM fun ab => do
    if ← ab.1.1.anyOverlapped ab.2.1 then pure [] else pure [(ab.1.2, ab.2.2), (ab.2.2, ab.1.2)]
  pure rows.flatten

/-- `compatible_elementary_contractions`, sqop_contraction.py:324-346, with all categories: all `(i, j)` with
`j in out[i]`. -/
def EleCon.compatible (x : EleCon Tensor) : Except PyErr (List (Nat × Nat)) := do
  let rows ← (x.cats.zipIdx.flatMap fun c1 => (x.get c1.1).zipIdx.flatMap fun a =>
      (x.cats.drop c1.2).flatMap fun c2 => (x.get c2).zipIdx.map fun b => ((c1.1, a), (c2, b))).mapM fun ab => do
    let i ← x.encode ab.1.1 ab.1.2.2
    if ← ab.1.2.1.anyOverlapped ab.2.2.1 then pure []
    else
      let j ← x.encode ab.2.1 ab.2.2.2
      pure [(i, j), (j, i)]
  pure rows.flatten

/-! ### General backtracking -/

/-- Parameters of `composite_contractions_backtrack`, sqop_contraction.py:787-797: `compat i j` is
`j in compatible[i]`, `size i` is `2 * translator[i].n_upper`, `lo`, `hi` is the window. -/
structure BtParams where
  compat : Nat → Nat → Bool
  size : Nat → Nat
  lo : Int
  hi : Int

/-- One run of the generator `composite_contractions_backtrack`, sqop_contraction.py:787-816, to exhaustion:
`BtRun P available chosen n out available' chosen' depth` says that, called on the mutable sets `available` and `chosen`,
it may yield the values `out` (snapshots of `chosen`), leave the sets as `available'` and `chosen'`, and need `depth`
nested calls.  `set.pop()` may return any element. -/
inductive BtRun (P : BtParams) : Finset Nat → Finset Nat → Int → List (Finset Nat) → Finset Nat → Finset Nat → Nat → Prop
  | empty (chosen : Finset Nat) (n : Int) :
      BtRun P ∅ chosen n (if chosen.card ≠ 0 ∧ P.lo ≤ n ∧ n ≤ P.hi then [chosen] else []) ∅ chosen 1
  | step (available chosen : Finset Nat) (n : Int) (temp : Nat) (out1 out2 : List (Finset Nat))
      (a1 c1 a2 c2 : Finset Nat) (d1 d2 : Nat) (hpop : temp ∈ available)
      (h1 : BtRun P ((available.erase temp).filter fun j => P.compat temp j = true) (insert temp chosen) (n + P.size temp) out1
        a1 c1 d1)
      (h2 : BtRun P (available.erase temp) (c1.erase temp) (n + P.size temp - P.size temp) out2 a2 c2 d2) :
      BtRun P available chosen n (out1 ++ out2) (insert temp a2) c2 (1 + max d1 d2)

/-! ### Backtracking within categories -/

/-- Parameters of `composite_contractions_backtrack` (the method), sqop_contraction.py:363-371: `cat` is
`find_category`. -/
structure CatParams where
  compat : Nat → Nat → Bool
  cat : Nat → List Nat

/-- One run of the generator `ElementaryContractionCategorized.composite_contractions_backtrack`,
sqop_contraction.py:363-400, to exhaustion, on the mutable set `choices`, counter `target` (`keys` are its keys) and list
`chosen`: the yielded snapshots of `chosen` and the final state of the three objects. -/
inductive CatRun (P : CatParams) (keys : Finset (List Nat)) : Finset Nat → (List Nat → Int) → List Nat → List (List Nat) →
    Finset Nat → (List Nat → Int) → List Nat → Prop
  | stop (choices : Finset Nat) (target : List Nat → Int) (chosen : List Nat)
      (h : ∃ c ∈ keys, target c > ((choices.filter fun i => P.cat i = c).card : Int)) :
      CatRun P keys choices target chosen [] choices target chosen
  | empty (target : List Nat → Int) (chosen : List Nat) (h : ∀ c ∈ keys, target c ≤ 0) :
      CatRun P keys ∅ target chosen [chosen] ∅ target chosen
  | step (choices : Finset Nat) (target : List Nat → Int) (chosen : List Nat) (con : Nat) (out1 out2 : List (List Nat))
      (s1 s2 : Finset Nat) (t1 t2 : List Nat → Int) (c1 c2 : List Nat) (hcon : con ∈ choices)
      (h : ∀ c ∈ keys, target c ≤ ((choices.filter fun i => P.cat i = c).card : Int))
      (h1 : CatRun P keys
        (((choices.erase con).filter fun j => P.compat con j = true).filter fun j =>
          ¬ (target (P.cat con) - 1 = 0 ∧ P.cat j = P.cat con))
        (Function.update target (P.cat con) (target (P.cat con) - 1)) (chosen ++ [con]) out1 s1 t1 c1)
      (h2 : CatRun P keys (choices.erase con) (Function.update t1 (P.cat con) (t1 (P.cat con) + 1)) c1.dropLast out2 s2 t2 c2) :
      CatRun P keys choices target chosen (out1 ++ out2) (insert con s2) t2 c2

/-- `find_category` on a valid code. -/
def EleCon.catOf (x : EleCon α) (code : Nat) : List Nat :=
  match x.findCategory code with
  | .ok c => c
  | .error _ => []

/-- A run of `composite_contractions(target, compatible)` with given `compatible`, sqop_contraction.py:348-361: `keys` and
`target` are the counter, `compat i j` is `j in compatible[i]`; the result is what the generator yields, and the counter
afterwards. -/
def EleCon.CompositeRun (x : EleCon α) (compat : Nat → Nat → Bool) (keys : List (List Nat)) (target : List Nat → Int)
    (out : List (List Nat)) (target' : List Nat → Int) : Prop :=
  ∃ ranges, keys.mapM x.categoryRange = .ok ranges ∧
    ∃ s' c', CatRun ⟨compat, x.catOf⟩ keys.toFinset ranges.flatten.toFinset target [] out s' target' c'

/-- `compatible_elementary_contractions(target.keys())`, the call made by `composite_contractions(target)` without
`compatible` (sqop_contraction.py:355-356): the slice `categories[i_c:]` (line 340) of a `dict_keys` object raises
`TypeError` as soon as one of the categories has a contraction. -/
def EleCon.compatibleOfKeys (x : EleCon α) (keys : List (List Nat)) : Except PyErr (List (Nat × Nat)) :=
  if keys.any fun c => decide ((x.get c).length ≠ 0) then .error .typeError else .ok []

end Dsrg

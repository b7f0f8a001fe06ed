import Verif.Model.Combine

/-!
Model of the iteration over `Indices` objects (`dsrg_generator/Indices.py`, 170-192).

An `Indices` object is its own iterator: the position of the iteration is the attribute `n` of the object.  The model keeps a store of
objects, so that a program can use several objects, and one object several times.
-/

namespace Dsrg

/-- An `Indices` object together with its attribute `n`, which does not exist before the first call of `__iter__`, Indices.py:114-116, 171. -/
structure IterObj where
  obj : Indices
  n : Option Nat
  deriving DecidableEq, Repr

/-- `__iter__`, Indices.py:170-172: sets the position to zero; the iterator is the object itself. -/
def IterObj.iter (x : IterObj) : IterObj := { x with n := some 0 }

/-- What `__next__` does: a label, the exception `StopIteration`, or the `AttributeError` when there is no attribute `n`. -/
inductive NextResult
  | label (i : Index)
  | stop
  | attributeError
  deriving DecidableEq, Repr

/-- `__next__`, Indices.py:174-179. -/
def IterObj.next (x : IterObj) : NextResult × IterObj :=
  match x.n with
  | none => (.attributeError, x)
  | some n =>
    if n < x.obj.size then
      match x.obj.list[n]? with
      | some i => (.label i, { x with n := some (n + 1) })
      | none => (.stop, { x with n := some (n + 1) })
    else (.stop, x)

/-- The labels a consumer of an iterator (`tuple(x)`, a comprehension) receives when it calls `__next__` at most `fuel` times, and the object
afterwards. -/
def IterObj.drain : Nat → IterObj → List Index × IterObj
  | 0, x => ([], x)
  | fuel + 1, x =>
    match x.next with
    | (.label i, x') => let r := x'.drain fuel; (i :: r.1, r.2)
    | (_, x') => ([], x')

/-- A consumer that starts a new iteration and takes all labels: `tuple(self)`, `[... for i in self]`, `enumerate(self)`.  One call of
`__next__` more than there are labels ends it. -/
def IterObj.takeAll (x : IterObj) : List Index × IterObj := x.iter.drain (x.obj.size + 1)

/-- Names of objects: two names are two different objects. -/
abbrev ObjName := Nat

/-- The objects of a program. -/
abbrev ObjStore := ObjName → IterObj

/-- Replace one object. -/
def ObjStore.set (h : ObjStore) (x : ObjName) (o : IterObj) : ObjStore := fun y => if y = x then o else h y

/-- Uses of objects. -/
inductive Use
  | len (x : ObjName)
  | getItem (x : ObjName) (k : Nat)
  | contains (x : ObjName) (i : Index)
  | eq (x y : ObjName)
  | lt (x y : ObjName)
  | hash (x : ObjName)
  | latex (x : ObjName)
  | countPermutations (x y : ObjName)
  | first (x : ObjName)
  deriving DecidableEq, Repr

/-- What a program can observe: the label a loop over `x` gives to its body, or the result of a use. -/
inductive Event
  | item (x : ObjName) (i : Index)
  | nat (n : Nat)
  | bool (b : Bool)
  | label (i : Index)
  | labels (l : List Index)
  | text (s : PyStr)
  | raised (e : PyErr)
  | stopIteration
  deriving DecidableEq, Repr

/-- The observation of a result that may be an exception (caught by the program). -/
def Event.ofExcept {α : Type} (f : α → Event) : Except PyErr α → Event
  | .ok a => f a
  | .error e => .raised e

/-- The effect of a use:
`len(x)` Indices.py:185-186, `x[k]` 181-183 (for a number that is not negative), `i in x` 191-192, `x == y` 146-148, `x < y` 154-156,
`hash(x)` 188-189 (the hash of a tuple is represented by the tuple), `x.latex()` 234-243, `x.count_permutations(y)` 212-232 (which goes through
`x`, then through `y`, after the test that raises), `next(iter(x))` 170-179. -/
def runUse (u : Use) (h : ObjStore) : Event × ObjStore :=
  match u with
  | .len x => (.nat (h x).obj.size, h)
  | .getItem x k => (match (h x).obj.list[k]? with | some i => .label i | none => .raised .indexError, h)
  | .contains x i => (.bool (decide (i ∈ (h x).obj.list)), h)
  | .eq x y => (Event.ofExcept .bool ((h x).obj.pyEq (h y).obj), h)
  | .lt x y => (Event.ofExcept .bool ((h x).obj.pyLt (h y).obj), h)
  | .hash x => let r := (h x).takeAll; (.labels r.1, h.set x r.2)
  | .latex x =>
    let r := (h x).takeAll
    (.text ('{' :: ' ' :: (joinSpace (r.1.map Index.latex) ++ [' ', '}'])), h.set x r.2)
  | .countPermutations x y =>
    if (h x).obj.isPermutation (h y).obj then
      let r := (h x).takeAll
      let h1 := h.set x r.2
      let s := (h1 y).takeAll
      (.nat (invCount (s.1.map fun v => r.1.idxOf v)), h1.set y s.2)
    else (.raised .valueError, h)
  | .first x =>
    let r := (h x).iter.next
    (match r.1 with | .label i => .label i | _ => .stopIteration, h.set x r.2)

/-- Programs that go through objects: uses, sequences and loops `for i in x: body`. -/
inductive LoopProg
  | skip
  | use (u : Use)
  | seq (a b : LoopProg)
  | loop (x : ObjName) (body : LoopProg)
  deriving DecidableEq, Repr

/-- The rounds of a loop over `x` after `__iter__` was called; `none` when `fuel` rounds were not enough. -/
def loopRounds (body : ObjStore → Option (List Event × ObjStore)) (x : ObjName) : Nat → ObjStore → Option (List Event × ObjStore)
  | 0, _ => none
  | fuel + 1, h =>
    match (h x).next with
    | (.label i, o) =>
      match body (h.set x o) with
      | none => none
      | some (ev, h1) =>
        match loopRounds body x fuel h1 with
        | none => none
        | some (ev', h2) => some (.item x i :: (ev ++ ev'), h2)
    | (_, o) => some ([], h.set x o)

/-- A run of a program; `none` when one of its loops needs more than `fuel` rounds. -/
def LoopProg.run (fuel : Nat) : LoopProg → ObjStore → Option (List Event × ObjStore)
  | .skip, h => some ([], h)
  | .use u, h => let r := runUse u h; some ([r.1], r.2)
  | .seq a b, h =>
    match a.run fuel h with
    | none => none
    | some (ev, h1) =>
      match b.run fuel h1 with
      | none => none
      | some (ev', h2) => some (ev ++ ev', h2)
  | .loop x body, h => loopRounds (body.run fuel) x fuel (h.set x (h x).iter)

end Dsrg

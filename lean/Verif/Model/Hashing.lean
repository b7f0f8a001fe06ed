import Verif.Model.Latex

/-!
Model of the hash methods (`Index.py`, `Indices.py`, `IndicesPair.py`, `Tensor.py`, `Term.py`) and of python's sets, which use them.
-/

namespace Dsrg

/-- The hash functions of python's library: of integers, of strings, and of tuples from the hashes of the elements.  They are arbitrary. -/
structure PyHash where
  int : Int → Int
  str : PyStr → Int
  tuple : List Int → Int

variable (H : PyHash)

/-- `Index.__hash__`, Index.py:75-76. -/
def Index.pyHash (i : Index) : Int := H.str i.name

/-- `Indices.__hash__`, Indices.py:188-189. -/
def Indices.pyHash (x : Indices) : Int := H.tuple (x.list.map (Index.pyHash H))

/-- `IndicesPair.__hash__`, IndicesPair.py:120-121; operators inherit it. -/
def IndicesPair.pyHash (x : IndicesPair) : Int := H.tuple [x.upper.pyHash H, x.lower.pyHash H]

/-- `Tensor.__hash__`, Tensor.py:102-103, with `comparison_tuple` 69-71. -/
def Tensor.pyHash (t : Tensor) : Int :=
  H.tuple [H.int t.priority, H.str t.name, H.int t.pair.size, t.pair.upper.pyHash H, t.pair.lower.pyHash H]

/-- `Term.__hash__`, Term.py:277-281: the hash of the printed term. -/
def Term.pyHash (limit : ℚ → Nat → ℚ) (t : Term) : Except PyErr Int := do
  let s ← t.latex limit false false false false
  pure (H.str s)

/-- Is there an element of the set that equals `x`?  Python compares `x` with the elements that have its hash; an exception of the comparison
is passed on. -/
def setMember {α : Type} (hash : α → Int) (eq : α → α → Except PyErr Bool) (x : α) : List α → Except PyErr Bool
  | [] => .ok false
  | y :: s =>
    if hash y = hash x then do
      if ← eq y x then pure true else setMember hash eq x s
    else setMember hash eq x s

/-- `s.add(x)`: the elements in the order in which they were added. -/
def setAdd {α : Type} (hash : α → Int) (eq : α → α → Except PyErr Bool) (s : List α) (x : α) : Except PyErr (List α) := do
  if ← setMember hash eq x s then pure s else pure (s ++ [x])

/-- `set(l)`. -/
def pySet {α : Type} (hash : α → Int) (eq : α → α → Except PyErr Bool) (l : List α) : Except PyErr (List α) :=
  l.foldlM (setAdd hash eq) []

end Dsrg

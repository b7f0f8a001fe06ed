import Verif.Model.IndicesPair

/-!
Model of `dsrg_generator/Tensor.py`.
-/

namespace Dsrg

/-- The tensor classes, Tensor.py:5, 166, 200, 242, 267, 313. -/
inductive TCls
  | tensor | cumulant | hole | kronecker | cluster | hamiltonian
  deriving DecidableEq, Repr

/-- A `Tensor` object, Tensor.py:28-45. -/
structure Tensor where
  cls : TCls
  name : PyStr
  priority : Int
  pair : IndicesPair
  deriving DecidableEq, Repr

/-- Upper labels. -/
abbrev Tensor.upper (t : Tensor) : Indices := t.pair.upper
/-- Lower labels. -/
abbrev Tensor.lower (t : Tensor) : Indices := t.pair.lower

/-- Default names, Tensor.py:28, 167, 201, 243, 268, 314. -/
def TCls.defaultName : TCls → PyStr
  | .tensor => ['T', 'e', 'n', 's', 'o', 'r']
  | .cumulant => ['L']
  | .hole => ['C']
  | .kronecker => ['K']
  | .cluster => ['T']
  | .hamiltonian => ['H']

/-- Default priorities, Tensor.py:28, 167, 201, 243, 268, 314. -/
def TCls.defaultPriority : TCls → Int
  | .tensor => 0
  | .cumulant => 2
  | .hole => 2
  | .kronecker => -1
  | .cluster => 1
  | .hamiltonian => 0

/-- The loop of `test_indices`, Tensor.py:279-290: the flags (hole, part, de_ex).  `deEx` is the letter tested on line
289 (`v` for upper, `c` for lower). -/
def clusterFlags (deEx : Kind) : List Index → Bool × Bool × Bool
  | [] => (false, false, false)
  | i :: l =>
    let rest := clusterFlags deEx l
    let space := Space.relation ⟨i.space.kind, false⟩
    if space = {⟨.a, false⟩} then rest
    else
      (rest.1 || decide (space ⊆ Space.relation ⟨.h, false⟩), rest.2.1 || decide (space ⊆ Space.relation ⟨.p, false⟩),
        rest.2.2 || decide (⟨deEx, false⟩ ∈ space))

/-- `test_indices`, Tensor.py:275-296. -/
def clusterTest (deEx : Kind) (l : List Index) : Except PyErr Bool :=
  let f := clusterFlags deEx l
  if f.1 && f.2.1 then .error .valueError else .ok f.2.2

/-- The spin test shared by the constructors, Tensor.py:169-170, 205-206, 247-248, 271-272, 316-317. -/
def requireSpinConserving (pair : IndicesPair) : Except PyErr Unit :=
  match pair.isSpinConserving with
  | .ok b => if b then .ok () else .error .valueError
  | .error e => .error e

/-- The shape test of hole densities and deltas, Tensor.py:203-204, 245-246. -/
def requireOneBody (pair : IndicesPair) : Except PyErr Unit :=
  if pair.nUpper = 1 ∧ pair.nLower = 1 then .ok () else .error .valueError

/-- The constructors, Tensor.py:28-45, 167-170, 201-206, 243-248, 268-300, 314-317. -/
def Tensor.make (cls : TCls) (upper lower : Indices) (name : PyStr) (priority : Int) : Except PyErr Tensor := do
  let pair ← IndicesPair.make upper lower
  match cls with
  | .tensor => pure ()
  | .cumulant => requireSpinConserving pair
  | .hole =>
    requireOneBody pair
    requireSpinConserving pair
  | .kronecker =>
    requireOneBody pair
    requireSpinConserving pair
  | .cluster =>
    requireSpinConserving pair
    let _ ← clusterTest .v pair.upper.list
    let _ ← clusterTest .c pair.lower.list
    pure ()
  | .hamiltonian => requireSpinConserving pair
  pure ⟨cls, name, priority, pair⟩

/-- `_excitation` of a cluster amplitude, Tensor.py:298-300. -/
def Tensor.excitation (t : Tensor) : Bool :=
  !((clusterFlags .v t.upper.list).2.2 || (clusterFlags .c t.lower.list).2.2)

/-- `is_all_active`, Tensor.py:308-309. -/
def Tensor.isAllActive (t : Tensor) : Bool := t.pair.indices.all fun i => i.space.kind == .a

/-- Python's `<` on strings: lexicographic by code point. -/
def strLt (a b : PyStr) : Bool := pyListLt (fun x y => decide (x.toNat < y.toNat)) a b

/-- Tuple equality, Tensor.py:80 (classes of indices agree). -/
def Tensor.eqCore (x y : Tensor) : Bool :=
  x.priority == y.priority && x.name == y.name && x.pair.size == y.pair.size && x.upper.eqCore y.upper &&
    x.lower.eqCore y.lower

/-- Tuple `<`, Tensor.py:70-71, 88 (classes of indices agree). -/
def Tensor.ltCore (x y : Tensor) : Bool :=
  if x.priority = y.priority then
    if x.name = y.name then
      if x.pair.size = y.pair.size then
        if x.upper.eqCore y.upper then x.lower.ltCore y.lower else x.upper.ltCore y.upper
      else decide (x.pair.size < y.pair.size)
    else strLt x.name y.name
  else decide (x.priority < y.priority)

/-- Python's `<=` on strings. -/
def strLe (a b : PyStr) : Bool := pyListLe (fun x y => decide (x.toNat ≤ y.toNat)) a b

/-- Tuple `<=`, Tensor.py:70-71, 92 (classes of indices agree). -/
def Tensor.leCore (x y : Tensor) : Bool :=
  if x.priority = y.priority then
    if x.name = y.name then
      if x.pair.size = y.pair.size then
        if x.upper.eqCore y.upper then x.lower.leCore y.lower else x.upper.leCore y.upper
      else decide (x.pair.size ≤ y.pair.size)
    else strLe x.name y.name
  else decide (x.priority ≤ y.priority)

/-- `__eq__`, Tensor.py:78-80. -/
def Tensor.pyEq (x y : Tensor) : Except PyErr Bool := do x.pair.checkOperand y.pair; pure (x.eqCore y)
/-- `__ne__`, Tensor.py:82-84. -/
def Tensor.pyNe (x y : Tensor) : Except PyErr Bool := do x.pair.checkOperand y.pair; pure (!x.eqCore y)
/-- `__lt__`, Tensor.py:86-88. -/
def Tensor.pyLt (x y : Tensor) : Except PyErr Bool := do x.pair.checkOperand y.pair; pure (x.ltCore y)
/-- `__le__`, Tensor.py:90-92. -/
def Tensor.pyLe (x y : Tensor) : Except PyErr Bool := do x.pair.checkOperand y.pair; pure (x.leCore y)
/-- `__gt__`, Tensor.py:94-96. -/
def Tensor.pyGt (x y : Tensor) : Except PyErr Bool := do x.pair.checkOperand y.pair; pure (y.ltCore x)
/-- `__ge__`, Tensor.py:98-100. -/
def Tensor.pyGe (x y : Tensor) : Except PyErr Bool := do x.pair.checkOperand y.pair; pure (y.leCore x)

/-- The overlap test shared by `Cumulant.downgrade_indices` (Tensor.py:178-193) and
`HoleDensity.downgrade_indices` (Tensor.py:213-228): `excluded` is `v`/`c`, `composite` is `h`/`p`.  `none` stands for
the empty string. -/
def downgradeDensity (excluded composite : Kind) (u l : Space) : Option Space :=
  let overlap := u.relation ∩ l.relation
  if overlap.card = 1 then
    -- `next(iter(overlap))` of a one-element set
    (moSpace.find? fun s => decide (s ∈ overlap)).bind fun s => if s.kind ≠ excluded then some s else none
  else if overlap.card > 1 then
    if Space.relation ⟨composite, u.beta⟩ ⊆ overlap then some ⟨composite, u.beta⟩ else some ⟨.a, u.beta⟩
  else none

/-- `Kronecker.downgrade_indices`, Tensor.py:250-263, on the two indices. -/
def downgradeDelta (u l : Index) : Option Space :=
  let (high, low) := if l.pyLt u then (l, u) else (u, l)
  if (high.space.relation ∩ low.space.relation).card = 0 then none
  else if (high.space.kind, low.space.kind) = (Kind.p, Kind.h) then some ⟨.a, high.isBeta⟩
  else some low.space

/-- `downgrade_indices`, Tensor.py:129-134, 172-196, 208-228, 250-263, 305-306, 319-320. -/
def Tensor.downgradeIndices (t : Tensor) : Except PyErr (Option Space) :=
  match t.cls, t.upper.list, t.lower.list with
  | .cumulant, [u], [l] => .ok (downgradeDensity .v .h u.space l.space)
  | .hole, [u], [l] => .ok (downgradeDensity .c .p u.space l.space)
  | .kronecker, [u], [l] => .ok (downgradeDelta u l)
  | _, _, _ => .error .notImplemented

/-- `HoleDensity.expand`, Tensor.py:230-238. -/
def Tensor.expandHole (t : Tensor) : List Tensor :=
  let kron : Tensor := ⟨.kronecker, ['K'], -1, t.pair⟩
  let cum : Tensor := ⟨.cumulant, ['L'], 2, t.pair⟩
  if (t.upper.list.head?.map fun i => i.space.kind) = some .v ∨ (t.lower.list.head?.map fun i => i.space.kind) = some .v then [kron]
  else [kron, cum]

/-- `canonicalize`, Tensor.py:146-153. -/
def Tensor.canonicalize (t : Tensor) : Tensor × Int :=
  let c := t.pair.canonicalize
  (⟨t.cls, t.name, t.priority, c.1⟩, c.2)

/-- `generate_spin_cases`, Tensor.py:155-162. -/
def Tensor.generateSpinCases (t : Tensor) (particleConserving : Bool) : Except PyErr (List Tensor) := do
  let rows ← t.pair.generateSpinCases particleConserving
  rows.mapM fun r => Tensor.make t.cls r.1 r.2 t.name t.priority

end Dsrg

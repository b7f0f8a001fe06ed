import Verif.Model.Sympy

/-!
Operations on terms that restrict, differentiate or spin-label them (Term.py:989-1168).
-/

namespace Dsrg

/-- SymPy's `canonicalize`, as it is called by `canonicalize_sympy`. -/
abbrev CanonFn := List Nat → List (Nat × Nat) → List SlotGroup → Option (List Nat)

/-- The space chosen for one label, Term.py:1054-1057, 1060-1063; `none` when the function returns the zero term.  `overlap.pop()` takes
an arbitrary element. -/
def restrictedSpace (ord : SetOrder) (target s : Space) : Option Space :=
  let overlap := target.relation ∩ s.relation
  if overlap = ∅ then none
  else if overlap = target.relation then some target
  else (ord.spaces overlap).head?

/-- `make_excitation`, Term.py:1039-1073.  Simplification: the spaces of all labels are chosen before the labels are numbered; the
numbering is the one of the code, and it is not used when the function returns the zero term. -/
def Term.makeExcitation (canon : CanonFn) (ord : SetOrder) (t : Term) (singleRef : Bool) : Except PyErr Term :=
  if t.sqOp.isPossibleExcitation = false then t.void
  else
    let hole : Space := ⟨if singleRef then .c else .h, false⟩
    let part : Space := ⟨if singleRef then .v else .p, false⟩
    match t.sqOp.upper.list.mapM fun i => restrictedSpace ord part i.space with
    | none => t.void
    | some cre =>
      match t.sqOp.lower.list.mapM fun i => restrictedSpace ord hole i.space with
      | none => t.void
      | some ann => do
        let d := ddcaMap (t.tensors.flatMap fun x => x.pair.indices) t.sqOp.indices (cre ++ ann) 0
        let r ← relabelIndices (dictFind d) t.tensors t.sqOp
        let s ← Term.make r.2.1 r.2.2 (t.coeff * r.1)
        s.canonicalize canon ord true true true

/-- One iteration of the loop of `make_one_body_diagonal`, Term.py:1094-1107. -/
def Term.diagonalRow (canon : CanonFn) (ord : SetOrder) (t : Term) (cre ann : Index) (s : Space) : Except PyErr Term := do
  let d := ddcaMap (t.tensors.flatMap fun x => x.pair.indices) [ann, cre] [s, s] 0
  let r ← relabelIndices (dictFind d) t.tensors t.sqOp
  let u ← Term.make r.2.1 r.2.2 (t.coeff * r.1)
  u.canonicalize canon ord true true true

/-- `make_one_body_diagonal`, Term.py:1075-1107. -/
def Term.makeOneBodyDiagonal (canon : CanonFn) (ord : SetOrder) (t : Term) (singleRef : Bool) : Except PyErr (List Term) := do
  let n ← t.sqOp.nBody
  if n ≠ 1 then throw .valueError
  match t.sqOp.upper.list, t.sqOp.lower.list with
  | cre :: _, ann :: _ =>
    let overlap := cre.space.relation ∩ ann.space.relation
    let overlap := if singleRef then overlap.filter fun s => s.kind ≠ .a else overlap
    (ord.spaces overlap).mapM (t.diagonalRow canon ord cre ann)
  | _, _ => throw .indexError

/-- A list without the element at position `k`, Term.py:1165. -/
def dropAt {α : Type} (l : List α) (k : Nat) : List α := l.take k ++ l.drop (k + 1)

/-- One iteration of the second loop of `gradient_t`, Term.py:1164-1168: `x` is the amplitude, `rest` the other factors.  The operator is built with the default spin-orbital index class from the index objects of the
amplitude, so their class is kept (IndicesPair.py:10-27). -/
def Term.gradientRow (canon : CanonFn) (ord : SetOrder) (t : Term) (x : Tensor) (rest : List Tensor) : Except PyErr Term := do
  let op ← IndicesPair.make x.lower x.upper
  let r ← Term.make rest op t.coeff
  r.canonicalize canon ord true true true

/-- `gradient_t`, Term.py:1152-1168. -/
def Term.gradientT (canon : CanonFn) (ord : SetOrder) (t : Term) : Except PyErr (List Term) := do
  let n ← t.sqOp.nBody
  if n ≠ 0 then throw .notImplemented
  let clusters := t.tensors.filter fun x => decide (x.cls = .cluster)
  let others := t.tensors.filter fun x => !decide (x.cls = .cluster)
  clusters.zipIdx.mapM fun e => t.gradientRow canon ord e.1 (others ++ dropAt clusters e.2)

/-- One iteration of the loop of `generate_spin_cases_naive`, Term.py:998-1004: a `ValueError` of the constructor or of `canonicalize`
is swallowed. -/
def spinCase (canon : CanonFn) (ord : SetOrder) (coeff : ℚ) (op : SqOp) (ts : List Tensor) : Except PyErr (Option Term) :=
  match Term.make ts op coeff >>= fun r => r.canonicalize canon ord true true true with
  | .ok r => .ok (some r)
  | .error .valueError => .ok none
  | .error e => .error e

/-- `generate_spin_cases_naive`, Term.py:989-1004. -/
def Term.generateSpinCasesNaive (canon : CanonFn) (ord : SetOrder) (t : Term) : Except PyErr (List Term) := do
  if t.sqOp.upper.ty ≠ .spinOrbital then throw .typeError
  let ops ← t.sqOp.generateSpinCases true
  let ops ← ops.mapM fun p => IndicesPair.make p.1 p.2
  let tensors ← t.tensors.mapM fun x => x.generateSpinCases true
  let rows ← (ops.flatMap fun op => (pyProduct tensors).map fun ts => (op, ts)).mapM fun p => spinCase canon ord t.coeff p.1 p.2
  pure (rows.filterMap id)

end Dsrg

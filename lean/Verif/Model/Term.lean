import Verif.Model.Tensor
import Verif.Model.Elementary
import Mathlib.Algebra.Order.Field.Rat
import Mathlib.Data.Nat.Factorial.Basic
import Mathlib.Data.Finset.Lattice.Fold

/-!
Model of `dsrg_generator/Term.py`: construction, relabelling, `simplify`, `canonicalize_simple`, the expansion of composite
labels and the spin cases.  Coefficients (python floats) are exact rationals.
-/

namespace Dsrg

/-- The orders in which python iterates over sets, which the language leaves open. -/
structure SetOrder where
  indices : Finset Index → List Index
  spaces : Finset Space → List Space

/-- Iterating over a set visits every element exactly once. -/
structure SetOrder.Lawful (ord : SetOrder) : Prop where
  indices_nodup : ∀ s, (ord.indices s).Nodup
  mem_indices : ∀ s i, i ∈ ord.indices s ↔ i ∈ s
  spaces_nodup : ∀ s, (ord.spaces s).Nodup
  mem_spaces : ∀ s i, i ∈ ord.spaces s ↔ i ∈ s

/-- A `Term` object, Term.py:122, 127, 161-171.  Simplification: `_diagonal_indices` is kept as a set; its values (the
multiplicities) are never read. -/
structure Term where
  coeff : ℚ
  sqOp : SqOp
  tensors : List Tensor
  indicesSet : Finset Index
  nextNum : Space → Nat
  diag : Finset Index

/-- `connection[i] += 1` of a `defaultdict(int)`, Term.py:132, 146. -/
def dictIncr {κ : Type} [DecidableEq κ] (d : Dict κ Nat) (k : κ) : Dict κ Nat :=
  match d with
  | [] => [(k, 1)]
  | (k', n) :: rest => if k' = k then (k', n + 1) :: rest else (k', n) :: dictIncr rest k

/-- `connection`, Term.py:130-132, 145-146. -/
def connection (ts : List Tensor) (op : SqOp) : Dict Index Nat :=
  (op.indices ++ ts.flatMap fun t => t.pair.indices).foldl dictIncr []

/-- The labels that are both upper and lower labels of one factor, Term.py:133, 147. -/
def diagonalOf (ts : List Tensor) (op : SqOp) : Finset Index :=
  ts.foldl (fun s t => s ∪ t.pair.diagonalIndices) op.diagonalIndices

/-- `sorted` with the `__lt__` of tensors, Term.py:161. -/
def sortTensors (ts : List Tensor) : List Tensor := ts.insertionSort fun x y => (!(y.ltCore x)) = true

/-- `next_index_number`, Term.py:165-168. -/
def nextNumbers (s : Finset Index) (space : Space) : Nat := (s.filter fun i => i.space = space).sup fun i => i.number + 1

/-- `connection[k]` on a `defaultdict(int)`. -/
def dictCount {κ : Type} [DecidableEq κ] (d : Dict κ Nat) (k : κ) : Nat :=
  match d with
  | [] => 0
  | (k', n) :: rest => if k' = k then n else dictCount rest k

/-- `Term.__init__`, Term.py:109-171 (the type checks of the arguments are not represented). -/
def Term.make (ts : List Tensor) (op : SqOp) (coeff : ℚ) : Except PyErr Term :=
  let con := connection ts op
  let diag := diagonalOf ts op
  if ts.any fun t => decide (t.upper.ty ≠ op.upper.ty) then .error .typeError
  else if con.any fun e => decide (e.1 ∉ diag ∧ e.2 ≠ 2) then .error .valueError
  else if decide (∃ k ∈ diag, dictCount con k % 2 = 1) then .error .valueError
  else
    let s := (con.map Prod.fst).toFinset
    .ok { coeff := coeff, sqOp := op, tensors := sortTensors ts, indicesSet := s, nextNum := nextNumbers s, diag := diag }

/-- `Term.from_term`, Term.py:173-183. -/
def Term.fromTerm (t : Term) (flipSign hc : Bool) : Except PyErr Term := do
  let op ← t.sqOp.clone hc
  Term.make t.tensors op ((if flipSign then -1 else 1) * t.coeff)

/-- `make_empty`, Term.py:185-188. -/
def Term.makeEmpty (ty : IType) : Except PyErr Term := Term.make [] ⟨⟨ty, []⟩, ⟨ty, []⟩⟩ 0

/-- `void`, Term.py:293-295. -/
def Term.void (t : Term) : Except PyErr Term := Term.make [] t.sqOp.void 0

/-- `void_self`, Term.py:297-305. -/
def Term.voidSelf (t : Term) : Term :=
  { t with coeff := 0, sqOp := t.sqOp.void, tensors := [], indicesSet := ∅, diag := ∅ }

/-- `is_void`, Term.py:307-309. -/
def Term.isVoid (t : Term) : Bool := decide (|t.coeff| < 1 / 10 ^ 15)

/-! ### Operator factories -/

/-- A list of labels `f"{space}{i}" for i in range(lo, hi)`, Term.py:27-31, 89-90. -/
def labelNames (s : Space) (lo n : Nat) : List PyStr := (List.range' lo n).map fun i => Index.name ⟨s, i⟩

/-- `hamiltonian_operator`, Term.py:16-34. -/
def hamiltonianOperator (k start : Nat) (ty : IType) : Except PyErr Term := do
  let up ← Indices.ofNames ty (labelNames ⟨.g, false⟩ (start + k) k)
  let lo ← Indices.ofNames ty (labelNames ⟨.g, false⟩ start k)
  let tensor ← Tensor.make .hamiltonian up lo ['H'] 0
  let op ← IndicesPair.make lo up
  Term.make [tensor] op (1 / ((k.factorial ^ 2 : Nat) : ℚ))

/-- `cluster_operator`, Term.py:73-95. -/
def clusterOperator (k start : Nat) (excitation : Bool) (name : PyStr) (scale : ℚ) (hole particle : Space) (ty : IType) :
    Except PyErr Term := do
  let h ← Indices.ofNames ty (labelNames hole start k)
  let p ← Indices.ofNames ty (labelNames particle start k)
  let tensor ← Tensor.make .cluster h p name 1
  let op ← if excitation then IndicesPair.make p h else IndicesPair.make h p
  Term.make [tensor] op (scale / ((k.factorial ^ 2 : Nat) : ℚ))

/-! ### Fresh labels and relabelling -/

/-- `_generate_next_index` with `add=True`, Term.py:464-476. -/
def generateNextIndex (s : Space) (next : Space → Nat) : Index × (Space → Nat) :=
  (⟨s, next s⟩, Function.update next s (next s + 1))

/-- One tensor of `_replace_tensors_indices`, Term.py:490-492. -/
def replaceTensor (ρ : Index → Except PyErr Index) (t : Tensor) : Except PyErr Tensor := do
  let u ← Indices.make t.upper.ty (← t.upper.list.mapM ρ)
  let l ← Indices.make t.upper.ty (← t.lower.list.mapM ρ)
  Tensor.make t.cls u l t.name t.priority

/-- `_replace_tensors_indices`, Term.py:478-493. -/
def replaceTensors (ρ : Index → Except PyErr Index) (ts : List Tensor) : Except PyErr (List Tensor) :=
  if ts.length = 0 then .error .valueError else ts.mapM (replaceTensor ρ)

/-- `_replace_sq_op_indices`, Term.py:494-506. -/
def replaceSqOp (ρ : Index → Except PyErr Index) (op : SqOp) : Except PyErr SqOp := do
  let u ← Indices.make op.upper.ty (← op.upper.list.mapM ρ)
  let l ← Indices.make op.upper.ty (← op.lower.list.mapM ρ)
  IndicesPair.make u l

/-- The replacement map and the counters during `simplify`: `repl` is the dictionary (as a function), `next` is
`next_index`, `rdiag` is `replacement_diagonal`. -/
structure ReplState where
  repl : Index → Index
  next : Space → Nat
  rdiag : Index → Finset Index

/-- `replacement[i] = new`, and `_add_replacement_diagonal`, Term.py:596-599. -/
def ReplState.assign (st : ReplState) (diag : Finset Index) (i new : Index) : ReplState :=
  { st with
    repl := Function.update st.repl i new
    rdiag := if i ∈ diag then Function.update st.rdiag i (insert new (st.rdiag i)) else st.rdiag }

/-- Assign a fresh label of space `s` to the label `i`, Term.py:567-568, 571-572, 585-587, 589-591. -/
def ReplState.assignFresh (st : ReplState) (diag : Finset Index) (s : Space) (i : Index) : ReplState :=
  let g := generateNextIndex s st.next
  { st.assign diag i g.1 with next := g.2 }

/-- The space a label of a many-body cumulant is downgraded to, Term.py:567, 571. -/
def activeOf (i : Index) : Space := ⟨.a, i.isBeta⟩

/-- One pass of the loop of `_downgrade_cumulant_indices`, Term.py:560-591. -/
def downgradeStep (core : Bool) (diag : Finset Index) (st : ReplState) (t : Tensor) : Except PyErr (ReplState × Tensor) :=
  if t.cls = .cumulant then do
    let n ← t.pair.nBody
    if n ≠ 1 then
      pure (t.lower.list.foldl (fun st i => st.assignFresh diag (activeOf i) i)
        (t.upper.list.foldl (fun st i => st.assignFresh diag (activeOf i) i) st), t)
    else
      match ← t.downgradeIndices with
      | none => .error .valueError
      | some s =>
        if s.kind = .c ∧ core = true then do
          let k ← Tensor.make .kronecker t.upper t.lower ['K'] (-1)
          pure (st, k)
        else
          pure (t.lower.list.foldl (fun st i => st.assignFresh diag s i)
            (t.upper.list.foldl (fun st i => st.assignFresh diag s i) st), t)
  else pure (st, t)

/-- `_downgrade_cumulant_indices`, Term.py:550-594. -/
def downgradeCumulants (core : Bool) (diag : Finset Index) (st : ReplState) : List Tensor → Except PyErr (ReplState × List Tensor)
  | [] => pure (st, [])
  | t :: ts => do
    let r ← downgradeStep core diag st t
    let rs ← downgradeCumulants core diag r.1 ts
    pure (rs.1, r.2 :: rs.2)

/-- `sorted([u, l])`, Term.py:619. -/
def sortTwo (u l : Index) : Index × Index := if l.pyLt u then (l, u) else (u, l)

/-- One delta of `_remove_kronecker_delta`, Term.py:613-634.  `next_active` is the restriction of the counters to the active
labels (Term.py:608, 638-639). -/
def deltaStep (diag : Finset Index) (st : ReplState) (t : Tensor) : Except PyErr ReplState := do
  match ← t.downgradeIndices with
  | none => .error .valueError
  | some _ =>
    match t.upper.list, t.lower.list with
    | [u], [l] =>
      let high := (sortTwo u l).1
      let low := (sortTwo u l).2
      if (high.space.kind, low.space.kind) = (Kind.p, Kind.h) then
        let g := generateNextIndex ⟨.a, high.isBeta⟩ st.next
        pure { (st.assign diag high g.1).assign diag low g.1 with next := g.2 }
      else pure (st.assign diag high low)
    | _, _ => .error .indexError

/-- `_remove_kronecker_delta`, Term.py:601-641. -/
def removeDeltas (diag : Finset Index) (st : ReplState) : List Tensor → Except PyErr (ReplState × List Tensor)
  | [] => pure (st, [])
  | t :: ts =>
    if t.cls = .kronecker then do
      let st' ← deltaStep diag st t
      removeDeltas diag st' ts
    else do
      let rs ← removeDeltas diag st ts
      pure (rs.1, t :: rs.2)

/-- The loop over diagonal labels of `simplify`, Term.py:525-530.  `rd` is `replacement_diagonal_cu | replacement_diagonal_delta`;
the keys of the dictionary are tracked because new keys may be added. -/
def diagonalLoop (ord : SetOrder) (rd : Index → Finset Index) : List Index → (Index → Index) × (Space → Nat) × Finset Index →
    Except PyErr ((Index → Index) × (Space → Nat) × Finset Index)
  | [], st => pure st
  | i :: rest, (repl, next, keys) => do
    let overlap := (rd i).inf fun j => j.space.relation
    match ← findSpaceLabel overlap ((ord.spaces overlap).headD ⟨.g, false⟩) with
    | none => .error .keyError
    | some s =>
      let g := generateNextIndex s next
      diagonalLoop ord rd rest (fun j => if j = i ∨ j ∈ rd i then g.1 else repl j, g.2, keys ∪ insert i (rd i))

/-- A dictionary with the given keys, as a function. -/
def lookupIn (keys : Finset Index) (repl : Index → Index) (i : Index) : Except PyErr Index :=
  if i ∈ keys then .ok (repl i) else .error .keyError

/-- The test of Term.py:537-538. -/
def allActiveAmplitude (repl : Index → Index) (t : Tensor) : Bool :=
  decide (t.cls = .cluster) && t.pair.indices.all fun i => decide ((repl i).space.kind = .a)

/-- `simplify`, Term.py:508-548.  The term is changed in place; the model returns the changed term. -/
def Term.simplify (ord : SetOrder) (t : Term) (core removeActive : Bool) : Except PyErr Term := do
  let cu ← downgradeCumulants core t.diag ⟨id, t.nextNum, fun i => {i}⟩ t.tensors
  let de ← removeDeltas t.diag ⟨cu.1.repl, cu.1.next, fun i => {i}⟩ cu.2
  let st ← diagonalLoop ord (fun i => cu.1.rdiag i ∪ de.1.rdiag i) (ord.indices t.diag) (de.1.repl, de.1.next, t.indicesSet)
  let op ← replaceSqOp (lookupIn st.2.2 st.1) t.sqOp
  if removeActive && de.2.any (allActiveAmplitude st.1) then
    pure { coeff := 0, sqOp := op.void, tensors := [], indicesSet := ∅, nextNum := st.2.1, diag := ∅ }
  else do
    let ts ← replaceTensors (lookupIn st.2.2 st.1) de.2
    pure { coeff := t.coeff, sqOp := op, tensors := ts, indicesSet := st.2.2.image st.1, nextNum := st.2.1,
           diag := t.diag.image st.1 }

/-- The loop over the labels of one factor in `_minimal_indices`, Term.py:805-808. -/
def minimalFactor (st : Dict Index Index × (Space → Nat)) (labels : List Index) : Dict Index Index × (Space → Nat) :=
  labels.foldl (fun st i =>
    if st.1.any fun e => decide (e.1 = i) then st
    else
      let g := generateNextIndex i.space st.2
      (st.1 ++ [(i, g.1)], g.2)) st

/-- The loop over the factors of `_minimal_indices`, Term.py:804-810, with its early exit. -/
def minimalLoop (n : Nat) (st : Dict Index Index × (Space → Nat)) : List (List Index) → Dict Index Index × (Space → Nat)
  | [] => st
  | f :: rest =>
    let st' := minimalFactor st f
    if st'.1.length = n then st' else minimalLoop n st' rest

/-- `_minimal_indices`, Term.py:795-812. -/
def Term.minimalIndices (t : Term) : Dict Index Index :=
  (minimalLoop t.indicesSet.card ([], fun _ => 0) (t.sqOp.indices :: t.tensors.map fun x => x.pair.indices)).1

/-- `replacement[i]`. -/
def dictFind (d : Dict Index Index) (i : Index) : Except PyErr Index :=
  match d.find? fun e => decide (e.1 = i) with
  | some e => .ok e.2
  | none => .error .keyError

/-- `_relabel_indices`, Term.py:814-831. -/
def relabelIndices (ρ : Index → Except PyErr Index) (ts : List Tensor) (op : SqOp) : Except PyErr (Int × List Tensor × SqOp) := do
  let op ← replaceSqOp ρ op
  let ts ← replaceTensors ρ ts
  pure (op.canonicalize.2 * (ts.map fun t => t.canonicalize.2).prod, ts.map fun t => t.canonicalize.1, op.canonicalize.1)

/-- `canonicalize_simple`, Term.py:663-679: the simplified term (the object is changed) and the result. -/
def Term.canonicalizeSimple (ord : SetOrder) (t : Term) (core removeActive : Bool) : Except PyErr Term := do
  let s ← t.simplify ord core removeActive
  if s.isVoid then s.void
  else do
    let r ← relabelIndices (dictFind s.minimalIndices) s.tensors s.sqOp
    Term.make r.2.1 r.2.2 (s.coeff * r.1)

/-! ### Blocks of composite labels -/

/-- The replacement map of `make_ddca` for one choice of spaces, Term.py:1133-1139. -/
def ddcaMap (setOrder : List Index) (labels : List Index) (spaces : List Space) (start : Nat) : Dict Index Index :=
  let st := (labels.zip spaces).foldl (fun (st : Dict Index Index × (Space → Nat)) e =>
    let g := generateNextIndex e.2 st.2
    (dictSet st.1 e.1 g.1, g.2)) ([], fun _ => start)
  (minimalFactor st setOrder).1

/-- `make_ddca`, Term.py:1109-1141. -/
def Term.makeDdca (ord : SetOrder) (t : Term) (maxCore maxVirt : Int) (singleRef : Bool) (start : Nat) : Except PyErr (List Term) := do
  let labels := t.sqOp.indices
  let rows ← (pyProduct (labels.map fun i => ord.spaces i.space.relation)).mapM fun spaces =>
    if ((spaces.countP fun s => decide (s.kind = .c) : Nat) : Int) > maxCore ∨ ((spaces.countP fun s => decide (s.kind = .v) : Nat) : Int) > maxVirt then
      pure none
    else if (spaces.countP fun s => decide (s.kind = .a)) ≠ 0 ∧ singleRef = true then pure none
    else do
      let ρ := dictFind (ddcaMap (ord.indices t.indicesSet) labels spaces start)
      let op ← replaceSqOp ρ t.sqOp
      let ts ← replaceTensors ρ t.tensors
      let r ← Term.make ts op t.coeff
      pure (some r)
  pure (rows.filterMap id)

/-- `expand_composite_indices`, Term.py:1143-1150. -/
def Term.expandCompositeIndices (ord : SetOrder) (t : Term) (singleRef : Bool) (start : Nat) : Except PyErr (List Term) :=
  t.makeDdca ord t.sqOp.size t.sqOp.size singleRef start

end Dsrg

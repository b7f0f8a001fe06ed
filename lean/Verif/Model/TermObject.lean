import Verif.Model.Sympy

/-!
`Term` objects over several method calls, Term.py:195-201, 297-305, 508-793: which state a call leaves the receiver in, also when the
call raises.
-/

namespace Dsrg

/-- The loop of `_downgrade_cumulant_indices`, Term.py:560-591, with what it leaves in `_list_of_tensors` (line 583): core densities
before the factor at which it raises are already replaced. -/
def downgradeObj (core : Bool) (diag : Finset Index) (st : ReplState) : List Tensor → List Tensor × Except PyErr ReplState
  | [] => ([], .ok st)
  | t :: ts =>
    match downgradeStep core diag st t with
    | .error e => (t :: ts, .error e)
    | .ok r =>
      let rs := downgradeObj core diag r.1 ts
      (r.2 :: rs.1, rs.2)

/-- The loop over diagonal labels, Term.py:525-530, which changes `_next_index_number` in place. -/
def diagonalObj (ord : SetOrder) (rd : Index → Finset Index) : List Index → (Index → Index) × (Space → Nat) × Finset Index →
    (Space → Nat) × Except PyErr ((Index → Index) × Finset Index)
  | [], (repl, next, keys) => (next, .ok (repl, keys))
  | i :: rest, (repl, next, keys) =>
    let overlap := (rd i).inf fun j => j.space.relation
    match findSpaceLabel overlap ((ord.spaces overlap).headD ⟨.g, false⟩) with
    | .error e => (next, .error e)
    | .ok none => (next, .error .keyError)
    | .ok (some s) =>
      let g := generateNextIndex s next
      diagonalObj ord rd rest (fun j => if j = i ∨ j ∈ rd i then g.1 else repl j, g.2, keys ∪ insert i (rd i))

/-- `simplify`, Term.py:508-548: the state of the term after the call, and whether the call returned. -/
def Term.simplifyObj (ord : SetOrder) (t : Term) (core removeActive : Bool) : Term × Except PyErr Unit :=
  match downgradeObj core t.diag ⟨id, t.nextNum, fun i => {i}⟩ t.tensors with
  | (ts, .error e) => ({ t with tensors := ts }, .error e)
  | (ts, .ok cu) =>
    match removeDeltas t.diag ⟨cu.repl, cu.next, fun i => {i}⟩ ts with
    | .error e => ({ t with tensors := ts, nextNum := cu.next }, .error e)
    | .ok de =>
      match diagonalObj ord (fun i => cu.rdiag i ∪ de.1.rdiag i) (ord.indices t.diag) (de.1.repl, de.1.next, t.indicesSet) with
      | (next, .error e) => ({ t with tensors := ts, nextNum := next }, .error e)
      | (next, .ok (repl, keys)) =>
        match replaceSqOp (lookupIn keys repl) t.sqOp with
        | .error e => ({ t with tensors := ts, nextNum := next }, .error e)
        | .ok op =>
          if removeActive && de.2.any (allActiveAmplitude repl) then
            (({ t with tensors := ts, nextNum := next, sqOp := op } : Term).voidSelf, .ok ())
          else
            match replaceTensors (lookupIn keys repl) de.2 with
            | .error e => ({ t with tensors := ts, nextNum := next, sqOp := op }, .error e)
            | .ok new =>
              ({ t with tensors := new, nextNum := next, sqOp := op, indicesSet := keys.image repl, diag := t.diag.image repl }, .ok ())

/-- A use of a `Term` object that may change it; `simplify_core_cumulant` keeps its default value. -/
inductive TermCall where
  /-- `t.simplify(remove_active_amplitudes=…)`, Term.py:508. -/
  | simplify (removeActive : Bool)
  /-- `t.canonicalize_simple(remove_active_amplitudes=…)`, Term.py:663. -/
  | canonicalizeSimple (removeActive : Bool)
  /-- `t.canonicalize(remove_active_amplitudes=…, hermitian_tensor=…)`, Term.py:643. -/
  | canonicalize (removeActive hermitian : Bool)
  /-- `t.coeff *= k`, Term.py:190-201. -/
  | scale (k : ℚ)

/-- One use: the state of the object afterwards, and what the call returned (`none` for `None`) or raised.  `canonicalize` raises
before it changes the object (Term.py:651-653); apart from that both canonicalizations change it by calling `simplify` (lines 671, 732). -/
def TermCall.run (canon : List Nat → List (Nat × Nat) → List SlotGroup → Option (List Nat)) (ord : SetOrder) (t : Term) :
    TermCall → Term × Except PyErr (Option Term)
  | .simplify ra => ((t.simplifyObj ord true ra).1, (t.simplifyObj ord true ra).2.map fun _ => none)
  | .canonicalizeSimple ra => ((t.simplifyObj ord true ra).1, (t.canonicalizeSimple ord true ra).map some)
  | .canonicalize ra h =>
    (if t.diag.card ≠ 0 then t else (t.simplifyObj ord true ra).1, (t.canonicalize canon ord true ra h).map some)
  | .scale k => ({ t with coeff := t.coeff * k }, .ok none)

/-- A program that uses one `Term` object again and again, and catches what is raised: the final state and the outcomes. -/
def runCalls (canon : List Nat → List (Nat × Nat) → List SlotGroup → Option (List Nat)) (ord : SetOrder) (t : Term) :
    List TermCall → Term × List (Except PyErr (Option Term))
  | [] => (t, [])
  | call :: rest =>
    let o := call.run canon ord t
    let os := runCalls canon ord o.1 rest
    (os.1, o.2 :: os.2)

end Dsrg

import Verif.Lemmas.TermHistory
import Verif.Lemmas.PlainCanon
import Verif.Spec.Toy
import Verif.Props.Terms
import Verif.Props.SpinCases

/-!
Property theorems about `Term` objects that are used more than once, and about calls that raise.
-/

namespace Dsrg

variable {O R M : Type} [Fintype O] [DecidableEq O] [Inhabited O] [CommRing R] [Algebra ℚ R] [AddCommGroup M] [Module R M]

/-! ### C96 A Term can be used again after it was simplified or canonicalized -/

/-- `simplify` and the canonicalizations change the term they are called on.  For a term whose densities and operator have distinct
labels and which does not vanish, this never shows: each call of a history returns what it returns on a fresh copy of the term. -/
theorem C96_fresh_partial (canon : List Nat → List (Nat × Nat) → List SlotGroup → Option (List Nat)) (ord : SetOrder) (hord : ord.Lawful)
    (ts : List Tensor) (op : SqOp) (c : ℚ) (t s : Term) (ht : Term.make ts op c = .ok t) (hp : Paired ts op) (ra : Bool)
    (hs : (TermCall.simplify ra).run canon ord t = (s, .ok none)) (hne : s.tensors ≠ [])
    (calls : List TermCall) (hcalls : ∀ call ∈ calls, call.UsesFlag ra) :
    (runCalls canon ord t calls).2 = calls.map fun call => (call.run canon ord t).2 := by
  refine runCalls_fresh hord (Sane.of_make ht hp) (s₀ := s) ?_ hne calls hcalls
  rw [Term.simplifyObj_eq]
  simp only [TermCall.run, Prod.mk.injEq] at hs
  obtain ⟨h1, h2⟩ := hs
  cases h3 : (t.simplifyObj ord true ra).2 with
  | error e => rw [h3] at h2; cases h2
  | ok u => rw [← h1]; rfl

/-- In every history of calls, some of which may raise, the object keeps the value it was built with, up to the factors put into its
coefficient, and every term returned has the value that the object had when it was returned. -/
theorem C96_history_partial (canon : List Nat → List (Nat × Nat) → List SlotGroup → Option (List Nat)) (hcanon : CanonContract canon)
    (ord : SetOrder) (hord : ord.Lawful) (ts : List Tensor) (op : SqOp) (c : ℚ) (t : Term) (ht : Term.make ts op c = .ok t) (hp : Paired ts op)
    (hbal : op.upper.list.length = op.lower.list.length) (hkind : ∀ x ∈ ts, ∀ y ∈ ts, x.name = y.name → x.cls = y.cls)
    (calls : List TermCall)
    (hc : ∀ k ≤ calls.length, c * factorOf (calls.take k) = 0 ∨ 1 / 10 ^ 15 ≤ |c * factorOf (calls.take k)|)
    (orb : Orbitals O) (I : Interp O R M) (hanti : ∀ ra, TermCall.canonicalizeSimple ra ∈ calls → I.Antisymmetric)
    (hI : ∀ ra h, TermCall.canonicalize ra h ∈ calls → I.SlotSymmetric op.upper.ty.isAntisym h)
    (hph : I.Physical orb) (hac : I.ActiveCumulants orb) (hna : I.NoActiveAmplitudes orb) :
    I.value orb (runCalls canon ord t calls).1.coeff (runCalls canon ord t calls).1.tensors (runCalls canon ord t calls).1.sqOp =
        I.value orb (c * factorOf calls) ts op ∧
      ∀ (n : Nat) r, (runCalls canon ord t calls).2[n]? = some (.ok (some r)) →
        I.value orb r.coeff r.tensors r.sqOp = I.value orb (c * factorOf (calls.take n)) ts op := by
  have hsane := Sane.of_make ht hp
  obtain ⟨-, -, -, rfl⟩ := Term.make_ok.1 ht
  have hperm := sortTensors_perm ts
  obtain ⟨h1, h2⟩ := runCalls_value hcanon hord (ty := op.upper.ty) I orb hph hac hna calls _ hsane
    ⟨hbal, rfl, fun x hx y hy _ _ => hkind x (hperm.mem_iff.1 hx) y (hperm.mem_iff.1 hy)⟩ hc hanti hI
  have hv : ∀ a, I.value orb a (sortTensors ts) op = I.value orb a ts op := fun a => I.value_perm orb a hperm op
  exact ⟨h1.trans (hv _), fun n r hr => (h2 n r hr).trans (hv _)⟩

/-- A program that builds a term with coefficient 1 and calls it; whether the object afterwards and the outcomes look as given. -/
def looksAs (ts : List Tensor) (op : SqOp) (calls : List TermCall) (obj : ℚ × List Tensor × SqOp)
    (out : List (PyErr ⊕ Option (ℚ × List Tensor × SqOp))) : Bool :=
  match Term.make ts op 1 with
  | .error _ => false
  | .ok t =>
    let r := runCalls (fun g _ _ => some g) SetOrder.sorted t calls
    decide ((r.1.coeff, r.1.tensors, r.1.sqOp) = obj) && decide (r.2.map outcome = out)

theorem of_looksAs {ts : List Tensor} {op : SqOp} {calls : List TermCall} {obj : ℚ × List Tensor × SqOp}
    {out : List (PyErr ⊕ Option (ℚ × List Tensor × SqOp))} (h : looksAs ts op calls obj out = true) :
    ∃ t, Term.make ts op 1 = .ok t ∧
      ((runCalls (fun g _ _ => some g) SetOrder.sorted t calls).1.coeff, (runCalls (fun g _ _ => some g) SetOrder.sorted t calls).1.tensors,
        (runCalls (fun g _ _ => some g) SetOrder.sorted t calls).1.sqOp) = obj ∧
      (runCalls (fun g _ _ => some g) SetOrder.sorted t calls).2.map outcome = out := by
  unfold looksAs at h
  cases ht : Term.make ts op 1 with
  | error e => rw [ht] at h; simp at h
  | ok t =>
    rw [ht] at h
    simp only [Bool.and_eq_true, decide_eq_true_eq] at h
    exact ⟨t, rfl, h.1, h.2⟩

/-- A term that was found to vanish cannot be used again: the first call returns the empty term, the second raises. -/
theorem C96_violation_void (canon : List Nat → List (Nat × Nat) → List SlotGroup → Option (List Nat)) : ∃ ts op t, Paired ts op ∧
    Term.make ts op 1 = .ok t ∧ (runCalls canon SetOrder.sorted t [.canonicalizeSimple true, .canonicalizeSimple true]).2.map outcome =
      [.inr (some (0, [], soOp [] [])), .inl .valueError] := by
  obtain ⟨t, h1, -, h2⟩ := of_looksAs (ts := [soTensor .cluster 'T' 1 [lab .a 0] [lab .a 1]]) (op := soOp [lab .a 1] [lab .a 0])
    (calls := [.canonicalizeSimple true, .canonicalizeSimple true])
    (obj := (0, [], soOp [] [])) (out := [.inr (some (0, [], soOp [] [])), .inl .valueError]) (by decide +kernel)
  exact ⟨_, _, t, ⟨by decide, by decide, by decide⟩, h1, h2⟩

/-- Densities that share a label: the second call returns another term than the first.  In `L^{g0}_{g1} L^{g2,g3}_{g1,g4} H^{g4}_{g0} a^{g3}_{g2}`
the label `g0` becomes a hole label in the first call, and an active label in the second. -/
theorem C96_violation_shared (canon : List Nat → List (Nat × Nat) → List SlotGroup → Option (List Nat)) : ∃ ts op t r r', Term.make ts op 1 = .ok t ∧
    (runCalls canon SetOrder.sorted t [.canonicalizeSimple true, .canonicalizeSimple true]).2.map outcome = [.inr (some r), .inr (some r')] ∧ r ≠ r' := by
  obtain ⟨t, h1, -, h2⟩ := of_looksAs (ts := [soTensor .cumulant 'L' 1 [lab .g 0] [lab .g 1], soTensor .cumulant 'L' 1 [lab .g 2, lab .g 3] [lab .g 1, lab .g 4],
      soTensor .hamiltonian 'H' 1 [lab .g 4] [lab .g 0]]) (op := soOp [lab .g 3] [lab .g 2])
    (calls := [.canonicalizeSimple true, .canonicalizeSimple true])
    (obj := (1, [soTensor .hamiltonian 'H' 1 [lab .a 9] [lab .a 4], soTensor .cumulant 'L' 1 [lab .a 4] [lab .a 8],
      soTensor .cumulant 'L' 1 [lab .a 6, lab .a 7] [lab .a 8, lab .a 9]], soOp [lab .a 7] [lab .a 6]))
    (out := [.inr (some (1, [soTensor .hamiltonian 'H' 1 [lab .a 2] [lab .h 0], soTensor .cumulant 'L' 1 [lab .h 0] [lab .a 3],
        soTensor .cumulant 'L' 1 [lab .a 0, lab .a 1] [lab .a 2, lab .a 3]], soOp [lab .a 0] [lab .a 1])),
      .inr (some (1, [soTensor .hamiltonian 'H' 1 [lab .a 2] [lab .a 3], soTensor .cumulant 'L' 1 [lab .a 3] [lab .a 4],
        soTensor .cumulant 'L' 1 [lab .a 0, lab .a 1] [lab .a 2, lab .a 4]], soOp [lab .a 0] [lab .a 1]))]) (by decide +kernel)
  exact ⟨_, _, t, _, _, h1, h2, by decide +kernel⟩

/-- The hypotheses are met by `H^{g0}_{g1} L^{g1}_{g2} H^{g2}_{g3} a^{g3}_{g0}` and a history with all four kinds of calls. -/
theorem C96_example : ∃ (ts : List Tensor) (op : SqOp) (t s : Term) (calls : List TermCall), Term.make ts op 1 = .ok t ∧ Paired ts op ∧
    (TermCall.simplify true).run plainCanon SetOrder.sorted t = (s, .ok none) ∧ s.tensors ≠ [] ∧ CanonContract plainCanon ∧ SetOrder.sorted.Lawful ∧
    op.upper.list.length = op.lower.list.length ∧ (∀ x ∈ ts, ∀ y ∈ ts, x.name = y.name → x.cls = y.cls) ∧
    calls = [.simplify true, .canonicalizeSimple true, .scale 3, .canonicalize true true, .simplify false] ∧
    (∀ k ≤ calls.length, (1 : ℚ) * factorOf (calls.take k) = 0 ∨ 1 / 10 ^ 15 ≤ |(1 : ℚ) * factorOf (calls.take k)|) ∧
    spinToy.Antisymmetric ∧ spinToy.SlotSymmetric op.upper.ty.isAntisym true ∧ spinToy.Physical alphaBeta ∧ spinToy.ActiveCumulants alphaBeta ∧
    spinToy.NoActiveAmplitudes alphaBeta ∧ spinToy.value alphaBeta (1 * factorOf calls) ts op ≠ 0 := by
  obtain ⟨t, h1, h2, h3⟩ := of_looksAs (ts := [soTensor .hamiltonian 'H' 1 [lab .g 0] [lab .g 1], soTensor .cumulant 'L' 1 [lab .g 1] [lab .g 2],
      soTensor .hamiltonian 'H' 1 [lab .g 2] [lab .g 3]]) (op := soOp [lab .g 3] [lab .g 0]) (calls := [.simplify true])
    (obj := (1, [soTensor .hamiltonian 'H' 1 [lab .g 0] [lab .h 0], soTensor .hamiltonian 'H' 1 [lab .h 1] [lab .g 3],
      soTensor .cumulant 'L' 1 [lab .h 0] [lab .h 1]], soOp [lab .g 3] [lab .g 0])) (out := [.inr none]) (by decide +kernel)
  obtain ⟨g1, g2, -, g3, g4, g5⟩ := spinToy_good
  refine ⟨_, _, t, ((TermCall.simplify true).run plainCanon SetOrder.sorted t).1, _, h1, ⟨by decide, by decide, by decide⟩, ?_, ?_, plainCanon_contract,
    SetOrder.sorted_lawful, rfl, by decide, rfl, ?_, g1, ⟨fun _ => g1, fun h => (by cases h), fun _ => g2⟩, g3, g4, g5, by decide +kernel⟩
  · refine Prod.ext rfl ?_
    simp only [runCalls, TermCall.run, List.map_cons, List.map_nil, List.cons.injEq, and_true] at h3
    simp only [TermCall.run]
    cases h4 : (t.simplifyObj SetOrder.sorted true true).2 with
    | error e => rw [h4] at h3; cases h3
    | ok u => rfl
  · have : ((TermCall.simplify true).run plainCanon SetOrder.sorted t).1.tensors = _ := congrArg (fun q => q.2.1) h2
    rw [this]; simp
  · intro k hk
    have : k = 0 ∨ k = 1 ∨ k = 2 ∨ k = 3 ∨ k = 4 ∨ k = 5 := by
      simp only [List.length_cons, List.length_nil] at hk; omega
    rcases this with rfl | rfl | rfl | rfl | rfl | rfl <;> right <;> norm_num [factorOf, TermCall.factor]

/-! ### C97 A call that raises leaves the value of the term unchanged -/

/-- Whatever was done with a term before: if a call raises, the object still has the value that it had before the call. -/
theorem C97_raise_partial (canon : List Nat → List (Nat × Nat) → List SlotGroup → Option (List Nat)) (ord : SetOrder) (hord : ord.Lawful)
    (ts : List Tensor) (op : SqOp) (c : ℚ) (t cur s : Term) (ht : Term.make ts op c = .ok t) (hp : Paired ts op)
    (calls : List TermCall) (outs : List (Except PyErr (Option Term))) (hcur : runCalls canon ord t calls = (cur, outs))
    (call : TermCall) (e : PyErr) (hs : call.run canon ord cur = (s, .error e))
    (orb : Orbitals O) (I : Interp O R M) (hph : I.Physical orb) (hac : I.ActiveCumulants orb) (hna : I.NoActiveAmplitudes orb) :
    I.value orb s.coeff s.tensors s.sqOp = I.value orb cur.coeff cur.tensors cur.sqOp := by
  have hsane : Sane cur := by
    have := Sane.runCalls (canon := canon) hord calls (Sane.of_make ht hp)
    rwa [hcur] at this
  have hs1 : (call.run canon ord cur).1 = s := by rw [hs]
  cases call with
  | simplify ra => rw [← hs1]; exact simplifyObj_value hord hsane ra I orb hph hac hna
  | canonicalizeSimple ra => rw [← hs1]; exact simplifyObj_value hord hsane ra I orb hph hac hna
  | canonicalize ra h =>
    rw [← hs1]
    simp only [TermCall.run]
    split_ifs
    · rfl
    · exact simplifyObj_value hord hsane ra I orb hph hac hna
  | scale k => simp [TermCall.run] at hs

/-- More precisely, if `simplify` raises then coefficient and operator are as before, and at most some one-body densities with a core
label have become deltas. -/
theorem C97_state_partial (canon : List Nat → List (Nat × Nat) → List SlotGroup → Option (List Nat)) (ord : SetOrder) (hord : ord.Lawful)
    (ts : List Tensor) (op : SqOp) (c : ℚ) (t cur s : Term) (ht : Term.make ts op c = .ok t) (hp : Paired ts op)
    (calls : List TermCall) (outs : List (Except PyErr (Option Term))) (hcur : runCalls canon ord t calls = (cur, outs))
    (ra : Bool) (e : PyErr) (hs : (TermCall.simplify ra).run canon ord cur = (s, .error e)) :
    s.coeff = cur.coeff ∧ s.sqOp.upper = cur.sqOp.upper ∧ s.sqOp.lower.list = cur.sqOp.lower.list ∧ List.Forall₂ Cored cur.tensors s.tensors := by
  have hsane : Sane cur := by
    have := Sane.runCalls (canon := canon) hord calls (Sane.of_make ht hp)
    rwa [hcur] at this
  simp only [TermCall.run, Prod.mk.injEq] at hs
  obtain ⟨h1, h2⟩ := hs
  rcases h3 : cur.simplifyObj ord true ra with ⟨s', e' | u⟩
  · rw [h3] at h1
    obtain rfl : s' = s := h1
    obtain ⟨m1, m2, m3, m4, -⟩ := hsane.raise hord h3
    exact ⟨m4, m2, m3, m1⟩
  · rw [h3] at h2; cases h2

/-- If a density shares a label with the operator the value can change: `simplify` raises on `H^{g2,g3}_{g4,g5} K^{g2}_{g3} L^{g6}_{g7}
a^{g4,g7}_{g5,g6}` when it relabels the tensors, but has relabelled the operator before. -/
theorem C97_violation_shared (canon : List Nat → List (Nat × Nat) → List SlotGroup → Option (List Nat)) : ∃ ts op t s e, Term.make ts op 1 = .ok t ∧
    (TermCall.simplify true).run canon SetOrder.sorted t = (s, .error e) ∧ (toy coreActive).Physical coreActive ∧
    (toy coreActive).ActiveCumulants coreActive ∧ (toy coreActive).NoActiveAmplitudes coreActive ∧
    (toy coreActive).value coreActive s.coeff s.tensors s.sqOp ≠ (toy coreActive).value coreActive 1 ts op := by
  obtain ⟨t, h1, h2, h3⟩ := of_looksAs (ts := [soTensor .hamiltonian 'H' 1 [lab .g 2, lab .g 3] [lab .g 4, lab .g 5],
      soTensor .kronecker 'K' 1 [lab .g 2] [lab .g 3], soTensor .cumulant 'L' 1 [lab .g 6] [lab .g 7]]) (op := soOp [lab .g 4, lab .g 7] [lab .g 5, lab .g 6])
    (calls := [.simplify true])
    (obj := (1, [soTensor .hamiltonian 'H' 1 [lab .g 2, lab .g 3] [lab .g 4, lab .g 5],
      soTensor .kronecker 'K' 1 [lab .g 2] [lab .g 3], soTensor .cumulant 'L' 1 [lab .g 6] [lab .g 7]], soOp [lab .g 4, lab .h 1] [lab .g 5, lab .h 0]))
    (out := [.inl .valueError]) (by decide +kernel)
  refine ⟨_, _, t, ((TermCall.simplify true).run canon SetOrder.sorted t).1, .valueError, h1, Prod.ext rfl ?_, toy_physical _ (by decide) (by decide),
    toy_activeCumulants _, toy_noActiveAmplitudes _, ?_⟩
  · simp only [runCalls, TermCall.run, List.map_cons, List.map_nil, List.cons.injEq, and_true] at h3
    simp only [TermCall.run]
    cases h4 : (t.simplifyObj SetOrder.sorted true true).2 with
    | error e => rw [h4] at h3; simp only [Except.map, outcome, Sum.inl.injEq] at h3; rw [h3]; rfl
    | ok u => rw [h4] at h3; cases h3
  · have e1 : ((TermCall.simplify true).run canon SetOrder.sorted t).1.coeff = _ := congrArg (fun q => q.1) h2
    have e2 : ((TermCall.simplify true).run canon SetOrder.sorted t).1.tensors = _ := congrArg (fun q => q.2.1) h2
    have e3 : ((TermCall.simplify true).run canon SetOrder.sorted t).1.sqOp = _ := congrArg (fun q => q.2.2) h2
    rw [e1, e2, e3]
    decide +kernel

/-- A raising call on a term that meets the hypotheses: `H^{g2,g3}_{g4,g5} K^{g2}_{g3} L^{c0}_{g6} H^{g6}_{c0} a^{g4}_{g5}`, where the
density is left as a delta. -/
theorem C97_example : ∃ ts op t s e x y, Term.make ts op 1 = .ok t ∧ Paired ts op ∧
    (TermCall.simplify true).run plainCanon SetOrder.sorted t = (s, .error e) ∧ x ∈ t.tensors ∧ x.cls = .cumulant ∧ y ∈ s.tensors ∧ y.cls = .kronecker ∧
    y.pair = x.pair ∧ (toy coreActive).value coreActive 1 ts op ≠ 0 := by
  obtain ⟨t, h1, h2, h3⟩ := of_looksAs (ts := [soTensor .hamiltonian 'H' 1 [lab .g 2, lab .g 3] [lab .g 4, lab .g 5],
      soTensor .kronecker 'K' 1 [lab .g 2] [lab .g 3], soTensor .cumulant 'L' 1 [lab .c 0] [lab .g 6], soTensor .hamiltonian 'H' 1 [lab .g 6] [lab .c 0]])
    (op := soOp [lab .g 4] [lab .g 5]) (calls := [.simplify true])
    (obj := (1, [soTensor .hamiltonian 'H' 1 [lab .g 6] [lab .c 0], soTensor .hamiltonian 'H' 1 [lab .g 2, lab .g 3] [lab .g 4, lab .g 5],
      soTensor .kronecker 'K' 1 [lab .g 2] [lab .g 3], soTensor .kronecker 'K' (-1) [lab .c 0] [lab .g 6]], soOp [lab .g 4] [lab .g 5]))
    (out := [.inl .valueError]) (by decide +kernel)
  have hts : t.tensors.Perm _ := (C37_content _ _ _ _ h1).2.2.1
  refine ⟨_, _, t, ((TermCall.simplify true).run plainCanon SetOrder.sorted t).1, .valueError,
    soTensor .cumulant 'L' 1 [lab .c 0] [lab .g 6], soTensor .kronecker 'K' (-1) [lab .c 0] [lab .g 6], h1,
    ⟨by decide, by decide, by decide⟩, Prod.ext rfl ?_, hts.mem_iff.2 (by simp), rfl, ?_, rfl, rfl, by decide +kernel⟩
  · simp only [runCalls, TermCall.run, List.map_cons, List.map_nil, List.cons.injEq, and_true] at h3
    simp only [TermCall.run]
    cases h4 : (t.simplifyObj SetOrder.sorted true true).2 with
    | error e => rw [h4] at h3; simp only [Except.map, outcome, Sum.inl.injEq] at h3; rw [h3]; rfl
    | ok u => rw [h4] at h3; cases h3
  · have e2 : ((TermCall.simplify true).run plainCanon SetOrder.sorted t).1.tensors = _ := congrArg (fun q => q.2.1) h2
    rw [e2]; simp

end Dsrg
